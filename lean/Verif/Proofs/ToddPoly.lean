import Verif.Proofs.ParityNet
import Mathlib.Tactic.Ring
import Mathlib.Tactic.LinearCombination

/-!
# Phase polynomials: parities and the multilinear form
-/

namespace PyZX
namespace Todd

open Mat2

/-- A bit as a multiple of the phase `π/4`. -/
def b8 (b : Bool) : ZMod 8 := if b then 1 else 0

theorem b8_xor (a b : Bool) : b8 (xor a b) = b8 a + b8 b - 2 * (b8 a * b8 b) := by revert a b; decide

theorem eight (x : ZMod 8) : 8 * x = 0 := by revert x; decide

/-- The parity of the bits at the positions in a list. -/
def parL (x : ℕ → Bool) : List ℕ → Bool
  | [] => false
  | v :: l => xor (x v) (parL x l)

/-- Elementary symmetric polynomials of the bits at the positions in a list. -/
def e1 (x : ℕ → Bool) : List ℕ → ZMod 8
  | [] => 0
  | v :: l => b8 (x v) + e1 x l

def e2 (x : ℕ → Bool) : List ℕ → ZMod 8
  | [] => 0
  | v :: l => b8 (x v) * e1 x l + e2 x l

def e3 (x : ℕ → Bool) : List ℕ → ZMod 8
  | [] => 0
  | v :: l => b8 (x v) * e2 x l + e3 x l

theorem parL_eq (x : ℕ → Bool) : ∀ l, b8 (parL x l) = e1 x l - 2 * e2 x l + 4 * e3 x l
  | [] => by simp [parL, e1, e2, e3, b8]
  | v :: l => by
    rw [parL, b8_xor, parL_eq x l, e1, e2, e3]
    linear_combination -eight (b8 (x v) * e3 x l)

/-- The value of a multilinear polynomial. -/
def MLP.evalL (x : ℕ → Bool) (s : MLP) : ZMod 8 := (s.l.map fun e => (e.2 : ZMod 8) * b8 (x e.1)).sum
def MLP.evalQ (x : ℕ → Bool) (s : MLP) : ZMod 8 := (s.q.map fun e => (e.2 : ZMod 8) * (b8 (x e.1.1) * b8 (x e.1.2))).sum
def MLP.evalC (x : ℕ → Bool) (s : MLP) : ZMod 8 := (s.c.map fun e => b8 (x e.1) * (b8 (x e.2.1) * b8 (x e.2.2))).sum
def MLP.eval (x : ℕ → Bool) (s : MLP) : ZMod 8 := s.evalL x + 2 * s.evalQ x + 4 * s.evalC x

/-- Sum over the entries of a dictionary, whose keys are different, after a change of one entry. -/
theorem bump_sum {κ R : Type} [DecidableEq κ] [CommRing R] (f : κ → R) (cst : ℤ → R) {d : List (κ × ℤ)} (hd : (d.map Prod.fst).Nodup) {k : κ} {first delta m : ℤ}
    (h1 : cst first * f k = cst delta * f k) (h2 : ∀ a, cst ((a + delta) % m) * f k = cst a * f k + cst delta * f k) :
    ((bump d k first delta m).map fun e => cst e.2 * f e.1).sum = (d.map fun e => cst e.2 * f e.1).sum + cst delta * f k := by
  unfold bump
  by_cases hk : k ∈ d.map Prod.fst
  · rw [if_pos hk]
    induction d with
    | nil => simp at hk
    | cons e d ih =>
      rw [List.map_cons, List.nodup_cons] at hd
      rw [List.map_cons, List.map_cons, List.map_cons, List.sum_cons, List.sum_cons]
      by_cases he : e.1 = k
      · have hn : k ∉ d.map Prod.fst := he ▸ hd.1
        have : d.map (fun e => if e.1 = k then (k, (e.2 + delta) % m) else e) = d := by
          conv_rhs => rw [← List.map_id d]
          refine List.map_congr_left fun e' he' => ?_
          rw [if_neg (fun h => hn (List.mem_map.mpr ⟨e', he', h⟩))]; rfl
        rw [if_pos he, this, he]
        simp only [h2]
        ring
      · rw [if_neg he, ih hd.2 (by
          rcases List.mem_cons.mp hk with h | h
          · exact absurd h.symm he
          · exact h)]
        ring
  · rw [if_neg hk]
    simp [h1]

theorem bump_keys {κ : Type} [DecidableEq κ] {d : List (κ × ℤ)} {k : κ} {first delta m : ℤ} (hd : (d.map Prod.fst).Nodup) :
    ((bump d k first delta m).map Prod.fst).Nodup := by
  unfold bump
  by_cases hk : k ∈ d.map Prod.fst
  · rw [if_pos hk, List.map_map]
    have : d.map (Prod.fst ∘ fun e => if e.1 = k then (k, (e.2 + delta) % m) else e) = d.map Prod.fst := by
      refine List.map_congr_left fun e _ => ?_
      by_cases he : e.1 = k
      · simp [he]
      · simp [he]
    rw [this]; exact hd
  · rw [if_neg hk, List.map_append]
    refine List.Nodup.append hd (by simp) ?_
    intro a ha hb
    simp at hb
    exact hk (hb ▸ ha)

/-- The keys are different. -/
structure MLP.OK (s : MLP) : Prop where
  l : (s.l.map Prod.fst).Nodup
  q : (s.q.map Prod.fst).Nodup
  c : s.c.Nodup

def toggle (t : ℕ × ℕ × ℕ) (c : List (ℕ × ℕ × ℕ)) : List (ℕ × ℕ × ℕ) := if t ∈ c then c.erase t else c ++ [t]

theorem addC_nil (v1 v2 : ℕ) (s : MLP) : addC v1 v2 [] s = s := rfl
theorem addC_cons (v1 v2 v3 : ℕ) (p : List ℕ) (s : MLP) : addC v1 v2 (v3 :: p) s = addC v1 v2 p { s with c := toggle (v1, v2, v3) s.c } := rfl

theorem toggle_sum {R : Type} [CommRing R] (f : ℕ × ℕ × ℕ → R) (a : R) (ha : a + a = 0) (t : ℕ × ℕ × ℕ) (c : List (ℕ × ℕ × ℕ)) :
    a * ((toggle t c).map f).sum = a * (c.map f).sum + a * f t := by
  unfold toggle
  by_cases h : t ∈ c
  · rw [if_pos h]
    have := (List.perm_cons_erase h).map f
    rw [this.sum_eq, List.map_cons, List.sum_cons]
    linear_combination (-(f t)) * ha
  · rw [if_neg h]
    simp [mul_add]

theorem toggle_nodup {t : ℕ × ℕ × ℕ} {c : List (ℕ × ℕ × ℕ)} (h : c.Nodup) : (toggle t c).Nodup := by
  unfold toggle
  by_cases ht : t ∈ c
  · rw [if_pos ht]; exact h.erase t
  · rw [if_neg ht]
    refine h.append (by simp) ?_
    intro a ha hb
    simp at hb
    exact ht (hb ▸ ha)

theorem addC_OK (v1 v2 : ℕ) : ∀ (p : List ℕ) {s : MLP}, s.OK → (addC v1 v2 p s).OK
  | [], _, h => h
  | v3 :: p, s, h => by
    rw [addC_cons]
    exact addC_OK v1 v2 p ⟨h.l, h.q, toggle_nodup h.c⟩

theorem addQ_OK (sub : Bool) (v1 : ℕ) : ∀ (p : List ℕ) {s : MLP}, s.OK → (addQ sub v1 p s).OK
  | [], _, h => h
  | v2 :: p, s, h => by
    rw [addQ]
    exact addQ_OK sub v1 p (addC_OK v1 v2 p ⟨h.l, bump_keys h.q, h.c⟩)

theorem addL_OK (sub : Bool) : ∀ (p : List ℕ) {s : MLP}, s.OK → (addL sub p s).OK
  | [], _, h => h
  | v1 :: p, s, h => by
    rw [addL]
    exact addL_OK sub p (addQ_OK sub v1 p ⟨bump_keys h.l, h.q, h.c⟩)

/-! ### The value -/

theorem addC_eval (x : ℕ → Bool) (v1 v2 : ℕ) : ∀ (p : List ℕ) (s : MLP), (addC v1 v2 p s).eval x = s.eval x + 4 * (b8 (x v1) * (b8 (x v2) * e1 x p))
  | [], s => by rw [addC_nil, e1]; ring
  | v3 :: p, s => by
    rw [addC_cons, addC_eval x v1 v2 p, e1]
    have := toggle_sum (fun e : ℕ × ℕ × ℕ => b8 (x e.1) * (b8 (x e.2.1) * b8 (x e.2.2))) (4 : ZMod 8) (by decide) (v1, v2, v3) s.c
    simp only [MLP.eval, MLP.evalL, MLP.evalQ, MLP.evalC] at this ⊢
    rw [this]
    ring

theorem cast_mod8 (a : ℤ) : ((a % 8 : ℤ) : ZMod 8) = a := by
  rw [ZMod.intCast_eq_intCast_iff]; exact Int.mod_modEq a 8

theorem cast_mod4 (a : ℤ) : 2 * ((a % 4 : ℤ) : ZMod 8) = 2 * a := by
  have h : (a : ℤ) = a % 4 + 4 * (a / 4) := (Int.emod_add_mul_ediv a 4).symm
  conv_rhs => rw [h]
  push_cast
  linear_combination -eight ((a / 4 : ℤ) : ZMod 8)

theorem addQ_eval (x : ℕ → Bool) (sub : Bool) (v1 : ℕ) : ∀ (p : List ℕ) {s : MLP}, s.OK →
    (addQ sub v1 p s).eval x = s.eval x + b8 (x v1) * (-2 * mult sub * e1 x p + 4 * e2 x p)
  | [], s, _ => by rw [addQ, e1, e2]; ring
  | v2 :: p, s, h => by
    have h' : MLP.OK { s with q := bump s.q (v1, v2) (if sub then 1 else 3) (-mult sub) 4 } := ⟨h.l, bump_keys h.q, h.c⟩
    rw [addQ, addQ_eval x sub v1 p (addC_OK v1 v2 p h'), addC_eval, e1, e2]
    have hq := bump_sum (R := ZMod 8) (fun k : ℕ × ℕ => b8 (x k.1) * b8 (x k.2)) (fun a => 2 * (a : ZMod 8)) h.q (k := (v1, v2)) (first := if sub then 1 else 3) (delta := -mult sub) (m := 4)
      (by cases sub <;> simp only [mult] <;> push_cast <;> congr 1) (by
        intro a
        simp only [cast_mod4]
        push_cast
        ring)
    have ev : ∀ q : List ((ℕ × ℕ) × ℤ), (q.map fun e => 2 * (e.2 : ZMod 8) * (b8 (x e.1.1) * b8 (x e.1.2))).sum = 2 * (q.map fun e => (e.2 : ZMod 8) * (b8 (x e.1.1) * b8 (x e.1.2))).sum := by
      intro q
      rw [← List.sum_map_mul_left]
      congr 1
      exact List.map_congr_left fun e _ => by ring
    simp only [ev] at hq
    simp only [MLP.eval, MLP.evalL, MLP.evalQ, MLP.evalC]
    rw [hq]
    push_cast
    ring

theorem mult_sq (sub : Bool) : (4 : ZMod 8) * ((mult sub : ℤ) : ZMod 8) = 4 := by cases sub <;> rfl

theorem addL_eval (x : ℕ → Bool) (sub : Bool) : ∀ (p : List ℕ) {s : MLP}, s.OK → (addL sub p s).eval x = s.eval x + mult sub * b8 (parL x p)
  | [], s, _ => by rw [addL, parL]; simp [b8]
  | v1 :: p, s, h => by
    have h' : MLP.OK { s with l := bump s.l v1 (mult sub) (mult sub) 8 } := ⟨bump_keys h.l, h.q, h.c⟩
    rw [addL, addL_eval x sub p (addQ_OK sub v1 p h'), addQ_eval x sub v1 p h', parL_eq, parL_eq, e1, e2, e3]
    have hl := bump_sum (R := ZMod 8) (fun k : ℕ => b8 (x k)) (fun a => (a : ZMod 8)) h.l (k := v1) (first := mult sub) (delta := mult sub) (m := 8) rfl (by
        intro a
        simp only [cast_mod8]
        push_cast
        ring)
    simp only [MLP.eval, MLP.evalL, MLP.evalQ, MLP.evalC]
    rw [hl]
    linear_combination (-(b8 (x v1) * e2 x p)) * mult_sq sub

/-! ### The parities of the coefficients -/

def MLP.sumL (f : ℕ → ZMod 2) (s : MLP) : ZMod 2 := (s.l.map fun e => (e.2 : ZMod 2) * f e.1).sum
def MLP.sumQ (f : ℕ × ℕ → ZMod 2) (s : MLP) : ZMod 2 := (s.q.map fun e => (e.2 : ZMod 2) * f e.1).sum
def MLP.sumC (f : ℕ × ℕ × ℕ → ZMod 2) (s : MLP) : ZMod 2 := (s.c.map f).sum

def pairs1 (f : ℕ → ZMod 2) (l : List ℕ) : ZMod 2 := (l.map f).sum
def pairs2 (f : ℕ × ℕ → ZMod 2) : List ℕ → ZMod 2
  | [] => 0
  | v :: l => pairs1 (fun w => f (v, w)) l + pairs2 f l
def pairs3 (f : ℕ × ℕ × ℕ → ZMod 2) : List ℕ → ZMod 2
  | [] => 0
  | v :: l => pairs2 (fun w => f (v, w)) l + pairs3 f l

theorem addC_sums (fl : ℕ → ZMod 2) (fq : ℕ × ℕ → ZMod 2) (fc : ℕ × ℕ × ℕ → ZMod 2) (v1 v2 : ℕ) : ∀ (p : List ℕ) (s : MLP),
    (addC v1 v2 p s).sumL fl = s.sumL fl ∧ (addC v1 v2 p s).sumQ fq = s.sumQ fq ∧ (addC v1 v2 p s).sumC fc = s.sumC fc + pairs1 (fun w => fc (v1, v2, w)) p
  | [], s => by simp [addC_nil, pairs1]
  | v3 :: p, s => by
    rw [addC_cons]
    obtain ⟨h1, h2, h3⟩ := addC_sums fl fq fc v1 v2 p { s with c := toggle (v1, v2, v3) s.c }
    refine ⟨h1, h2, h3.trans ?_⟩
    have := toggle_sum fc (1 : ZMod 2) (by decide) (v1, v2, v3) s.c
    simp only [one_mul] at this
    simp only [MLP.sumC, this, pairs1, List.map_cons, List.sum_cons]
    ring

theorem cast_mod_even (a m : ℤ) (hm : (m : ZMod 2) = 0) : ((a % m : ℤ) : ZMod 2) = a := by
  have h : (a : ℤ) = a % m + m * (a / m) := (Int.emod_add_mul_ediv a m).symm
  conv_rhs => rw [h]
  push_cast
  rw [hm]; ring

theorem addQ_sums (fl : ℕ → ZMod 2) (fq : ℕ × ℕ → ZMod 2) (fc : ℕ × ℕ × ℕ → ZMod 2) (sub : Bool) (v1 : ℕ) : ∀ (p : List ℕ) {s : MLP}, s.OK →
    (addQ sub v1 p s).sumL fl = s.sumL fl ∧ (addQ sub v1 p s).sumQ fq = s.sumQ fq + pairs1 (fun w => fq (v1, w)) p ∧
      (addQ sub v1 p s).sumC fc = s.sumC fc + pairs2 (fun w => fc (v1, w)) p
  | [], s, _ => by simp [addQ, pairs1, pairs2]
  | v2 :: p, s, h => by
    have h' : MLP.OK { s with q := bump s.q (v1, v2) (if sub then 1 else 3) (-mult sub) 4 } := ⟨h.l, bump_keys h.q, h.c⟩
    rw [addQ]
    obtain ⟨a1, a2, a3⟩ := addQ_sums fl fq fc sub v1 p (addC_OK v1 v2 p h')
    obtain ⟨b1, b2, b3⟩ := addC_sums fl fq fc v1 v2 p { s with q := bump s.q (v1, v2) (if sub then 1 else 3) (-mult sub) 4 }
    have one : (((-mult sub : ℤ)) : ZMod 2) = 1 := by cases sub <;> rfl
    have hq := bump_sum (R := ZMod 2) fq (fun a => (a : ZMod 2)) h.q (k := (v1, v2)) (first := if sub then 1 else 3) (delta := -mult sub) (m := 4)
      (by cases sub <;> rfl) (by
        intro a
        rw [cast_mod_even _ _ (by decide)]
        push_cast
        ring)
    refine ⟨a1.trans b1, a2.trans ?_, a3.trans ?_⟩
    · rw [b2]
      simp only [MLP.sumQ, pairs1, List.map_cons, List.sum_cons]
      rw [hq, one]
      ring
    · rw [b3]
      simp only [MLP.sumC, pairs2]
      ring

theorem addL_sums (fl : ℕ → ZMod 2) (fq : ℕ × ℕ → ZMod 2) (fc : ℕ × ℕ × ℕ → ZMod 2) (sub : Bool) : ∀ (p : List ℕ) {s : MLP}, s.OK →
    (addL sub p s).sumL fl = s.sumL fl + pairs1 fl p ∧ (addL sub p s).sumQ fq = s.sumQ fq + pairs2 fq p ∧ (addL sub p s).sumC fc = s.sumC fc + pairs3 fc p
  | [], s, _ => by simp [addL, pairs1, pairs2, pairs3]
  | v1 :: p, s, h => by
    have h' : MLP.OK { s with l := bump s.l v1 (mult sub) (mult sub) 8 } := ⟨bump_keys h.l, h.q, h.c⟩
    rw [addL]
    obtain ⟨a1, a2, a3⟩ := addL_sums fl fq fc sub p (addQ_OK sub v1 p h')
    obtain ⟨b1, b2, b3⟩ := addQ_sums fl fq fc sub v1 p h'
    have one : ((mult sub : ℤ) : ZMod 2) = 1 := by cases sub <;> rfl
    have hl := bump_sum (R := ZMod 2) fl (fun a => (a : ZMod 2)) h.l (k := v1) (first := mult sub) (delta := mult sub) (m := 8) rfl (by
        intro a
        rw [cast_mod_even _ _ (by decide)]
        push_cast
        ring)
    refine ⟨a1.trans ?_, a2.trans ?_, a3.trans ?_⟩
    · rw [b1]
      simp only [MLP.sumL, pairs1, List.map_cons, List.sum_cons]
      rw [hl, one]
      ring
    · rw [b2]
      simp only [MLP.sumQ, pairs2]
      ring
    · rw [b3]
      simp only [MLP.sumC, pairs3]
      ring

/-! ### Counting in increasing lists -/

def ind {α : Type} [DecidableEq α] (a : α) : α → ZMod 2 := fun b => if b = a then 1 else 0

theorem pairs1_ind {u : ℕ} : ∀ {l : List ℕ}, l.Pairwise (· < ·) → pairs1 (ind u) l = if u ∈ l then 1 else 0
  | [], _ => by simp [pairs1]
  | a :: l, h => by
    obtain ⟨h1, h2⟩ := List.pairwise_cons.mp h
    have := pairs1_ind (u := u) h2
    simp only [pairs1, List.map_cons, List.sum_cons] at this ⊢
    rw [this]
    by_cases hu : a = u
    · subst hu
      have : a ∉ l := fun hm => lt_irrefl _ (h1 a hm)
      simp [ind, this]
    · have hu' : u ≠ a := fun e => hu e.symm
      simp [ind, hu, hu']

theorem pairs1_zero (l : List ℕ) : pairs1 (fun _ => 0) l = 0 := by simp [pairs1]

theorem pairs2_zero : ∀ l : List ℕ, pairs2 (fun _ => 0) l = 0
  | [] => rfl
  | a :: l => by rw [pairs2, pairs1_zero, pairs2_zero l]; rfl

theorem pairs2_ind {u v : ℕ} : ∀ {l : List ℕ}, l.Pairwise (· < ·) → pairs2 (ind (u, v)) l = if u < v ∧ u ∈ l ∧ v ∈ l then 1 else 0
  | [], _ => by simp [pairs2]
  | a :: l, h => by
    obtain ⟨h1, h2⟩ := List.pairwise_cons.mp h
    rw [pairs2, pairs2_ind h2]
    by_cases hu : a = u
    · subst hu
      have hn : a ∉ l := fun hm => lt_irrefl _ (h1 a hm)
      have e : (fun w => ind (a, v) (a, w)) = ind v := by funext w; simp [ind]
      rw [e, pairs1_ind h2, if_neg (fun h : a < v ∧ a ∈ l ∧ v ∈ l => hn h.2.1), add_zero]
      by_cases hv : v ∈ l
      · rw [if_pos hv, if_pos ⟨h1 v hv, by simp, by simp [hv]⟩]
      · rw [if_neg hv, if_neg]
        rintro ⟨q1, -, q2⟩
        rcases List.mem_cons.mp q2 with rfl | q2
        · exact lt_irrefl _ q1
        · exact hv q2
    · have e : (fun w => ind (u, v) (a, w)) = fun _ => 0 := by funext w; simp [ind, hu]
      rw [e, pairs1_zero, zero_add]
      congr 1
      simp only [List.mem_cons, eq_iff_iff]
      constructor
      · rintro ⟨q1, q2, q3⟩; exact ⟨q1, Or.inr q2, Or.inr q3⟩
      · rintro ⟨q1, q2, q3⟩
        have q2 : u ∈ l := q2.resolve_left fun e => hu e.symm
        have := h1 u q2
        exact ⟨q1, q2, q3.resolve_left (by omega)⟩

theorem pairs3_ind {u v w : ℕ} : ∀ {l : List ℕ}, l.Pairwise (· < ·) → pairs3 (ind (u, v, w)) l = if u < v ∧ v < w ∧ u ∈ l ∧ v ∈ l ∧ w ∈ l then 1 else 0
  | [], _ => by simp [pairs3]
  | a :: l, h => by
    obtain ⟨h1, h2⟩ := List.pairwise_cons.mp h
    rw [pairs3, pairs3_ind h2]
    by_cases hu : a = u
    · subst hu
      have hn : a ∉ l := fun hm => lt_irrefl _ (h1 a hm)
      have e : (fun t => ind (a, v, w) (a, t)) = ind (v, w) := by funext t; simp [ind]
      rw [e, pairs2_ind h2, if_neg (fun h : a < v ∧ v < w ∧ a ∈ l ∧ v ∈ l ∧ w ∈ l => hn h.2.2.1), add_zero]
      congr 1
      simp only [List.mem_cons, eq_iff_iff]
      constructor
      · rintro ⟨q1, q2, q3⟩; exact ⟨h1 v q2, q1, by simp, Or.inr q2, Or.inr q3⟩
      · rintro ⟨q1, q2, -, q3, q4⟩
        refine ⟨q2, q3.resolve_left (by omega), q4.resolve_left (by omega)⟩
    · have e : (fun t => ind (u, v, w) (a, t)) = fun _ => 0 := by funext t; simp [ind, hu]
      rw [e, pairs2_zero, zero_add]
      congr 1
      simp only [List.mem_cons, eq_iff_iff]
      constructor
      · rintro ⟨q1, q2, q3, q4, q5⟩; exact ⟨q1, q2, Or.inr q3, Or.inr q4, Or.inr q5⟩
      · rintro ⟨q1, q2, q3, q4, q5⟩
        have q3 : u ∈ l := q3.resolve_left fun e => hu e.symm
        have := h1 u q3
        exact ⟨q1, q2, q3, q4.resolve_left (by omega), q5.resolve_left (by omega)⟩

/-! ### Columns -/

theorem supp_sorted (t : Row) : (supp t).Pairwise (· < ·) := List.pairwise_lt_range.filter _

theorem mem_supp {t : Row} {k : ℕ} : k ∈ supp t ↔ t.getD k false = true := by
  rw [supp, List.mem_filter, List.mem_range]
  refine ⟨fun h => h.2, fun h => ⟨?_, h⟩⟩
  by_contra hn
  rw [List.getD_eq_default _ _ (by omega)] at h
  cases h

/-- The symmetric tensor of a list of columns. -/
def sig (C : List Row) (u v w : ℕ) : ZMod 2 := (C.map fun c => bit (c.getD u false) * (bit (c.getD v false) * bit (c.getD w false))).sum

theorem addCols_OK (sub : Bool) : ∀ (C : List Row) {s : MLP}, s.OK → (C.foldl (addParity sub) s).OK
  | [], _, h => h
  | _ :: C, _, h => addCols_OK sub C (addL_OK sub _ h)

theorem addCols_eval (x : ℕ → Bool) (sub : Bool) : ∀ (C : List Row) {s : MLP}, s.OK →
    (C.foldl (addParity sub) s).eval x = s.eval x + mult sub * (C.map fun c => b8 (parL x (supp c))).sum
  | [], s, _ => by simp
  | c :: C, s, h => by
    rw [List.foldl_cons, show addParity sub s c = addL sub (supp c) s from rfl, addCols_eval x sub C (addL_OK sub _ h), addL_eval x sub _ h, List.map_cons, List.sum_cons]
    ring

theorem addCols_sums (sub : Bool) (u v w : ℕ) : ∀ (C : List Row) {s : MLP}, s.OK →
    (C.foldl (addParity sub) s).sumL (ind u) = s.sumL (ind u) + sig C u u u ∧
    (C.foldl (addParity sub) s).sumQ (ind (u, v)) = s.sumQ (ind (u, v)) + (if u < v then sig C u v v else 0) ∧
    (C.foldl (addParity sub) s).sumC (ind (u, v, w)) = s.sumC (ind (u, v, w)) + if u < v ∧ v < w then sig C u v w else 0
  | [], s, _ => by simp [sig]
  | c :: C, s, h => by
    rw [List.foldl_cons]
    obtain ⟨a1, a2, a3⟩ := addCols_sums sub u v w C (addL_OK sub (supp c) h)
    obtain ⟨b1, b2, b3⟩ := addL_sums (ind u) (ind (u, v)) (ind (u, v, w)) sub (supp c) h
    rw [pairs1_ind (supp_sorted c)] at b1
    rw [pairs2_ind (supp_sorted c)] at b2
    rw [pairs3_ind (supp_sorted c)] at b3
    simp only [mem_supp] at b1 b2 b3
    have es : ∀ a b d, sig (c :: C) a b d = bit (c.getD a false) * (bit (c.getD b false) * bit (c.getD d false)) + sig C a b d := by
      intro a b d; simp [sig]
    rw [es, es, es]
    refine ⟨a1.trans ?_, a2.trans ?_, a3.trans ?_⟩
    · rw [b1]
      cases c.getD u false <;> simp [bit] <;> ring
    · rw [b2]
      by_cases huv : u < v
      · cases c.getD u false <;> cases c.getD v false <;> simp [bit, huv] <;> ring
      · simp [huv]
    · rw [b3]
      by_cases huv : u < v ∧ v < w
      · have h1 := huv.1
        have h2 := huv.2
        cases c.getD u false <;> cases c.getD v false <;> cases c.getD w false <;> simp [bit, h1, h2] <;> ring
      · rw [if_neg huv, if_neg huv, if_neg (fun h => huv ⟨h.1, h.2.1⟩), add_zero]

theorem sum_ind {κ : Type} [DecidableEq κ] {d : List (κ × ℤ)} (hd : (d.map Prod.fst).Nodup) {e : κ × ℤ} (he : e ∈ d) :
    (d.map fun e' => (e'.2 : ZMod 2) * ind e.1 e'.1).sum = e.2 := by
  induction d with
  | nil => simp at he
  | cons a d ih =>
    rw [List.map_cons, List.nodup_cons] at hd
    rw [List.map_cons, List.sum_cons]
    rcases List.mem_cons.mp he with rfl | h
    · have : (d.map fun e' => (e'.2 : ZMod 2) * ind e.1 e'.1).sum = 0 := by
        refine List.sum_eq_zero fun y hy => ?_
        obtain ⟨e', he', rfl⟩ := List.mem_map.mp hy
        have : e'.1 ≠ e.1 := fun h => hd.1 (List.mem_map.mpr ⟨e', he', h⟩)
        simp [ind, this]
      rw [this]; simp [ind]
    · have : a.1 ≠ e.1 := fun h' => hd.1 (h' ▸ List.mem_map.mpr ⟨e, h, rfl⟩)
      rw [ih hd.2 h]
      simp [ind, this]

theorem sum_ind_c {c : List (ℕ × ℕ × ℕ)} (hc : c.Nodup) {t : ℕ × ℕ × ℕ} (ht : t ∈ c) : (c.map (ind t)).sum = 1 := by
  have h : (c.map (ind t)).sum = ((c.filter (· = t)).length : ZMod 2) := by
    clear hc ht
    induction c with
    | nil => rfl
    | cons a c ih =>
      rw [List.map_cons, List.sum_cons, ih, List.filter_cons]
      by_cases ha : a = t
      · simp [ind, ha]; ring
      · simp [ind, ha]
  rw [h]
  have : (c.filter (· = t)).length = c.count t := by
    rw [List.count, List.countP_eq_length_filter]
    congr 1
    exact List.filter_congr fun x _ => by by_cases h : x = t <;> simp [h]
  rw [this, List.count_eq_one_of_mem hc ht]; rfl

/-- The polynomial of two lists of columns with the same tensor is Clifford. -/
theorem clifford_coeffs {C C' : List Row} (h : ∀ u v w, sig C u v w = sig C' u v w) {s : MLP} (hs : s = C'.foldl (addParity true) (C.foldl (addParity false) {})) :
    (∀ e ∈ s.l, Even e.2) ∧ (∀ e ∈ s.q, Even e.2) ∧ s.c = [] := by
  have ok0 : MLP.OK {} := ⟨by simp, by simp, by simp⟩
  have ok1 := addCols_OK false C ok0
  have ok : s.OK := by rw [hs]; exact addCols_OK true C' ok1
  have dbl : ∀ a : ZMod 2, a + a = 0 := by decide
  have sums : ∀ u v w, s.sumL (ind u) = 0 ∧ s.sumQ (ind (u, v)) = 0 ∧ s.sumC (ind (u, v, w)) = 0 := by
    intro u v w
    obtain ⟨a1, a2, a3⟩ := addCols_sums true u v w C' ok1
    obtain ⟨b1, b2, b3⟩ := addCols_sums false u v w C ok0
    rw [hs, a1, a2, a3, b1, b2, b3, h, h, h]
    refine ⟨?_, ?_, ?_⟩
    · simp [MLP.sumL, dbl]
    · simp only [MLP.sumQ, List.map_nil, List.sum_nil, zero_add]
      exact dbl _
    · simp only [MLP.sumC, List.map_nil, List.sum_nil, zero_add]
      exact dbl _
  refine ⟨?_, ?_, ?_⟩
  · intro e he
    have := (sums e.1 0 0).1
    rw [MLP.sumL, sum_ind ok.l he] at this
    exact (ZMod.intCast_zmod_eq_zero_iff_dvd e.2 2).mp this |> even_iff_two_dvd.mpr
  · intro e he
    have := (sums e.1.1 e.1.2 0).2.1
    rw [MLP.sumQ, sum_ind ok.q he] at this
    exact (ZMod.intCast_zmod_eq_zero_iff_dvd e.2 2).mp this |> even_iff_two_dvd.mpr
  · by_contra hne
    obtain ⟨t, ht⟩ := List.exists_mem_of_ne_nil _ hne
    have := (sums t.1 t.2.1 t.2.2).2.2
    rw [MLP.sumC, sum_ind_c ok.c ht] at this
    exact absurd this (by decide)

end Todd
end PyZX
