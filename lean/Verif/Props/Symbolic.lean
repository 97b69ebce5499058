import Verif.Spec.Symbolic
import Mathlib.Algebra.BigOperators.Group.List.Basic
import Mathlib.Tactic.LinearCombination
import Mathlib.Tactic.NormNum
import Mathlib.Data.List.Perm.Basic

/-!
# Properties of symbolic phases (C37)
-/

namespace PyZX
namespace Symb

theorem EqMod2.refl (a : ℂ) : EqMod2 a a := ⟨0, by simp⟩
theorem EqMod2.of_eq {a b : ℂ} (h : a = b) : EqMod2 a b := h ▸ EqMod2.refl a
theorem EqMod2.symm {a b : ℂ} (h : EqMod2 a b) : EqMod2 b a := by
  obtain ⟨k, hk⟩ := h
  exact ⟨-k, by push_cast; linear_combination -hk⟩
theorem EqMod2.trans {a b c : ℂ} (h : EqMod2 a b) (h' : EqMod2 b c) : EqMod2 a c := by
  obtain ⟨k, hk⟩ := h
  obtain ⟨l, hl⟩ := h'
  exact ⟨k + l, by push_cast; linear_combination hk + hl⟩
theorem EqMod2.add {a b c d : ℂ} (h : EqMod2 a b) (h' : EqMod2 c d) : EqMod2 (a + c) (b + d) := by
  obtain ⟨k, hk⟩ := h
  obtain ⟨l, hl⟩ := h'
  exact ⟨k + l, by push_cast; linear_combination hk + hl⟩

theorem Coef.add_val (a b : Coef) : (a.add b).val = a.val + b.val := by
  cases a <;> cases b <;> simp [Coef.add, Coef.val]
theorem Coef.mul_val (a b : Coef) : (a.mul b).val = a.val * b.val := by
  cases a <;> cases b <;> simp [Coef.mul, Coef.val]
theorem Coef.neg_val (a : Coef) : a.neg.val = -a.val := by cases a <;> simp [Coef.neg, Coef.val]
theorem Coef.pow_val (a : Coef) (n : ℕ) : (a.pow n).val = a.val ^ n := by cases a <;> simp [Coef.pow, Coef.val]

/-! ### Terms -/

theorem tval_nil (ρ : String → ℂ) : tval ρ [] = 1 := rfl
theorem tval_cons (ρ : String → ℂ) (p : Var × ℕ) (t : Term) : tval ρ (p :: t) = ρ p.1.name ^ p.2 * tval ρ t := by
  simp [tval]
theorem tval_append (ρ : String → ℂ) (s t : Term) : tval ρ (s ++ t) = tval ρ s * tval ρ t := by simp [tval]

theorem bool_pow {x : ℂ} (h : x = 0 ∨ x = 1) {n : ℕ} (hn : 0 < n) : x ^ n = x := by
  rcases h with rfl | rfl
  · exact zero_pow (by omega)
  · exact one_pow _

theorem tval_insert {ρ : String → ℂ} (t : Term) {v : Var} {c : ℕ} (hb : v.isBool = true → ρ v.name = 0 ∨ ρ v.name = 1) :
    tval ρ (t.insert (v, c)) = tval ρ t * ρ v.name ^ c := by
  induction t with
  | nil =>
    unfold Term.insert
    rw [tval_cons, tval_nil]
    by_cases h : v.isBool = true ∧ 1 < c
    · simp only [if_pos h]
      rw [bool_pow (hb h.1) (by omega : 0 < c)]; ring
    · simp only [if_neg h]; ring
  | cons a r ih =>
    obtain ⟨w, k⟩ := a
    unfold Term.insert
    by_cases hw : w.name = v.name
    · rw [if_pos hw, tval_cons, tval_cons]
      simp only
      by_cases h : v.isBool = true ∧ 1 < c
      · rw [if_pos h, hw]
        have := bool_pow (hb h.1) (show 0 < k + c by omega)
        rw [pow_add] at this
        linear_combination -(tval ρ r) * this
      · rw [if_neg h, hw, pow_add]; ring
    · rw [if_neg hw, tval_cons, tval_cons, ih]; ring

theorem tval_foldl {ρ : String → ℂ} (l : Term) (hb : ∀ x ∈ l, x.1.isBool = true → ρ x.1.name = 0 ∨ ρ x.1.name = 1) :
    ∀ acc : Term, tval ρ (l.foldl Term.insert acc) = tval ρ acc * tval ρ l := by
  induction l with
  | nil => intro acc; simp [tval_nil]
  | cons a r ih =>
    intro acc
    rw [List.foldl_cons, ih (fun x hx => hb x (by simp [hx])), tval_cons]
    obtain ⟨v, c⟩ := a
    rw [tval_insert acc (hb (v, c) (by simp))]; ring

/-- The product of two terms has the product of the values, if Boolean variables have the value 0 or 1. -/
theorem tval_mul {ρ : String → ℂ} {s t : Term} (hs : ∀ x ∈ s, x.1.isBool = true → ρ x.1.name = 0 ∨ ρ x.1.name = 1)
    (ht : ∀ x ∈ t, x.1.isBool = true → ρ x.1.name = 0 ∨ ρ x.1.name = 1) : tval ρ (s.mul t) = tval ρ s * tval ρ t := by
  unfold Term.mul
  rw [tval_foldl _ (fun x hx => (List.mem_append.mp hx).elim (hs x) (ht x)), tval_nil, one_mul, tval_append]

theorem tval_same (ρ : String → ℂ) {s t : Term} (h : Term.same s t) : tval ρ s = tval ρ t := by
  have := (h.map fun p : String × ℕ => ρ p.1 ^ p.2).prod_eq
  simpa [tval, List.map_map, Function.comp_def] using this

/-- Variables of a product. -/
theorem mem_insert {t : Term} {v : Var} {c : ℕ} {x : Var × ℕ} (h : x ∈ t.insert (v, c)) : x.1 = v ∨ ∃ y ∈ t, y.1 = x.1 := by
  induction t with
  | nil =>
    unfold Term.insert at h
    rw [List.mem_singleton] at h
    exact Or.inl (by rw [h])
  | cons a r ih =>
    obtain ⟨w, k⟩ := a
    unfold Term.insert at h
    by_cases hw : w.name = v.name
    · rw [if_pos hw] at h
      rcases List.mem_cons.mp h with h | h
      · exact Or.inr ⟨(w, k), by simp, by rw [h]⟩
      · exact Or.inr ⟨x, by simp [h], rfl⟩
    · rw [if_neg hw] at h
      rcases List.mem_cons.mp h with h | h
      · exact Or.inr ⟨(w, k), by simp, by rw [h]⟩
      · rcases ih h with h | ⟨y, hy, he⟩
        · exact Or.inl h
        · exact Or.inr ⟨y, by simp [hy], he⟩

theorem mem_mul {s t : Term} {x : Var × ℕ} (h : x ∈ s.mul t) : ∃ y ∈ s ++ t, y.1 = x.1 := by
  have key : ∀ (l acc : Term), x ∈ l.foldl Term.insert acc → (∃ y ∈ acc, y.1 = x.1) ∨ ∃ y ∈ l, y.1 = x.1 := by
    intro l
    induction l with
    | nil => intro acc h; exact Or.inl ⟨x, h, rfl⟩
    | cons a r ih =>
      intro acc h
      rw [List.foldl_cons] at h
      rcases ih _ h with ⟨y, hy, he⟩ | ⟨y, hy, he⟩
      · rcases mem_insert hy with h' | ⟨z, hz, hz'⟩
        · exact Or.inr ⟨a, by simp, by rw [← he, h']⟩
        · exact Or.inl ⟨z, hz, hz'.trans he⟩
      · exact Or.inr ⟨y, by simp [hy], he⟩
  rcases key (s ++ t) [] h with ⟨y, hy, -⟩ | h
  · simp at hy
  · exact h

/-- A term of Boolean variables has an integer value. -/
theorem tval_int {ρ : String → ℂ} {t : Term} (hb : ∀ x ∈ t, ρ x.1.name = 0 ∨ ρ x.1.name = 1) : ∃ k : ℤ, tval ρ t = k := by
  induction t with
  | nil => exact ⟨1, by simp [tval_nil]⟩
  | cons a r ih =>
    obtain ⟨k, hk⟩ := ih fun x hx => hb x (by simp [hx])
    rw [tval_cons, hk]
    rcases hb a (by simp) with h | h
    · rw [h]
      by_cases h0 : a.2 = 0
      · exact ⟨k, by rw [h0]; ring⟩
      · exact ⟨0, by rw [zero_pow h0]; simp⟩
    · exact ⟨k, by rw [h]; simp⟩

/-! ### Sums -/

theorem pval_nil (ρ : String → ℂ) : pval ρ [] = 0 := rfl
theorem pval_cons (ρ : String → ℂ) (e : Coef × Term) (p : Poly) : pval ρ (e :: p) = e.1.val * tval ρ e.2 + pval ρ p := by simp [pval]
theorem pval_append (ρ : String → ℂ) (p q : Poly) : pval ρ (p ++ q) = pval ρ p + pval ρ q := by simp [pval]

/-- Boolean variables of one term. -/
def TBool (ρ : String → ℂ) (t : Term) : Prop := ∀ x ∈ t, x.1.isBool = true → ρ x.1.name = 0 ∨ ρ x.1.name = 1

theorem reduce_val {ρ : String → ℂ} {t : Term} (hb : TBool ρ t) (c : Coef) : EqMod2 ((reduce c t).val * tval ρ t) (c.val * tval ρ t) := by
  unfold reduce
  cases c with
  | cpx z => exact EqMod2.refl _
  | rat q =>
    by_cases h : Term.allBool t
    · simp only [if_pos h]
      obtain ⟨k, hk⟩ := tval_int (ρ := ρ) (t := t) fun x hx => hb x hx (h.2 x hx)
      refine ⟨-(⌊q / 2⌋ * k), ?_⟩
      rw [hk]
      unfold Coef.val mod2
      push_cast
      ring
    · simp only [if_neg h]; exact EqMod2.refl _

theorem reduce_exact {t : Term} (hb : ¬ Term.allBool t) (c : Coef) : reduce c t = c := by
  unfold reduce
  cases c with
  | cpx z => rfl
  | rat q => simp only [if_neg hb]

theorem pval_insert {ρ : String → ℂ} (p : Poly) {c : Coef} {t : Term} (hb : TBool ρ t) :
    EqMod2 (pval ρ (p.insert (c, t))) (pval ρ p + c.val * tval ρ t) := by
  induction p with
  | nil =>
    unfold Poly.insert
    rw [pval_cons, pval_nil]
    have := reduce_val hb c
    simpa using this
  | cons a r ih =>
    obtain ⟨d, s⟩ := a
    unfold Poly.insert
    by_cases h : Term.same s t
    · rw [if_pos h, pval_cons, pval_cons]
      simp only
      have := (reduce_val hb (d.add c)).add (EqMod2.refl (pval ρ r))
      rw [tval_same ρ h]
      refine this.trans (EqMod2.of_eq ?_)
      rw [Coef.add_val]; ring
    · rw [if_neg h, pval_cons, pval_cons]
      exact ((EqMod2.refl _).add ih).trans (EqMod2.of_eq (by ring))

theorem pval_insert_exact {ρ : String → ℂ} (p : Poly) {c : Coef} {t : Term} (hb : ¬ Term.allBool t) :
    pval ρ (p.insert (c, t)) = pval ρ p + c.val * tval ρ t := by
  induction p with
  | nil =>
    unfold Poly.insert
    rw [pval_cons, pval_nil, reduce_exact hb]; ring
  | cons a r ih =>
    obtain ⟨d, s⟩ := a
    unfold Poly.insert
    by_cases h : Term.same s t
    · rw [if_pos h, pval_cons, pval_cons]
      simp only
      rw [tval_same ρ h, reduce_exact hb, Coef.add_val]; ring
    · rw [if_neg h, pval_cons, pval_cons, ih]; ring

open Classical in
theorem pval_filter (ρ : String → ℂ) (p : Poly) : pval ρ (p.filter fun e => decide (e.1.val ≠ 0)) = pval ρ p := by
  induction p with
  | nil => rfl
  | cons a r ih =>
    rw [pval_cons, List.filter_cons]
    by_cases h : a.1.val = 0
    · rw [if_neg (by simp [h]), ih, h]; ring
    · rw [if_pos (by simp [h]), pval_cons, ih]

theorem pval_foldl {ρ : String → ℂ} (l : Poly) (hb : BoolVal ρ l) : ∀ acc : Poly, EqMod2 (pval ρ (l.foldl Poly.insert acc)) (pval ρ acc + pval ρ l) := by
  induction l with
  | nil => intro acc; exact EqMod2.of_eq (by simp [pval_nil])
  | cons a r ih =>
    intro acc
    obtain ⟨c, t⟩ := a
    rw [List.foldl_cons, pval_cons]
    refine (ih (fun e he => hb e (by simp [he])) _).trans ?_
    refine ((pval_insert acc (hb (c, t) (by simp))).add (EqMod2.refl (pval ρ r))).trans (EqMod2.of_eq (by ring))

/-- C37, addition: the value of the sum is the sum of the values, modulo 2, for all polynomials and valuations. -/
theorem add_sound {ρ : String → ℂ} {p q : Poly} (hp : BoolVal ρ p) (hq : BoolVal ρ q) :
    EqMod2 (pval ρ (p.add q)) (pval ρ p + pval ρ q) := by
  unfold Poly.add
  rw [pval_filter, ← pval_append]
  have := pval_foldl (p ++ q) (fun e he => (List.mem_append.mp he).elim (hp e) (hq e)) []
  rw [pval_nil, zero_add] at this
  exact this

/-- No term consists of Boolean variables only. -/
def NoBoolTerm (p : Poly) : Prop := ∀ e ∈ p, ¬ Term.allBool e.2

/-- Where no coefficient is reduced, addition is exact. -/
theorem add_exact {ρ : String → ℂ} {p q : Poly} (hp : NoBoolTerm p) (hq : NoBoolTerm q) : pval ρ (p.add q) = pval ρ p + pval ρ q := by
  unfold Poly.add
  rw [pval_filter, ← pval_append]
  have key : ∀ (l acc : Poly), NoBoolTerm l → pval ρ (l.foldl Poly.insert acc) = pval ρ acc + pval ρ l := by
    intro l
    induction l with
    | nil => intro acc _; simp [pval_nil]
    | cons a r ih =>
      intro acc h
      obtain ⟨c, t⟩ := a
      rw [List.foldl_cons, pval_cons, ih _ (fun e he => h e (by simp [he])), pval_insert_exact acc (h (c, t) (by simp))]
      ring
  rw [key _ _ (fun e he => (List.mem_append.mp he).elim (hp e) (hq e)), pval_nil, zero_add]

/-- C37, negation: exact. -/
theorem neg_sound (ρ : String → ℂ) (p : Poly) : pval ρ p.neg = -pval ρ p := by
  induction p with
  | nil => simp [Poly.neg, pval_nil]
  | cons a r ih =>
    have : Poly.neg (a :: r) = (a.1.neg, a.2) :: Poly.neg r := rfl
    rw [this, pval_cons, pval_cons, ih, Coef.neg_val]; ring

theorem BoolVal.neg {ρ : String → ℂ} {p : Poly} (h : BoolVal ρ p) : BoolVal ρ p.neg := by
  intro e he
  obtain ⟨a, ha, rfl⟩ := List.mem_map.mp he
  exact h a ha

/-- C37, subtraction. -/
theorem sub_sound {ρ : String → ℂ} {p q : Poly} (hp : BoolVal ρ p) (hq : BoolVal ρ q) :
    EqMod2 (pval ρ (p.sub q)) (pval ρ p - pval ρ q) := by
  have := add_sound hp hq.neg
  rw [neg_sound, ← sub_eq_add_neg] at this
  exact this

/-! ### Terms of a sum come from its arguments -/

theorem mem_pinsert {p : Poly} {c : Coef} {t : Term} {e : Coef × Term} (h : e ∈ p.insert (c, t)) : e.2 = t ∨ ∃ a ∈ p, a.2 = e.2 := by
  induction p with
  | nil =>
    unfold Poly.insert at h
    rw [List.mem_singleton] at h
    exact Or.inl (by rw [h])
  | cons a r ih =>
    obtain ⟨d, s⟩ := a
    unfold Poly.insert at h
    by_cases hw : Term.same s t
    · rw [if_pos hw] at h
      rcases List.mem_cons.mp h with h | h
      · exact Or.inr ⟨(d, s), by simp, by rw [h]⟩
      · exact Or.inr ⟨e, by simp [h], rfl⟩
    · rw [if_neg hw] at h
      rcases List.mem_cons.mp h with h | h
      · exact Or.inr ⟨(d, s), by simp, by rw [h]⟩
      · rcases ih h with h | ⟨y, hy, he⟩
        · exact Or.inl h
        · exact Or.inr ⟨y, by simp [hy], he⟩

theorem mem_add {p q : Poly} {e : Coef × Term} (h : e ∈ p.add q) : ∃ a ∈ p ++ q, a.2 = e.2 := by
  have key : ∀ (l acc : Poly), e ∈ l.foldl Poly.insert acc → (∃ y ∈ acc, y.2 = e.2) ∨ ∃ y ∈ l, y.2 = e.2 := by
    intro l
    induction l with
    | nil => intro acc h; exact Or.inl ⟨e, h, rfl⟩
    | cons a r ih =>
      intro acc h
      rw [List.foldl_cons] at h
      rcases ih _ h with ⟨y, hy, he⟩ | ⟨y, hy, he⟩
      · rcases mem_pinsert hy with h' | ⟨z, hz, hz'⟩
        · exact Or.inr ⟨a, by simp, by rw [← he, h']⟩
        · exact Or.inl ⟨z, hz, hz'.trans he⟩
      · exact Or.inr ⟨y, by simp [hy], he⟩
  unfold Poly.add at h
  rcases key (p ++ q) [] (List.mem_filter.mp h).1 with ⟨y, hy, -⟩ | h
  · simp at hy
  · exact h

theorem BoolVal.add {ρ : String → ℂ} {p q : Poly} (hp : BoolVal ρ p) (hq : BoolVal ρ q) : BoolVal ρ (p.add q) := by
  intro e he
  obtain ⟨a, ha, hae⟩ := mem_add he
  rw [← hae]
  exact (List.mem_append.mp ha).elim (hp a) (hq a)

theorem TBool.mul {ρ : String → ℂ} {s t : Term} (hs : TBool ρ s) (ht : TBool ρ t) : TBool ρ (s.mul t) := by
  intro x hx hbx
  obtain ⟨y, hy, he⟩ := mem_mul hx
  rw [← he] at hbx ⊢
  exact (List.mem_append.mp hy).elim (fun h => hs y h hbx) (fun h => ht y h hbx)

/-! ### Products -/

/-- C37, multiplication: the value of the product is the product of the values, modulo 2. -/
theorem mul_sound {ρ : String → ℂ} {p q : Poly} (hp : BoolVal ρ p) (hq : BoolVal ρ q) :
    EqMod2 (pval ρ (p.mul q)) (pval ρ p * pval ρ q) := by
  have inner : ∀ (a : Coef × Term), TBool ρ a.2 → ∀ (r acc : Poly), BoolVal ρ r → BoolVal ρ acc →
      EqMod2 (pval ρ (r.foldl (fun acc b => acc.add [(a.1.mul b.1, a.2.mul b.2)]) acc)) (pval ρ acc + a.1.val * tval ρ a.2 * pval ρ r) ∧
      BoolVal ρ (r.foldl (fun acc b => acc.add [(a.1.mul b.1, a.2.mul b.2)]) acc) := by
    intro a ha r
    induction r with
    | nil => intro acc _ h; exact ⟨EqMod2.of_eq (by simp [pval_nil]), h⟩
    | cons b r ih =>
      intro acc hr hacc
      have hb : TBool ρ b.2 := hr b (by simp)
      have h1 : BoolVal ρ [(a.1.mul b.1, a.2.mul b.2)] := fun e he => by
        rw [List.mem_singleton] at he
        rw [he]; exact ha.mul hb
      obtain ⟨i1, i2⟩ := ih (acc.add [(a.1.mul b.1, a.2.mul b.2)]) (fun e he => hr e (by simp [he])) (hacc.add h1)
      refine ⟨?_, i2⟩
      rw [List.foldl_cons]
      refine i1.trans ?_
      refine ((add_sound hacc h1).add (EqMod2.refl _)).trans (EqMod2.of_eq ?_)
      rw [pval_cons, pval_cons, pval_nil]
      simp only
      rw [tval_mul ha hb, Coef.mul_val]; ring
  have outer : ∀ (l acc : Poly), BoolVal ρ l → BoolVal ρ acc →
      EqMod2 (pval ρ (l.foldl (fun acc a => q.foldl (fun acc b => acc.add [(a.1.mul b.1, a.2.mul b.2)]) acc) acc)) (pval ρ acc + pval ρ l * pval ρ q) := by
    intro l
    induction l with
    | nil => intro acc _ _; exact EqMod2.of_eq (by simp [pval_nil])
    | cons a r ih =>
      intro acc hl hacc
      obtain ⟨i1, i2⟩ := inner a (hl a (by simp)) q acc hq hacc
      rw [List.foldl_cons]
      refine (ih _ (fun e he => hl e (by simp [he])) i2).trans ?_
      refine (i1.add (EqMod2.refl _)).trans (EqMod2.of_eq ?_)
      rw [pval_cons]; ring
  have := outer p [] hp (fun e he => by simp at he)
  rw [pval_nil, zero_add] at this
  exact this

/-- The types of the variables come from one table, as in a graph (`/repo/pyzx/symbolic.py` lines 63-65). -/
def Typed (ty : String → Bool) (p : Poly) : Prop := ∀ e ∈ p, ∀ x ∈ e.2, x.1.isBool = ty x.1.name

/-- Every variable of the factors is in the product. -/
theorem mul_names {s t : Term} {x : Var × ℕ} (h : x ∈ s ++ t) : ∃ y ∈ s.mul t, y.1.name = x.1.name := by
  have ins : ∀ (acc : Term) (v : Var) (c : ℕ), ∃ y ∈ acc.insert (v, c), y.1.name = v.name := by
    intro acc v c
    induction acc with
    | nil => exact ⟨_, List.mem_singleton.mpr rfl, rfl⟩
    | cons b bs ih =>
      obtain ⟨w, k⟩ := b
      unfold Term.insert
      by_cases hw : w.name = v.name
      · rw [if_pos hw]
        exact ⟨_, List.mem_cons_self, hw⟩
      · rw [if_neg hw]
        obtain ⟨y, hy, he⟩ := ih
        exact ⟨y, List.mem_cons_of_mem _ hy, he⟩
  have keep : ∀ (acc : Term) (v : Var) (c : ℕ) (n : String), (∃ y ∈ acc, y.1.name = n) → ∃ y ∈ acc.insert (v, c), y.1.name = n := by
    intro acc v c n
    induction acc with
    | nil => rintro ⟨y, hy, -⟩; simp at hy
    | cons b bs ih =>
      obtain ⟨w, k⟩ := b
      rintro ⟨y, hy, he⟩
      unfold Term.insert
      by_cases hw : w.name = v.name
      · rw [if_pos hw]
        rcases List.mem_cons.mp hy with rfl | hy
        · exact ⟨_, List.mem_cons_self, he⟩
        · exact ⟨y, List.mem_cons_of_mem _ hy, he⟩
      · rw [if_neg hw]
        rcases List.mem_cons.mp hy with rfl | hy
        · exact ⟨_, List.mem_cons_self, he⟩
        · obtain ⟨z, hz, hze⟩ := ih ⟨y, hy, he⟩
          exact ⟨z, List.mem_cons_of_mem _ hz, hze⟩
  have key : ∀ (l acc : Term) (n : String), ((∃ y ∈ acc, y.1.name = n) ∨ ∃ y ∈ l, y.1.name = n) → ∃ y ∈ l.foldl Term.insert acc, y.1.name = n := by
    intro l
    induction l with
    | nil =>
      rintro acc n (h | ⟨y, hy, -⟩)
      · exact h
      · simp at hy
    | cons a r ih =>
      intro acc n h
      rw [List.foldl_cons]
      obtain ⟨v, c⟩ := a
      rcases h with h | ⟨y, hy, he⟩
      · exact ih _ n (Or.inl (keep acc v c n h))
      · rcases List.mem_cons.mp hy with rfl | hy
        · obtain ⟨z, hz, hze⟩ := ins acc v c
          exact ih _ n (Or.inl ⟨z, hz, hze.trans he⟩)
        · exact ih _ n (Or.inr ⟨y, hy, he⟩)
  exact key (s ++ t) [] x.1.name (Or.inr ⟨x, h, rfl⟩)

/-- A product of terms that are not purely Boolean is not purely Boolean. -/
theorem mul_not_allBool {ty : String → Bool} {s t : Term} (Hs : ∀ x ∈ s, x.1.isBool = ty x.1.name) (Ht : ∀ x ∈ t, x.1.isBool = ty x.1.name)
    (hs : ¬ Term.allBool s) (ht : ¬ Term.allBool t) : ¬ Term.allBool (s.mul t) := by
  rintro ⟨h1, h2⟩
  have all : ∀ x ∈ s ++ t, x.1.isBool = true := by
    intro x hx
    obtain ⟨y, hy, he⟩ := mul_names hx
    obtain ⟨z, hz, hze⟩ := mem_mul hy
    have hzt : z.1.isBool = ty z.1.name := (List.mem_append.mp hz).elim (Hs z) (Ht z)
    have hxt : x.1.isBool = ty x.1.name := (List.mem_append.mp hx).elim (Hs x) (Ht x)
    rw [hxt, ← he, ← hze, ← hzt, hze]
    exact h2 y hy
  have s0 : s = [] := by
    by_contra hne
    exact hs ⟨hne, fun x hx => all x (List.mem_append_left _ hx)⟩
  have t0 : t = [] := by
    by_contra hne
    exact ht ⟨hne, fun x hx => all x (List.mem_append_right _ hx)⟩
  rw [s0, t0] at h1
  exact h1 rfl

theorem NoBoolTerm.add {p q : Poly} (hp : NoBoolTerm p) (hq : NoBoolTerm q) : NoBoolTerm (p.add q) := by
  intro e he
  obtain ⟨a, ha, hae⟩ := mem_add he
  rw [← hae]
  exact (List.mem_append.mp ha).elim (hp a) (hq a)

/-- Where no coefficient is reduced, multiplication is exact. -/
theorem mul_exact {ρ : String → ℂ} {ty : String → Bool} {p q : Poly} (Hp : Typed ty p) (Hq : Typed ty q) (hp : NoBoolTerm p) (hq : NoBoolTerm q)
    (bp : BoolVal ρ p) (bq : BoolVal ρ q) : pval ρ (p.mul q) = pval ρ p * pval ρ q := by
  have inner : ∀ (a : Coef × Term), TBool ρ a.2 → ¬ Term.allBool a.2 → (∀ x ∈ a.2, x.1.isBool = ty x.1.name) →
      ∀ (r acc : Poly), BoolVal ρ r → Typed ty r → NoBoolTerm r → NoBoolTerm acc →
      pval ρ (r.foldl (fun acc b => acc.add [(a.1.mul b.1, a.2.mul b.2)]) acc) = pval ρ acc + a.1.val * tval ρ a.2 * pval ρ r ∧
      NoBoolTerm (r.foldl (fun acc b => acc.add [(a.1.mul b.1, a.2.mul b.2)]) acc) := by
    intro a ha hna hta r
    induction r with
    | nil => intro acc _ _ _ h; exact ⟨by simp [pval_nil], h⟩
    | cons b r ih =>
      intro acc hr htr hnr hacc
      have h1 : NoBoolTerm [(a.1.mul b.1, a.2.mul b.2)] := fun e he => by
        rw [List.mem_singleton] at he
        rw [he]; exact mul_not_allBool hta (htr b (by simp)) hna (hnr b (by simp))
      obtain ⟨i1, i2⟩ := ih (acc.add [(a.1.mul b.1, a.2.mul b.2)]) (fun e he => hr e (by simp [he])) (fun e he => htr e (by simp [he]))
        (fun e he => hnr e (by simp [he])) (hacc.add h1)
      refine ⟨?_, i2⟩
      rw [List.foldl_cons, i1, add_exact hacc h1, pval_cons, pval_cons, pval_nil]
      simp only
      rw [tval_mul ha (hr b (by simp)), Coef.mul_val]; ring
  have outer : ∀ (l acc : Poly), BoolVal ρ l → Typed ty l → NoBoolTerm l → NoBoolTerm acc →
      pval ρ (l.foldl (fun acc a => q.foldl (fun acc b => acc.add [(a.1.mul b.1, a.2.mul b.2)]) acc) acc) = pval ρ acc + pval ρ l * pval ρ q := by
    intro l
    induction l with
    | nil => intro acc _ _ _ _; simp [pval_nil]
    | cons a r ih =>
      intro acc hl htl hnl hacc
      obtain ⟨i1, i2⟩ := inner a (hl a (by simp)) (hnl a (by simp)) (htl a (by simp)) q acc bq Hq hq hacc
      rw [List.foldl_cons, ih _ (fun e he => hl e (by simp [he])) (fun e he => htl e (by simp [he])) (fun e he => hnl e (by simp [he])) i2, i1, pval_cons]
      ring
  have := outer p [] bp Hp hp (fun e he => by simp at he)
  rw [pval_nil, zero_add] at this
  exact this

/-! ### Substitution -/

/-- The valuation that uses the given values where there are any. -/
noncomputable def override (ρ : String → ℂ) (m : String → Option Coef) (n : String) : ℂ :=
  match m n with
  | some x => x.val
  | none => ρ n

theorem tsubst_val (ρ : String → ℂ) (m : String → Option Coef) (t : Term) :
    (Term.substitute m t).1.val * tval ρ (Term.substitute m t).2 = tval (override ρ m) t ∧
      ∀ x ∈ (Term.substitute m t).2, x ∈ t ∧ m x.1.name = none := by
  have key : ∀ (t : Term) (s : Coef × Term), (∀ x ∈ s.2, m x.1.name = none) →
      (t.foldl (fun s p => match m p.1.name with
        | some x => (s.1.mul (x.pow p.2), s.2)
        | none => (s.1, s.2 ++ [p])) s).1.val * tval ρ (t.foldl (fun s p => match m p.1.name with
        | some x => (s.1.mul (x.pow p.2), s.2)
        | none => (s.1, s.2 ++ [p])) s).2 = s.1.val * tval ρ s.2 * tval (override ρ m) t ∧
      ∀ x ∈ (t.foldl (fun s p => match m p.1.name with
        | some x => (s.1.mul (x.pow p.2), s.2)
        | none => (s.1, s.2 ++ [p])) s).2, (x ∈ t ∨ x ∈ s.2) ∧ m x.1.name = none := by
    intro t
    induction t with
    | nil => intro s hs; exact ⟨by simp [tval_nil], fun x hx => ⟨Or.inr hx, hs x hx⟩⟩
    | cons p r ih =>
      intro s hs
      rw [List.foldl_cons, tval_cons]
      cases hm : m p.1.name with
      | some y =>
        simp only
        obtain ⟨i1, i2⟩ := ih (s.1.mul (y.pow p.2), s.2) hs
        refine ⟨?_, fun x hx => ?_⟩
        · rw [i1]
          simp only
          rw [Coef.mul_val, Coef.pow_val]
          have : override ρ m p.1.name = y.val := by unfold override; rw [hm]
          rw [this]; ring
        · obtain ⟨h1, h2⟩ := i2 x hx
          exact ⟨h1.imp (List.mem_cons_of_mem _) id, h2⟩
      | none =>
        simp only
        obtain ⟨i1, i2⟩ := ih (s.1, s.2 ++ [p]) (fun x hx => (List.mem_append.mp hx).elim (hs x) (fun h => by
          rw [List.mem_singleton.mp h]; exact hm))
        refine ⟨?_, fun x hx => ?_⟩
        · rw [i1]
          simp only
          rw [tval_append, tval_cons, tval_nil]
          have : override ρ m p.1.name = ρ p.1.name := by unfold override; rw [hm]
          rw [this]; ring
        · obtain ⟨h1, h2⟩ := i2 x hx
          refine ⟨?_, h2⟩
          rcases h1 with h1 | h1
          · exact Or.inl (List.mem_cons_of_mem _ h1)
          · rcases List.mem_append.mp h1 with h1 | h1
            · exact Or.inr h1
            · rw [List.mem_singleton.mp h1]; exact Or.inl List.mem_cons_self
  obtain ⟨k1, k2⟩ := key t (.rat 1, []) (fun x hx => by simp at hx)
  refine ⟨?_, fun x hx => ?_⟩
  · refine Eq.trans k1 ?_
    simp [Coef.val, tval_nil]
  · obtain ⟨h1, h2⟩ := k2 x hx
    exact ⟨h1.resolve_right (by simp), h2⟩

/-- C37, substitution: the value of `p` with values substituted is the value of `p` at the extended valuation, modulo 2. -/
theorem substitute_sound {ρ : String → ℂ} (m : String → Option Coef) {p : Poly} (hp : BoolVal ρ p) :
    EqMod2 (pval ρ (p.substitute m)) (pval (override ρ m) p) := by
  have key : ∀ (l acc : Poly), BoolVal ρ l → BoolVal ρ acc →
      EqMod2 (pval ρ (l.foldl (fun acc e => acc.add [(e.1.mul (Term.substitute m e.2).1, (Term.substitute m e.2).2)]) acc))
        (pval ρ acc + pval (override ρ m) l) := by
    intro l
    induction l with
    | nil => intro acc _ _; exact EqMod2.of_eq (by simp [pval_nil])
    | cons e r ih =>
      intro acc hl hacc
      obtain ⟨s1, s2⟩ := tsubst_val ρ m e.2
      have h1 : BoolVal ρ [(e.1.mul (Term.substitute m e.2).1, (Term.substitute m e.2).2)] := fun a ha x hx => by
        rw [List.mem_singleton] at ha
        rw [ha] at hx
        exact hl e (by simp) x (s2 x hx).1
      rw [List.foldl_cons]
      refine (ih _ (fun a ha => hl a (by simp [ha])) (hacc.add h1)).trans ?_
      refine ((add_sound hacc h1).add (EqMod2.refl _)).trans (EqMod2.of_eq ?_)
      rw [pval_cons, pval_cons, pval_nil, ← s1, Coef.mul_val]; ring
  have := key p [] hp (fun e he => by simp at he)
  rw [pval_nil, zero_add] at this
  exact this

/-! ### Reduction modulo 2 -/

/-- `p % 2` keeps the phase if coefficients are not complex and there are only Boolean variables. -/
theorem mod2_sound_partial {ρ : String → ℂ} {p : Poly} (hb : ∀ e ∈ p, ∀ x ∈ e.2, ρ x.1.name = 0 ∨ ρ x.1.name = 1)
    (hc : ∀ e ∈ p, ∃ q, e.1 = .rat q) : EqMod2 (pval ρ p.mod2) (pval ρ p) := by
  induction p with
  | nil => exact EqMod2.refl _
  | cons a r ih =>
    obtain ⟨q, hq⟩ := hc a (by simp)
    obtain ⟨c, t⟩ := a
    simp only at hq
    subst hq
    have : Poly.mod2 ((.rat q, t) :: r) = (.rat (PyZX.mod2 q), t) :: Poly.mod2 r := by
      unfold Poly.mod2
      rw [List.filterMap_cons]
    rw [this, pval_cons, pval_cons]
    refine EqMod2.add ?_ (ih (fun e he => hb e (by simp [he])) (fun e he => hc e (by simp [he])))
    obtain ⟨k, hk⟩ := tval_int (ρ := ρ) (t := t) (hb (.rat q, t) (by simp))
    refine ⟨-(⌊q / 2⌋ * k), ?_⟩
    simp only
    rw [hk]
    unfold Coef.val PyZX.mod2
    push_cast
    ring

/-- A continuous variable. -/
def exTheta : Poly := Poly.var ⟨"theta", false⟩
/-- A Boolean variable. -/
def exX : Poly := Poly.var ⟨"x", true⟩

theorem add_self_theta : exTheta.add exTheta = [(.rat 2, [(⟨"theta", false⟩, 1)])] := by
  unfold exTheta Poly.var Poly.add
  have h1 : Term.same [((⟨"theta", false⟩ : Var), 1)] [(⟨"theta", false⟩, 1)] := List.Perm.refl _
  have h2 : ¬ Term.allBool [((⟨"theta", false⟩ : Var), 1)] := fun h => by simpa using h.2 _ List.mem_cons_self
  simp only [List.cons_append, List.nil_append, List.foldl_cons, List.foldl_nil, Poly.insert, if_pos h1, reduce_exact h2, Coef.add]
  norm_num [Coef.val]

/-- The stored phase of a spider is `phase % 2` (`set_phase`, `/repo/pyzx/graph/graph_s.py` lines 295-305). For a continuous variable this is wrong: two
spiders with phase `theta` fuse into one with phase `0 * theta`. -/
theorem mod2_continuous_wrong : ∃ ρ : String → ℂ, pval ρ (exTheta.add exTheta).mod2 = 0 ∧ ¬ EqMod2 (pval ρ exTheta + pval ρ exTheta) 0 := by
  refine ⟨fun _ => 1 / 2, ?_, ?_⟩
  · rw [add_self_theta]
    have : Poly.mod2 [(.rat 2, [((⟨"theta", false⟩ : Var), 1)])] = [(.rat 0, [((⟨"theta", false⟩ : Var), 1)])] := by
      unfold Poly.mod2
      have : PyZX.mod2 2 = 0 := by norm_num [PyZX.mod2]
      simp [this]
    rw [this, pval_cons, pval_nil]
    simp [Coef.val]
  · rintro ⟨k, hk⟩
    have : pval (fun _ => (1 / 2 : ℂ)) exTheta = 1 / 2 := by
      unfold exTheta Poly.var
      rw [pval_cons, pval_nil, tval_cons, tval_nil]
      simp [Coef.val]
    rw [this] at hk
    have h1 : (1 : ℂ) = ((2 * k : ℤ) : ℂ) := by push_cast; linear_combination hk
    have h2 : (1 : ℤ) = 2 * k := by exact_mod_cast h1
    omega

/-- The reduction makes arithmetic depend on the order of operations: `(x + x) / 2` is 0, not `x`. -/
theorem add_then_mul_wrong : ∃ ρ : String → ℂ, BoolVal ρ exX ∧
    ¬ EqMod2 (pval ρ ((exX.add exX).mul (Poly.const (.rat (1 / 2))))) ((pval ρ exX + pval ρ exX) * (1 / 2)) := by
  refine ⟨fun _ => 1, fun e _ x _ _ => Or.inr rfl, ?_⟩
  have h0 : exX.add exX = [] := by
    unfold exX Poly.var Poly.add
    have h1 : Term.same [((⟨"x", true⟩ : Var), 1)] [(⟨"x", true⟩, 1)] := List.Perm.refl _
    have h2 : Term.allBool [((⟨"x", true⟩ : Var), 1)] := ⟨by simp, fun x hx => by rw [List.mem_singleton.mp hx]⟩
    have m1 : PyZX.mod2 1 = 1 := by norm_num [PyZX.mod2]
    have m2 : PyZX.mod2 2 = 0 := by norm_num [PyZX.mod2]
    simp only [List.cons_append, List.nil_append, List.foldl_cons, List.foldl_nil, Poly.insert, if_pos h1, reduce, if_pos h2, Coef.add, m1]
    norm_num [Coef.val, m2]
  rw [h0]
  have h1 : Poly.mul [] (Poly.const (.rat (1 / 2))) = [] := rfl
  rw [h1, pval_nil]
  rintro ⟨k, hk⟩
  have : pval (fun _ => (1 : ℂ)) exX = 1 := by
    unfold exX Poly.var
    rw [pval_cons, pval_nil, tval_cons, tval_nil]
    simp [Coef.val]
  rw [this] at hk
  have h2 : (-1 : ℂ) = ((2 * k : ℤ) : ℂ) := by push_cast; linear_combination hk
  have h3 : (-1 : ℤ) = 2 * k := by exact_mod_cast h2
  omega

/-- The square of a Boolean variable is not reduced: `x * x` and `x` have equal values but compare different. -/
theorem bool_square_not_reduced : exX.mul exX = [(.rat 1, [(⟨"x", true⟩, 2)])] ∧ ¬ Poly.eq (exX.mul exX) exX ∧
    ∀ ρ : String → ℂ, BoolVal ρ exX → pval ρ (exX.mul exX) = pval ρ exX := by
  have h0 : exX.mul exX = [(.rat 1, [(⟨"x", true⟩, 2)])] := by
    have ht : Term.mul [((⟨"x", true⟩ : Var), 1)] [(⟨"x", true⟩, 1)] = [(⟨"x", true⟩, 2)] := by
      simp [Term.mul, Term.insert]
    have h2 : Term.allBool [((⟨"x", true⟩ : Var), 2)] := ⟨by simp, fun x hx => by rw [List.mem_singleton.mp hx]⟩
    have m1 : PyZX.mod2 1 = 1 := by norm_num [PyZX.mod2]
    unfold exX Poly.var Poly.mul
    simp only [List.foldl_cons, List.foldl_nil, ht, Coef.mul, mul_one]
    unfold Poly.add
    simp only [List.nil_append, List.foldl_cons, List.foldl_nil, Poly.insert, reduce, if_pos h2, m1]
    norm_num [Coef.val]
  refine ⟨h0, ?_, ?_⟩
  · rw [h0]
    rintro ⟨h, -⟩
    obtain ⟨b, hb, -, hs⟩ := h _ List.mem_cons_self
    unfold exX Poly.var at hb
    rw [List.mem_singleton.mp hb] at hs
    have := hs.eq_singleton
    simp at this
  · intro ρ h
    rw [h0]
    unfold exX Poly.var at h ⊢
    rw [pval_cons, pval_cons, pval_nil, tval_cons, tval_cons, tval_nil]
    have := h _ List.mem_cons_self _ List.mem_cons_self rfl
    simp only at this ⊢
    rw [bool_pow this (by norm_num : 0 < 2), bool_pow this (by norm_num : 0 < 1)]

/-- Powers are wrong too: `(3/2 x)^3` at `x = 1` is `3/8`, while the cube is `27/8`. -/
theorem pow_wrong : ∃ (ρ : String → ℂ) (p : Poly), BoolVal ρ p ∧ ¬ EqMod2 (pval ρ (p.pow 3)) (pval ρ p ^ 3) := by
  refine ⟨fun _ => 1, [(.rat (3 / 2), [(⟨"x", true⟩, 1)])], fun e _ x _ _ => Or.inr rfl, ?_⟩
  have all : ∀ n, Term.allBool [((⟨"x", true⟩ : Var), n)] := fun n => ⟨by simp, fun x hx => by rw [List.mem_singleton.mp hx]⟩
  have t1 : Term.mul [((⟨"x", true⟩ : Var), 1)] [(⟨"x", true⟩, 1)] = [(⟨"x", true⟩, 2)] := by simp [Term.mul, Term.insert]
  have t2 : Term.mul [((⟨"x", true⟩ : Var), 1)] [(⟨"x", true⟩, 2)] = [(⟨"x", true⟩, 1)] := by simp [Term.mul, Term.insert]
  have m1 : PyZX.mod2 (3 / 2 * (3 / 2)) = 1 / 4 := by
    unfold PyZX.mod2; rw [show ⌊(3 / 2 * (3 / 2) : ℚ) / 2⌋ = 1 by rw [Int.floor_eq_iff]; norm_num]; norm_num
  have m2 : PyZX.mod2 (3 / 2 * (1 / 4)) = 3 / 8 := by
    unfold PyZX.mod2; rw [show ⌊(3 / 2 * (1 / 4) : ℚ) / 2⌋ = 0 by rw [Int.floor_eq_iff]; norm_num]; norm_num
  have p2 : Poly.mul [(.rat (3 / 2), [((⟨"x", true⟩ : Var), 1)])] [(.rat (3 / 2), [(⟨"x", true⟩, 1)])] = [(.rat (1 / 4), [(⟨"x", true⟩, 2)])] := by
    unfold Poly.mul
    simp only [List.foldl_cons, List.foldl_nil, t1, Coef.mul]
    unfold Poly.add
    simp only [List.nil_append, List.foldl_cons, List.foldl_nil, Poly.insert, reduce, if_pos (all _), m1]
    norm_num [Coef.val]
  have p3 : Poly.mul [(.rat (3 / 2), [((⟨"x", true⟩ : Var), 1)])] [(.rat (1 / 4), [(⟨"x", true⟩, 2)])] = [(.rat (3 / 8), [(⟨"x", true⟩, 1)])] := by
    unfold Poly.mul
    simp only [List.foldl_cons, List.foldl_nil, t2, Coef.mul]
    unfold Poly.add
    simp only [List.nil_append, List.foldl_cons, List.foldl_nil, Poly.insert, reduce, if_pos (all _), m2]
    norm_num [Coef.val]
  have e3 : Poly.pow [(.rat (3 / 2), [((⟨"x", true⟩ : Var), 1)])] 3 = [(.rat (3 / 8), [(⟨"x", true⟩, 1)])] := by
    refine Eq.trans (b := Poly.mul _ (Poly.mul _ [(.rat (3 / 2), [((⟨"x", true⟩ : Var), 1)])])) rfl ?_
    rw [p2, p3]
  rw [e3]
  rintro ⟨k, hk⟩
  rw [pval_cons, pval_cons, pval_nil, tval_cons, tval_nil] at hk
  simp only [Coef.val] at hk
  have h2 : (-3 : ℂ) = ((2 * k : ℤ) : ℂ) := by
    push_cast at hk ⊢
    linear_combination hk
  have h3 : (-3 : ℤ) = 2 * k := by exact_mod_cast h2
  omega

/-! ### Comparison -/

/-- No term occurs twice. -/
def Distinct (p : Poly) : Prop := p.Pairwise fun a b => ¬ Term.same a.2 b.2

theorem Term.same_symm {s t : Term} (h : Term.same s t) : Term.same t s := List.Perm.symm h
theorem Term.same_trans {r s t : Term} (h : Term.same r s) (h' : Term.same s t) : Term.same r t := List.Perm.trans h h'

/-- The sum of two polynomials has no term twice. -/
theorem add_distinct (p q : Poly) : Distinct (p.add q) := by
  have ins : ∀ (acc : Poly) (c : Coef) (t : Term), Distinct acc → Distinct (acc.insert (c, t)) ∧
      ∀ e ∈ acc.insert (c, t), (∃ a ∈ acc, a.2 = e.2) ∨ e.2 = t := by
    intro acc c t
    induction acc with
    | nil =>
      intro _
      refine ⟨List.pairwise_singleton _ _, fun e he => Or.inr ?_⟩
      rw [List.mem_singleton.mp he]
    | cons b bs ih =>
      obtain ⟨d, u⟩ := b
      intro h
      rw [Distinct, List.pairwise_cons] at h
      unfold Poly.insert
      by_cases hs : Term.same u t
      · rw [if_pos hs]
        refine ⟨List.pairwise_cons.mpr h, fun e he => Or.inl ?_⟩
        rcases List.mem_cons.mp he with rfl | he
        · exact ⟨(d, u), List.mem_cons_self, rfl⟩
        · exact ⟨e, List.mem_cons_of_mem _ he, rfl⟩
      · rw [if_neg hs]
        obtain ⟨i1, i2⟩ := ih h.2
        refine ⟨List.pairwise_cons.mpr ⟨fun e he => ?_, i1⟩, fun e he => ?_⟩
        · rcases i2 e he with ⟨a, ha, hae⟩ | het
          · rw [← hae]; exact h.1 a ha
          · rw [het]; exact hs
        · rcases List.mem_cons.mp he with rfl | he
          · exact Or.inl ⟨_, List.mem_cons_self, rfl⟩
          · exact (i2 e he).imp (fun ⟨a, ha, hae⟩ => ⟨a, List.mem_cons_of_mem _ ha, hae⟩) id
  have fold : ∀ (l acc : Poly), Distinct acc → Distinct (l.foldl Poly.insert acc) := by
    intro l
    induction l with
    | nil => intro acc h; exact h
    | cons a r ih => intro acc h; rw [List.foldl_cons]; exact ih _ (ins acc a.1 a.2 h).1
  exact (fold _ [] List.Pairwise.nil).filter _

/-- Equal polynomials have equal values. -/
theorem eq_sound {ρ : String → ℂ} {p q : Poly} (hp : Distinct p) (hq : Distinct q) (h : p.eq q) : pval ρ p = pval ρ q := by
  induction p generalizing q with
  | nil =>
    cases q with
    | nil => rfl
    | cons b r =>
      obtain ⟨a, ha, -⟩ := h.2 b List.mem_cons_self
      simp at ha
  | cons a r ih =>
    obtain ⟨b, hb, hv, hs⟩ := h.1 a List.mem_cons_self
    obtain ⟨q1, q2, rfl⟩ := List.append_of_mem hb
    rw [Distinct, List.pairwise_cons] at hp
    have hq' := hq
    rw [Distinct, List.pairwise_middle (R := fun a b : Coef × Term => ¬ Term.same a.2 b.2) (fun hx h => hx (Term.same_symm h)),
      List.pairwise_cons] at hq'
    have := ih hp.2 hq'.2 ⟨fun a' ha' => by
      obtain ⟨b', hb', hv', hs'⟩ := h.1 a' (List.mem_cons_of_mem _ ha')
      refine ⟨b', ?_, hv', hs'⟩
      rcases List.mem_append.mp hb' with h1 | h1
      · exact List.mem_append_left _ h1
      · rcases List.mem_cons.mp h1 with h2 | h1
        · subst h2
          exact absurd (Term.same_trans hs (Term.same_symm hs')) (hp.1 a' ha')
        · exact List.mem_append_right _ h1, fun b' hb' => by
      obtain ⟨a', ha', hv', hs'⟩ := h.2 b' (by
        rcases List.mem_append.mp hb' with h1 | h1
        · exact List.mem_append_left _ h1
        · exact List.mem_append_right _ (List.mem_cons_of_mem _ h1))
      refine ⟨a', ?_, hv', hs'⟩
      rcases List.mem_cons.mp ha' with h2 | h2
      · subst h2
        exact absurd (Term.same_trans (Term.same_symm hs) hs') (hq'.1 b' hb')
      · exact h2⟩
    rw [pval_cons, this, pval_append, pval_append, pval_cons, hv, tval_same ρ hs]
    ring

/-- Without the hypothesis `eq_sound` is false, but the arithmetic operations establish it; here a pair of polynomials that compare equal. -/
example : Distinct [(.rat 1, [(⟨"x", true⟩, 1)]), (.rat (1 / 2), [])] ∧
    Poly.eq [(.rat 1, [(⟨"x", true⟩, 1)]), (.rat (1 / 2), [])] [(.rat (1 / 2), []), (.rat 1, [(⟨"x", true⟩, 1)])] := by
  refine ⟨?_, ?_, ?_⟩
  · refine List.pairwise_cons.mpr ⟨fun b hb h => ?_, List.pairwise_singleton _ _⟩
    rw [List.mem_singleton.mp hb] at h
    have := h.length_eq
    simp at this
  · intro a ha
    exact ⟨a, by simp only [List.mem_cons, List.not_mem_nil, or_false] at ha ⊢; exact ha.symm, rfl, List.Perm.refl _⟩
  · intro a ha
    exact ⟨a, by simp only [List.mem_cons, List.not_mem_nil, or_false] at ha ⊢; exact ha.symm, rfl, List.Perm.refl _⟩

/-! ### Recognising Pauli and Clifford phases -/

/-- `is_pauli` is sound: the phase is an integer (a multiple of pi) for all values of the Boolean variables. -/
theorem isPauli_sound {ρ : String → ℂ} {p : Poly} (h : p.isPauli) (hb : BoolVal ρ p) : ∃ k : ℤ, pval ρ p = k := by
  induction p with
  | nil => exact ⟨0, by simp [pval_nil]⟩
  | cons a r ih =>
    obtain ⟨k, hk⟩ := ih (fun e he => h e (by simp [he])) (fun e he => hb e (by simp [he]))
    obtain ⟨q, hq, hv, hf⟩ := h a (by simp)
    obtain ⟨j, hj⟩ := tval_int (ρ := ρ) (t := a.2) fun x hx => hb a (by simp) x hx (hv x hx)
    have hq' : q = (⌊q⌋ : ℤ) := by
      have := Int.floor_add_fract q
      rw [hf, add_zero] at this
      exact this.symm
    refine ⟨⌊q⌋ * j + k, ?_⟩
    rw [pval_cons, hk, hj, hq]
    unfold Coef.val
    push_cast
    rw [show ((q : ℚ) : ℂ) = ((⌊q⌋ : ℤ) : ℂ) by
      conv_lhs => rw [hq']
      push_cast; rfl]

/-- `is_clifford` is sound: the phase is a multiple of 1/2 for all values of the Boolean variables. -/
theorem isClifford_sound {ρ : String → ℂ} {p : Poly} (h : p.isClifford) (hb : BoolVal ρ p) : ∃ k : ℤ, pval ρ p = k / 2 := by
  induction p with
  | nil => exact ⟨0, by simp [pval_nil]⟩
  | cons a r ih =>
    obtain ⟨k, hk⟩ := ih (fun e he => h e (by simp [he])) (fun e he => hb e (by simp [he]))
    obtain ⟨q, hq, hv, hf⟩ := h a (by simp)
    obtain ⟨j, hj⟩ := tval_int (ρ := ρ) (t := a.2) fun x hx => hb a (by simp) x hx (hv x hx)
    obtain ⟨i, hi⟩ : ∃ i : ℤ, ((q : ℚ) : ℂ) = i / 2 := by
      have fl : ∀ y : ℚ, Int.fract y = 0 → ∃ i : ℤ, y = i := fun y hy => ⟨⌊y⌋, by
        have := Int.floor_add_fract y
        rw [hy, add_zero] at this
        exact this.symm⟩
      by_cases h0 : a.2 ≠ []
      · rw [if_pos h0] at hf
        obtain ⟨i, hi⟩ := fl q hf
        exact ⟨2 * i, by rw [hi]; push_cast; ring⟩
      · rw [if_neg h0] at hf
        obtain ⟨i, hi⟩ := fl _ hf
        have hi' : ((q * 2 : ℚ) : ℂ) = ((i : ℚ) : ℂ) := by rw [hi]
        push_cast at hi'
        exact ⟨i, by linear_combination hi' / 2⟩
    refine ⟨i * j + k, ?_⟩
    rw [pval_cons, hk, hj, hq]
    unfold Coef.val
    simp only
    rw [hi]
    push_cast
    ring

/-- The hypotheses hold for `x + 1/2` and `3 x y + theta`. -/
example : ∃ ρ : String → ℂ, BoolVal ρ [(.rat 1, [(⟨"x", true⟩, 1)]), (.rat (1 / 2), [])] ∧
    BoolVal ρ [(.rat 3, [(⟨"x", true⟩, 1), (⟨"y", true⟩, 1)]), (.rat 1, [(⟨"theta", false⟩, 1)])] ∧ ρ "theta" ≠ 0 ∧ ρ "theta" ≠ 1 ∧ ρ "y" ≠ ρ "x" := by
  refine ⟨fun n => if n = "x" then 1 else if n = "y" then 0 else 1 / 3, ?_, ?_, ?_, ?_, ?_⟩
  · intro e he x hx hb
    simp only [List.mem_cons, List.not_mem_nil, or_false] at he
    rcases he with rfl | rfl
    · rw [List.mem_singleton.mp hx]; exact Or.inr (by simp)
    · simp at hx
  · intro e he x hx hb
    simp only [List.mem_cons, List.not_mem_nil, or_false] at he
    rcases he with rfl | rfl
    · simp only [List.mem_cons, List.not_mem_nil, or_false] at hx
      rcases hx with rfl | rfl
      · exact Or.inr (by simp)
      · exact Or.inl (by simp)
    · rw [List.mem_singleton.mp hx] at hb
      simp at hb
  · simp
  · beta_reduce; rw [if_neg (by decide : ¬ "theta" = "x"), if_neg (by decide : ¬ "theta" = "y")]; norm_num
  · beta_reduce; rw [if_neg (by decide : ¬ "y" = "x"), if_pos rfl, if_pos rfl]; norm_num

/-- The hypotheses of `add_exact` and `mul_exact`: `theta + 1/2` and `theta * x`. -/
example : NoBoolTerm [(.rat 1, [(⟨"theta", false⟩, 1)]), (.rat (1 / 2), [])] ∧
    NoBoolTerm [(.rat 1, [(⟨"theta", false⟩, 1), (⟨"x", true⟩, 1)])] ∧
    Typed (fun n => n = "x") [(.rat 1, [(⟨"theta", false⟩, 1), (⟨"x", true⟩, 1)])] := by
  refine ⟨?_, ?_, ?_⟩
  · intro e he
    simp only [List.mem_cons, List.not_mem_nil, or_false] at he
    rcases he with rfl | rfl
    · exact fun h => by simpa using h.2 _ List.mem_cons_self
    · exact fun h => h.1 rfl
  · intro e he
    rw [List.mem_singleton.mp he]
    exact fun h => by simpa using h.2 _ List.mem_cons_self
  · intro e he x hx
    rw [List.mem_singleton.mp he] at hx
    simp only [List.mem_cons, List.not_mem_nil, or_false] at hx
    rcases hx with rfl | rfl <;> simp

/-- The hypotheses of `mod2_sound_partial` and `isPauli_sound`. -/
example : (∀ e ∈ ([(.rat 3, [(⟨"x", true⟩, 1)]), (.rat 1, [])] : Poly), ∃ q, e.1 = .rat q) ∧
    Poly.isPauli [(.rat 3, [(⟨"x", true⟩, 1)]), (.rat 1, [])] ∧ Poly.isClifford [(.rat 3, [(⟨"x", true⟩, 1)]), (.rat (1 / 2), [])] := by
  refine ⟨?_, ?_, ?_⟩
  · intro e he
    simp only [List.mem_cons, List.not_mem_nil, or_false] at he
    rcases he with rfl | rfl
    · exact ⟨3, rfl⟩
    · exact ⟨1, rfl⟩
  · intro e he
    simp only [List.mem_cons, List.not_mem_nil, or_false] at he
    rcases he with rfl | rfl
    · exact ⟨3, rfl, fun x hx => by rw [List.mem_singleton.mp hx], by norm_num⟩
    · exact ⟨1, rfl, fun x hx => by simp at hx, by norm_num⟩
  · intro e he
    simp only [List.mem_cons, List.not_mem_nil, or_false] at he
    rcases he with rfl | rfl
    · exact ⟨3, rfl, fun x hx => by rw [List.mem_singleton.mp hx], by rw [if_pos (by simp)]; norm_num⟩
    · exact ⟨1 / 2, rfl, fun x hx => by simp at hx, by rw [if_neg (by simp)]; norm_num⟩

end Symb
end PyZX
