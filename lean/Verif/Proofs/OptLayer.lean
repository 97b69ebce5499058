import Verif.Proofs.OptPlace3

/-!
# Helper lemmas for `basic_optimization`: gates that are to be placed later
-/

namespace PyZX
namespace Optimize

open scoped List

/-! ### NOT and Z gates -/

/-- The sign of the Z gates on some qubits. -/
def sgn (l : List ℕ) (x : ℕ → Bool) : ℂ := (l.map fun q => sg (x q)).prod

/-- The basis state with some qubits flipped. -/
def flips (l : List ℕ) (x : ℕ → Bool) : ℕ → Bool := fun q => xor (x q) (decide (q ∈ l))

theorem sem_nots : ∀ {l : List ℕ}, l.Nodup → ∀ ψ x, semGates (l.map Gate.mkNOT) ψ x = ψ (flips l x)
  | [], _, ψ, x => by rw [List.map_nil, semGates_nil]; congr 1; funext q; simp [flips]
  | a :: l, h, ψ, x => by
    obtain ⟨h1, h2⟩ := List.nodup_cons.mp h
    rw [List.map_cons, semGates_cons, sem_nots h2, sem_mkNOT_apply]
    congr 1
    funext q
    by_cases hq : q = a
    · subst hq; simp [flips, h1]
    · rw [upd_ne hq]; simp [flips, hq]

theorem sem_zs : ∀ (l : List ℕ) (ψ : QState) (x : ℕ → Bool), semGates (l.map Gate.mkZ) ψ x = sgn l x * ψ x
  | [], ψ, x => by simp [sgn, semGates_nil]
  | a :: l, ψ, x => by
    rw [List.map_cons, semGates_cons, sem_zs l, sem_mkZ_apply]
    simp only [sgn, List.map_cons, List.prod_cons]
    ring

/-- The Z gates and the NOT gates. -/
def P (zs nots : List ℕ) : List Gate := zs.map Gate.mkZ ++ nots.map Gate.mkNOT

theorem sem_P {zs nots : List ℕ} (h : nots.Nodup) (ψ : QState) (x : ℕ → Bool) :
    semGates (P zs nots) ψ x = sgn zs (flips nots x) * ψ (flips nots x) := by
  rw [P, semGates_append, sem_nots h, sem_zs]

theorem sgn_perm {l m : List ℕ} (h : l.Perm m) (x : ℕ → Bool) : sgn l x = sgn m x := (h.map _).prod_eq

theorem sgn_cons (a : ℕ) (l : List ℕ) (x : ℕ → Bool) : sgn (a :: l) x = sg (x a) * sgn l x := by simp [sgn]

theorem sgn_erase {l : List ℕ} {t : ℕ} (h : t ∈ l) (x : ℕ → Bool) : sgn l x = sg (x t) * sgn (l.erase t) x := by
  rw [sgn_perm (List.perm_cons_erase h), sgn_cons]

theorem sgn_toggle (l : List ℕ) (t : ℕ) (x : ℕ → Bool) : sgn (toggle l t) x = sgn l x * sg (x t) := by
  unfold toggle
  split
  · rename_i h
    rw [sgn_erase h]
    linear_combination (-(sgn (l.erase t) x)) * sg_mul_self (x t)
  · simp [sgn]

theorem sgn_notMem {l : List ℕ} {t : ℕ} (h : t ∉ l) (x : ℕ → Bool) (b : Bool) : sgn l (Function.update x t b) = sgn l x := by
  unfold sgn
  congr 1
  refine List.map_congr_left fun q hq => ?_
  rw [upd_ne]
  rintro rfl
  exact h hq

theorem toggle_nodup {l : List ℕ} (h : l.Nodup) (t : ℕ) : (toggle l t).Nodup := by
  unfold toggle
  split
  · exact h.erase t
  · rename_i ht
    rw [List.nodup_append]
    refine ⟨h, by simp, ?_⟩
    rintro a ha b hb rfl
    rw [List.mem_singleton] at hb
    exact ht (hb ▸ ha)

theorem mem_toggle {l : List ℕ} (h : l.Nodup) (t q : ℕ) : q ∈ toggle l t ↔ (if q = t then q ∉ l else q ∈ l) := by
  unfold toggle
  by_cases ht : t ∈ l
  · rw [if_pos ht, h.mem_erase_iff]
    by_cases hq : q = t
    · subst hq; simp [ht]
    · simp [hq]
  · rw [if_neg ht, List.mem_append, List.mem_singleton]
    by_cases hq : q = t
    · subst hq; simp [ht]
    · simp [hq]

theorem toggle_lt {n : ℕ} {l : List ℕ} (h : ∀ q ∈ l, q < n) {t : ℕ} (ht : t < n) : ∀ q ∈ toggle l t, q < n := by
  intro q hq
  unfold toggle at hq
  split at hq
  · exact h q (List.mem_of_mem_erase hq)
  · rcases List.mem_append.mp hq with hq | hq
    · exact h q hq
    · rw [List.mem_singleton.mp hq]; exact ht

theorem flips_toggle {l : List ℕ} (h : l.Nodup) (t : ℕ) (x : ℕ → Bool) : flips (toggle l t) x = flips l (Function.update x t (!x t)) := by
  funext q
  simp only [flips]
  by_cases hq : q = t
  · subst hq
    rw [Function.update_self]
    by_cases hm : q ∈ l
    · have : q ∉ toggle l q := by rw [mem_toggle h]; simp [hm]
      simp [hm, this]
    · have : q ∈ toggle l q := by rw [mem_toggle h]; simp [hm]
      simp [hm, this]
  · rw [upd_ne hq]
    have : q ∈ toggle l t ↔ q ∈ l := by rw [mem_toggle h, if_neg hq]
    simp only [this]

theorem P_not {zs nots : List ℕ} (h : nots.Nodup) (t : ℕ) : Eqv (P zs nots ++ [.mkNOT t]) (P zs (toggle nots t)) := by
  refine .of_eq fun ψ => ?_
  funext x
  rw [semGates_append, semGates_cons, semGates_nil, sem_mkNOT_apply, sem_P h, sem_P (toggle_nodup h t), flips_toggle h]

theorem P_zfront {zs nots : List ℕ} (h : nots.Nodup) (t : ℕ) : Eqv (.mkZ t :: P zs nots) (P (toggle zs t) nots) := by
  refine .of_eq fun ψ => ?_
  funext x
  rw [semGates_cons, sem_P h, sem_P h, sem_mkZ_apply, sgn_toggle]
  ring

theorem P_cz {zs nots : List ℕ} (h : nots.Nodup) (a b : ℕ) : Eqv (P zs nots ++ [.cz a b])
    (.cz a b :: P (if b ∈ nots then toggle (if a ∈ nots then toggle zs b else zs) a else if a ∈ nots then toggle zs b else zs) nots) := by
  refine ⟨if a ∈ nots ∧ b ∈ nots then -1 else 1, by split <;> simp, fun ψ x => ?_⟩
  rw [semGates_append, semGates_cons, semGates_cons, semGates_nil, sem_cz_apply, sem_P h, sem_P h, sem_cz_apply]
  have ea : flips nots x a = xor (x a) (decide (a ∈ nots)) := rfl
  have eb : flips nots x b = xor (x b) (decide (b ∈ nots)) := rfl
  generalize ψ (flips nots x) = w
  by_cases ha : a ∈ nots <;> by_cases hb : b ∈ nots <;> simp only [ha, hb, if_true, if_false, sgn_toggle, ea, eb, decide_true, decide_false, and_self, and_false, false_and] <;>
    generalize sgn zs (flips nots x) = v <;> rcases x a <;> rcases x b <;> simp

theorem P_cnot {zs nots : List ℕ} (h : nots.Nodup) (hz : zs.Nodup) {c t : ℕ} (hct : c ≠ t) : Eqv (P zs nots ++ [.cnot c t])
    (.cnot c t :: P (if t ∈ zs then toggle zs c else zs) (if c ∈ nots then toggle nots t else nots)) := by
  refine .of_eq fun ψ => ?_
  have h' : (if c ∈ nots then toggle nots t else nots).Nodup := by split; exact toggle_nodup h t; exact h
  funext x
  rw [semGates_append, semGates_cons, semGates_cons, semGates_nil, sem_cnot_apply, sem_P h, sem_P h', sem_cnot_apply]
  set y := flips (if c ∈ nots then toggle nots t else nots) x with hy
  have e : flips nots (Function.update x t (x t ^^ x c)) = Function.update y t (y t ^^ y c) := by
    funext q
    by_cases hq : q = t
    · subst hq
      rw [Function.update_self, hy]
      simp only [flips, Function.update_self]
      by_cases hc : c ∈ nots
      · have hc' : c ∈ toggle nots q := by rw [mem_toggle h, if_neg hct]; exact hc
        simp only [hc, if_true, hc', decide_true]
        by_cases hqn : q ∈ nots
        · have : q ∉ toggle nots q := by rw [mem_toggle h]; simp [hqn]
          simp only [hqn, this, decide_true, decide_false]
          rcases x q <;> rcases x c <;> rfl
        · have : q ∈ toggle nots q := by rw [mem_toggle h]; simp [hqn]
          simp only [hqn, this, decide_true, decide_false]
          rcases x q <;> rcases x c <;> rfl
      · simp only [hc, if_false, decide_false]
        rcases x q <;> rcases x c <;> simp
    · rw [upd_ne hq, hy]
      simp only [flips, upd_ne hq]
      congr 2
      split
      · rw [mem_toggle h, if_neg hq]
      · rfl
  rw [e]
  congr 1
  by_cases ht : t ∈ zs
  · rw [if_pos ht, sgn_toggle, sgn_erase ht, Function.update_self, sgn_notMem (fun h' => (hz.mem_erase_iff.mp h').1 rfl), sg_xor, sgn_erase ht y]
    ring
  · rw [if_neg ht, sgn_notMem ht]

theorem P_zrot {zs nots : List ℕ} (h : nots.Nodup) {t : ℕ} {p p1 p2 : ℚ} (h1 : p1 = if t ∈ zs then mod2 (p + 1) else p)
    (h2 : p2 = if t ∈ nots then mod2 (-p1) else p1) (a b : ZCls) (i j : Bool) :
    Eqv (P zs nots ++ [.zrot a t p i]) (.zrot b t p2 j :: P (zs.erase t) nots) := by
  refine ⟨if t ∈ nots then ph p else 1, by split <;> simp [norm_ph], fun ψ x => ?_⟩
  rw [semGates_append, semGates_cons, semGates_cons, semGates_nil, sem_zrot_apply, sem_P h, sem_P h, sem_zrot_apply]
  have e1 : ph p1 = (if t ∈ zs then -1 else 1) * ph p := by
    rw [h1]; split <;> simp [ph_add]
  have e0 : ph p1 ≠ 0 := ph_ne_zero _
  have ep : ph p ≠ 0 := ph_ne_zero _
  have e2 : ph p2 = if t ∈ nots then (ph p1)⁻¹ else ph p1 := by
    rw [h2]; split <;> simp [ph_neg]
  have e3 : sgn zs (flips nots x) = (if t ∈ zs then sg (flips nots x t) else 1) * sgn (zs.erase t) (flips nots x) := by
    by_cases hz : t ∈ zs
    · rw [if_pos hz, sgn_erase hz]
    · rw [if_neg hz, List.erase_of_not_mem hz, one_mul]
  have ex : flips nots x t = xor (x t) (decide (t ∈ nots)) := rfl
  rw [e3, e2, e1, ex]
  generalize ψ (flips nots x) = w
  generalize sgn (zs.erase t) (flips nots x) = v
  by_cases hn : t ∈ nots <;> by_cases hz : t ∈ zs <;> simp only [hn, hz, if_true, if_false, decide_true, decide_false] <;> rcases x t <;> simp <;>
    field_simp

/-- The Z gates and NOT gates behind a Hadamard gate. -/
def hadZ (zs nots : List ℕ) (t : ℕ) : List ℕ :=
  if t ∈ nots ∧ t ∉ zs then zs ++ [t] else if t ∈ zs ∧ t ∉ nots then zs.erase t else zs

/-- See `hadZ`. -/
def hadX (zs nots : List ℕ) (t : ℕ) : List ℕ :=
  if t ∈ nots ∧ t ∉ zs then nots.erase t else if t ∈ zs ∧ t ∉ nots then nots ++ [t] else nots

theorem hadX_eq (zs nots : List ℕ) (t : ℕ) : hadX zs nots t = if (t ∈ nots ∧ t ∉ zs) ∨ (t ∈ zs ∧ t ∉ nots) then toggle nots t else nots := by
  unfold hadX toggle
  by_cases hn : t ∈ nots <;> by_cases hz : t ∈ zs <;> simp [hn, hz]

theorem hadZ_eq (zs nots : List ℕ) (t : ℕ) : hadZ zs nots t = if (t ∈ nots ∧ t ∉ zs) ∨ (t ∈ zs ∧ t ∉ nots) then toggle zs t else zs := by
  unfold hadZ toggle
  by_cases hn : t ∈ nots <;> by_cases hz : t ∈ zs <;> simp [hn, hz]

theorem P_had {zs nots : List ℕ} (h : nots.Nodup) (hz : zs.Nodup) (t : ℕ) :
    Eqv (P zs nots ++ [.had t]) (.had t :: P (hadZ zs nots t) (hadX zs nots t)) := by
  have h' : (hadX zs nots t).Nodup := by rw [hadX_eq]; split; exact toggle_nodup h t; exact h
  refine ⟨if t ∈ zs ∧ t ∈ nots then -1 else 1, by split <;> simp, fun ψ x => ?_⟩
  rw [semGates_append, semGates_cons, semGates_cons, semGates_nil, sem_had_apply, sem_P h, sem_P h, sem_P h', sem_had_apply]
  -- the bits away from `t`
  have ew : ∀ b, flips nots (Function.update x t b) = Function.update (flips nots x) t (xor b (decide (t ∈ nots))) := by
    intro b
    funext q
    by_cases hq : q = t
    · subst hq; simp [flips]
    · simp [flips, upd_ne hq]
  have ev : ∀ b, Function.update (flips (hadX zs nots t) x) t b = Function.update (flips nots x) t b := by
    intro b
    funext q
    by_cases hq : q = t
    · subst hq; simp
    · simp only [upd_ne hq, flips]
      congr 2
      rw [hadX_eq]
      split
      · rw [mem_toggle h, if_neg hq]
      · rfl
  have es : ∀ b, sgn zs (Function.update (flips nots x) t b) = (if t ∈ zs then sg b else 1) * sgn (zs.erase t) (flips nots x) := by
    intro b
    by_cases hm : t ∈ zs
    · rw [if_pos hm, sgn_erase hm, Function.update_self, sgn_notMem (fun h' => (hz.mem_erase_iff.mp h').1 rfl)]
    · rw [if_neg hm, sgn_notMem hm, List.erase_of_not_mem hm, one_mul]
  have ez : sgn (zs.erase t) (flips (hadX zs nots t) x) = sgn (zs.erase t) (flips nots x) := by
    have hn : t ∉ zs.erase t := fun h' => (hz.mem_erase_iff.mp h').1 rfl
    rw [← sgn_notMem hn (flips (hadX zs nots t) x) false, ev, sgn_notMem hn]
  have e3 : sgn zs (flips (hadX zs nots t) x) = (if t ∈ zs then sg (flips (hadX zs nots t) x t) else 1) * sgn (zs.erase t) (flips nots x) := by
    by_cases hm : t ∈ zs
    · rw [if_pos hm, sgn_erase hm, ez]
    · rw [if_neg hm, ← ez, List.erase_of_not_mem hm, one_mul]
  have ex : flips (hadX zs nots t) x t = xor (x t) (decide (t ∈ hadX zs nots t)) := rfl
  rw [ew, ew, ev, ev, es, es, hadZ_eq]
  have hmem : t ∈ hadX zs nots t ↔ t ∈ zs := by
    rw [hadX_eq]
    by_cases hn : t ∈ nots <;> by_cases hm : t ∈ zs <;> simp [hn, hm, mem_toggle h]
  rw [ex]
  simp only [hmem] at ex ⊢
  generalize sgn (zs.erase t) (flips nots x) = v at *
  generalize flips nots x = w at *
  by_cases hn : t ∈ nots <;> by_cases hm : t ∈ zs <;>
    simp only [hn, hm, if_true, if_false, decide_true, decide_false, not_true, not_false_iff, and_self, and_true, and_false, or_self, or_false, or_true,
      sgn_toggle, e3, ex, Bool.xor_false, Bool.xor_true, Bool.not_false, Bool.not_true] <;>
    rcases x t <;> simp <;> ring

end Optimize
end PyZX
