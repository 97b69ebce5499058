import Verif.Proofs.Circuit

/-!
# Helper lemmas for gates: gates computed pointwise
-/

namespace PyZX

open Complex

set_option linter.unusedSimpArgs false
set_option linter.unnecessarySeqFocus false

theorem on1Z_apply (p : ℚ) (t : ℕ) (ψ : QState) (x : ℕ → Bool) :
    on1 (matZ p) t ψ x = (if x t then ph p else 1) * ψ x := by
  rw [on1_apply]
  rcases hx : x t with _ | _
  · have : Function.update x t false = x := by rw [← hx]; exact Function.update_eq_self t x
    simp [matZ, mat2, this]
  · have : Function.update x t true = x := by rw [← hx]; exact Function.update_eq_self t x
    simp [matZ, mat2, this]

/-- The action of a CNOT on basis states. -/
def cxBits (c t : ℕ) (x : ℕ → Bool) : ℕ → Bool := Function.update x t (xor (x t) (x c))

theorem cx_apply (c t : ℕ) (x : ℕ → Bool) (q : ℕ) : cxBits c t x q = if q = t then xor (x t) (x c) else x q := by
  rw [cxBits, Function.update_apply]

theorem cnot_apply (c t : ℕ) (ψ : QState) (x : ℕ → Bool) : ctrl (mat2 0 1 1 0) c t ψ x = ψ (cxBits c t x) := by
  rw [ctrl, on1_apply, cxBits]
  rcases hc : x c with _ | _
  · rw [if_neg (by simp), Bool.xor_false, Function.update_eq_self]
  · rw [if_pos rfl]
    rcases ht : x t with _ | _ <;> simp [mat2]

theorem had_apply (t : ℕ) (ψ : QState) (x : ℕ → Bool) : on1 matH t ψ x =
    sq2⁻¹ * (ψ (Function.update x t false) + (if x t then -1 else 1) * ψ (Function.update x t true)) := by
  rw [on1_apply]
  rcases x t with _ | _ <;> simp [matH, mat2] <;> ring

theorem cxBits_invol {c t : ℕ} (h : c ≠ t) (x : ℕ → Bool) : cxBits c t (cxBits c t x) = x := by
  funext q
  simp only [cx_apply, if_neg h]
  by_cases hq : q = t
  · subst hq; simp
  · simp [hq]

theorem swap_sound {c t : ℕ} (h : c ≠ t) (ψ : QState) (x : ℕ → Bool) :
    semGates (Gate.swap c t).toBasic ψ x = 1 * (Gate.swap c t).sem ψ x := by
  change _ = 1 * ψ (swapBits c t x)
  simp only [Gate.toBasic, semGates_cons, semGates_nil, sem_cnot, cnot_apply, one_mul]
  congr 1
  funext q
  simp only [cx_apply, swapBits, Equiv.swap_apply_def, if_neg h, if_neg (Ne.symm h), if_true]
  by_cases h1 : q = c
  · subst h1; simp [h, Bool.xor_comm, Bool.xor_left_comm]
  · by_cases h2 : q = t
    · subst h2; simp [h1]
    · simp [h1, h2]

theorem flip_update (x : ℕ → Bool) (c : ℕ) : ∀ b, Function.update x c b = if x c = b then x else flipBit c x := by
  intro b
  by_cases h : x c = b
  · rw [if_pos h, ← h, Function.update_eq_self]
  · rw [if_neg h, flipBit]; congr 1; cases b <;> cases hx : x c <;> simp_all

theorem flip_same (c : ℕ) (x : ℕ → Bool) : flipBit c x c = !x c := by simp [flipBit]
theorem flip_ne {c q : ℕ} (h : q ≠ c) (x : ℕ → Bool) : flipBit c x q = x q := by simp [flipBit, h]
theorem flip_flip (c : ℕ) (x : ℕ → Bool) : flipBit c (flipBit c x) = x := by simp [flipBit]
theorem flip_comm {c t : ℕ} (h : c ≠ t) (x : ℕ → Bool) : flipBit c (flipBit t x) = flipBit t (flipBit c x) := by
  simp only [flipBit]
  rw [Function.update_of_ne h, Function.update_of_ne (Ne.symm h), Function.update_comm h]

theorem cx_eq_flip (c t : ℕ) (x : ℕ → Bool) : cxBits c t x = if x c then flipBit t x else x := by
  rw [cxBits, flipBit]
  rcases x c with _ | _ <;> simp

theorem xcx_sound {c t : ℕ} (h : c ≠ t) (ψ : QState) (x : ℕ → Bool) :
    semGates (Gate.xcx c t).toBasic ψ x = 1 * (Gate.xcx c t).sem ψ x := by
  change _ = 1 * ((ψ x + ψ (flipBit c x) + ψ (flipBit t x) - ψ (flipBit c (flipBit t x))) / 2)
  simp only [Gate.toBasic, semGates_cons, semGates_nil, sem_cnot, sem_had, cnot_apply, had_apply]
  simp only [cx_eq_flip, flip_update]
  have hs : sq2⁻¹ * sq2⁻¹ = 1/2 := by rw [sq2_inv]; linear_combination sq2_mul_self / 4
  rcases hc : x c with _ | _
  · simp only [if_true, if_false, hc, flip_same, flip_ne h, flip_flip, Bool.not_false, Bool.not_true, Bool.false_eq_true,
      reduceCtorEq, flip_comm h]
    linear_combination (ψ x + ψ (flipBit c x) + ψ (flipBit t x) - ψ (flipBit t (flipBit c x))) * hs
  · simp only [if_true, if_false, hc, flip_same, flip_ne h, flip_flip, Bool.not_false, Bool.not_true, Bool.false_eq_true,
      reduceCtorEq, flip_comm h]
    linear_combination (ψ x + ψ (flipBit c x) + ψ (flipBit t x) - ψ (flipBit t (flipBit c x))) * hs

theorem ccz_sem {c1 c2 t : ℕ} (h1 : c1 ≠ c2) (h2 : c1 ≠ t) (h3 : c2 ≠ t) (ψ : QState) (x : ℕ → Bool) :
    semGates (Gate.cczBasic c1 c2 t) ψ x = if x c1 && x c2 && x t then -ψ x else ψ x := by
  simp only [Gate.cczBasic, semGates_cons, semGates_nil, sem_cnot, sem_t, sem_tdg, cnot_apply, on1Z_apply]
  have hfin : ∀ y, cxBits c2 t (cxBits c1 t (cxBits c2 t (cxBits c1 t (cxBits c1 c2 (cxBits c1 c2 y))))) = y := by
    intro y
    rw [cxBits_invol h1]
    funext q
    simp only [cx_apply, if_neg h2, if_neg h3, if_neg h1.symm, if_neg h2.symm, if_neg h3.symm, if_true]
    by_cases hq : q = t
    · subst hq; rcases y c1 <;> rcases y c2 <;> simp
    · simp [hq]
  rw [hfin]
  simp only [cx_apply, if_neg h1, if_neg h2, if_neg h3, if_neg h1.symm, if_neg h2.symm, if_neg h3.symm, if_true, ph_neg]
  have h0 := ph_ne_zero (1/4)
  have hd : ph (1/4) * ph (1/4) = I := by rw [← ph_add, ← ph_half]; norm_num
  have hd4 : ph (1/4) ^ 4 = -1 := by have := Complex.I_sq; rw [← hd] at this; linear_combination this
  generalize ph (1/4) = e at *
  rcases x c1 <;> rcases x c2 <;> rcases x t <;> simp <;> field_simp <;> (try linear_combination (ψ x) * hd4)

theorem tof_sem {c1 c2 t : ℕ} (h1 : c1 ≠ c2) (h2 : c1 ≠ t) (h3 : c2 ≠ t) (ψ : QState) (x : ℕ → Bool) :
    semGates (Gate.tofBasic c1 c2 t) ψ x = if x c1 && x c2 then ψ (flipBit t x) else ψ x := by
  have hl : Gate.tofBasic c1 c2 t = [Gate.had t] ++ Gate.cczBasic c1 c2 t ++ [Gate.had t] := rfl
  rw [hl]
  simp only [semGates_append, semGates_cons, semGates_nil, sem_had]
  rw [had_apply]
  simp only [ccz_sem h1 h2 h3, had_apply, flip_update]
  have hs : sq2⁻¹ * sq2⁻¹ = 1/2 := by rw [sq2_inv]; linear_combination sq2_mul_self / 4
  rcases ha : x c1 with _ | _ <;> rcases hb : x c2 with _ | _ <;> rcases hc : x t with _ | _ <;>
    simp only [ha, hb, hc, if_true, if_false, flip_same, flip_ne h2, flip_ne h3, flip_flip, Bool.not_false, Bool.not_true,
      Bool.false_eq_true, reduceCtorEq, Bool.and_true, Bool.and_false, Bool.and_self] <;>
    first
      | linear_combination (2 * ψ x) * hs
      | linear_combination (2 * ψ (flipBit t x)) * hs

theorem cswap_sound {c1 c2 t : ℕ} (h1 : c1 ≠ c2) (h2 : c1 ≠ t) (h3 : c2 ≠ t) (ψ : QState) (x : ℕ → Bool) :
    semGates (Gate.cswap c1 c2 t).toBasic ψ x = 1 * (Gate.cswap c1 c2 t).sem ψ x := by
  change _ = 1 * (if x c1 then ψ (swapBits c2 t x) else ψ x)
  simp only [Gate.toBasic, semGates_append, semGates_cons, semGates_nil, sem_cnot, cnot_apply]
  rw [tof_sem h1 h2 h3]
  simp only [cnot_apply, one_mul]
  have e1 : cxBits t c2 x c1 = x c1 := by rw [cx_apply, if_neg h1]
  have e2 : cxBits t c2 x c2 = xor (x c2) (x t) := by rw [cx_apply, if_pos rfl]
  rw [e1, e2, cxBits_invol h3.symm]
  rcases ha : x c1 with _ | _
  · simp
  · simp only [Bool.true_and, if_true]
    by_cases hx : xor (x c2) (x t) = true
    · rw [if_pos hx]
      congr 1
      funext q
      simp only [cx_apply, swapBits, flipBit, Function.update_apply, Equiv.swap_apply_def, if_neg h3, if_neg h3.symm, if_true]
      by_cases hq : q = c2
      · subst hq; simp [h3]; cases hb : x q <;> cases hc : x t <;> simp_all
      · by_cases hq' : q = t
        · subst hq'; simp [h3, hq]; cases hb : x c2 <;> cases hc : x q <;> simp_all
        · simp [hq, hq']
    · rw [if_neg hx]
      congr 1
      funext q
      simp only [swapBits, Equiv.swap_apply_def]
      have he : x c2 = x t := by cases hb : x c2 <;> cases hc : x t <;> simp_all
      by_cases hq : q = c2
      · subst hq; simp [he]
      · by_cases hq' : q = t
        · subst hq'; simp [hq, he]
        · simp [hq, hq']

theorem parity_cons (t : ℕ) (ts : List ℕ) (x : ℕ → Bool) : parityOf (t :: ts) x = xor (x t) (parityOf ts x) := rfl

theorem parity_congr {ts : List ℕ} {x y : ℕ → Bool} (h : ∀ t ∈ ts, x t = y t) : parityOf ts x = parityOf ts y := by
  induction ts with
  | nil => rfl
  | cons a r ih => rw [parity_cons, parity_cons, h a (by simp), ih fun t ht => h t (by simp [ht])]

theorem parityBasic_cons (p : ℚ) (a b : ℕ) (r : List ℕ) :
    Gate.parityBasic p (a :: b :: r) = Gate.cnot a b :: (Gate.parityBasic p (b :: r) ++ [Gate.cnot a b]) := by
  simp only [Gate.parityBasic, List.length_cons, Nat.add_sub_cancel, List.range_succ_eq_map, List.map_cons, List.map_map]
  have : (fun i => Gate.cnot ((a :: b :: r).getD i 0) ((a :: b :: r).getD (i + 1) 0)) ∘ Nat.succ =
      fun i => Gate.cnot ((b :: r).getD i 0) ((b :: r).getD (i + 1) 0) := by
    funext i; simp
  rw [this]
  simp

theorem parity_sem (p : ℚ) : ∀ (ts : List ℕ), ts ≠ [] → ts.Nodup → ∀ (ψ : QState) (x : ℕ → Bool),
    semGates (Gate.parityBasic p ts) ψ x = (if parityOf ts x then ph p else 1) * ψ x
  | [], h, _, _, _ => absurd rfl h
  | [a], _, _, ψ, x => by
    simp [Gate.parityBasic, semGates_cons, semGates_nil, sem_zphase, on1Z_apply, parityOf]
  | a :: b :: r, _, hn, ψ, x => by
    rw [parityBasic_cons, semGates_cons, semGates_append, semGates_cons, semGates_nil]
    simp only [sem_cnot, cnot_apply]
    have hn' := List.nodup_cons.mp hn
    have hab : a ≠ b := fun h => hn'.1 (by simp [h])
    rw [parity_sem p (b :: r) (by simp) hn'.2, cnot_apply, cxBits_invol hab]
    congr 2
    rw [parity_cons, parity_cons, parity_cons, cx_apply, if_pos rfl, parity_congr (y := x), ← Bool.xor_assoc, Bool.xor_comm (x b) (x a)]
    intro t ht
    rw [cx_apply, if_neg]
    rintro rfl
    exact (List.nodup_cons.mp hn'.2).1 ht

theorem rxx_mid {c t : ℕ} (h : c ≠ t) (p : ℚ) (ψ : QState) (x : ℕ → Bool) :
    semGates [Gate.had t, Gate.cnot c t, Gate.mkZPhase t (-p), Gate.cnot c t, Gate.had t] ψ x =
      (1 + ph (-p)) / 2 * ψ x + (1 - ph (-p)) / 2 * (if x c then -1 else 1) * ψ (flipBit t x) := by
  simp only [semGates_cons, semGates_nil, sem_had, sem_cnot, sem_zphase]
  rw [had_apply]
  simp only [cnot_apply, on1Z_apply, had_apply]
  simp only [cx_eq_flip, flip_update]
  have hs : sq2⁻¹ * sq2⁻¹ = 1/2 := by rw [sq2_inv]; linear_combination sq2_mul_self / 4
  generalize ph (-p) = e
  rcases hb : x c with _ | _ <;> rcases hc : x t with _ | _ <;>
    simp only [hb, hc, if_true, if_false, flip_same, flip_ne h, flip_flip, Bool.not_false, Bool.not_true,
      Bool.false_eq_true, reduceCtorEq] <;>
    first
      | linear_combination ((1 + e) * ψ x + (1 - e) * ψ (flipBit t x)) * hs
      | linear_combination ((1 + e) * ψ x - (1 - e) * ψ (flipBit t x)) * hs

theorem rxx_sound {c t : ℕ} (h : c ≠ t) (p : ℚ) (ψ : QState) (x : ℕ → Bool) :
    semGates (Gate.rxx c t p).toBasic ψ x = ph (1 - p/2) * (Gate.rxx c t p).sem ψ x := by
  change _ = ph (1 - p/2) * (hcos p * ψ x - Complex.I * hsin p * ψ (flipBit c (flipBit t x)))
  simp only [Gate.toBasic]
  rw [semGates_append, semGates_append, u2_on1, u3_on1, on1_smul, on1_apply, rxx_mid h, rxx_mid h]
  simp only [on1_smul]
  have e1 : ph (1/2 + 1/2/2) = I * ph (1/4) := by rw [ph_add, ph_half]; norm_num
  have e2 : ph (1/2/2) = ph (1/4) := by norm_num
  have e3 : ph (1 - p/2) = -(ph (p/2))⁻¹ := by rw [ph_sub, ph_one, neg_div, one_div]
  have e4 : ph (1 - p) = -(ph (p/2) * ph (p/2))⁻¹ := by rw [ph_sub, ph_one, ph_dbl p, neg_div, one_div]
  have e5 : ph (-p) = (ph (p/2) * ph (p/2))⁻¹ := by rw [ph_neg, ph_dbl p]
  have e6 : ph (-1) = -1 := by rw [ph_neg, ph_one]; norm_num
  have h0 := ph_ne_zero (1/4)
  have h1 := ph_ne_zero (p/2)
  have hd : I = ph (1/4) * ph (1/4) := by rw [← ph_add, ← ph_half]; norm_num
  have hd4 : ph (1/4) ^ 4 = -1 := by have := Complex.I_sq; rw [hd] at this; linear_combination this
  simp only [on1_apply, flip_update, matU, ph_add, ph_mod2, ph_zero, e1, e2, e3, e4, e5, e6, hcos_eq, hsin_eq, mul_one, add_zero]
  rw [ph_dbl p]
  generalize ph (1/4) = a at *
  generalize ph (p/2) = e at *
  rw [hd]
  have hd5 : a ^ 5 = -a := by linear_combination a * hd4
  have hd6 : a ^ 6 = -a^2 := by linear_combination a^2 * hd4
  have hd7 : a ^ 7 = -a^3 := by linear_combination a^3 * hd4
  have hd8 : a ^ 8 = 1 := by linear_combination (a^4 - 1) * hd4
  have hd10 : a ^ 10 = a^2 := by linear_combination a^2 * hd8
  rcases hb : x c with _ | _
  · simp only [hb, if_true, if_false, flip_same, flip_ne h, flip_flip, Bool.not_false, Bool.not_true,
      Bool.false_eq_true, reduceCtorEq, mat2, ← flip_comm h]
    generalize ψ x = y1
    generalize ψ (flipBit c x) = y2
    generalize ψ (flipBit t x) = y3
    generalize ψ (flipBit c (flipBit t x)) = y4
    field_simp
    ring_nf
    simp only [hd4, hd5, hd6, hd7, hd8, hd10]
    ring
  · simp only [hb, if_true, if_false, flip_same, flip_ne h, flip_flip, Bool.not_false, Bool.not_true,
      Bool.false_eq_true, reduceCtorEq, mat2, ← flip_comm h]
    generalize ψ x = y1
    generalize ψ (flipBit c x) = y2
    generalize ψ (flipBit t x) = y3
    generalize ψ (flipBit c (flipBit t x)) = y4
    field_simp
    ring_nf
    simp only [hd4, hd5, hd6, hd7, hd8, hd10]
    ring

end PyZX
