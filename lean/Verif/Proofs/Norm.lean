import Verif.Spec.Norm
import Verif.Props.Circuit
import Verif.Spec.ToGraph
import Verif.Proofs.ExtQ

/-!
# Gates keep the norm of states
-/

namespace PyZX

open Graph Finset

theorem bits_update {n t : ℕ} (ht : t < n) (x : Fin n → Bool) (b : Bool) : Function.update (bits x) t b = bits (Function.update x ⟨t, ht⟩ b) := by
  funext q
  unfold bits
  by_cases c : q = t
  · subst c
    rw [Function.update_self, dif_pos ht, Function.update_self]
  · rw [Function.update_of_ne c]
    by_cases hq : q < n
    · rw [dif_pos hq, dif_pos hq, Function.update_of_ne]
      intro e
      exact c (congrArg Fin.val e)
    · rw [dif_neg hq, dif_neg hq]

theorem sum_flip {n : ℕ} (t : Fin n) (F : (Fin n → Bool) → ℝ) : ∑ x, F (Function.update x t (!x t)) = ∑ x, F x := by
  have hinv : Function.Involutive fun x : Fin n → Bool => Function.update x t (!x t) := by
    intro x
    simp
  exact Equiv.sum_comp hinv.toPerm F

theorem sum_pair {n : ℕ} (t : Fin n) (F : (Fin n → Bool) → ℝ) :
    2 * ∑ x, F x = ∑ x : Fin n → Bool, (F (Function.update x t false) + F (Function.update x t true)) := by
  rw [two_mul]
  nth_rewrite 2 [← sum_flip t F]
  rw [← sum_add_distrib]
  refine sum_congr rfl fun x _ => ?_
  have hx : ∀ b, x t = b → Function.update x t b = x := by rintro _ rfl; simp
  cases hb : x t with
  | false => rw [hx false hb, Bool.not_false]
  | true => rw [hx true hb, Bool.not_true, add_comm]

/-- Two states whose norms agree on every pair of basis states that differ in qubit `t`. -/
theorem norm2_pair {n t : ℕ} (ht : t < n) {ψ φ : QState}
    (h : ∀ y, ‖φ (Function.update y t false)‖ ^ 2 + ‖φ (Function.update y t true)‖ ^ 2 =
      ‖ψ (Function.update y t false)‖ ^ 2 + ‖ψ (Function.update y t true)‖ ^ 2) : φ.norm2 n = ψ.norm2 n := by
  have key : 2 * φ.norm2 n = 2 * ψ.norm2 n := by
    unfold QState.norm2
    rw [sum_pair ⟨t, ht⟩, sum_pair ⟨t, ht⟩]
    refine sum_congr rfl fun x _ => ?_
    rw [← bits_update ht, ← bits_update ht]
    exact h _
  linarith

theorem norm2_smul {n : ℕ} {z : ℂ} (hz : ‖z‖ = 1) {ψ φ : QState} (h : ∀ x, φ x = z * ψ x) : φ.norm2 n = ψ.norm2 n := by
  unfold QState.norm2
  refine sum_congr rfl fun x _ => ?_
  rw [h, norm_mul, hz, one_mul]

/-- The matrix keeps the norm of every vector. -/
def Unit2 (U : Matrix Bool Bool ℂ) : Prop :=
  ∀ u v : ℂ, ‖U false false * u + U false true * v‖ ^ 2 + ‖U true false * u + U true true * v‖ ^ 2 = ‖u‖ ^ 2 + ‖v‖ ^ 2

theorem para (u v : ℂ) : ‖u + v‖ ^ 2 + ‖u - v‖ ^ 2 = 2 * (‖u‖ ^ 2 + ‖v‖ ^ 2) := by
  have := parallelogram_law_with_norm ℝ u v
  nlinarith [this]

theorem unit_matZ (p : ℚ) : Unit2 (matZ p) := by
  intro u v
  simp only [matZ, mat2]
  rw [one_mul, zero_mul, add_zero, zero_mul, zero_add, norm_mul, norm_ph, one_mul]

theorem unit_matX (p : ℚ) : Unit2 (matX p) := by
  intro u v
  simp only [matX, mat2]
  have e1 : (1 + ph p) / 2 * u + (1 - ph p) / 2 * v = (u + v) / 2 + ph p * (u - v) / 2 := by ring
  have e2 : (1 - ph p) / 2 * u + (1 + ph p) / 2 * v = (u + v) / 2 - ph p * (u - v) / 2 := by ring
  rw [e1, e2, para, norm_div, norm_div, norm_mul, norm_ph, one_mul, div_pow, div_pow, ← add_div, para]
  norm_num
  ring

theorem norm_sq2 : ‖sq2‖ ^ 2 = 2 := by
  rw [← norm_pow, sq2_sq]
  norm_num

theorem unit_matH : Unit2 matH := by
  intro u v
  simp only [matH, mat2]
  have e1 : sq2⁻¹ * u + sq2⁻¹ * v = (u + v) / sq2 := by rw [div_eq_mul_inv]; ring
  have e2 : sq2⁻¹ * u + -sq2⁻¹ * v = (u - v) / sq2 := by rw [div_eq_mul_inv]; ring
  rw [e1, e2, norm_div, norm_div, div_pow, div_pow, ← add_div, para, norm_sq2]
  ring

theorem unit_X : Unit2 (mat2 0 1 1 0) := by
  intro u v
  simp only [mat2]
  rw [zero_mul, zero_add, one_mul, one_mul, zero_mul, add_zero, add_comm]

theorem unit_Z : Unit2 (mat2 1 0 0 (-1)) := by
  intro u v
  simp only [mat2]
  rw [one_mul, zero_mul, add_zero, zero_mul, zero_add, neg_one_mul, norm_neg]

theorem on1_norm {n t : ℕ} (ht : t < n) {U : Matrix Bool Bool ℂ} (hU : Unit2 U) (ψ : QState) : (on1 U t ψ).norm2 n = ψ.norm2 n := by
  refine norm2_pair ht fun y => ?_
  unfold on1
  simp only [Fintype.sum_bool, Function.update_self, Function.update_idem]
  rw [add_comm (U false true * _), add_comm (U true true * _)]
  exact hU _ _

theorem ctrl_norm {n c t : ℕ} (ht : t < n) (hct : c ≠ t) {U : Matrix Bool Bool ℂ} (hU : Unit2 U) (ψ : QState) :
    (ctrl U c t ψ).norm2 n = ψ.norm2 n := by
  refine norm2_pair ht fun y => ?_
  unfold ctrl
  rw [Function.update_of_ne hct, Function.update_of_ne hct]
  cases y c with
  | false => rfl
  | true =>
    rw [if_pos rfl, if_pos rfl]
    unfold on1
    simp only [Fintype.sum_bool, Function.update_self, Function.update_idem]
    rw [add_comm (U false true * _), add_comm (U true true * _)]
    exact hU _ _

theorem fsim_norm {n c t : ℕ} (hc : c < n) (ht : t < n) (phi : ℚ) (ψ : QState) : ((Gate.fsim c t phi).sem ψ).norm2 n = ψ.norm2 n := by
  unfold QState.norm2
  have e : ∀ x : Fin n → Bool, swapBits c t (bits x) = bits (x ∘ Equiv.swap ⟨c, hc⟩ ⟨t, ht⟩) := by
    intro x
    funext q
    unfold swapBits bits
    by_cases hq : q < n
    · have h1 : Equiv.swap c t q < n := by
        rw [Equiv.swap_apply_def]
        split_ifs <;> assumption
      rw [dif_pos hq, dif_pos h1]
      simp only [Function.comp_apply]
      congr 1
      rw [Fin.ext_iff]
      simp only [Equiv.swap_apply_def, Fin.mk.injEq]
      split_ifs <;> rfl
    · have h1 : Equiv.swap c t q = q := Equiv.swap_apply_of_ne_of_ne (by rintro rfl; exact hq hc) (by rintro rfl; exact hq ht)
      rw [h1, dif_neg hq, dif_neg hq]
  have h2 : ∀ x : Fin n → Bool, ‖(Gate.fsim c t phi).sem ψ (bits x)‖ ^ 2 = ‖ψ (bits (x ∘ Equiv.swap ⟨c, hc⟩ ⟨t, ht⟩))‖ ^ 2 := by
    intro x
    simp only [Gate.sem]
    rw [norm_mul, e]
    have : ‖(if bits x c = bits x t then (if bits x c = true then ph (-phi) else 1) else -Complex.I : ℂ)‖ = 1 := by
      split_ifs
      · exact norm_ph _
      · simp
      · simp
    rw [this, one_mul]
  simp only [h2]
  exact Equiv.sum_comp ((Equiv.swap (⟨c, hc⟩ : Fin n) ⟨t, ht⟩).arrowCongr (Equiv.refl Bool)) (fun x => ‖ψ (bits x)‖ ^ 2)

theorem basic_norm {n : ℕ} {a : Gate} (hb : Props.IsBasic a) (hn : a.qubits.Nodup) (hq : ∀ q ∈ a.qubits, q < n) (ψ : QState) :
    (a.sem ψ).norm2 n = ψ.norm2 n := by
  cases a with
  | zrot _ t p _ => exact on1_norm (hq t (by simp [Gate.qubits])) (unit_matZ p) ψ
  | xrot _ t p _ => exact on1_norm (hq t (by simp [Gate.qubits])) (unit_matX p) ψ
  | had t => exact on1_norm (hq t (by simp [Gate.qubits])) unit_matH ψ
  | cnot c t => exact ctrl_norm (hq t (by simp [Gate.qubits])) (by simpa [Gate.qubits] using hn) unit_X ψ
  | cz c t => exact ctrl_norm (hq t (by simp [Gate.qubits])) (by simpa [Gate.qubits] using hn) unit_Z ψ
  | fsim c t phi => exact fsim_norm (hq c (by simp [Gate.qubits])) (hq t (by simp [Gate.qubits])) phi ψ
  | _ => exact absurd hb id

theorem basics_norm {n : ℕ} (gs : List Gate) : (∀ a ∈ gs, Props.IsBasic a ∧ a.qubits.Nodup ∧ ∀ q ∈ a.qubits, q < n) → ∀ ψ : QState,
    (semGates gs ψ).norm2 n = ψ.norm2 n := by
  induction gs with
  | nil => intros; rfl
  | cons a gs ih =>
    intro h ψ
    obtain ⟨h1, h2, h3⟩ := h a (by simp)
    rw [semGates_cons, ih fun b hb => h b (by simp [hb])]
    exact basic_norm h1 h2 h3 ψ

/-- Every gate keeps the norm. -/
theorem gate_norm {n : ℕ} {a : Gate} (hn : a.qubits.Nodup) (hq : ∀ q ∈ a.qubits, q < n) (ψ : QState) : (a.sem ψ).norm2 n = ψ.norm2 n := by
  by_cases he : a.qubits = []
  · cases a with
    | parity p ts =>
      have : ts = [] := he
      subst this
      congr 1
      funext x
      simp [Gate.sem, parityOf]
    | rzz _ _ ts p =>
      have : ts = [] := he
      subst this
      congr 1
      funext x
      simp [Gate.sem, parityOf]
    | _ => exact absurd he (List.cons_ne_nil _ _)
  · obtain ⟨z, hz, h⟩ := Props.toBasic_sound (g := a) ⟨he, hn⟩
    rw [← norm2_smul hz (h ψ)]
    refine basics_norm _ (fun b hb => ?_) ψ
    obtain ⟨b1, b2, b3⟩ := Props.toBasic_basic (g := a) ⟨he, hn⟩ b hb
    exact ⟨b1, b3, fun q hqq => hq q (b2 hqq)⟩

/-- Every circuit keeps the norm. -/
theorem semGates_norm {n : ℕ} (gs : List Gate) : (∀ a ∈ gs, a.qubits.Nodup ∧ ∀ q ∈ a.qubits, q < n) → ∀ ψ : QState,
    (semGates gs ψ).norm2 n = ψ.norm2 n := by
  induction gs with
  | nil => intros; rfl
  | cons a gs ih =>
    intro h ψ
    rw [semGates_cons, ih fun b hb => h b (by simp [hb])]
    exact gate_norm (h a (by simp)).1 (h a (by simp)).2 ψ

theorem basisState_norm (n : ℕ) (x : ℕ → Bool) : (basisState n x).norm2 n = 1 := by
  unfold QState.norm2
  rw [Finset.sum_eq_single fun q : Fin n => x q]
  · rw [basisState, if_pos]
    · simp
    · intro q hq
      simp [bits, hq]
  · intro y _ hne
    rw [basisState, if_neg]
    · simp
    · intro hc
      refine hne (funext fun q => ?_)
      have := hc q q.2
      simpa [bits] using this
  · simp

/-- The number by which two circuits differ has modulus 1. -/
theorem norm_of_prop {n : ℕ} {gs hs : List Gate} (hg : ∀ a ∈ gs, a.qubits.Nodup ∧ ∀ q ∈ a.qubits, q < n)
    (hh : ∀ a ∈ hs, a.qubits.Nodup ∧ ∀ q ∈ a.qubits, q < n) {z : ℂ}
    {x x' : ℕ → Bool} (h : ∀ y, semGates gs (basisState n x) y = z * semGates hs (basisState n x') y) : ‖z‖ = 1 := by
  have h1 : (semGates gs (basisState n x)).norm2 n = 1 := by rw [semGates_norm gs hg, basisState_norm]
  have h2 : (semGates hs (basisState n x')).norm2 n = 1 := by rw [semGates_norm hs hh, basisState_norm]
  have h3 : (semGates gs (basisState n x)).norm2 n = ‖z‖ ^ 2 * (semGates hs (basisState n x')).norm2 n := by
    unfold QState.norm2
    rw [mul_sum]
    refine sum_congr rfl fun y _ => ?_
    rw [h, norm_mul, mul_pow]
  rw [h1, h2, mul_one] at h3
  have := norm_nonneg z
  nlinarith

/-- Circuits are injective on the states of `n` qubits. -/
theorem semGates_inj_bits {n : ℕ} {gs : List Gate} (hg : ∀ a ∈ gs, a.qubits.Nodup ∧ ∀ q ∈ a.qubits, q < n) {ψ φ : QState}
    (e : semGates gs ψ = semGates gs φ) (x : Fin n → Bool) : ψ (bits x) = φ (bits x) := by
  have h0 : semGates gs (fun y => ψ y - φ y) = fun _ => 0 := by
    have := (gatesLin gs).map_sub ψ φ
    change semGates gs (ψ - φ) = semGates gs ψ - semGates gs φ at this
    rw [e, sub_self] at this
    exact this
  have h1 := semGates_norm gs hg fun y => ψ y - φ y
  rw [h0] at h1
  unfold QState.norm2 at h1
  simp only [norm_zero, ne_eq, OfNat.ofNat_ne_zero, not_false_eq_true, zero_pow, sum_const_zero] at h1
  have h2 := (sum_eq_zero_iff_of_nonneg fun y _ => by positivity).mp h1.symm x (mem_univ x)
  rw [pow_eq_zero_iff (by norm_num), norm_eq_zero] at h2
  exact sub_eq_zero.mp h2

end PyZX
