import Verif.Spec.Circuit

/-!
# Helper lemmas for gates: blocks of two-by-two matrices
-/

namespace PyZX

open Complex

set_option linter.unusedSimpArgs false
set_option linter.unnecessarySeqFocus false

theorem on1_apply (U : Matrix Bool Bool ℂ) (t : ℕ) (ψ : QState) (x : ℕ → Bool) :
    on1 U t ψ x = U (x t) false * ψ (Function.update x t false) + U (x t) true * ψ (Function.update x t true) := by
  simp only [on1, Fintype.sum_bool]; ring

theorem on1_mul (U V : Matrix Bool Bool ℂ) (t : ℕ) (ψ : QState) : on1 U t (on1 V t ψ) = on1 (U * V) t ψ := by
  funext x
  simp only [on1_apply, Function.update_self, Function.update_idem, Matrix.mul_apply, Fintype.sum_bool]
  ring

theorem on1_smul (z : ℂ) (U : Matrix Bool Bool ℂ) (t : ℕ) (ψ : QState) (x : ℕ → Bool) :
    on1 (z • U) t ψ x = z * on1 U t ψ x := by
  simp only [on1_apply, Matrix.smul_apply, smul_eq_mul]; ring

theorem on1_one (t : ℕ) (ψ : QState) : on1 1 t ψ = ψ := by
  funext x
  rw [on1_apply]
  rcases h : x t with _ | _
  · have : Function.update x t false = x := by rw [← h]; exact Function.update_eq_self t x
    simp [this]
  · have : Function.update x t true = x := by rw [← h]; exact Function.update_eq_self t x
    simp [this]

/-- Acts with `A` or `B` on qubit `t` depending on qubit `c`. -/
noncomputable def blk (c t : ℕ) (A B : Matrix Bool Bool ℂ) (ψ : QState) : QState := fun x =>
  if x c then on1 B t ψ x else on1 A t ψ x

theorem on1_eq_blk (c t : ℕ) (A : Matrix Bool Bool ℂ) (ψ : QState) : on1 A t ψ = blk c t A A ψ := by
  funext x; simp [blk]

theorem ctrl_eq_blk (c t : ℕ) (A : Matrix Bool Bool ℂ) (ψ : QState) : ctrl A c t ψ = blk c t 1 A ψ := by
  funext x; simp [blk, ctrl, on1_one]

theorem blk_mul {c t : ℕ} (h : c ≠ t) (A B A' B' : Matrix Bool Bool ℂ) (ψ : QState) :
    blk c t A B (blk c t A' B' ψ) = blk c t (A * A') (B * B') ψ := by
  funext x
  by_cases hc : x c = true
  · have e : ∀ M, on1 M t (blk c t A' B' ψ) x = on1 M t (on1 B' t ψ) x := by
      intro M; simp [on1_apply, blk, Function.update_of_ne h, hc]
    simp only [blk, hc, if_true]
    rw [← on1_mul]; exact e B
  · have e : ∀ M, on1 M t (blk c t A' B' ψ) x = on1 M t (on1 A' t ψ) x := by
      intro M; simp [on1_apply, blk, Function.update_of_ne h, hc]
    simp only [blk, if_neg hc]
    rw [← on1_mul]; exact e A

theorem blk_smul (z : ℂ) (c t : ℕ) (A B : Matrix Bool Bool ℂ) (ψ : QState) (x : ℕ → Bool) :
    blk c t (z • A) (z • B) ψ x = z * blk c t A B ψ x := by
  simp only [blk, on1_smul]; split <;> rfl

/-- A phase on the control. -/
theorem ctrlZ_eq_blk {c t : ℕ} (p : ℚ) (ψ : QState) : on1 (matZ p) c ψ = blk c t 1 (ph p • 1) ψ := by
  funext x
  simp only [blk, on1_smul, on1_one]
  rw [on1_apply]
  rcases hx : x c with _ | _
  · have : Function.update x c false = x := by rw [← hx]; exact Function.update_eq_self c x
    simp [matZ, mat2, this]
  · have : Function.update x c true = x := by rw [← hx]; exact Function.update_eq_self c x
    simp [matZ, mat2, this]

theorem mat2_mul (a b c d a' b' c' d' : ℂ) : mat2 a b c d * mat2 a' b' c' d' =
    mat2 (a * a' + b * c') (a * b' + b * d') (c * a' + d * c') (c * b' + d * d') := by
  ext i j
  cases i <;> cases j <;> simp [Matrix.mul_apply, mat2, add_comm]

theorem mat2_smul (z a b c d : ℂ) : z • mat2 a b c d = mat2 (z * a) (z * b) (z * c) (z * d) := by
  ext i j
  cases i <;> cases j <;> simp [mat2]

theorem mat2_one : (1 : Matrix Bool Bool ℂ) = mat2 1 0 0 1 := by
  ext i j
  cases i <;> cases j <;> simp [mat2]

theorem mat2_congr {a b c d a' b' c' d' : ℂ} (h1 : a = a') (h2 : b = b') (h3 : c = c') (h4 : d = d') :
    mat2 a b c d = mat2 a' b' c' d' := by rw [h1, h2, h3, h4]

theorem hcos_eq (p : ℚ) : hcos p = (ph (p / 2) + (ph (p / 2))⁻¹) / 2 := by
  rw [← ph_neg]
  have h1 : Complex.I * (Real.pi : ℂ) * ((p / 2 : ℚ) : ℂ) = (Real.pi * p / 2 : ℂ) * Complex.I := by push_cast; ring
  have h2 : Complex.I * (Real.pi : ℂ) * ((-(p / 2) : ℚ) : ℂ) = -(Real.pi * p / 2 : ℂ) * Complex.I := by push_cast; ring
  rw [ph, ph, h1, h2, hcos, Complex.ofReal_cos, Complex.cos]; push_cast; rfl

theorem hsin_eq (p : ℚ) : hsin p = ((ph (p / 2))⁻¹ - ph (p / 2)) * I / 2 := by
  rw [← ph_neg]
  have h1 : Complex.I * (Real.pi : ℂ) * ((p / 2 : ℚ) : ℂ) = (Real.pi * p / 2 : ℂ) * Complex.I := by push_cast; ring
  have h2 : Complex.I * (Real.pi : ℂ) * ((-(p / 2) : ℚ) : ℂ) = -(Real.pi * p / 2 : ℂ) * Complex.I := by push_cast; ring
  rw [ph, ph, h1, h2, hsin, Complex.ofReal_sin, Complex.sin]; push_cast; rfl

theorem ph_dbl (p : ℚ) : ph p = ph (p / 2) * ph (p / 2) := by rw [← ph_add]; congr 1; ring

theorem norm_ph (p : ℚ) : ‖ph p‖ = 1 := by
  have : Complex.I * (Real.pi : ℂ) * (p : ℂ) = ((Real.pi * p : ℝ) : ℂ) * Complex.I := by push_cast; ring
  rw [ph, this, Complex.norm_exp_ofReal_mul_I]

theorem ph_three : ph 3 = -1 := by
  have : (3 : ℚ) = 2 + 1 := by norm_num
  rw [this, ph_add, ph_two, ph_one]; ring

/-- The matrices of the gates of `U3.to_basic_gates`. -/
theorem u3_mat (θ φ lam : ℚ) : matZ (φ + 3) * (matX (1/2) * (matZ (θ + 1) * (matX (1/2) * matZ lam))) =
    ph (1/2 + θ/2) • matU θ φ lam := by
  simp only [matZ, matX, matU, mat2_mul, mat2_smul, ph_add, ph_one, ph_three, ph_half, hcos_eq, hsin_eq]
  rw [ph_dbl θ]
  have h := ph_ne_zero (θ / 2)
  generalize ph (θ / 2) = e at *
  generalize ph φ = f
  generalize ph lam = l
  refine mat2_congr ?_ ?_ ?_ ?_ <;> field_simp <;> ring_nf <;> simp only [Complex.I_sq] <;> ring

/-- The matrices of the gates of `U2.to_basic_gates`. -/
theorem u2_mat (φ lam : ℚ) : matZ (φ + 1/2) * (matX (1/2) * matZ (lam - 1/2)) = ph (1/4) • matU (1/2) φ lam := by
  simp only [matZ, matX, matU, mat2_mul, mat2_smul, ph_add, ph_sub, ph_half, hcos_eq, hsin_eq]
  have h4 : ph (1/2/2) = ph (1/4) := by norm_num
  have hd : ph (1/4) * ph (1/4) = I := by rw [← ph_add, ← ph_half]; norm_num
  rw [h4]
  have h := ph_ne_zero (1/4)
  generalize ph (1/4) = e at *
  generalize ph φ = f
  generalize ph lam = l
  rw [← hd]
  have h2 : e ^ 4 = -1 := by have := Complex.I_sq; rw [← hd] at this; linear_combination this
  have h6 : e ^ 6 = -e ^ 2 := by linear_combination e ^ 2 * h2
  refine mat2_congr ?_ ?_ ?_ ?_ <;> field_simp <;> ring_nf <;> (try simp only [h2, h6]) <;> (try ring)

/-- The matrices of the gates of `YPhase.to_basic_gates`. -/
theorem y_mat (p : ℚ) : matZ (-(1/2)) * (matX (-p) * matZ (1/2)) = ph (-p/2) • matRY p := by
  simp only [matZ, matX, matRY, mat2_mul, mat2_smul, ph_neg, ph_half, hcos_eq, hsin_eq, neg_div]
  rw [ph_dbl p]
  have h := ph_ne_zero (p / 2)
  generalize ph (p / 2) = e at *
  refine mat2_congr ?_ ?_ ?_ ?_ <;> field_simp <;> ring_nf <;> (try simp only [Complex.I_sq]) <;> (try ring)

theorem semGates_append (a b : List Gate) (ψ : QState) : semGates (a ++ b) ψ = semGates b (semGates a ψ) := by
  simp [semGates, List.foldl_append]

theorem semGates_cons (g : Gate) (b : List Gate) (ψ : QState) : semGates (g :: b) ψ = semGates b (g.sem ψ) := rfl

theorem semGates_nil (ψ : QState) : semGates [] ψ = ψ := rfl

theorem matZ_mod2 (p : ℚ) : matZ (mod2 p) = matZ p := by rw [matZ, ph_mod2, matZ]

theorem sem_zphase (t : ℕ) (p : ℚ) : (Gate.mkZPhase t p).sem = on1 (matZ p) t := rfl
theorem sem_xphase (t : ℕ) (p : ℚ) : (Gate.mkXPhase t p).sem = on1 (matX p) t := rfl
theorem sem_z (t : ℕ) : (Gate.mkZ t).sem = on1 (matZ 1) t := rfl
theorem sem_not (t : ℕ) : (Gate.mkNOT t).sem = on1 (matX 1) t := rfl
theorem sem_s (t : ℕ) : (Gate.mkS t).sem = on1 (matZ (1/2)) t := by simp [Gate.mkS, Gate.sem]
theorem sem_sdg (t : ℕ) : (Gate.mkS t true).sem = on1 (matZ (-(1/2))) t := by simp [Gate.mkS, Gate.sem]
theorem sem_t (t : ℕ) : (Gate.mkT t).sem = on1 (matZ (1/4)) t := by simp [Gate.mkT, Gate.sem]
theorem sem_tdg (t : ℕ) : (Gate.mkT t true).sem = on1 (matZ (-(1/4))) t := by simp [Gate.mkT, Gate.sem]
theorem sem_had (t : ℕ) : (Gate.had t).sem = on1 matH t := rfl
theorem sem_cnot (c t : ℕ) : (Gate.cnot c t).sem = ctrl (mat2 0 1 1 0) c t := rfl

theorem u3_on1 (t : ℕ) (θ φ lam : ℚ) (ψ : QState) :
    semGates (Gate.u3Basic t θ φ lam) ψ = on1 (ph (1/2 + θ/2) • matU θ φ lam) t ψ := by
  simp only [Gate.u3Basic, semGates_cons, semGates_nil, sem_zphase, sem_xphase, matZ_mod2, on1_mul]
  rw [u3_mat]

theorem u2_on1 (t : ℕ) (φ lam : ℚ) (ψ : QState) :
    semGates (Gate.u2Basic t φ lam) ψ = on1 (ph (1/4) • matU (1/2) φ lam) t ψ := by
  simp only [Gate.u2Basic, semGates_cons, semGates_nil, sem_zphase, sem_xphase, matZ_mod2, on1_mul]
  rw [u2_mat]

theorem y_on1 (t : ℕ) (p : ℚ) (ψ : QState) : semGates (Gate.yBasic t p) ψ = on1 (ph (-p/2) • matRY p) t ψ := by
  simp only [Gate.yBasic, semGates_cons, semGates_nil, sem_zphase, sem_xphase, on1_mul]
  rw [y_mat]

/-- Conclusion for controlled gates. -/
theorem blk_eq {c t : ℕ} {z : ℂ} {A B U : Matrix Bool Bool ℂ} (hA : A = z • 1) (hB : B = z • U) (ψ : QState) (x : ℕ → Bool) :
    blk c t A B ψ x = z * ctrl U c t ψ x := by
  rw [hA, hB, blk_smul, ctrl_eq_blk]

theorem I_pow_five' : I ^ 5 = I := by rw [show I ^ 5 = I ^ 4 * I by ring, Complex.I_pow_four, one_mul]
theorem I_pow_six' : I ^ 6 = -1 := by rw [show I ^ 6 = I ^ 4 * I ^ 2 by ring, Complex.I_pow_four, Complex.I_sq, one_mul]

/-- The final step for a controlled gate: compares the blocks entry by entry. -/
macro "blocks" : tactic => `(tactic| (refine mat2_congr ?_ ?_ ?_ ?_ <;> field_simp <;> ring_nf <;>
  (try simp only [Complex.I_sq, Complex.I_pow_three, Complex.I_pow_four,
    I_pow_five', I_pow_six']) <;> (try ring)))

theorem crx_sound {c t : ℕ} (h : c ≠ t) (p : ℚ) (ψ : QState) (x : ℕ → Bool) :
    semGates (Gate.crx c t p).toBasic ψ x = (-1) * (Gate.crx c t p).sem ψ x := by
  change _ = (-1) * ctrl (matRX p) c t ψ x
  simp only [Gate.toBasic, semGates_append, semGates_cons, semGates_nil, u3_on1, sem_zphase, sem_cnot, ctrl_eq_blk,
    on1_eq_blk c t, blk_mul h]
  rw [← ctrl_eq_blk]
  have e1 : ph (1/2 + p/2/2) = I * ph (p/4) := by rw [ph_add, ph_half]; congr 2; ring
  have e2 : ph (1/2 + -p/2/2) = I * (ph (p/4))⁻¹ := by rw [ph_add, ph_half, ← ph_neg]; congr 2; ring
  have e3 : ph (p/2/2) = ph (p/4) := by congr 1; ring
  have e4 : ph (-p/2/2) = (ph (p/4))⁻¹ := by rw [← ph_neg]; congr 1; ring
  have e5 : ph (p/2) = ph (p/4) * ph (p/4) := by rw [← ph_add]; congr 1; ring
  have e6 : ph (-1/2) = -I := by rw [neg_div, ph_neg, ph_half, Complex.inv_I]
  have h := ph_ne_zero (p / 4)
  apply blk_eq
  · simp only [matU, matZ, mat2_one, mat2_mul, mat2_smul, hcos_eq, hsin_eq, e1, e2, e3, e4, e6, ph_half, ph_zero, add_zero, zero_add]
    generalize ph (p / 4) = e at *
    blocks
  · simp only [matU, matRX, matZ, mat2_one, mat2_mul, mat2_smul, hcos_eq, hsin_eq, e1, e2, e3, e4, e5, e6, ph_half, ph_zero, add_zero, zero_add]
    generalize ph (p / 4) = e at *
    blocks

theorem cry_sound {c t : ℕ} (h : c ≠ t) (p : ℚ) (ψ : QState) (x : ℕ → Bool) :
    semGates (Gate.cry c t p).toBasic ψ x = 1 * (Gate.cry c t p).sem ψ x := by
  change _ = 1 * ctrl (matRY p) c t ψ x
  simp only [Gate.toBasic, semGates_append, semGates_cons, semGates_nil, y_on1, sem_cnot, ctrl_eq_blk,
    on1_eq_blk c t, blk_mul h]
  rw [← ctrl_eq_blk]
  have e1 : ph (-(p/2)/2) = (ph (p/4))⁻¹ := by rw [← ph_neg]; congr 1; ring
  have e2 : ph (-(-p/2)/2) = ph (p/4) := by congr 1; ring
  have e3 : ph (p/2/2) = ph (p/4) := by congr 1; ring
  have e4 : ph (-p/2/2) = (ph (p/4))⁻¹ := by rw [← ph_neg]; congr 1; ring
  have e5 : ph (p/2) = ph (p/4) * ph (p/4) := by rw [← ph_add]; congr 1; ring
  have h := ph_ne_zero (p / 4)
  apply blk_eq
  · simp only [matRY, mat2_one, mat2_mul, mat2_smul, hcos_eq, hsin_eq, e1, e2, e3, e4, add_zero, zero_add]
    generalize ph (p / 4) = e at *
    blocks
  · simp only [matRY, mat2_one, mat2_mul, mat2_smul, hcos_eq, hsin_eq, e1, e2, e3, e4, e5, add_zero, zero_add]
    generalize ph (p / 4) = e at *
    blocks

theorem crz_sound {c t : ℕ} (h : c ≠ t) (p : ℚ) (ψ : QState) (x : ℕ → Bool) :
    semGates (Gate.crz c t p).toBasic ψ x = 1 * (Gate.crz c t p).sem ψ x := by
  change _ = 1 * ctrl (matRZ p) c t ψ x
  simp only [Gate.toBasic, semGates_cons, semGates_nil, sem_zphase, matZ_mod2, sem_cnot, ctrl_eq_blk,
    on1_eq_blk c t, blk_mul h]
  rw [← ctrl_eq_blk]
  have e1 : ph (-p/2) = (ph (p/2))⁻¹ := by rw [← ph_neg]; congr 1; ring
  have h := ph_ne_zero (p / 2)
  apply blk_eq
  · simp only [matZ, mat2_one, mat2_mul, mat2_smul, e1, add_zero, zero_add]
    generalize ph (p / 2) = e at *
    blocks
  · simp only [matZ, matRZ, mat2_mul, mat2_smul, e1, add_zero, zero_add]
    generalize ph (p / 2) = e at *
    blocks

theorem cphase_blk {c t : ℕ} (h : c ≠ t) (p : ℚ) (ψ : QState) :
    semGates (Gate.cphaseBasic c t p) ψ = ctrl (matZ p) c t ψ := by
  simp only [Gate.cphaseBasic, semGates_cons, semGates_nil, sem_zphase, matZ_mod2, sem_cnot, ctrl_eq_blk,
    on1_eq_blk c t, ctrlZ_eq_blk (c := c) (t := t), blk_mul h]
  have e1 : ph (-p/2) = (ph (p/2))⁻¹ := by rw [← ph_neg]; congr 1; ring
  have h := ph_ne_zero (p / 2)
  congr 1
  · simp only [matZ, mat2_one, mat2_mul, e1, add_zero, zero_add]
    generalize ph (p / 2) = e at *
    blocks
  · simp only [matZ, mat2_one, mat2_mul, mat2_smul, e1, add_zero, zero_add]
    rw [ph_dbl p]
    generalize ph (p / 2) = e at *
    blocks

theorem csx_sound {c t : ℕ} (h : c ≠ t) (ψ : QState) (x : ℕ → Bool) :
    semGates (Gate.csx c t).toBasic ψ x = 1 * (Gate.csx c t).sem ψ x := by
  change _ = 1 * ctrl (matX (1/2)) c t ψ x
  simp only [Gate.toBasic, semGates_append, semGates_cons, semGates_nil, cphase_blk h, sem_had, ctrl_eq_blk,
    on1_eq_blk c t, blk_mul h]
  rw [← ctrl_eq_blk]
  have hs := sq2_mul_self
  have hs0 := sq2_ne_zero
  have hs2 : sq2 ^ 2 = 2 := sq2_sq
  apply blk_eq
  · simp only [matH, mat2_one, mat2_mul, mat2_smul, sq2_inv]
    generalize sq2 = e at *
    refine mat2_congr ?_ ?_ ?_ ?_ <;> ring_nf <;> (try simp only [hs2]) <;> (try norm_num)
  · simp only [matH, matZ, matX, mat2_mul, mat2_smul, sq2_inv]
    generalize sq2 = e at *
    refine mat2_congr ?_ ?_ ?_ ?_ <;> ring_nf <;> (try simp only [hs2]) <;> (try ring)

theorem cy_sound {c t : ℕ} (h : c ≠ t) (ψ : QState) (x : ℕ → Bool) :
    semGates (Gate.cy c t).toBasic ψ x = 1 * (Gate.cy c t).sem ψ x := by
  change _ = 1 * ctrl (mat2 0 (-Complex.I) Complex.I 0) c t ψ x
  simp only [Gate.toBasic, semGates_cons, semGates_nil, sem_s, sem_sdg, sem_cnot, ctrl_eq_blk, on1_eq_blk c t, blk_mul h]
  rw [← ctrl_eq_blk]
  apply blk_eq
  · simp only [matZ, mat2_one, mat2_mul, mat2_smul, ph_neg, ph_half, Complex.inv_I]
    refine mat2_congr ?_ ?_ ?_ ?_ <;> simp
  · simp only [matZ, mat2_mul, mat2_smul, ph_neg, ph_half, Complex.inv_I]
    refine mat2_congr ?_ ?_ ?_ ?_ <;> simp

theorem chad_sound {c t : ℕ} (h : c ≠ t) (ψ : QState) (x : ℕ → Bool) :
    semGates (Gate.chad c t).toBasic ψ x = ph (1/4) * (Gate.chad c t).sem ψ x := by
  change _ = ph (1/4) * ctrl matH c t ψ x
  simp only [Gate.toBasic, semGates_cons, semGates_nil, sem_s, sem_sdg, sem_t, sem_had, sem_not, sem_cnot, ctrl_eq_blk,
    on1_eq_blk c t, ctrlZ_eq_blk (c := c) (t := t), blk_mul h]
  rw [← ctrl_eq_blk]
  have hq := ph_quarter
  have hs2 : sq2 ^ 2 = 2 := sq2_sq
  have hs3 : sq2 ^ 3 = 2 * sq2 := by rw [← hs2]; ring
  have hs4 : sq2 ^ 4 = 4 := by linear_combination (sq2 ^ 2 + 2) * hs2
  have hs5 : sq2 ^ 5 = 4 * sq2 := by linear_combination sq2 * hs4
  have hs6 : sq2 ^ 6 = 8 := by linear_combination sq2 ^ 2 * hs4 + 4 * hs2
  have i3 := Complex.I_pow_three
  have i5 : I ^ 5 = I := by rw [show I ^ 5 = I ^ 4 * I by ring, Complex.I_pow_four, one_mul]
  apply blk_eq
  · simp only [matZ, matX, matH, mat2_one, mat2_mul, mat2_smul, ph_neg, ph_half, ph_one, Complex.inv_I, hq]
    simp only [show ∀ z : ℂ, z / sq2 = z * (sq2 / 2) from fun z => by rw [← sq2_inv, div_eq_mul_inv], sq2_inv]
    generalize sq2 = e at *
    refine mat2_congr ?_ ?_ ?_ ?_ <;> ring_nf <;> (try simp only [hs2, hs3, hs4, hs5, hs6, Complex.I_sq, i3, Complex.I_pow_four, i5]) <;> (try ring)
  · simp only [matZ, matX, matH, mat2_one, mat2_mul, mat2_smul, ph_neg, ph_half, ph_one, Complex.inv_I, hq]
    simp only [show ∀ z : ℂ, z / sq2 = z * (sq2 / 2) from fun z => by rw [← sq2_inv, div_eq_mul_inv], sq2_inv]
    generalize sq2 = e at *
    refine mat2_congr ?_ ?_ ?_ ?_ <;> ring_nf <;> (try simp only [hs2, hs3, hs4, hs5, hs6, Complex.I_sq, i3, Complex.I_pow_four, i5]) <;> (try ring)

theorem cu3_blk {c t : ℕ} (h : c ≠ t) (θ φ lam : ℚ) (ψ : QState) :
    semGates (Gate.cu3Basic c t θ φ lam) ψ = blk c t ((-1 : ℂ) • 1) ((-1 : ℂ) • matU θ φ lam) ψ := by
  simp only [Gate.cu3Basic, semGates_append, semGates_cons, semGates_nil, u3_on1, sem_zphase, sem_cnot, ctrl_eq_blk,
    on1_eq_blk c t, ctrlZ_eq_blk (c := c) (t := t), blk_mul h]
  have e1 : ph (1/2 + θ/2/2) = I * ph (θ/4) := by rw [ph_add, ph_half]; congr 2; ring
  have e2 : ph (1/2 + -θ/2/2) = I * (ph (θ/4))⁻¹ := by rw [ph_add, ph_half, ← ph_neg]; congr 2; ring
  have e3 : ph (θ/2/2) = ph (θ/4) := by congr 1; ring
  have e4 : ph (-θ/2/2) = (ph (θ/4))⁻¹ := by rw [← ph_neg]; congr 1; ring
  have e5 : ph (θ/2) = ph (θ/4) * ph (θ/4) := by rw [← ph_add]; congr 1; ring
  have e6 : ph ((lam + φ)/2) = ph (φ/2) * ph (lam/2) := by rw [← ph_add]; congr 1; ring
  have e7 : ph ((lam - φ)/2) = ph (lam/2) / ph (φ/2) := by rw [← ph_sub]; congr 1; ring
  have e8 : ph (-(φ + lam)/2) = (ph (φ/2) * ph (lam/2))⁻¹ := by rw [← ph_add, ← ph_neg]; congr 1; ring
  have h := ph_ne_zero (θ / 4)
  have h' := ph_ne_zero (φ / 2)
  have h'' := ph_ne_zero (lam / 2)
  congr 1
  · simp only [matU, matZ, mat2_one, mat2_mul, mat2_smul, hcos_eq, hsin_eq, e1, e2, e3, e4, e7, e8, ph_zero, add_zero, zero_add]
    rw [ph_dbl φ]
    generalize ph (θ / 4) = e at *
    generalize ph (φ / 2) = f at *
    generalize ph (lam / 2) = l at *
    blocks
  · simp only [matU, matZ, mat2_one, mat2_mul, mat2_smul, hcos_eq, hsin_eq, e1, e2, e3, e4, e5, e6, e7, e8, ph_zero, add_zero, zero_add, ph_add]
    rw [ph_dbl φ, ph_dbl lam]
    generalize ph (θ / 4) = e at *
    generalize ph (φ / 2) = f at *
    generalize ph (lam / 2) = l at *
    blocks

end PyZX
