import Mathlib.Analysis.SpecialFunctions.Trigonometric.Basic
import Mathlib.Analysis.SpecialFunctions.Complex.Circle
import Mathlib.Data.Rat.Floor
import Mathlib.Tactic

/-!
# Phases

Rational phases (multiples of `π`) and the complex numbers used by `tensor.py` and `scalar.py`.
-/

namespace PyZX

open Complex

/-- `cexp` of `/repo/pyzx/graph/scalar.py` lines 31-32: `cmath.exp(1j*math.pi*val)`.
Floats are idealised to exact complex numbers. -/
noncomputable def ph (q : ℚ) : ℂ := Complex.exp (Complex.I * Real.pi * (q : ℂ))

/-- Python's `q % 2` on `Fraction` (used in `/repo/pyzx/graph/graph_s.py` lines 295-305 and
`/repo/pyzx/graph/scalar.py` lines 210-212): the representative in `[0,2)`. -/
def mod2 (q : ℚ) : ℚ := q - 2 * (⌊q / 2⌋ : ℤ)

/-- `math.sqrt(2)` (`/repo/pyzx/graph/scalar.py` line 117), idealised. -/
noncomputable def sq2 : ℂ := ((Real.sqrt 2 : ℝ) : ℂ)

theorem sq2_mul_self : sq2 * sq2 = 2 := by
  unfold sq2
  rw [← Complex.ofReal_mul, Real.mul_self_sqrt (by norm_num)]; norm_num

theorem sq2_sq : sq2 ^ 2 = 2 := by rw [pow_two, sq2_mul_self]

theorem sq2_ne_zero : sq2 ≠ 0 := by
  intro h
  have := sq2_mul_self
  rw [h] at this; norm_num at this

theorem sq2_inv : sq2⁻¹ = sq2 / 2 := by
  rw [eq_div_iff (by norm_num), ← sq2_mul_self]; field_simp [sq2_ne_zero]

theorem ph_add (a b : ℚ) : ph (a + b) = ph a * ph b := by
  unfold ph
  rw [← Complex.exp_add]; congr 1; push_cast; ring

@[simp] theorem ph_zero : ph 0 = 1 := by simp [ph]

@[simp] theorem ph_one : ph 1 = -1 := by
  unfold ph
  have : Complex.I * (Real.pi : ℂ) * ((1 : ℚ) : ℂ) = Real.pi * Complex.I := by push_cast; ring
  rw [this, Complex.exp_pi_mul_I]

theorem ph_ne_zero (a : ℚ) : ph a ≠ 0 := Complex.exp_ne_zero _

theorem ph_neg (a : ℚ) : ph (-a) = (ph a)⁻¹ := by
  unfold ph
  rw [← Complex.exp_neg]; congr 1; push_cast; ring

theorem ph_sub (a b : ℚ) : ph (a - b) = ph a / ph b := by
  rw [sub_eq_add_neg, ph_add, ph_neg, div_eq_mul_inv]

theorem ph_neg_mul (a : ℚ) : ph (-a) * ph a = 1 := by
  rw [← ph_add]; simp

theorem ph_mul_neg (a : ℚ) : ph a * ph (-a) = 1 := by
  rw [← ph_add]; simp

@[simp] theorem ph_two_int (n : ℤ) : ph (2 * n) = 1 := by
  unfold ph
  rw [Complex.exp_eq_one_iff]
  exact ⟨n, by push_cast; ring⟩

theorem ph_two : ph 2 = 1 := by
  have := ph_two_int 1
  simpa using this

theorem ph_int (n : ℤ) : ph n = (-1) ^ n := by
  unfold ph
  have : Complex.I * (Real.pi : ℂ) * (((n : ℤ) : ℚ) : ℂ) = n * (Real.pi * Complex.I) := by
    push_cast; ring
  rw [this, Complex.exp_int_mul, Complex.exp_pi_mul_I]

@[simp] theorem ph_mod2 (q : ℚ) : ph (mod2 q) = ph q := by
  unfold mod2
  rw [ph_sub, ph_two_int, div_one]

theorem ph_half : ph (1 / 2) = Complex.I := by
  unfold ph
  have : Complex.I * (Real.pi : ℂ) * ((1 / 2 : ℚ) : ℂ) = Real.pi / 2 * Complex.I := by push_cast; ring
  rw [this, Complex.exp_pi_div_two_mul_I]

theorem ph_three_halves : ph (3 / 2) = -Complex.I := by
  rw [show (3 / 2 : ℚ) = 1 + 1 / 2 by norm_num, ph_add, ph_one, ph_half]; ring

theorem sqrt2_mul_ph_quarter : sq2 * ph (1 / 4) = 1 + Complex.I := by
  have h : ph (1 / 4) = (Real.cos (Real.pi / 4) : ℂ) + Real.sin (Real.pi / 4) * Complex.I := by
    unfold ph
    rw [Complex.ofReal_cos, Complex.ofReal_sin, ← Complex.exp_mul_I]
    congr 1; push_cast; ring
  rw [h, Real.cos_pi_div_four, Real.sin_pi_div_four]
  have := sq2_mul_self
  unfold sq2 at *
  push_cast
  linear_combination (1 / 2 + Complex.I / 2) * this

theorem ph_quarter : ph (1 / 4) = (1 + Complex.I) / sq2 := by
  rw [eq_div_iff sq2_ne_zero, mul_comm, sqrt2_mul_ph_quarter]

theorem ph_seven_quarters : ph (7 / 4) = (1 - Complex.I) / sq2 := by
  rw [show (7 / 4 : ℚ) = 3 / 2 + 1 / 4 by norm_num, ph_add, ph_quarter, ph_three_halves]
  have : -Complex.I * ((1 + Complex.I) / sq2) = (-Complex.I - Complex.I * Complex.I) / sq2 := by ring
  rw [this, Complex.I_mul_I]; ring

theorem conj_ph (q : ℚ) : (starRingEnd ℂ) (ph q) = ph (-q) := by
  unfold ph
  rw [← Complex.exp_conj]
  congr 1
  have hq : (starRingEnd ℂ) (q : ℂ) = (q : ℂ) := by
    have : (q : ℂ) = ((q : ℝ) : ℂ) := by push_cast; rfl
    rw [this, Complex.conj_ofReal]
  simp [hq]

theorem ph_cos_sin (q : ℚ) :
    ph q = (Real.cos (Real.pi * q) : ℂ) + Real.sin (Real.pi * q) * Complex.I := by
  unfold ph
  rw [Complex.ofReal_cos, Complex.ofReal_sin, ← Complex.exp_mul_I]
  congr 1; push_cast; ring

theorem conj_sq2 : (starRingEnd ℂ) sq2 = sq2 := by simp [sq2]

theorem mod2_nonneg (q : ℚ) : 0 ≤ mod2 q := by
  unfold mod2
  have := Int.floor_le (q / 2)
  linarith

theorem mod2_lt (q : ℚ) : mod2 q < 2 := by
  unfold mod2
  have := Int.lt_floor_add_one (q / 2)
  linarith

theorem mod2_of_range {q : ℚ} (h0 : 0 ≤ q) (h2 : q < 2) : mod2 q = q := by
  unfold mod2
  have : ⌊q / 2⌋ = 0 := by
    rw [Int.floor_eq_zero_iff, Set.mem_Ico]
    constructor <;> linarith
  rw [this]; simp

@[simp] theorem mod2_mod2 (q : ℚ) : mod2 (mod2 q) = mod2 q :=
  mod2_of_range (mod2_nonneg q) (mod2_lt q)

@[simp] theorem mod2_zero : mod2 0 = 0 := mod2_of_range le_rfl (by norm_num)
@[simp] theorem mod2_one : mod2 1 = 1 := mod2_of_range (by norm_num) (by norm_num)

/-- `ph` is injective modulo 2. -/
theorem ph_eq_one_iff (q : ℚ) : ph q = 1 ↔ ∃ n : ℤ, q = 2 * n := by
  constructor
  · intro h
    unfold ph at h
    rw [Complex.exp_eq_one_iff] at h
    obtain ⟨n, hn⟩ := h
    refine ⟨n, ?_⟩
    have hpi : (Real.pi : ℂ) ≠ 0 := by exact_mod_cast Real.pi_ne_zero
    have : (q : ℂ) = 2 * n := by
      have h2 : Complex.I * Real.pi * ((q : ℂ) - 2 * n) = 0 := by
        rw [mul_sub, hn]; ring
      have h3 : Complex.I * (Real.pi : ℂ) ≠ 0 := mul_ne_zero Complex.I_ne_zero hpi
      have := (mul_eq_zero.mp h2).resolve_left h3
      exact sub_eq_zero.mp this
    exact_mod_cast this
  · rintro ⟨n, rfl⟩; exact ph_two_int n

end PyZX
