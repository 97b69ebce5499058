import Verif.Proofs.OptMove
import Verif.Lib.Phase

/-!
# Helper lemmas for `basic_optimization`: identities of gates
-/

namespace PyZX
namespace Optimize

open Complex

/-- The sign of a bit. -/
def sg (b : Bool) : ℂ := if b then -1 else 1

@[simp] theorem sg_true : sg true = -1 := rfl
@[simp] theorem sg_false : sg false = 1 := rfl
theorem sg_mul_self (b : Bool) : sg b * sg b = 1 := by cases b <;> simp
theorem sg_xor (a b : Bool) : sg (xor a b) = sg a * sg b := by cases a <;> cases b <;> simp
theorem sg_norm (b : Bool) : ‖sg b‖ = 1 := by cases b <;> simp

theorem sem_had_apply (t : ℕ) (ψ : QState) (x : ℕ → Bool) : (Gate.had t).sem ψ x =
    sq2⁻¹ * (ψ (Function.update x t false) + sg (x t) * ψ (Function.update x t true)) := had_apply t ψ x

theorem sem_mkNOT_apply (t : ℕ) (ψ : QState) (x : ℕ → Bool) : (Gate.mkNOT t).sem ψ x = ψ (Function.update x t (!x t)) := not_apply t ψ x

theorem sem_mkZ_apply (t : ℕ) (ψ : QState) (x : ℕ → Bool) : (Gate.mkZ t).sem ψ x = sg (x t) * ψ x := by
  rw [Gate.mkZ, sem_zrot_apply, ph_one, sg]

theorem sem_swap_apply (c t : ℕ) (ψ : QState) (x : ℕ → Bool) : (Gate.swap c t).sem ψ x = ψ (swapBits c t x) := rfl

theorem cz_cz (c t : ℕ) (ψ : QState) : (Gate.cz c t).sem ((Gate.cz c t).sem ψ) = ψ := by
  funext x; simp only [sem_cz_apply]; split <;> ring

theorem cz_comm (c t : ℕ) (ψ : QState) : (Gate.cz c t).sem ψ = (Gate.cz t c).sem ψ := by
  funext x; simp only [sem_cz_apply, Bool.and_comm]

theorem cnot_cnot {c t : ℕ} (h : c ≠ t) (ψ : QState) : (Gate.cnot c t).sem ((Gate.cnot c t).sem ψ) = ψ := by
  funext x
  simp only [sem_cnot_apply, upd_ne h, Function.update_self, Function.update_idem]
  congr 1
  rw [Bool.xor_assoc, Bool.xor_self, Bool.xor_false, Function.update_eq_self]

theorem had_had (t : ℕ) (ψ : QState) : (Gate.had t).sem ((Gate.had t).sem ψ) = ψ := by
  change on1 matH t (on1 matH t ψ) = ψ
  rw [on1_mul, matH_sq]
  funext x
  rw [on1_apply]
  rcases hx : x t with _ | _ <;> simp [← hx]

theorem ph_neg_half : ph (-(1/2)) = -I := by rw [ph_neg, ph_half, Complex.inv_I]

/-- CNOT, CZ is S*, CNOT, S, S. -/
theorem cnot_cz {c t : ℕ} (h : c ≠ t) (ψ : QState) : (Gate.cz c t).sem ((Gate.cnot c t).sem ψ) =
    (Gate.mkS c).sem ((Gate.mkS t).sem ((Gate.cnot c t).sem ((Gate.mkS t true).sem ψ))) := by
  funext x
  simp only [sem_cz_apply, sem_cnot_apply, Gate.mkS, sem_zrot_apply, Function.update_self]
  have e1 : ph (1 / 2 * (if True then (-1 : ℚ) else 1)) = -I := by
    rw [if_pos trivial]; rw [← ph_neg_half]; congr 1; ring
  have e2 : ph (1 / 2 * (if (false : Bool) = true then (-1 : ℚ) else 1)) = I := by
    rw [if_neg (by simp), mul_one, ph_half]
  rw [e1, e2]
  generalize ψ (Function.update x t (x t ^^ x c)) = w
  have hI : I * I = -1 := Complex.I_mul_I
  rcases x c <;> rcases x t <;> simp [← mul_assoc]

theorem cnot_swap {c t : ℕ} (h : c ≠ t) (ψ : QState) : (Gate.cnot c t).sem ((Gate.cnot t c).sem ψ) =
    (Gate.swap c t).sem ((Gate.cnot c t).sem ψ) := by
  funext x
  simp only [sem_cnot_apply, sem_swap_apply]
  congr 1
  funext q
  simp only [Function.update_apply, swapBits, Equiv.swap_apply_left, Equiv.swap_apply_right]
  by_cases h1 : q = c
  · subst h1; simp [h, Bool.xor_comm, Bool.xor_left_comm]
  · by_cases h2 : q = t
    · subst h2; simp [h1, Bool.xor_comm]
    · simp [h1, h2, Equiv.swap_apply_of_ne_of_ne h1 h2]

theorem zrot_zrot (a b c : ZCls) (t : ℕ) (p q : ℚ) (i j k : Bool) (ψ : QState) :
    (Gate.zrot a t p i).sem ((Gate.zrot b t q j).sem ψ) = (Gate.zrot c t (mod2 (p + q)) k).sem ψ := by
  funext x
  simp only [sem_zrot_apply, ph_mod2, ph_add]
  split <;> ring

theorem zrot_zero (a : ZCls) (t : ℕ) (i : Bool) (ψ : QState) : (Gate.zrot a t 0 i).sem ψ = ψ := by
  funext x; simp [sem_zrot_apply]

theorem ph_half_int {p : ℚ} (h : p.den = 2) : ph p = I ∨ ph p = -I := by
  have h2 : p * 2 = p.num := by
    have := Rat.mul_den_eq_num p
    rwa [h] at this
  have e : ph p * ph p = -1 := by
    rw [← ph_add, show p + p = ((p.num : ℤ) : ℚ) by rw [← h2]; ring, ph_int]
    have hodd : Odd p.num := by
      rw [← Int.not_even_iff_odd]
      intro he
      have hr := p.reduced
      rw [h] at hr
      have : 2 ∣ p.num.natAbs := by
        rw [← Int.natCast_dvd]; exact_mod_cast he.two_dvd
      have := Nat.dvd_gcd this (dvd_refl 2)
      rw [hr] at this
      omega
    exact hodd.neg_one_zpow
  have : (ph p - I) * (ph p + I) = 0 := by
    have hI : I * I = -1 := Complex.I_mul_I
    linear_combination e - hI
  rcases mul_eq_zero.mp this with h | h
  · left; exact sub_eq_zero.mp h
  · right; exact eq_neg_of_add_eq_zero_left h

theorem hsh_aux {e : ℂ} (he : e * e = -1) : ∀ (t : ℕ) (ψ : QState) (x : ℕ → Bool) (φ : QState),
    (∀ y, φ y = (if y t then e else 1) * (sq2⁻¹ * (ψ (Function.update y t false) + sg (y t) * ψ (Function.update y t true)))) →
    sq2⁻¹ * (φ (Function.update x t false) + sg (x t) * φ (Function.update x t true)) =
      ((1 + e) * sq2⁻¹) * ((if x t then -e else 1) * (sq2⁻¹ * (ψ (Function.update x t false) + sg (x t) * (-e * ψ (Function.update x t true))))) := by
  intro t ψ x φ h
  rw [h, h]
  simp only [Function.update_self, Function.update_idem]
  generalize ψ (Function.update x t false) = u
  generalize ψ (Function.update x t true) = v
  rcases x t <;> simp
  · linear_combination (sq2⁻¹ * sq2⁻¹) * v * he
  · linear_combination (sq2⁻¹ * sq2⁻¹) * (v * e + v + u) * he

theorem norm_one_add {e : ℂ} (h : e = I ∨ e = -I) : ‖(1 + e) * sq2⁻¹‖ = 1 := by
  have key : ((1 + e) * sq2⁻¹) * ((1 - e) * sq2⁻¹) = 1 := by
    have hs : sq2⁻¹ * sq2⁻¹ = 1/2 := by rw [sq2_inv]; linear_combination sq2_mul_self / 4
    have he : e * e = -1 := by rcases h with rfl | rfl <;> simp
    linear_combination (1 - e * e) * hs - he / 2
  have hn : ‖(1 + e) * sq2⁻¹‖ = ‖(1 - e) * sq2⁻¹‖ := by
    rw [norm_mul, norm_mul]
    congr 1
    rcases h with rfl | rfl
    · rw [← Complex.norm_conj]; simp [sub_eq_add_neg]
    · rw [← Complex.norm_conj]; simp [sub_eq_add_neg]
  have := congrArg norm key
  rw [norm_mul, ← hn, norm_one] at this
  nlinarith [norm_nonneg ((1 + e) * sq2⁻¹)]

/-- HAD, S, HAD is S*, HAD, S* up to a phase. -/
theorem had_s_had {p p' : ℚ} (hp : p.den = 2) (hp' : p' = mod2 (-p)) (a b c : ZCls) (t : ℕ) (i j k : Bool) :
    Eqv [.had t, .zrot a t p i, .had t] [.zrot b t p' j, .had t, .zrot c t p' k] := by
  have hph := ph_half_int hp
  have he : ph p * ph p = -1 := by rcases hph with h | h <;> rw [h] <;> simp
  have hne : ph p' = -ph p := by
    rw [hp', ph_mod2, ph_neg]
    rcases hph with h | h <;> rw [h] <;> simp
  refine ⟨(1 + ph p) * sq2⁻¹, norm_one_add hph, fun ψ x => ?_⟩
  simp only [semGates_cons, semGates_nil, sem_had_apply, sem_zrot_apply, hne]
  have := hsh_aux he t ψ x (fun y => (if y t then ph p else 1) * (sq2⁻¹ * (ψ (Function.update y t false) + sg (y t) * ψ (Function.update y t true)))) fun y => rfl
  simp only [Function.update_self, if_true, if_false, Bool.false_eq_true, one_mul] at this ⊢
  exact this

end Optimize
end PyZX
