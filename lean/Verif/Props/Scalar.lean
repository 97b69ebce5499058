import Verif.Model.Scalar

/-!
# Properties of scalars (C12, C13)
-/

namespace PyZX
namespace Scalar

/-- Specification: the value recorded by a list of legless spiders. -/
noncomputable def nodesValue (l : List ℚ) : ℂ := (l.map (fun p => 1 + ph p)).prod

theorem foldl_nodes (l : List ℚ) (c : ℂ) :
    l.foldl (fun val node => val * (1 + ph node)) c = c * nodesValue l := by
  induction l generalizing c with
  | nil => simp [nodesValue]
  | cons a l ih => simp only [List.foldl_cons, ih, nodesValue, List.map_cons, List.prod_cons]; ring

/-- Product form of `to_number`. -/
theorem toNumber_eq (s : Scalar) :
    s.toNumber = if s.isZero then 0
      else ph s.phase * nodesValue s.phasenodes * sq2 ^ s.power2 * s.floatfactor := by
  unfold toNumber; rw [foldl_nodes]

/-- C12: a fresh scalar is `1`. -/
theorem new_toNumber : new.toNumber = 1 := by
  simp [toNumber_eq, new, nodesValue]

/-- C12: `add_power n` multiplies the number by `√2 ^ n`. -/
theorem addPower_toNumber (s : Scalar) (n : ℤ) :
    (s.addPower n).toNumber = s.toNumber * sq2 ^ n := by
  simp only [toNumber_eq, addPower]
  split
  · simp
  · rw [zpow_add₀ sq2_ne_zero]; ring

/-- C12: `add_phase p` multiplies the number by `e^{iπp}`. -/
theorem addPhase_toNumber (s : Scalar) (p : ℚ) :
    (s.addPhase p).toNumber = s.toNumber * ph p := by
  simp only [toNumber_eq, addPhase]
  split
  · simp
  · rw [ph_mod2, ph_add]; ring

/-- C12: `add_node p` multiplies the number by `1 + e^{iπp}`, including the special cases
for `0` (recorded as a power of two) and `1` (recorded as the zero flag). -/
theorem addNode_toNumber (s : Scalar) (p : ℚ) :
    (s.addNode p).toNumber = s.toNumber * (1 + ph p) := by
  unfold addNode
  by_cases h0 : p = 0
  · subst h0
    have h01 : ¬ ((0 : ℚ) = 1) := by norm_num
    simp only [if_true, h01, if_false, toNumber_eq, ph_zero]
    split
    · simp
    · rw [zpow_add₀ sq2_ne_zero]
      have : sq2 ^ (2 : ℤ) = 2 := by exact_mod_cast sq2_sq
      rw [this]; ring
  · by_cases h1 : p = 1
    · subst h1
      simp [toNumber_eq, ph_one]
    · simp only [h0, h1, if_false, toNumber_eq]
      split
      · simp
      · simp only [nodesValue, List.map_append, List.prod_append, List.map_cons, List.map_nil,
          List.prod_cons, List.prod_nil]; ring

/-- C12: `add_float f` multiplies the number by `f`. -/
theorem addFloat_toNumber (s : Scalar) (f : ℂ) :
    (s.addFloat f).toNumber = s.toNumber * f := by
  unfold addFloat
  by_cases h0 : f = 0
  · simp [h0, toNumber_eq]
  · simp only [h0, if_false, toNumber_eq]
    split
    · simp
    · ring

/-- C12: `mult_with_scalar` multiplies the numbers. -/
theorem multWithScalar_toNumber (s o : Scalar) :
    (s.multWithScalar o).toNumber = s.toNumber * o.toNumber := by
  simp only [toNumber_eq, multWithScalar]
  cases hs : s.isZero <;> cases ho : o.isZero <;>
    simp [ph_add, nodesValue, zpow_add₀ sq2_ne_zero]
  ring

/-- C12: `copy()` denotes the same number. -/
theorem copy_toNumber (s : Scalar) : s.copy.toNumber = s.toNumber := by
  simp [toNumber_eq, copy]

/-- C12: `copy(conjugate=True)` denotes the complex conjugate. -/
theorem copy_conj_toNumber (s : Scalar) :
    (s.copy true).toNumber = (starRingEnd ℂ) s.toNumber := by
  simp only [toNumber_eq, copy, if_true]
  split
  · simp
  · have hn : nodesValue (s.phasenodes.map (fun p => -p)) = (starRingEnd ℂ) (nodesValue s.phasenodes) := by
      generalize s.phasenodes = l
      induction l with
      | nil => simp [nodesValue]
      | cons a l ih =>
        simp only [nodesValue, List.map_cons, List.prod_cons, map_mul, map_add, map_one, conj_ph] at ih ⊢
        rw [ih]
    rw [hn]
    simp only [map_mul, conj_ph, map_zpow₀, conj_sq2]

/-- Specification of C13: two one-legged `Z`-spiders with phases `p1`, `p2` joined by a Hadamard edge:
`∑_{a,b} e^{iπ p1 a} H_{ab} e^{iπ p2 b}` with `H = [[1,1],[1,-1]]/√2`. -/
noncomputable def pairValue (p1 p2 : ℚ) : ℂ :=
  ∑ a : Fin 2, ∑ b : Fin 2, ph (p1 * (a : ℕ)) * (sq2⁻¹ * (-1) ^ ((a : ℕ) * (b : ℕ))) * ph (p2 * (b : ℕ))

theorem pairValue_eq (p1 p2 : ℚ) :
    pairValue p1 p2 = sq2⁻¹ * (1 + ph p1 + ph p2 - ph (p1 + p2)) := by
  simp [pairValue, Fin.sum_univ_two, ph_add]; ring

theorem pairValue_comm (p1 p2 : ℚ) : pairValue p1 p2 = pairValue p2 p1 := by
  rw [pairValue_eq, pairValue_eq, add_comm p2 p1]; ring

/-- The branch of `add_spider_pair` whose float is wrong: the phases cancel modulo `2`,
neither is Clifford, and `p1` does not have denominator `4`. -/
def cosBranch (p1 p2 : ℚ) : Prop :=
  p1 ≠ 0 ∧ p1 ≠ 1 ∧ p2 ≠ 0 ∧ p2 ≠ 1 ∧ p1.den ≠ 2 ∧ p2.den ≠ 2 ∧ mod2 (p1 + p2) = 0 ∧ p1.den ≠ 4

theorem den_two_cases {p : ℚ} (h : p.den = 2) (h0 : 0 ≤ p) (h2 : p < 2) : p = 1 / 2 ∨ p = 3 / 2 := by
  have hp : p = p.num / 2 := by
    conv_lhs => rw [← Rat.num_div_den p, h]
    norm_num
  have hn0 : 0 ≤ p.num := Rat.num_nonneg.mpr h0
  have hn4 : p.num < 4 := by
    have : (p.num : ℚ) < 4 := by linarith
    exact_mod_cast this
  have hc := p.reduced
  rw [h] at hc
  generalize p.num = n at *
  interval_cases n
  · exact absurd hc (by decide)
  · left; rw [hp]; norm_num
  · exact absurd hc (by decide)
  · right; rw [hp]; norm_num

theorem den_four_cases {p : ℚ} (h : p.den = 4) (h0 : 0 ≤ p) (h2 : p < 2) :
    p = 1 / 4 ∨ p = 3 / 4 ∨ p = 5 / 4 ∨ p = 7 / 4 := by
  have hp : p = p.num / 4 := by
    conv_lhs => rw [← Rat.num_div_den p, h]
    norm_num
  have hn0 : 0 ≤ p.num := Rat.num_nonneg.mpr h0
  have hn4 : p.num < 8 := by
    have : (p.num : ℚ) < 8 := by linarith
    exact_mod_cast this
  have hc := p.reduced
  rw [h] at hc
  generalize p.num = n at *
  interval_cases n
  · exact absurd hc (by decide)
  · left; rw [hp]; norm_num
  · exact absurd hc (by decide)
  · right; left; rw [hp]; norm_num
  · exact absurd hc (by decide)
  · right; right; left; rw [hp]; norm_num
  · exact absurd hc (by decide)
  · right; right; right; rw [hp]; norm_num

theorem pairValue_half (p : ℚ) : pairValue (1 / 2) p = ph (1 / 4) * (1 + ph (p - 1 / 2)) := by
  rw [pairValue_eq, ph_add, ph_sub, ph_half, ph_quarter, Complex.div_I, div_eq_mul_inv]
  have h := Complex.I_mul_I
  linear_combination (sq2⁻¹ * ph p) * h

theorem pairValue_three_halves (p : ℚ) :
    pairValue (3 / 2) p = ph (7 / 4) * (1 + ph (p - 3 / 2)) := by
  rw [pairValue_eq, ph_add, ph_sub, ph_three_halves, ph_seven_quarters, div_neg, Complex.div_I, div_eq_mul_inv]
  have h := Complex.I_mul_I
  linear_combination (sq2⁻¹ * ph p) * h

theorem pairValue_cancel {p1 p2 : ℚ} (h : mod2 (p1 + p2) = 0) :
    pairValue p1 p2 = sq2⁻¹ * (ph p1 + ph (-p1)) := by
  have h1 : ph (p1 + p2) = 1 := by rw [← ph_mod2, h, ph_zero]
  have h2 : ph p2 = ph (-p1) := by
    rw [ph_add] at h1
    have := ph_neg_mul p1
    have hne := ph_ne_zero p1
    apply mul_left_cancel₀ hne
    rw [h1, ph_mul_neg]
  rw [pairValue_eq, h1, h2]; ring

theorem addSpiderPairTail_toNumber (s : Scalar) {p1 p2 : ℚ} (h10 : 0 ≤ p1) (h12 : p1 < 2)
    (hc : ¬ (p1 ≠ 1 / 2 ∧ p1 ≠ 3 / 2 ∧ mod2 (p1 + p2) = 0 ∧ p1.den ≠ 4)) :
    (s.addSpiderPairTail p1 p2).toNumber = s.toNumber * pairValue p1 p2 := by
  unfold addSpiderPairTail
  split
  · next h => subst h; rw [addNode_toNumber, addPhase_toNumber, ph_mod2, pairValue_half]; ring
  · next h =>
    split
    · next h' => subst h'; rw [addNode_toNumber, addPhase_toNumber, ph_mod2, pairValue_three_halves]; ring
    · next h' =>
      split
      · next hm =>
        split
        · next hd =>
          rw [pairValue_cancel hm]
          have hI := Complex.I_mul_I
          have hsq := sq2_mul_self
          have hq : sq2⁻¹ * sq2⁻¹ = 1 / 2 := by rw [← mul_inv, hsq]; norm_num
          rcases den_four_cases hd h10 h12 with rfl | rfl | rfl | rfl
          · rw [if_neg (by norm_num)]
            have e : ph (-(1 / 4)) = (1 - Complex.I) / sq2 := by
              rw [← ph_seven_quarters, show (7 / 4 : ℚ) = -(1 / 4) + 2 by norm_num, ph_add, ph_two, mul_one]
            rw [ph_quarter, e, div_eq_mul_inv, div_eq_mul_inv]
            linear_combination (-2 * s.toNumber) * hq
          · rw [if_pos (by norm_num), addPhase_toNumber, ph_one]
            have e : ph (3 / 4) = - ((1 - Complex.I) / sq2) := by
              rw [← ph_seven_quarters, show (7 / 4 : ℚ) = 3 / 4 + 1 by norm_num, ph_add, ph_one]; ring
            have e' : ph (-(3 / 4)) = - ((1 + Complex.I) / sq2) := by
              rw [← ph_quarter, show (-(3 / 4) : ℚ) = 1 / 4 - 1 by norm_num, ph_sub, ph_one]; ring
            rw [e, e', div_eq_mul_inv, div_eq_mul_inv]
            linear_combination (2 * s.toNumber) * hq
          · rw [if_pos (by norm_num), addPhase_toNumber, ph_one]
            have e : ph (5 / 4) = - ((1 + Complex.I) / sq2) := by
              rw [← ph_quarter, show (5 / 4 : ℚ) = 1 / 4 + 1 by norm_num, ph_add, ph_one]; ring
            have e' : ph (-(5 / 4)) = - ((1 - Complex.I) / sq2) := by
              rw [← ph_seven_quarters, show (7 / 4 : ℚ) = -(5 / 4) + 1 + 2 by norm_num, ph_add, ph_add,
                ph_one, ph_two]; ring
            rw [e, e', div_eq_mul_inv, div_eq_mul_inv]
            linear_combination (2 * s.toNumber) * hq
          · rw [if_neg (by norm_num)]
            have e : ph (-(7 / 4)) = (1 + Complex.I) / sq2 := by
              rw [← ph_quarter, show (1 / 4 : ℚ) = -(7 / 4) + 2 by norm_num, ph_add, ph_two, mul_one]
            rw [ph_seven_quarters, e, div_eq_mul_inv, div_eq_mul_inv]
            linear_combination (-2 * s.toNumber) * hq
        · next hd => exact absurd ⟨h, h', hm, hd⟩ hc
      · rw [addFloat_toNumber, addPower_toNumber, pairValue_eq, zpow_neg, zpow_one]; ring

/-- C13, everywhere outside the branch with `math.cos(p1)`: `add_spider_pair(p1,p2)` multiplies the
scalar by the value of the connected spider pair. The phases are normalised to `[0,2)` as every phase stored
in a graph is.
Missing for the full claim: the branch `cosBranch`, where the claim is false
(`addSpiderPair_wrong`). -/
theorem addSpiderPair_toNumber_partial (s : Scalar) {p1 p2 : ℚ} (h10 : 0 ≤ p1) (h12 : p1 < 2)
    (h20 : 0 ≤ p2) (h22 : p2 < 2) (hc : ¬ cosBranch p1 p2) :
    (s.addSpiderPair p1 p2).toNumber = s.toNumber * pairValue p1 p2 := by
  have hzero : ∀ q, sq2 ^ (1 : ℤ) = pairValue 0 q := by
    intro q
    rw [pairValue_eq, ph_zero, zero_add, sq2_inv, zpow_one]; ring
  have hone : ∀ q, sq2 ^ (1 : ℤ) * ph q = pairValue 1 q := by
    intro q
    rw [pairValue_eq, ph_add, ph_one, sq2_inv, zpow_one]; ring
  unfold addSpiderPair
  by_cases hq : p2 = 0 ∨ p2 = 1
  · rw [if_pos hq]
    rcases hq with rfl | rfl
    · simp only [if_true]
      rw [addPower_toNumber, pairValue_comm, ← hzero]
    · have h1 : ¬ ((1 : ℚ) = 0) := by norm_num
      simp only [h1, if_true, if_false]
      rw [addPhase_toNumber, addPower_toNumber, pairValue_comm, ← hone]; ring
  · rw [if_neg hq]
    push Not at hq
    simp only
    split
    · next h => subst h; rw [addPower_toNumber, ← hzero]
    · next h0 =>
      split
      · next h => subst h; rw [addPhase_toNumber, addPower_toNumber, ← hone]; ring
      · next h1 =>
        split
        · next hd =>
          rw [addSpiderPairTail_toNumber s h20 h22, pairValue_comm]
          rintro ⟨a, b, -, -⟩
          rcases den_two_cases hd h20 h22 with h | h
          · exact a h
          · exact b h
        · next hd =>
          rw [addSpiderPairTail_toNumber s h10 h12]
          rintro ⟨a, b, c, d⟩
          refine hc ⟨h0, h1, hq.1, hq.2, ?_, hd, c, d⟩
          intro hd1
          rcases den_two_cases hd1 h10 h12 with h | h
          · exact a h
          · exact b h

/-- The hypotheses of `addSpiderPair_toNumber_partial` are met by a generic non-Clifford pair. -/
example : ¬ cosBranch (1 / 3) (1 / 4) := by
  rintro ⟨-, -, -, -, -, -, h, -⟩
  rw [mod2_of_range (by norm_num) (by norm_num)] at h
  norm_num at h

/-- C13 is false on the `math.cos(p1)` branch (line 268 computes `cos(p1)` where `cos(πp1)` is needed):
for the phases `1/3` and `5/3` the recorded number is not the value of the pair. -/
theorem addSpiderPair_wrong :
    ∃ p1 p2 : ℚ, 0 ≤ p1 ∧ p1 < 2 ∧ 0 ≤ p2 ∧ p2 < 2 ∧
      (new.addSpiderPair p1 p2).toNumber ≠ new.toNumber * pairValue p1 p2 := by
  refine ⟨1 / 3, 5 / 3, by norm_num, by norm_num, by norm_num, by norm_num, ?_⟩
  have hm : mod2 (1 / 3 + 5 / 3) = 0 := by
    unfold mod2
    rw [show ((1 / 3 + 5 / 3 : ℚ) / 2) = 1 by norm_num, Int.floor_one]; norm_num
  have hd : (5 / 3 : ℚ).den = 3 := by norm_num
  have hd' : (1 / 3 : ℚ).den = 3 := by norm_num
  have h : new.addSpiderPair (1 / 3) (5 / 3)
      = (new.addPower 1).addFloat ((Real.cos ((1 / 3 : ℚ) : ℝ) : ℝ) : ℂ) := by
    unfold addSpiderPair addSpiderPairTail
    rw [if_neg (by norm_num)]
    simp only
    rw [if_neg (by norm_num), if_neg (by norm_num), if_neg (by rw [hd]; norm_num), if_neg (by norm_num),
      if_neg (by norm_num), if_pos hm, if_neg (by rw [hd']; norm_num)]
  rw [h, addFloat_toNumber, addPower_toNumber, new_toNumber, pairValue_cancel hm]
  have hsum : ph (1 / 3) + ph (-(1 / 3)) = 1 := by
    rw [ph_cos_sin, ph_cos_sin]
    have e1 : Real.pi * ((1 / 3 : ℚ) : ℝ) = Real.pi / 3 := by push_cast; ring
    have e2 : Real.pi * ((-(1 / 3) : ℚ) : ℝ) = -(Real.pi / 3) := by push_cast; ring
    rw [e1, e2, Real.cos_neg, Real.sin_neg, Real.cos_pi_div_three]
    push_cast; ring
  rw [hsum, sq2_inv, zpow_one, one_mul, one_mul, mul_one]
  intro hne
  have h3 : ((Real.cos ((1 / 3 : ℚ) : ℝ) : ℝ) : ℂ) = ((1 / 2 : ℝ) : ℂ) := by
    apply mul_left_cancel₀ sq2_ne_zero
    rw [hne]; push_cast; ring
  have h4 : Real.cos ((1 / 3 : ℚ) : ℝ) = 1 / 2 := by exact_mod_cast h3
  rw [← Real.cos_pi_div_three] at h4
  have hpi := Real.two_le_pi
  have hlt : Real.cos (Real.pi / 3) < Real.cos ((1 / 3 : ℚ) : ℝ) := by
    apply Real.cos_lt_cos_of_nonneg_of_le_pi
    · push_cast; norm_num
    · linarith
    · push_cast; linarith
  linarith

end Scalar
end PyZX
