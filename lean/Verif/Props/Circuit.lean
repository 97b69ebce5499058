import Verif.Proofs.Circuit3
import Mathlib.Data.List.GetD

/-!
# C29, C30, C31, C40, C41: circuits
-/

namespace PyZX
namespace Props

open Complex

/-! ### C29: decompositions into basic gates -/

/-- C29: `to_basic_gates` of any gate on different qubits denotes the matrix of the gate up to a global phase. -/
theorem toBasic_sound {g : Gate} (h : g.Valid) : EqUpToPhase (semGates g.toBasic) g.sem := by
  obtain ⟨hne, hv⟩ := h
  have hself : ∀ g' : Gate, g'.toBasic = [g'] → EqUpToPhase (semGates g'.toBasic) g'.sem := by
    intro g' hg'
    rw [hg']
    exact ⟨1, by simp, fun ψ x => by rw [one_mul]; rfl⟩
  have n1 : ‖(1 : ℂ)‖ = 1 := by simp
  have nm : ‖(-1 : ℂ)‖ = 1 := by simp
  cases g with
  | zrot cls t p adj => exact hself _ rfl
  | xrot cls t p adj => exact hself _ rfl
  | yrot cls t p =>
      refine .of (norm_ph (-p/2)) fun ψ x => ?_
      change semGates (Gate.yBasic t p) ψ x = _ * on1 (matRY p) t ψ x
      rw [y_on1, on1_smul]
  | had t => exact hself _ rfl
  | cnot c t => exact hself _ rfl
  | cz c t => exact hself _ rfl
  | xcx c t => exact .of n1 (xcx_sound (by simpa [Gate.qubits] using hv))
  | swap c t => exact .of n1 (swap_sound (by simpa [Gate.qubits] using hv))
  | csx c t => exact .of n1 (csx_sound (by simpa [Gate.qubits] using hv))
  | cy c t => exact .of n1 (cy_sound (by simpa [Gate.qubits] using hv))
  | chad c t => exact .of (norm_ph _) (chad_sound (by simpa [Gate.qubits] using hv))
  | crx c t p => exact .of nm (crx_sound (by simpa [Gate.qubits] using hv) p)
  | cry c t p => exact .of n1 (cry_sound (by simpa [Gate.qubits] using hv) p)
  | crz c t p => exact .of n1 (crz_sound (by simpa [Gate.qubits] using hv) p)
  | cphase c t p =>
      refine .of n1 fun ψ x => ?_
      change semGates (Gate.cphaseBasic c t p) ψ x = 1 * ctrl (matZ p) c t ψ x
      rw [cphase_blk (by simpa [Gate.qubits] using hv), one_mul]
  | rxx c t p => exact .of (norm_ph _) (rxx_sound (by simpa [Gate.qubits] using hv) p)
  | parity p ts => exact .of n1 fun ψ x => by rw [one_mul]; exact parity_sem p ts hne hv ψ x
  | rzz c t ts p => exact .of n1 fun ψ x => by rw [one_mul]; exact parity_sem p ts hne hv ψ x
  | fsim c t phi => exact hself _ rfl
  | ccz c1 c2 t =>
    have hc : (c1 ≠ c2 ∧ c1 ≠ t) ∧ c2 ≠ t := by simpa [Gate.qubits] using hv
    exact .of n1 fun ψ x => by rw [one_mul]; exact ccz_sem hc.1.1 hc.1.2 hc.2 ψ x
  | tof c1 c2 t =>
    have hc : (c1 ≠ c2 ∧ c1 ≠ t) ∧ c2 ≠ t := by simpa [Gate.qubits] using hv
    exact .of n1 fun ψ x => by rw [one_mul]; exact tof_sem hc.1.1 hc.1.2 hc.2 ψ x
  | cswap c1 c2 t =>
    have hc : (c1 ≠ c2 ∧ c1 ≠ t) ∧ c2 ≠ t := by simpa [Gate.qubits] using hv
    exact .of n1 (cswap_sound hc.1.1 hc.1.2 hc.2)
  | u2 t theta phi =>
      refine .of (norm_ph (1/4)) fun ψ x => ?_
      change semGates (Gate.u2Basic t theta phi) ψ x = _ * on1 (matU (1/2) theta phi) t ψ x
      rw [u2_on1, on1_smul]
  | u3 t theta phi rho =>
      refine .of (norm_ph (1/2 + theta/2)) fun ψ x => ?_
      change semGates (Gate.u3Basic t theta phi rho) ψ x = _ * on1 (matU theta phi rho) t ψ x
      rw [u3_on1, on1_smul]
  | cu3 c t theta phi rho =>
      refine .of nm fun ψ x => ?_
      change semGates (Gate.cu3Basic c t theta phi rho) ψ x = _ * ctrl (matU theta phi rho) c t ψ x
      rw [cu3_blk (by simpa [Gate.qubits] using hv)]
      exact blk_eq rfl rfl ψ x
  | cu c t theta phi rho gamma =>
      refine .of nm fun ψ x => ?_
      have hc : c ≠ t := by simpa [Gate.qubits] using hv
      change semGates ([Gate.mkZPhase c gamma] ++ Gate.cu3Basic c t theta phi rho) ψ x = _ * ctrl (ph gamma • matU theta phi rho) c t ψ x
      rw [semGates_append, cu3_blk hc, semGates_cons, semGates_nil, sem_zphase, ctrlZ_eq_blk (t := t), blk_mul hc]
      refine blk_eq (by simp) ?_ ψ x
      rw [smul_mul_smul_comm, mul_one, mul_smul]

example : (Gate.cu 4 2 (1/3) (1/5) (1/7) (3/4)).Valid ∧ (Gate.parity (1/3) [5, 0, 2, 7]).Valid := ⟨⟨by decide, by decide⟩, by decide, by decide⟩

/-- C29 for circuits: `Circuit.to_basic_gates` preserves the map of the circuit up to a global phase. -/
theorem toBasicGates_sound {c : Circuit} (h : ∀ g ∈ c.gates, g.Valid) :
    EqUpToPhase (semGates c.toBasicGates.gates) (semGates c.gates) := by
  obtain ⟨n, b, gs⟩ := c
  simp only [Circuit.toBasicGates] at h ⊢
  induction gs with
  | nil => exact ⟨1, by simp, fun ψ x => by rw [one_mul]; rfl⟩
  | cons g r ih =>
    rw [List.flatMap_cons]
    exact (toBasic_sound (h g (by simp))).comp (ih fun g' hg' => h g' (by simp [hg'])) (semGates_smul r)

/-- Only gates of the classes `ZPhase`, `XPhase`, `HAD`, `CNOT`, `CZ` and `FSim` remain. -/
def IsBasic : Gate → Prop
  | .zrot _ _ _ _ => True
  | .xrot _ _ _ _ => True
  | .had _ => True
  | .cnot _ _ => True
  | .cz _ _ => True
  | .fsim _ _ _ => True
  | _ => False

/-- C29: the result has basic gates only, and they act on the qubits of the gate. -/
theorem toBasic_basic {g : Gate} (h : g.Valid) : ∀ g' ∈ g.toBasic, IsBasic g' ∧ g'.qubits ⊆ g.qubits ∧ g'.qubits.Nodup := by
  obtain ⟨hne, hv⟩ := h
  have hpar : ∀ (p : ℚ) (ts : List ℕ), ts ≠ [] → ts.Nodup → ∀ g' ∈ Gate.parityBasic p ts,
      IsBasic g' ∧ g'.qubits ⊆ ts ∧ g'.qubits.Nodup := by
    intro p ts
    induction ts with
    | nil => intro h; exact absurd rfl h
    | cons a r ih =>
      intro _ hn g' hg'
      cases r with
      | nil =>
        simp [Gate.parityBasic] at hg'
        subst hg'
        simp [IsBasic, Gate.qubits, Gate.mkZPhase]
      | cons b r =>
        rw [parityBasic_cons] at hg'
        have hn' := List.nodup_cons.mp hn
        have hab : a ≠ b := fun h => hn'.1 (by simp [h])
        simp only [List.mem_cons, List.mem_append, List.not_mem_nil, or_false] at hg'
        rcases hg' with rfl | hg' | rfl
        · simp [IsBasic, Gate.qubits, hab]
        · obtain ⟨h1, h2, h3⟩ := ih (by simp) hn'.2 g' hg'
          exact ⟨h1, fun q hq => List.mem_cons_of_mem _ (h2 hq), h3⟩
        · simp [IsBasic, Gate.qubits, hab]
  cases g with
  | parity p ts => exact hpar p ts hne hv
  | rzz c t ts p => exact hpar p ts hne hv
  | _ =>
    simp only [Gate.qubits, List.nodup_cons, List.mem_cons, List.not_mem_nil, or_false, not_or, not_false_eq_true, List.nodup_nil, and_true] at hv
    simp [Gate.toBasic, Gate.yBasic, Gate.u2Basic, Gate.u3Basic, Gate.cu3Basic, Gate.cphaseBasic, Gate.cczBasic,
      Gate.tofBasic, IsBasic, Gate.qubits, Gate.mkZPhase, Gate.mkXPhase, Gate.mkS, Gate.mkT, Gate.mkNOT, hv, Ne.symm]

/-! ### C31: splitting phases -/

theorem splitQuarter_sem (t : ℕ) {p : ℚ} (hp : p.den = 4) (ψ : QState) :
    semGates (Gate.splitQuarter t p) ψ = on1 (matZ p) t ψ := by
  have hodd : p.num % 2 = 1 := by
    have hc := p.reduced
    rw [hp] at hc
    by_contra hne
    have h2 : 2 ∣ p.num.natAbs := by omega
    have := Nat.dvd_gcd h2 (show 2 ∣ 4 by norm_num)
    rw [Nat.Coprime] at hc
    rw [hc] at this
    norm_num at this
  have hpq : p = (p.num : ℚ) / 4 := by
    conv_lhs => rw [← Rat.num_div_den p, hp]
    norm_num
  have hval : ∀ k : ℤ, p.num % 8 = k → ph p = ph ((k : ℚ) / 4) := by
    intro k hk
    have he : p = (k : ℚ) / 4 + 2 * ((p.num / 8 : ℤ) : ℚ) := by
      rw [hpq]
      have : (p.num : ℚ) = (k : ℚ) + 8 * ((p.num / 8 : ℤ) : ℚ) := by
        rw [← hk]; exact_mod_cast (Int.emod_add_mul_ediv p.num 8).symm
      rw [this]
      have h8 : (((k : ℚ) + 8 * ((p.num / 8 : ℤ) : ℚ)) / 4) = (k : ℚ) / 4 + 2 * ((p.num / 8 : ℤ) : ℚ) := by ring
      rw [h8]
      congr 3
      rw [← h8, ← this, ← hpq]
    conv_lhs => rw [he]
    rw [ph_add, ph_two_int, mul_one]
  have hcase : p.num % 8 = 1 ∨ p.num % 8 = 3 ∨ p.num % 8 = 5 ∨ p.num % 8 = 7 := by omega
  rcases hcase with hk | hk | hk | hk
  · have e := hval 1 hk
    simp only [Gate.splitQuarter, hk]
    norm_num [semGates_cons, semGates_nil, sem_t]
    rw [matZ, matZ, e]; norm_num
  · have e := hval 3 hk
    simp only [Gate.splitQuarter, hk]
    norm_num [semGates_cons, semGates_nil, sem_z, sem_tdg, on1_mul]
    congr 1
    rw [matZ, matZ, matZ, e, mat2_mul, ← ph_add]
    norm_num
  · have e := hval 5 hk
    simp only [Gate.splitQuarter, hk]
    norm_num [semGates_cons, semGates_nil, sem_z, sem_t, on1_mul]
    congr 1
    rw [matZ, matZ, matZ, e, mat2_mul, ← ph_add]
    norm_num
  · have e := hval 7 hk
    simp only [Gate.splitQuarter, hk]
    norm_num [semGates_cons, semGates_nil, sem_tdg]
    rw [matZ, matZ, e]
    have h7 : ph (7/4) = ph (-(1/4)) := by
      have := ph_add (-(1/4)) 2
      rw [ph_two, mul_one] at this
      rw [← this]; norm_num
    congr 2
    push_cast
    rw [h7]

theorem splitHalf_sem (t : ℕ) {p : ℚ} (hp : p.den = 2) (ψ : QState) :
    semGates (if p.num % 4 = 1 then [Gate.mkS t] else [Gate.mkS t true]) ψ = on1 (matZ p) t ψ := by
  have hodd : p.num % 2 = 1 := by
    have hc := p.reduced
    rw [hp] at hc
    by_contra hne
    have h2 : 2 ∣ p.num.natAbs := by omega
    have := Nat.dvd_gcd h2 (show 2 ∣ 2 by norm_num)
    rw [Nat.Coprime] at hc
    rw [hc] at this
    norm_num at this
  have hpq : p = (p.num : ℚ) / 2 := by
    conv_lhs => rw [← Rat.num_div_den p, hp]
    norm_num
  have hval : ∀ k m : ℤ, p.num = k + 4 * m → ph p = ph ((k : ℚ) / 2) := by
    intro k m hk
    rw [hpq, hk]
    have : (((k + 4 * m : ℤ) : ℚ) / 2) = (k : ℚ) / 2 + 2 * (m : ℚ) := by push_cast; ring
    rw [this, ph_add, ph_two_int, mul_one]
  by_cases hk : p.num % 4 = 1
  · have e := hval 1 (p.num / 4) (by omega)
    rw [if_pos hk, semGates_cons, semGates_nil, sem_s, matZ, matZ, e]; norm_num
  · have e := hval (-1) ((p.num + 1) / 4) (by omega)
    rw [if_neg hk, semGates_cons, semGates_nil, sem_sdg, matZ, matZ, e]; norm_num

theorem matH_conj (p : ℚ) : matH * matZ p * matH = matX p := by
  have hs : sq2⁻¹ * sq2⁻¹ = 1/2 := by rw [sq2_inv]; linear_combination sq2_mul_self / 4
  simp only [matH, matZ, matX, mat2_mul]
  refine mat2_congr ?_ ?_ ?_ ?_ <;> first | linear_combination (1 + ph p) * hs | linear_combination (1 - ph p) * hs

/-- C31: the gates returned by `split_phases` have exactly the matrix of the rotation. -/
theorem splitPhases_sound (g : Gate) (ψ : QState) : semGates g.splitPhases ψ = g.sem ψ := by
  cases g with
  | zrot cls t p adj =>
    rw [Gate.splitPhases]
    change _ = on1 (matZ p) t ψ
    by_cases h0 : p = 0
    · rw [if_pos h0, h0, semGates_nil]
      have : matZ 0 = 1 := by rw [matZ, ph_zero, mat2_one]
      rw [this, on1_one]
    rw [if_neg h0]
    by_cases h1 : p = 1
    · rw [if_pos h1, h1]; rfl
    rw [if_neg h1]
    by_cases h2 : p.den = 2
    · rw [if_pos h2]; exact splitHalf_sem t h2 ψ
    rw [if_neg h2]
    by_cases h4 : p.den = 4
    · rw [if_pos h4]; exact splitQuarter_sem t h4 ψ
    rw [if_neg h4]; rfl
  | xrot cls t p adj =>
    rw [Gate.splitPhases]
    change _ = on1 (matX p) t ψ
    by_cases h0 : p = 0
    · rw [if_pos h0, h0, semGates_nil]
      have : matX 0 = 1 := by rw [matX, ph_zero, mat2_one]; norm_num
      rw [this, on1_one]
    rw [if_neg h0]
    by_cases h1 : p = 1
    · rw [if_pos h1, h1]; rfl
    rw [if_neg h1, semGates_append, semGates_append, semGates_cons, semGates_nil, semGates_cons, semGates_nil, sem_had]
    by_cases h2 : p.den = 2
    · rw [if_pos h2, splitHalf_sem t h2, on1_mul, on1_mul, matH_conj]
    rw [if_neg h2]
    by_cases h4 : p.den = 4
    · rw [if_pos h4, splitQuarter_sem t h4, on1_mul, on1_mul, matH_conj]
    rw [if_neg h4, semGates_cons, semGates_nil, sem_zphase, on1_mul, on1_mul, matH_conj]
  | _ => rfl

/-- C31 for circuits. -/
theorem splitPhaseGates_sound (c : Circuit) (ψ : QState) : semGates c.splitPhaseGates.gates ψ = semGates c.gates ψ := by
  obtain ⟨n, b, gs⟩ := c
  simp only [Circuit.splitPhaseGates]
  induction gs generalizing ψ with
  | nil => rfl
  | cons g r ih => rw [List.flatMap_cons, semGates_append, splitPhases_sound, ih, semGates_cons]

/-- C31: a phase with denominator 1, 2 or 4 is split into Clifford+T gates without a phase parameter. -/
theorem splitPhases_clifford (t : ℕ) {p : ℚ} (hp : p.den = 2 ∨ p.den = 4) :
    ∀ g ∈ (Gate.mkZPhase t p).splitPhases, g = Gate.mkZ t ∨ g = Gate.mkS t ∨ g = Gate.mkS t true ∨ g = Gate.mkT t ∨ g = Gate.mkT t true := by
  intro g hg
  simp only [Gate.mkZPhase, Gate.splitPhases] at hg
  by_cases h0 : p = 0
  · simp [h0] at hg
  rw [if_neg h0] at hg
  by_cases h1 : p = 1
  · rw [if_pos h1] at hg; simp_all
  rw [if_neg h1] at hg
  by_cases h2 : p.den = 2
  · rw [if_pos h2] at hg
    split at hg <;> simp_all
  · have h4 : p.den = 4 := by tauto
    rw [if_neg h2, if_pos h4] at hg
    simp only [Gate.splitQuarter, List.mem_append] at hg
    rcases hg with (hg | hg) | hg <;> split at hg <;> simp_all

example : ((3 : ℚ) / 4).den = 4 ∧ ((-5 : ℚ) / 2).den = 2 := by norm_num [Rat.den_div_eq_of_coprime]

/-! ### C30: adjoints -/

/-- C30: a circuit followed by its adjoint is the identity, and so is the adjoint followed by the circuit, when every gate acts
on different qubits and is of a class whose `to_adjoint` is correct. -/
theorem adjoint_inverse_partial {c : Circuit} (hok : ∀ g ∈ c.gates, g.adjointOK = true) (hv : ∀ g ∈ c.gates, g.qubits.Nodup) (ψ : QState) :
    semGates (c.gates ++ c.adjoint.gates) ψ = ψ ∧ semGates (c.adjoint.gates ++ c.gates) ψ = ψ := by
  obtain ⟨n, b, gs⟩ := c
  simp only [Circuit.adjoint] at *
  have main : ∀ gs : List Gate, (∀ g ∈ gs, g.adjointOK = true) → (∀ g ∈ gs, g.qubits.Nodup) → ∀ ψ,
      semGates (gs.reverse.map Gate.toAdjoint) (semGates gs ψ) = ψ := by
    intro gs
    induction gs with
    | nil => intros; rfl
    | cons g r ih =>
      intro h1 h2 ψ
      rw [List.reverse_cons, List.map_append, semGates_append, semGates_cons, ih (fun g' hg' => h1 g' (by simp [hg']))
        (fun g' hg' => h2 g' (by simp [hg']))]
      exact Gate.adjoint_inv (h1 g (by simp)) (h2 g (by simp)) ψ
  refine ⟨by rw [semGates_append, main gs hok hv], ?_⟩
  rw [semGates_append]
  have h2 := main (gs.reverse.map Gate.toAdjoint) (by
      intro g hg
      obtain ⟨g', hg', rfl⟩ := List.mem_map.mp hg
      rw [Gate.adjoint_ok]; exact hok g' (by simpa using hg')) (by
      intro g hg
      obtain ⟨g', hg', rfl⟩ := List.mem_map.mp hg
      rw [Gate.adjoint_qubits]; exact hv g' (by simpa using hg')) ψ
  have h3 : ((gs.reverse.map Gate.toAdjoint).reverse.map Gate.toAdjoint) = gs := by
    rw [← List.map_reverse, List.reverse_reverse, List.map_map]
    conv_rhs => rw [← List.map_id gs]
    congr 1
    funext g
    exact g.adjoint_adjoint
  rwa [h3] at h2

example : ∀ g ∈ [Gate.mkT 0, Gate.cnot 0 1, Gate.crx 1 2 (1/3), Gate.yrot .y 0 1, Gate.chad 2 0, Gate.parity (1/4) [0, 2, 1]],
    g.adjointOK = true ∧ g.qubits.Nodup := by decide

/-- C30: the adjoint of the adjoint is the circuit. -/
theorem adjoint_adjoint (c : Circuit) : c.adjoint.adjoint = c := by
  obtain ⟨n, b, gs⟩ := c
  simp only [Circuit.adjoint]
  congr 1
  rw [← List.map_reverse, List.reverse_reverse, List.map_map]
  conv_rhs => rw [← List.map_id gs]
  congr 1
  funext g
  exact g.adjoint_adjoint

/-- C30 fails for `CSX`: its adjoint is the gate itself, which is not its inverse, even up to a global phase. -/
theorem csx_adjoint_wrong : ¬ EqUpToPhase (semGates ([Gate.csx 0 1] ++ (Circuit.adjoint ⟨2, 0, [Gate.csx 0 1]⟩).gates)) id := by
  rintro ⟨z, hz, h⟩
  have h1 := h (fun y => if y 0 && y 1 then 1 else 0) (fun _ => true)
  simp [semGates, Circuit.adjoint, Gate.toAdjoint, Gate.sem, ctrl, on1_apply, matX, mat2] at h1
  have hh : ph 2⁻¹ = I := by rw [← one_div]; exact ph_half
  rw [hh] at h1
  have h2 : (0 : ℂ) = z := by
    rw [← h1]
    linear_combination (-1/2) * Complex.I_sq
  rw [← h2] at hz
  simp at hz

/-- C30 fails for `U2`, `U3`, `CU3`, `CU`: their adjoint is the gate itself. Witness: `U3(1/2, 0, 0)`, a rotation by a quarter
turn about Y. -/
theorem u3_adjoint_wrong : ¬ EqUpToPhase (semGates ([Gate.u3 0 (1/2) 0 0] ++ (Circuit.adjoint ⟨1, 0, [Gate.u3 0 (1/2) 0 0]⟩).gates)) id := by
  rintro ⟨z, hz, h⟩
  have h1 := h (fun y => if y 0 then 1 else 0) (fun _ => true)
  simp [semGates, Circuit.adjoint, Gate.toAdjoint, Gate.sem, on1_apply, matU, mat2] at h1
  have h2 : (0 : ℂ) = z := by
    rw [← h1, hcos, hsin]
    have hc : Real.cos (Real.pi * ((1/2 : ℚ) : ℝ) / 2) = Real.sqrt 2 / 2 := by
      rw [show Real.pi * ((1/2 : ℚ) : ℝ) / 2 = Real.pi / 4 by push_cast; ring, Real.cos_pi_div_four]
    have hs : Real.sin (Real.pi * ((1/2 : ℚ) : ℝ) / 2) = Real.sqrt 2 / 2 := by
      rw [show Real.pi * ((1/2 : ℚ) : ℝ) / 2 = Real.pi / 4 by push_cast; ring, Real.sin_pi_div_four]
    simp only [one_div] at hc hs
    rw [hc, hs]; ring
  rw [← h2] at hz
  simp at hz

/-! ### C40: T-count and depth -/

/-- C40: the T-count is additive under concatenation and invariant under the adjoint. -/
theorem tcount_add {c d e : Circuit} (h : c.addCircuit d = some e) : e.tcount = c.tcount + d.tcount := by
  unfold Circuit.addCircuit at h
  split at h
  · simp at h
  · split at h
    · simp at h
    · simp only [Option.some.injEq] at h
      subst h
      simp [Circuit.tcount]

example : (Circuit.addCircuit ⟨2, 0, [Gate.mkT 0]⟩ ⟨2, 0, [Gate.cnot 0 1]⟩).isSome = true := by decide

theorem tcount_adjoint (c : Circuit) : c.adjoint.tcount = c.tcount := by
  have h : ∀ g : Gate, g.toAdjoint.tcount = g.tcount := by
    intro g; cases g <;> simp [Gate.toAdjoint, Gate.tcount]
  simp only [Circuit.tcount, Circuit.adjoint, List.map_map]
  have : Gate.tcount ∘ Gate.toAdjoint = Gate.tcount := funext h
  rw [this, List.map_reverse, List.sum_reverse]

/-- C40: the T-count reported for a `CHAD` gate is 0 although its decomposition has two T gates. -/
theorem tcount_chad_wrong : (Circuit.tcount ⟨2, 0, [Gate.chad 0 1]⟩) = 0 ∧
    (Circuit.toBasicGates ⟨2, 0, [Gate.chad 0 1]⟩).tcount = 2 := by
  constructor
  · rfl
  · simp [Circuit.toBasicGates, Circuit.tcount, Gate.toBasic, Gate.tcount, Gate.mkS, Gate.mkT, Gate.mkNOT]

/-- Specification of depth: `DepPath gs k q` says that there is a chain of `k ≥ 1` gates of `gs`, in order, any two consecutive ones
sharing a qubit, the last one acting on `q`. Only gates counted by `depth` have qubits here. -/
inductive DepPath : List Gate → ℕ → ℕ → Prop
  | start {gs : List Gate} {g : Gate} {q : ℕ} : q ∈ Circuit.depthQubits g → DepPath (gs ++ [g]) 1 q
  | skip {gs : List Gate} {g : Gate} {k q : ℕ} : DepPath gs k q → DepPath (gs ++ [g]) k q
  | step {gs : List Gate} {g : Gate} {k q q' : ℕ} : DepPath gs k q' → q' ∈ Circuit.depthQubits g → q ∈ Circuit.depthQubits g →
      DepPath (gs ++ [g]) (k + 1) q

theorem foldr_max_le {l : List ℕ} {b : ℕ} : l.foldr max 0 ≤ b ↔ ∀ a ∈ l, a ≤ b := by
  induction l with
  | nil => simp
  | cons x r ih => simp [ih]

theorem foldr_max_mem (l : List ℕ) : l.foldr max 0 = 0 ∨ l.foldr max 0 ∈ l := by
  induction l with
  | nil => simp
  | cons x r ih =>
    simp only [List.foldr_cons, List.mem_cons]
    rcases max_choice x (r.foldr max 0) with h | h
    · rw [h]; tauto
    · rw [h]; tauto

theorem setAll_getD (qs : List ℕ) (d : ℕ) : ∀ (md : List ℕ), (∀ q ∈ qs, q < md.length) → ∀ q,
    (qs.foldl (fun md q => md.set q d) md).getD q 0 = if q ∈ qs then d else md.getD q 0 := by
  induction qs with
  | nil => intro md _ q; simp
  | cons a r ih =>
    intro md h q
    rw [List.foldl_cons, ih _ (by intro q hq; simp; exact h q (by simp [hq]))]
    have ha := h a (by simp)
    by_cases hq : q ∈ r
    · simp [hq]
    · rw [if_neg hq]
      by_cases hqa : q = a
      · subst hqa
        simp [List.getD_eq_getElem?_getD, ha]
      · simp [hq, hqa, List.getD_eq_getElem?_getD, Ne.symm hqa]

theorem setAll_length (qs : List ℕ) (d : ℕ) : ∀ (md : List ℕ), (qs.foldl (fun md q => md.set q d) md).length = md.length := by
  induction qs with
  | nil => intro md; rfl
  | cons a r ih => intro md; rw [List.foldl_cons, ih]; simp

theorem depthStep_spec {md md' : List ℕ} {g : Gate} (h : Circuit.depthStep md g = some md') :
    md'.length = md.length ∧ (∀ q ∈ Circuit.depthQubits g, q < md.length) ∧
    ∀ q, md'.getD q 0 = if q ∈ Circuit.depthQubits g then ((Circuit.depthQubits g).map fun q => md.getD q 0).foldr max 0 + 1
      else md.getD q 0 := by
  unfold Circuit.depthStep at h
  simp only at h
  split at h
  · rename_i hlt
    simp only [Option.some.injEq] at h
    subst h
    exact ⟨setAll_length _ _ _, hlt, setAll_getD _ _ _ hlt⟩
  · simp at h

/-- The entries of the loop of `depth` are the lengths of the longest chains ending at each qubit. -/
theorem depth_loop (n : ℕ) (gs : List Gate) {md : List ℕ} (h : gs.foldlM Circuit.depthStep (List.replicate n 0) = some md) :
    md.length = n ∧ (∀ k q, DepPath gs k q → k ≤ md.getD q 0) ∧ ∀ q, md.getD q 0 = 0 ∨ DepPath gs (md.getD q 0) q := by
  induction gs using List.reverseRecOn generalizing md with
  | nil =>
    simp at h
    subst h
    refine ⟨by simp, fun k q hp => ?_, fun q => Or.inl ?_⟩
    · generalize hg : ([] : List Gate) = gs at hp
      cases hp <;> simp at hg
    · rw [List.getD_eq_getElem?_getD, List.getElem?_replicate]; split <;> rfl
  | append_singleton gs g ih =>
    rw [List.foldlM_append] at h
    simp only [Option.bind_eq_bind, Option.bind_eq_some_iff, List.foldlM_cons, List.foldlM_nil, Option.pure_def] at h
    obtain ⟨md0, h0, md1, h1, h2⟩ := h
    simp only [Option.some.injEq] at h2
    subst h2
    obtain ⟨hl, hup, hat⟩ := ih h0
    obtain ⟨hl', hlt, hval⟩ := depthStep_spec h1
    refine ⟨by rw [hl', hl], fun k q hp => ?_, fun q => ?_⟩
    · generalize hg : gs ++ [g] = gs' at hp
      have hmax : ∀ q ∈ Circuit.depthQubits g, md0.getD q 0 ≤ ((Circuit.depthQubits g).map fun q => md0.getD q 0).foldr max 0 :=
        fun q hq => foldr_max_le.mp le_rfl _ (List.mem_map.mpr ⟨q, hq, rfl⟩)
      rw [hval q]
      cases hp with
      | start hq =>
        obtain ⟨rfl, e⟩ := List.append_inj' hg rfl
        simp only [List.cons.injEq, and_true] at e
        subst e
        rw [if_pos hq]; omega
      | skip hp =>
        obtain ⟨rfl, e⟩ := List.append_inj' hg rfl
        simp only [List.cons.injEq, and_true] at e
        subst e
        have := hup _ _ hp
        split
        · rename_i hq; have := hmax q hq; omega
        · exact this
      | step hp hq' hq =>
        obtain ⟨rfl, e⟩ := List.append_inj' hg rfl
        simp only [List.cons.injEq, and_true] at e
        subst e
        rw [if_pos hq]
        have := hup _ _ hp
        have := hmax _ hq'
        omega
    · rw [hval q]
      split
      · rename_i hq
        right
        rcases foldr_max_mem ((Circuit.depthQubits g).map fun q => md0.getD q 0) with h | h
        · rw [h]; exact .start hq
        · obtain ⟨q', hq', he⟩ := List.mem_map.mp h
          rw [← he]
          rcases hat q' with h0 | hp
          · rw [h0]; exact .start hq
          · exact .step hp hq' hq
      · rcases hat q with h | h
        · exact Or.inl h
        · exact Or.inr (.skip h)

/-- C40: `depth` is the length of the longest chain of gates in which consecutive gates share a qubit. -/
theorem depth_longest_chain {c : Circuit} {d : ℕ} (h : c.depth = some d) :
    (∀ k q, DepPath c.gates k q → k ≤ d) ∧ (d = 0 ∨ ∃ q, DepPath c.gates d q) := by
  unfold Circuit.depth at h
  split at h
  · simp at h
  · rw [Option.map_eq_some_iff] at h
    obtain ⟨md, hmd, rfl⟩ := h
    obtain ⟨hl, hup, hat⟩ := depth_loop _ _ hmd
    constructor
    · intro k q hp
      refine le_trans (hup k q hp) ?_
      by_cases hq : q < md.length
      · refine foldr_max_le.mp le_rfl _ ?_
        rw [List.getD_eq_getElem _ _ hq]
        exact List.getElem_mem hq
      · rw [List.getD_eq_default _ _ (by omega)]; exact Nat.zero_le _
    · rcases foldr_max_mem md with h | h
      · exact Or.inl h
      · obtain ⟨q, hq, he⟩ := List.getElem_of_mem h
        rcases hat q with h0 | hp
        · left; rw [← he, ← List.getD_eq_getElem md 0 hq, h0]
        · right; refine ⟨q, ?_⟩
          rwa [List.getD_eq_getElem _ _ hq, he] at hp

theorem depPath_pos {gs : List Gate} {k q : ℕ} (h : DepPath gs k q) : 1 ≤ k := by
  induction h <;> omega

theorem depPath_length {gs : List Gate} {k q : ℕ} (h : DepPath gs k q) : k ≤ gs.length := by
  induction h <;> simp <;> omega

theorem depPath_prefix {gs : List Gate} {k q : ℕ} (h : DepPath gs k q) : ∀ r, DepPath (gs ++ r) k q := by
  intro r
  induction r using List.reverseRecOn with
  | nil => simpa using h
  | append_singleton r g ih => rw [← List.append_assoc]; exact .skip ih

/-- A chain in a concatenation splits. -/
theorem depPath_append {a : List Gate} : ∀ (b : List Gate) {k q : ℕ}, DepPath (a ++ b) k q →
    ∃ i j, k = i + j ∧ (i = 0 ∨ ∃ q', DepPath a i q') ∧ (j = 0 ∧ DepPath a i q ∨ DepPath b j q) := by
  intro b
  induction b using List.reverseRecOn with
  | nil => intro k q h; exact ⟨k, 0, by omega, Or.inr ⟨q, by simpa using h⟩, Or.inl ⟨rfl, by simpa using h⟩⟩
  | append_singleton b g ih =>
    intro k q h
    rw [← List.append_assoc] at h
    generalize hg : a ++ b ++ [g] = gs' at h
    cases h with
    | start hq =>
      obtain ⟨-, e⟩ := List.append_inj' hg rfl
      simp only [List.cons.injEq, and_true] at e
      subst e
      exact ⟨0, 1, rfl, Or.inl rfl, Or.inr (.start hq)⟩
    | skip hp =>
      obtain ⟨rfl, e⟩ := List.append_inj' hg rfl
      simp only [List.cons.injEq, and_true] at e
      subst e
      obtain ⟨i, j, hk, h1, h2⟩ := ih hp
      refine ⟨i, j, hk, h1, ?_⟩
      rcases h2 with h2 | h2
      · exact Or.inl h2
      · exact Or.inr (.skip h2)
    | step hp hq' hq =>
      obtain ⟨rfl, e⟩ := List.append_inj' hg rfl
      simp only [List.cons.injEq, and_true] at e
      subst e
      obtain ⟨i, j, hk, h1, h2⟩ := ih hp
      refine ⟨i, j + 1, by omega, h1, Or.inr ?_⟩
      rcases h2 with ⟨rfl, h2⟩ | h2
      · exact .start hq
      · exact .step h2 hq' hq

/-- C40: `depth` is at most the number of gates. -/
theorem depth_le_length {c : Circuit} {d : ℕ} (h : c.depth = some d) : d ≤ c.gates.length := by
  rcases (depth_longest_chain h).2 with h0 | ⟨q, hp⟩
  · omega
  · exact depPath_length hp

/-- C40: `depth` of a concatenation is at least that of each part and at most their sum. -/
theorem depth_append {c d e : Circuit} {a b k : ℕ} (he : c.addCircuit d = some e) (ha : c.depth = some a) (hb : d.depth = some b)
    (hk : e.depth = some k) : a ≤ k ∧ k ≤ a + b := by
  have hg : e.gates = c.gates ++ d.gates := by
    unfold Circuit.addCircuit at he
    split at he
    · simp at he
    · split at he
      · simp at he
      · simp only [Option.some.injEq] at he; subst he; rfl
  have hA := depth_longest_chain ha
  have hB := depth_longest_chain hb
  have hK := depth_longest_chain hk
  rw [hg] at hK
  constructor
  · rcases hA.2 with h | ⟨q, h⟩
    · omega
    · exact hK.1 _ _ (depPath_prefix h _)
  · rcases hK.2 with h | ⟨q, h⟩
    · omega
    · obtain ⟨i, j, e, h1, h2⟩ := depPath_append _ h
      have hi : i ≤ a := by
        rcases h1 with h1 | ⟨q', h1⟩
        · omega
        · exact hA.1 _ _ h1
      have hj : j ≤ b := by
        rcases h2 with ⟨h2, -⟩ | h2
        · omega
        · exact hB.1 _ _ h2
      omega

example : (Circuit.depth ⟨3, 0, [Gate.mkT 0, Gate.cnot 0 1, Gate.had 2, Gate.ccz 0 1 2]⟩) = some 3 := by decide

/-- C40: `depth` skips the classes it does not list: a circuit of Y gates has depth 0. -/
theorem depth_ignores_Y (n : ℕ) : (Circuit.depth ⟨1, 0, List.replicate n (Gate.yrot .y 0 1)⟩) = some 0 := by
  have h : ∀ m, (List.replicate m (Gate.yrot .y 0 1)).foldlM Circuit.depthStep [0] = some [0] := by
    intro m
    induction m with
    | zero => rfl
    | succ m ih => rw [List.replicate_succ, List.foldlM_cons]; exact ih
  simp [Circuit.depth, h]

/-! ### C41: placing a circuit on other qubits, tensor product -/

/-- C41: `add_circuit` with a mask appends the circuit acting on the qubits of the mask: on the basis state that agrees with `x` outside the mask
and has the bits `y` on the mask, the appended gates act as the original ones act on `y`. -/
theorem addCircuitMask_sound {c d e : Circuit} {mask : List ℕ} (hn : mask.Nodup) (h : c.addCircuitMask d mask = some e) (ψ : QState)
    (y x : ℕ → Bool) :
    semGates e.gates ψ (place mask y x) = semGates d.gates (fun y => semGates c.gates ψ (place mask y x)) y := by
  unfold Circuit.addCircuitMask at h
  split at h
  · simp at h
  · split at h
    · simp at h
    · rw [Option.map_eq_some_iff] at h
      obtain ⟨gs, hgs, rfl⟩ := h
      simp only
      rw [semGates_append, reposition_gates hn hgs]

example : [3, 0, 2].Nodup ∧ (Circuit.addCircuitMask ⟨4, 0, [Gate.had 1]⟩ ⟨3, 0, [Gate.cnot 0 1, Gate.ccz 0 1 2, Gate.mkRZZ 0 2 (1/3)]⟩ [3, 0, 2]).isSome = true := by
  decide

/-- C41: the tensor product of two circuits maps the product of two states to the product of their images. The first circuit acts on
the first qubits, the second on the others. -/
theorem tensor_sound {c d e : Circuit} (hc : ∀ g ∈ c.gates, ∀ q ∈ g.qubits, q < c.qubits)
    (h : c.tensor d = some e) (ψ φ : QState)
    (hψ : ∀ x y, (∀ q < c.qubits, x q = y q) → ψ x = ψ y) (hφ : ∀ x y, (∀ q < d.qubits, x q = y q) → φ x = φ y) (x : ℕ → Bool) :
    semGates e.gates (fun x => ψ x * φ fun q => x (q + c.qubits)) x = semGates c.gates ψ x * semGates d.gates φ fun q => x (q + c.qubits) := by
  unfold Circuit.tensor at h
  rw [Option.map_eq_some_iff] at h
  obtain ⟨gs, hgs, rfl⟩ := h
  simp only
  rw [semGates_append]
  have h1 : semGates c.gates (fun x => ψ x * φ fun q => x (q + c.qubits)) = fun x => semGates c.gates ψ x * φ fun q => x (q + c.qubits) := by
    funext x
    refine semGates_local (f := fun x => φ fun q => x (q + c.qubits)) (fun g hg x y hxy => ?_) ψ x
    refine hφ _ _ fun q _ => hxy _ fun hq => ?_
    have := hc g hg _ hq
    omega
  rw [h1]
  set mask := (List.range d.qubits).map (· + c.qubits) with hmask
  have hn : mask.Nodup := List.nodup_range.map fun a b => by simp
  have hmem : ∀ q, q ∈ mask ↔ c.qubits ≤ q ∧ q < c.qubits + d.qubits := by
    intro q
    simp only [hmask, List.mem_map, List.mem_range]
    constructor
    · rintro ⟨a, ha, rfl⟩; omega
    · intro hq; exact ⟨q - c.qubits, by omega, by omega⟩
  have hget : ∀ i < d.qubits, Gate.maskGet mask i = some (i + c.qubits) := by
    intro i hi
    simp [Gate.maskGet, hmask, hi]
  set y : ℕ → Bool := fun q => x (q + c.qubits) with hy
  have hx : x = place mask y x := by
    funext q
    rw [place]
    split
    · rename_i hq
      have := (hmem q).mp hq
      have hi := idx_mask hn (hget (q - c.qubits) (by omega))
      rw [show q - c.qubits + c.qubits = q by omega] at hi
      rw [hi, hy]
      simp only
      congr 1
      omega
    · rfl
  conv_lhs => rw [hx]
  rw [reposition_gates hn hgs]
  -- the first factor does not depend on the new bits
  have hfirst : ∀ y', semGates c.gates ψ (place mask y' x) = semGates c.gates ψ x := by
    intro y'
    have hloc : ∀ gs' : List Gate, (∀ g ∈ gs', ∀ q ∈ g.qubits, q < c.qubits) → ∀ ψ' : QState, (∀ x y, (∀ q < c.qubits, x q = y q) → ψ' x = ψ' y) →
        ∀ x y, (∀ q < c.qubits, x q = y q) → semGates gs' ψ' x = semGates gs' ψ' y := by
      intro gs'
      induction gs' with
      | nil => intro _ ψ' hψ' x y hxy; exact hψ' x y hxy
      | cons g r ih =>
        intro hg ψ' hψ' x y hxy
        rw [semGates_cons]
        refine ih (fun g' hg' => hg g' (by simp [hg'])) _ ?_ x y hxy
        intro x y hxy
        exact Gate.sem_congr (hg g (by simp)) hψ' hxy
    refine hloc c.gates hc ψ hψ _ _ fun q hq => ?_
    rw [place, if_neg]
    rw [hmem]; omega
  have hsecond : (fun y' => semGates c.gates ψ (place mask y' x) * φ fun q => place mask y' x (q + c.qubits)) =
      fun y' => semGates c.gates ψ x * φ y' := by
    funext y'
    rw [hfirst]
    congr 1
    refine hφ _ _ fun q hq => ?_
    exact place_apply hn (hget q hq) y' x
  rw [hsecond, semGates_smul]

example : (Circuit.tensor ⟨2, 0, [Gate.cnot 0 1]⟩ ⟨2, 0, [Gate.had 0, Gate.cz 0 1]⟩) = some ⟨4, 0, [Gate.cnot 0 1, Gate.had 2, Gate.cz 2 3]⟩ := by
  decide

/-- C41 fails for `FSim`: `reposition` raises. -/
theorem fsim_reposition_raises (mask : List ℕ) (c t : ℕ) (phi : ℚ) : (Gate.fsim c t phi).reposition mask = none := rfl

/-- C41: `reposition` of an `RZZ` gate leaves the attributes `control` and `target`, which are used for printing, unchanged. -/
theorem rzz_reposition_stale : (Gate.mkRZZ 0 1 (1/4)).reposition [5, 6] = some (Gate.rzz 0 1 [5, 6] (1/4)) ∧
    Gate.rzz 0 1 [5, 6] (1/4) ≠ Gate.mkRZZ 5 6 (1/4) :=
  ⟨rfl, by intro h; simp [Gate.mkRZZ] at h⟩

end Props
end PyZX
