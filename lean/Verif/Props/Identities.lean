import Verif.Proofs.Identities
import Verif.Proofs.IdGraph

/-!
# C63: fixed diagrams and the circuit identities

`generate.identity` is the identity, `generate.spider` is a spider, and the circuits of `circuit_identity_*` are equal to the identity, exactly.
-/

namespace PyZX
namespace Props

open Generate Graph

/-- **C63.** `identity(n)` has `n` inputs, `n` outputs, no other vertices, and denotes the identity. -/
theorem identity_denotes (n : ℕ) : ∃ g, Generate.identity n = some g ∧ Shape g n n ∧ g.verts.card = 2 * n ∧
    ∀ x y, g.mat x y = if ∀ q < n, y q = x q then 1 else 0 :=
  identity_spec n

theorem all_split {n m : ℕ} {x y : ℕ → Bool} {c : Bool} :
    (if ∀ w ∈ Finset.range n, x w = c then (1 : ℂ) else 0) * (if ∀ w ∈ Finset.range m, y w = c then 1 else 0) =
      if (∀ i < n, x i = c) ∧ ∀ i < m, y i = c then 1 else 0 := by
  simp only [Finset.mem_range]
  by_cases h1 : ∀ i < n, x i = c
  · by_cases h2 : ∀ i < m, y i = c
    · rw [if_pos h1, if_pos h2, if_pos ⟨h1, h2⟩, one_mul]
    · rw [if_neg h2, mul_zero, if_neg fun h => h2 h.2]
  · rw [if_neg h1, zero_mul, if_neg fun h => h1 h.1]

/-- **C63.** `spider("Z", n, m, p)` denotes `|0…0⟩⟨0…0| + e^{iπp} |1…1⟩⟨1…1|`. -/
theorem spiderZ_denotes (n m : ℕ) (p : ℚ) : ∃ g, Generate.spider .Z n m p = some g ∧ Shape g n m ∧ g.verts.card = 1 + n + m ∧
    ∀ x y, g.mat x y = (if (∀ i < n, x i = false) ∧ ∀ i < m, y i = false then 1 else 0) +
      ph p * if (∀ i < n, x i = true) ∧ ∀ i < m, y i = true then 1 else 0 := by
  obtain ⟨g, h1, h2, h3, h4⟩ := spider_spec (Or.inl rfl) n m p
  refine ⟨g, h1, h2, h3, fun x y => ?_⟩
  have hl : ∀ c a, legT .Z c a = dmat c a := fun _ _ => rfl
  rw [h4, Fintype.sum_bool]
  simp only [hl, prod_dmat, all_split]
  simp only [wtT, Bool.false_eq_true, if_false, if_true, ph_mod2]
  ring

/-- **C63.** `spider("X", n, m, p)` denotes `|+…+⟩⟨+…+| + e^{iπp} |-…-⟩⟨-…-|`. -/
theorem spiderX_denotes (n m : ℕ) (p : ℚ) : ∃ g, Generate.spider .X n m p = some g ∧ Shape g n m ∧ g.verts.card = 1 + n + m ∧
    ∀ x y, g.mat x y = sq2⁻¹ ^ (n + m) *
      (1 + ph p * (-1) ^ (((Finset.range n).filter fun i => x i = true).card + ((Finset.range m).filter fun i => y i = true).card)) := by
  obtain ⟨g, h1, h2, h3, h4⟩ := spider_spec (Or.inr (Or.inl rfl)) n m p
  refine ⟨g, h1, h2, h3, fun x y => ?_⟩
  have hl : ∀ c a, legT .X c a = hmat c a := fun _ _ => rfl
  rw [h4, Fintype.sum_bool]
  simp only [hl, prod_hmat_true, prod_hmat_false, Finset.card_range]
  simp only [wtT, Bool.false_eq_true, if_false, if_true, ph_mod2]
  ring

/-- **C63.** `spider("H", n, m, p)` denotes the H-box with entry `e^{iπp}` where all bits are set, and 1 elsewhere. -/
theorem spiderH_denotes (n m : ℕ) (p : ℚ) : ∃ g, Generate.spider .hbox n m p = some g ∧ Shape g n m ∧ g.verts.card = 1 + n + m ∧
    ∀ x y, g.mat x y = if (∀ i < n, x i = true) ∧ ∀ i < m, y i = true then ph p else 1 := by
  obtain ⟨g, h1, h2, h3, h4⟩ := spider_spec (Or.inr (Or.inr rfl)) n m p
  refine ⟨g, h1, h2, h3, fun x y => ?_⟩
  have hf : ∀ (s : Finset ℕ) (z : ℕ → Bool), ∏ w ∈ s, legT .hbox false (z w) = 1 := fun s z => Finset.prod_eq_one fun w _ => by simp [legT]
  rw [h4, Fintype.sum_bool, hf, hf, Graph.prod_hleg, Graph.prod_hleg, all_split]
  simp only [wtT, Bool.false_eq_true, if_false, if_true, ph_mod2]
  split_ifs <;> ring

/-- With the phase 0 that `spider` chooses if none is given, the H-box with one input and one output is not a multiple of the Hadamard matrix: all of its
entries are 1. -/
theorem spiderH_default : ∃ g, Generate.spider .hbox 1 1 0 = some g ∧ (∀ x y, g.mat x y = 1) ∧ ¬ ∃ z : ℂ, ∀ x y, g.mat x y = z * hmat (x 0) (y 0) := by
  obtain ⟨g, h1, -, -, h4⟩ := spiderH_denotes 1 1 0
  have e : ∀ x y, g.mat x y = 1 := fun x y => by rw [h4, ph_zero, ite_self]
  refine ⟨g, h1, e, ?_⟩
  rintro ⟨z, hz⟩
  have a := (e (fun _ => false) fun _ => false).symm.trans (hz _ _)
  have b := (e (fun _ => true) fun _ => true).symm.trans (hz _ _)
  simp only [hmat, Bool.and_self, Bool.false_eq_true, if_false, if_true] at a b
  have : (1 : ℂ) + 1 = 0 := by linear_combination a + b
  norm_num at this

/-- **C63.** `circuit_identity_phasepoly()` is the identity. -/
theorem identityPhasepoly_id (ψ : QState) : semGates identityPhasepoly.gates ψ = ψ := phasepoly_id ψ

/-- **C63.** `circuit_identity_commuting_controls(alpha, beta)` is the identity for all angles. -/
theorem identityControls_id (alpha beta : ℚ) : ∃ c, identityControls alpha beta = some c ∧ c.qubits = 2 ∧
    (∀ g ∈ c.gates, g.Valid ∧ ∀ q ∈ g.qubits, q < 2) ∧ ∀ ψ, semGates c.gates ψ = ψ := by
  refine ⟨⟨2, 0, (identityCb beta).gates ++ (identityCa alpha).gates ++ (identityCb beta).adjoint.gates ++ (identityCa alpha).adjoint.gates⟩, rfl, rfl,
    ?_, fun ψ => ?_⟩
  · have hb : ∀ g ∈ (identityCb beta).gates, g.Valid ∧ ∀ q ∈ g.qubits, q < 2 := by
      simp [identityCb, Gate.mkNOT, Gate.mkZPhase, Gate.Valid, Gate.qubits]
    have ha : ∀ g ∈ (identityCa alpha).gates, g.Valid ∧ ∀ q ∈ g.qubits, q < 2 := by
      simp [identityCa, Gate.mkXPhase, Gate.mkZPhase, Gate.Valid, Gate.qubits]
    have hadj : ∀ c : Circuit, (∀ g ∈ c.gates, g.Valid ∧ ∀ q ∈ g.qubits, q < 2) → ∀ g ∈ c.adjoint.gates, g.Valid ∧ ∀ q ∈ g.qubits, q < 2 := by
      intro c hc g hg
      obtain ⟨g', hg', rfl⟩ := List.mem_map.mp (show g ∈ c.gates.reverse.map Gate.toAdjoint from hg)
      have := hc g' (List.mem_reverse.mp hg')
      unfold Gate.Valid at this ⊢
      rw [Gate.adjoint_qubits]
      exact this
    intro g hg
    simp only [List.mem_append] at hg
    rcases hg with ((hg | hg) | hg) | hg
    · exact hb g hg
    · exact ha g hg
    · exact hadj _ hb g hg
    · exact hadj _ ha g hg
  · obtain ⟨B, hB⟩ := ca_blk alpha
    have cb : ∀ φ, semGates (identityCb beta).adjoint.gates (semGates (identityCb beta).gates φ) = φ := fun φ => by
      rw [← semGates_append]
      exact (adjoint_inverse_partial (c := identityCb beta) (by simp [identityCb, Gate.mkNOT, Gate.mkZPhase, Gate.adjointOK])
        (by simp [identityCb, Gate.mkNOT, Gate.mkZPhase, Gate.qubits]) φ).1
    have ca : ∀ φ, semGates (identityCa alpha).adjoint.gates (semGates (identityCa alpha).gates φ) = φ := fun φ => by
      rw [← semGates_append]
      exact (adjoint_inverse_partial (c := identityCa alpha) (by simp [identityCa, Gate.mkXPhase, Gate.mkZPhase, Gate.adjointOK])
        (by simp [identityCa, Gate.mkXPhase, Gate.mkZPhase, Gate.qubits]) φ).1
    have comm : semGates (identityCa alpha).gates (semGates (identityCb beta).gates ψ) = semGates (identityCb beta).gates (semGates (identityCa alpha).gates ψ) := by
      rw [cb_blk, cb_blk, hB, hB, blk_mul (by omega), blk_mul (by omega), one_mul, mul_one, one_mul, mul_one]
    rw [semGates_append, semGates_append, semGates_append, comm, cb, ca]

/-- **C63.** `circuit_identity_two_qubit1()` is the identity. -/
theorem identityTwo1_id : ∃ c, identityTwo1 = some c ∧ c.qubits = 2 ∧ ∀ ψ, semGates c.gates ψ = ψ := ⟨_, rfl, rfl, two1_id⟩

/-- **C63.** `circuit_identity_two_qubit2()` is the identity. -/
theorem identityTwo2_id : ∃ c, identityTwo2 = some c ∧ c.qubits = 2 ∧ ∀ ψ, semGates c.gates ψ = ψ := ⟨_, rfl, rfl, two2_id⟩

/-! ### Examples -/

/-- The Z-spider with two inputs and one output and phase π/4. -/
example : ∃ g, Generate.spider .Z 2 1 (1/4) = some g ∧ g.mat (fun _ => true) (fun _ => true) = ph (1/4) ∧ g.mat (fun _ => true) (fun _ => false) = 0 ∧
    g.mat (fun _ => false) (fun _ => false) = 1 := by
  obtain ⟨g, h1, -, -, h4⟩ := spiderZ_denotes 2 1 (1/4)
  refine ⟨g, h1, ?_, ?_, ?_⟩
  · rw [h4, if_neg (by push Not; intro _; exact ⟨0, by omega, by simp⟩), if_pos (by simp)]; ring
  · rw [h4, if_neg (fun h => by simpa using h.1 0 (by omega)), if_neg (by simp)]; ring
  · rw [h4, if_pos (by simp), if_neg (by push Not; intro _; exact ⟨0, by omega, by simp⟩)]; ring

/-- The circuit of commuting controls has 24 gates. -/
example : (identityControls (1/4) (1/8)).map (·.gates.length) = some 24 := by rfl

example : identityPhasepoly.gates.length = 15 := by rfl

end Props
end PyZX
