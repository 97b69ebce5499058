import Verif.Proofs.ToddSimp

/-!
# C50, C51: `parity_network` and `todd_simp`

* `parity_network` returns CNOTs on the given qubits in the course of which every given parity other than zero is the value of a qubit.
* For a list of phase gates with multiples of `π/4`, CZ and CNOT, and whatever the random shuffle does, the gates `todd_simp` returns are of the same kinds
  and denote the same map (not only up to a global phase), and there are at most as many T gates. On 2 to 499 qubits it returns.

On one qubit `todd_simp` raises. It accepts other gates as well and then returns a circuit for a different map: a SWAP is treated as a CZ
(`toddSimp_swap_wrong`), and phases that are not a multiple of `π/4` are truncated (`toddSimp_phase_wrong`).
-/

namespace PyZX
namespace Props

open Todd ToddSpec Mat2

/-- C50: every parity is realised. -/
theorem parityNetwork_sound {n : ℕ} {S : List Row} (hS : ∀ y ∈ S, y.length = n) :
    ∃ cs, parityNetwork n S = some cs ∧ (∀ g ∈ cs, g.1 < n ∧ g.2 < n ∧ g.1 ≠ g.2) ∧ ∀ y ∈ S, true ∈ y → Visits n cs y := by
  obtain ⟨cs, h1, h2, h3⟩ := parityNetwork_spec hS
  refine ⟨cs, h1, h2, fun y hy ht => ?_⟩
  obtain ⟨c1, c2, e, q, hq, hk⟩ := h3 y hy ht
  refine ⟨c1, c2, e, ⟨q, hq⟩, fun x => ?_⟩
  have := circAct_rows (rect_ident n) (c := c1) (fun g hg => h2 g (by rw [e]; simp [hg])) x
  rw [mat_ident, Matrix.one_mulVec] at this
  rw [this]
  simp only [Matrix.mulVec, dotProduct, mat]
  exact Finset.sum_congr rfl fun k _ => by rw [hk k k.2]

/-- Three parities of three qubits. -/
def exPars : List Row := [[true, true, false], [false, true, true], [true, true, true]]

example : ∀ y ∈ exPars, y.length = 3 ∧ true ∈ y := by decide

example : parityNetwork 3 exPars = some [(2, 1), (0, 1), (2, 1)] := by decide +kernel

/-- C51: the same map, the same kinds of gates, not more T gates. -/
theorem toddSimp_sound {shuffle : Data → Data} (hs : ∀ d, (shuffle d).Perm d) {n : ℕ} (hn : 0 < n) {gates out : List Gate}
    (hg : ∀ g ∈ gates, PhaseGate n g) (h : toddSimp shuffle n gates = some out) :
    (∀ g ∈ out, PhaseGate n g) ∧ semGates out = semGates gates ∧ (out.map Gate.tcount).sum ≤ (gates.map Gate.tcount).sum := by
  obtain ⟨target, -, h1, h2⟩ := toddSimp_spec hs hn hg
  cases ht : toCnots (fun _ => []) true false target with
  | none => rw [h1 ht] at h; cases h
  | some rest =>
    obtain ⟨out', e, h3, h4, h5⟩ := h2 rest ht
    obtain rfl := Option.some.inj (h.symm.trans e)
    exact ⟨h3, funext h4, h5⟩

/-- C51: it returns on 2 to 499 qubits. -/
theorem toddSimp_returns {shuffle : Data → Data} (hs : ∀ d, (shuffle d).Perm d) {n : ℕ} (hn : 2 ≤ n) (hn' : n < 500) {gates : List Gate}
    (hg : ∀ g ∈ gates, PhaseGate n g) : (toddSimp shuffle n gates).isSome := by
  obtain ⟨target, hr, -, h2⟩ := toddSimp_spec hs (by omega) hg
  obtain ⟨rest, ht⟩ := Option.isSome_iff_exists.mp ((toCnots_optimize_defined hr (fun _ => []) false).1 hn hn')
  obtain ⟨out, e, -⟩ := h2 rest ht
  rw [e]; rfl

/-- C51: on one qubit it raises, because `to_cnots(optimize=True)` returns nothing for one row. -/
theorem toddSimp_raises {shuffle : Data → Data} (hs : ∀ d, (shuffle d).Perm d) {gates : List Gate} (hg : ∀ g ∈ gates, PhaseGate 1 g) :
    toddSimp shuffle 1 gates = none := by
  obtain ⟨target, hr, h1, -⟩ := toddSimp_spec hs (by omega) hg
  exact h1 ((toCnots_optimize_defined hr (fun _ => []) false).2 (by omega))

/-- Three qubits, four T gates. -/
def exTodd : List Gate := [.mkT 0, .cnot 0 1, .mkT 1, .cnot 1 2, .mkT 2, .mkT 1, .cz 0 2]

theorem exTodd_ok : ∀ g ∈ exTodd, PhaseGate 3 g := by
  intro g hg
  simp only [exTodd, List.mem_cons, List.not_mem_nil, or_false] at hg
  rcases hg with rfl | rfl | rfl | rfl | rfl | rfl | rfl
  · exact ⟨by norm_num, 1, by norm_num⟩
  · exact ⟨by norm_num, by norm_num, by norm_num⟩
  · exact ⟨by norm_num, 1, by norm_num⟩
  · exact ⟨by norm_num, by norm_num, by norm_num⟩
  · exact ⟨by norm_num, 1, by norm_num⟩
  · exact ⟨by norm_num, 1, by norm_num⟩
  · exact ⟨by norm_num, by norm_num, by norm_num⟩

example : ∃ out, toddSimp List.reverse 3 exTodd = some out ∧ semGates out = semGates exTodd ∧ (out.map Gate.tcount).sum ≤ 4 := by
  obtain ⟨out, h1⟩ := Option.isSome_iff_exists.mp (toddSimp_returns (shuffle := List.reverse) (fun d => List.reverse_perm d) (by norm_num) (by norm_num) exTodd_ok)
  obtain ⟨-, h2, h3⟩ := toddSimp_sound (shuffle := List.reverse) (fun d => List.reverse_perm d) (by norm_num) exTodd_ok h1
  exact ⟨out, h1, h2, h3.trans (by decide +kernel)⟩

/-- Here the number of T gates is two instead of four. -/
example : (toddSimp id 3 exTodd).map (fun out => (out.map Gate.tcount).sum) = some 2 := by decide +kernel

example : ∀ g ∈ [Gate.mkT 0], PhaseGate 1 g := by
  intro g hg
  rw [List.mem_singleton.mp hg]
  exact ⟨by norm_num, 1, by norm_num⟩

/-- C51: a SWAP gate is accepted, and a different map is returned. -/
theorem toddSimp_swap_wrong : ∃ out, toddSimp id 2 [.swap 0 1] = some out ∧ ¬ EqUpToPhase (semGates out) (semGates [.swap 0 1]) := by
  refine ⟨[.cz 0 1], by decide +kernel, ?_⟩
  rintro ⟨z, hz, h⟩
  have := h (fun x => if x 0 = true ∧ x 1 = false then 1 else 0) (fun q => decide (q = 0))
  simp [semGates, Gate.sem, ctrl, on1, swapBits, mat2] at this

/-- C51: a phase that is not a multiple of `π/4` is dropped. -/
theorem toddSimp_phase_wrong : ∃ out, toddSimp id 2 [.zrot .zphase 0 (1 / 8) false] = some out ∧ ¬ EqUpToPhase (semGates out) (semGates [.zrot .zphase 0 (1 / 8) false]) := by
  refine ⟨[], by decide +kernel, ?_⟩
  rintro ⟨z, hz, h⟩
  have h0 := h (fun _ => 1) (fun _ => false)
  have h1 := h (fun _ => 1) (fun _ => true)
  simp [semGates, Gate.sem, on1, matZ, mat2] at h0 h1
  rw [← h0, one_mul] at h1
  have e : ph 1 = ph 8⁻¹ ^ 8 := by
    rw [show (1 : ℚ) = 8⁻¹ + 8⁻¹ + 8⁻¹ + 8⁻¹ + 8⁻¹ + 8⁻¹ + 8⁻¹ + 8⁻¹ by norm_num]
    simp only [ph_add]
    ring
  rw [ph_one, ← h1] at e
  norm_num at e

end Props
end PyZX
