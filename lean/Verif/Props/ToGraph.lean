import Verif.Proofs.ToGraph
import Mathlib.Data.Finset.Sort

/-!
# C28: `circuit_to_graph` denotes the matrix of the circuit

`circuit_to_graph` of a circuit of `n` qubits and `b` (unused) classical bits never raises when every gate acts on different qubits in
use. The diagram has inputs `0, …, n + b - 1`, one output per label in use at the end, and its matrix is that of the list of gates:
exactly when every gate class has its own translation, and up to a global phase (of modulus one, never zero) when some gate is
replaced by its basic gates. The state `o` of the labels at the end is read from the outputs in the order `ord` in which the set of
labels is iterated over.
-/

namespace PyZX
namespace Props

open ToGraph

/-- The diagram has the right boundary. -/
structure Shape (g : Graph) (i o : ℕ) : Prop where
  inv : g.Inv
  io : g.IO
  bnd : ∀ v ∈ g.inputs ++ g.outputs, g.ty v = .boundary
  inputs : g.inputs.length = i
  outputs : g.outputs.length = o

theorem _root_.PyZX.ToGraph.Result.shape {ord : Finset ℕ → List ℕ} {n b : ℕ} {L : Finset ℕ} {U : QState → QState} {g : Graph}
    (h : Result ord n b L U g) : Shape g (n + b) (L.card + b) := by
  obtain ⟨V, _, hV⟩ := h.outputs
  exact ⟨h.inv, h.io, h.bnd, by rw [h.inputs, List.length_range], by rw [hV, List.length_map, List.length_range]⟩

/-- `circuit_to_graph` is sound for all gates and ancilla operations: the matrix of the diagram is that of the operations, up to a
phase. Classical bits are plain wires. -/
theorem circuitToGraph_sound {ord : Finset ℕ → List ℕ} (ho : LabelOrder ord) (n b : ℕ) (ops : List Op) {L : Finset ℕ}
    (hL : labelsAfter (Finset.range n) ops = some L) :
    ∃ g, circuitToGraph ord n b ops = some g ∧ Shape g (n + b) (L.card + b) ∧ ∃ z : ℂ, ‖z‖ = 1 ∧
      ∀ x y o, (∀ l ∈ L, o l = y ((ord L).idxOf l)) → g.mat x y = z * semOps ops (basisState n x) o *
        if ∀ i < b, y (L.card + (ord (Finset.range b)).idxOf i) = x (n + i) then 1 else 0 := by
  obtain ⟨g, h1, h2⟩ := circuitToGraph_spec ho n b ops hL
  have key : ∀ (ops : List Op) (L' : Finset ℕ), (∃ L, labelsAfter L' ops = some L) → ∃ z : ℂ, ‖z‖ = 1 ∧
      ∀ (c : ℂ) ψ x, ops.foldl (fun ψ o => Op.graphSem o ψ) (fun y => c * ψ y) x = z * c * semOps ops ψ x := by
    intro ops
    induction ops with
    | nil => exact fun _ _ => ⟨1, by simp, fun c ψ x => by simp [semOps]⟩
    | cons o r ih =>
      intro L' hL'
      obtain ⟨w, hw, L'', hr, hc⟩ : ∃ w : ℂ, ‖w‖ = 1 ∧ ∃ L'', (∃ L, labelsAfter L'' r = some L) ∧
          ∀ (c : ℂ) ψ, Op.graphSem o (fun y => c * ψ y) = fun y => w * c * o.sem ψ y := by
        obtain ⟨L, hL⟩ := hL'
        cases o with
        | gate g =>
          unfold labelsAfter at hL
          by_cases hh : g.qubits ≠ [] ∧ g.qubits.Nodup ∧ ∀ q ∈ g.qubits, q ∈ L'
          · rw [if_pos hh] at hL
            have he : EqUpToPhase (semGates (graphGates g)) g.sem := by
              unfold graphGates
              by_cases hd : isDirect g = true
              · rw [if_pos hd]; exact ⟨1, by simp, fun ψ x => by rw [one_mul]; rfl⟩
              · rw [if_neg hd]; exact toBasic_sound ⟨hh.1, hh.2.1⟩
            obtain ⟨w, hw, he⟩ := he
            refine ⟨w, hw, L', ⟨L, hL⟩, fun c ψ => funext fun y => ?_⟩
            show semGates (graphGates g) (fun y => c * ψ y) y = w * c * g.sem ψ y
            rw [he, Gate.sem_smul, mul_assoc]
          · rw [if_neg hh] at hL; simp at hL
        | init l =>
          unfold labelsAfter at hL
          by_cases hh : l ∈ L'
          · rw [if_pos hh] at hL; simp at hL
          · rw [if_neg hh] at hL
            exact ⟨1, by simp, _, ⟨L, hL⟩, fun c ψ => funext fun y => by simp only [Op.graphSem, Op.sem, one_mul]⟩
        | post l =>
          unfold labelsAfter at hL
          by_cases hh : l ∈ L'
          · rw [if_pos hh] at hL
            exact ⟨1, by simp, _, ⟨L, hL⟩, fun c ψ => funext fun y => by simp only [Op.graphSem, Op.sem, one_mul, Finset.mul_sum]⟩
          · rw [if_neg hh] at hL; simp at hL
      obtain ⟨z, hz, h⟩ := ih L'' hr
      refine ⟨z * w, by rw [norm_mul, hz, hw, one_mul], fun c ψ x => ?_⟩
      rw [List.foldl_cons, hc, h]
      show _ = _ * semOps r (o.sem ψ) x
      ring
  obtain ⟨z, hz, hk⟩ := key ops _ ⟨L, hL⟩
  refine ⟨g, h1, h2.shape, z, hz, fun x y o hl => ?_⟩
  rw [h2.mat x y o hl, prod_dmat_range b (fun i => x (n + i)) (fun i => y (L.card + (ord (Finset.range b)).idxOf i))]
  have := hk 1 (basisState n x) o
  simp only [one_mul, mul_one] at this
  rw [this]

/-- For gates with their own diagram (`ZPhase`, `XPhase` and their subclasses, `HAD`, `CNOT`, `CZ`, `XCX`, `FSim`, `CCZ`, `Tofolli`)
and ancillas, the diagram denotes the matrix exactly, scalar included. -/
theorem circuitToGraph_exact {ord : Finset ℕ → List ℕ} (ho : LabelOrder ord) (n b : ℕ) (ops : List Op) {L : Finset ℕ}
    (hL : labelsAfter (Finset.range n) ops = some L) (hd : ∀ g, Op.gate g ∈ ops → isDirect g = true) :
    ∃ g, circuitToGraph ord n b ops = some g ∧ Shape g (n + b) (L.card + b) ∧
      ∀ x y o, (∀ l ∈ L, o l = y ((ord L).idxOf l)) → g.mat x y = semOps ops (basisState n x) o *
        if ∀ i < b, y (L.card + (ord (Finset.range b)).idxOf i) = x (n + i) then 1 else 0 := by
  obtain ⟨g, h1, h2⟩ := circuitToGraph_spec ho n b ops hL
  refine ⟨g, h1, h2.shape, fun x y o hl => ?_⟩
  rw [h2.mat x y o hl, prod_dmat_range b (fun i => x (n + i)) (fun i => y (L.card + (ord (Finset.range b)).idxOf i))]
  have key : ∀ (ops : List Op) ψ, (∀ g, Op.gate g ∈ ops → isDirect g = true) →
      ops.foldl (fun ψ o => Op.graphSem o ψ) ψ = semOps ops ψ := by
    intro ops
    induction ops with
    | nil => exact fun _ _ => rfl
    | cons o r ih =>
      intro ψ hd
      have ho : Op.graphSem o ψ = o.sem ψ := by
        cases o with
        | gate g =>
          show semGates (graphGates g) ψ = g.sem ψ
          unfold graphGates
          rw [if_pos (hd g (by simp))]; rfl
        | _ => rfl
      rw [List.foldl_cons, ho, ih _ fun g hg => hd g (by simp [hg])]
      rfl
  rw [key ops _ hd]

/-- A circuit without ancillas keeps its labels. -/
theorem labelsAfter_gates {L : Finset ℕ} {gs : List Gate} (hv : ∀ g ∈ gs, g.Valid) (hq : ∀ g ∈ gs, ∀ q ∈ g.qubits, q ∈ L) :
    labelsAfter L (gs.map Op.gate) = some L := by
  induction gs with
  | nil => rfl
  | cons g r ih =>
    rw [List.map_cons, labelsAfter, if_pos ⟨(hv g (by simp)).1, (hv g (by simp)).2, hq g (by simp)⟩]
    exact ih (fun g hg => hv g (by simp [hg])) fun g hg => hq g (by simp [hg])

theorem semOps_gates (gs : List Gate) (ψ : QState) : semOps (gs.map Op.gate) ψ = semGates gs ψ := by
  unfold semOps semGates
  rw [List.foldl_map]
  rfl

/-- The labels in increasing order, the order in which CPython iterates over a set of small integers. -/
def ascending (s : Finset ℕ) : List ℕ := s.sort (· ≤ ·)

theorem ascending_ok : LabelOrder ascending := fun s => ⟨s.sort_nodup _, s.sort_toFinset _⟩

theorem ascending_range (n : ℕ) : ascending (Finset.range n) = List.range n := by
  have h : (List.range n).Pairwise (· ≤ ·) := List.pairwise_le_range
  exact List.Perm.eq_of_pairwise' (Finset.pairwise_sort _ _) h
    ((List.perm_ext_iff_of_nodup (Finset.sort_nodup _ _) List.nodup_range).mpr fun a => by simp)

theorem basic_qubits {g : Gate} (h : IsBasic g) : g.qubits ≠ [] := by
  cases g <;> first | exact absurd h id | (intro hh; exact absurd hh (List.cons_ne_nil _ _))

/-- **C28.** `Circuit.to_graph` of every circuit of valid gates returns a diagram with one input and one output per qubit that denotes
the product of the gate matrices, up to a phase. -/
theorem toGraph_sound (zh : Bool) {c : Circuit} (hb : c.bits = 0) (hv : ∀ g ∈ c.gates, g.Valid)
    (hq : ∀ g ∈ c.gates, ∀ q ∈ g.qubits, q < c.qubits) :
    ∃ g, toGraph ascending zh c = some g ∧ Shape g c.qubits c.qubits ∧ ∃ z : ℂ, ‖z‖ = 1 ∧
      ∀ x y, g.mat x y = z * semGates c.gates (basisState c.qubits x) y := by
  have main : ∀ d : Circuit, d.qubits = c.qubits → d.bits = 0 → (∀ g ∈ d.gates, g.Valid) → (∀ g ∈ d.gates, ∀ q ∈ g.qubits, q < c.qubits) →
      ∃ g, ofCircuit ascending d = some g ∧ Shape g c.qubits c.qubits ∧ ∃ z : ℂ, ‖z‖ = 1 ∧
        ∀ x y, g.mat x y = z * semGates d.gates (basisState c.qubits x) y := by
    intro d hdq hdb hdv hdl
    obtain ⟨g, h1, h2, z, hz, h3⟩ := circuitToGraph_sound ascending_ok d.qubits d.bits (d.gates.map Op.gate)
      (labelsAfter_gates hdv fun g hg q hqq => by rw [hdq]; exact Finset.mem_range.mpr (hdl g hg q hqq))
    rw [hdq, hdb, Finset.card_range] at h2
    refine ⟨g, h1, h2, z, hz, fun x y => ?_⟩
    rw [h3 x y y fun l hl => by rw [ascending_range, idxOf_range (Finset.mem_range.mp hl)], semOps_gates, hdq, hdb,
      if_pos (fun i hi => by omega), mul_one]
  cases zh with
  | true => exact main c rfl hb hv hq
  | false =>
    obtain ⟨w, hw, he⟩ := toBasicGates_sound hv
    have hbas : ∀ g ∈ c.toBasicGates.gates, g.Valid ∧ ∀ q ∈ g.qubits, q < c.qubits := by
      intro g hg
      obtain ⟨g0, hg0, hgg⟩ := List.mem_flatMap.mp hg
      obtain ⟨b1, b2, b3⟩ := toBasic_basic (hv g0 hg0) g hgg
      refine ⟨⟨?_, b3⟩, fun q hqq => hq g0 hg0 q (b2 hqq)⟩
      exact basic_qubits b1
    obtain ⟨g, h1, h2, z, hz, h3⟩ := main c.toBasicGates rfl hb (fun g hg => (hbas g hg).1) fun g hg => (hbas g hg).2
    refine ⟨g, h1, h2, z * w, by rw [norm_mul, hz, hw, one_mul], fun x y => ?_⟩
    rw [h3, he]
    ring

/-- For circuits of gates with their own diagram, `to_graph(zh=True)` is exact. -/
theorem toGraph_exact {c : Circuit} (hb : c.bits = 0) (hv : ∀ g ∈ c.gates, g.Valid)
    (hq : ∀ g ∈ c.gates, ∀ q ∈ g.qubits, q < c.qubits) (hd : ∀ g ∈ c.gates, isDirect g = true) :
    ∃ g, toGraph ascending true c = some g ∧ ∀ x y, g.mat x y = semGates c.gates (basisState c.qubits x) y := by
  obtain ⟨g, h1, h2, h3⟩ := circuitToGraph_exact ascending_ok c.qubits c.bits (c.gates.map Op.gate)
    (labelsAfter_gates hv fun g hg q hqq => Finset.mem_range.mpr (hq g hg q hqq)) (by
      intro g hg
      obtain ⟨g', hg', e⟩ := List.mem_map.mp hg
      rw [← Op.gate.inj e]; exact hd g' hg')
  refine ⟨g, h1, fun x y => ?_⟩
  rw [h3 x y y fun l hl => by rw [ascending_range, idxOf_range (Finset.mem_range.mp hl)], semOps_gates, hb,
    if_pos (fun i hi => by omega), mul_one]

/-- A gate on a label that is not in use raises. -/
theorem circuitToGraph_raises (ord : Finset ℕ → List ℕ) : circuitToGraph ord 1 0 [.gate (.had 1)] = none := by
  rfl

/-- Example: a circuit with direct and composite gates meets the hypotheses. -/
example : ∃ g, toGraph ascending true ⟨3, 0, [.had 0, .cnot 0 1, .tof 0 1 2, .swap 1 2, .crz 0 2 (1/3)]⟩ = some g ∧ Shape g 3 3 ∧
    ∃ z : ℂ, ‖z‖ = 1 ∧ ∀ x y, g.mat x y = z *
      semGates [.had 0, .cnot 0 1, .tof 0 1 2, .swap 1 2, .crz 0 2 (1/3)] (basisState 3 x) y :=
  toGraph_sound true rfl (by simp [Gate.Valid, Gate.qubits]) (by simp [Gate.qubits])

/-- Example: an ancilla is prepared, used and removed. -/
example : labelsAfter (Finset.range 2) [.gate (.had 0), .init 7, .gate (.cz 0 7), .gate (.cnot 7 1), .post 0] = some {1, 7} := by
  decide

end Props
end PyZX
