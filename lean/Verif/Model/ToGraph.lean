import Verif.Model.Graph
import Verif.Model.Circuit

/-!
# Model of `circuit_to_graph` and of the `to_graph` methods of the gates

Sources: `/repo/pyzx/circuit/graphparser.py` lines 89-156 and `/repo/pyzx/circuit/gates.py`. Qubit and row coordinates are not
modelled (they do not influence the diagram), so that `compress_rows` has no effect. Measurements and discarded bits are not
modelled; classical bits are therefore plain wires.
-/

namespace PyZX

/-- `TargetMapper`, `/repo/pyzx/circuit/gates.py` lines 33-140: the labels in use and the last vertex of each. The three
dictionaries have the same keys; rows and qubit coordinates are not modelled. -/
structure Mapper where
  labels : Finset ℕ
  prev : ℕ → ℕ

namespace Mapper

/-- A new mapper, `/repo/pyzx/circuit/gates.py` lines 42-45. -/
def new : Mapper := ⟨∅, fun _ => 0⟩

/-- `prev_vertex`, `/repo/pyzx/circuit/gates.py` lines 99-103. A missing key raises. -/
def prevVertex (m : Mapper) (l : ℕ) : Option ℕ := if l ∈ m.labels then some (m.prev l) else none

/-- `set_prev_vertex`, `/repo/pyzx/circuit/gates.py` lines 105-109 (and `set_qubit`, `set_next_row` for a new label). -/
def setPrev (m : Mapper) (l v : ℕ) : Mapper := ⟨insert l m.labels, Function.update m.prev l v⟩

/-- `remove_label`, `/repo/pyzx/circuit/gates.py` lines 125-136. -/
def removeLabel (m : Mapper) (l : ℕ) : Mapper := ⟨m.labels.erase l, m.prev⟩

end Mapper

namespace ToGraph

/-- The graph under construction and the mapper of the qubits. -/
abbrev St := Graph × Mapper

/-- `graph_add_node`, `/repo/pyzx/circuit/gates.py` lines 291-303. The new vertex is the old `vindex`. -/
noncomputable def addNode (s : St) (t : VType) (l : ℕ) (p : ℚ) (e : EType) : Option St := do
  let u ← s.2.prevVertex l
  let g ← (s.1.addVertex t p).addEdge u s.1.vindex e
  return (g, s.2.setPrev l s.1.vindex)

/-- Two nodes on two qubits and an edge between them: `CNOT.to_graph`, `CZ.to_graph` and `XCX.to_graph`,
`/repo/pyzx/circuit/gates.py` lines 558-565, 600-607 and 618-625. -/
noncomputable def addPair (s : St) (tt tc : VType) (c t : ℕ) (e : EType) : Option St := do
  let s1 ← addNode s tt t 0 .simple
  let s2 ← addNode s1 tc c 0 .simple
  let g ← s2.1.addEdge s.1.vindex s1.1.vindex e
  return (g.addPower 1, s2.2)

/-- `FSim.to_graph`, `/repo/pyzx/circuit/gates.py` lines 857-886. -/
noncomputable def addFSim (s : St) (c t : ℕ) (phi : ℚ) : Option St := do
  let c0 := s.1.vindex
  let s1 ← addNode s .Z c 0 .simple
  let t0 := s1.1.vindex
  let s2 ← addNode s1 .Z t 0 .simple
  let c1 := s2.1.vindex
  let g := s2.1.addVertex .Z 0
  let t1 := g.vindex
  let g := g.addVertex .Z 0
  let g ← g.addEdge c0 t1 .simple
  let g ← g.addEdge t0 c1 .simple
  let m := (s2.2.setPrev c c1).setPrev t t1
  let pg0 := g.vindex
  let g := g.addVertex .Z 0
  let pg1 := g.vindex
  let g := g.addVertex .Z 0
  let g := g.setPhase c1 (-1/2 * phi)
  let g := g.setPhase t1 (-1/2 * phi)
  let g := g.setPhase pg1 (1/2 * phi - 1/2)
  let g ← g.addEdge c1 pg0 .had
  let g ← g.addEdge t1 pg0 .had
  let g ← g.addEdge pg0 pg1 .had
  return (g.addPower 1, m)

/-- `CCZ.to_graph`, `/repo/pyzx/circuit/gates.py` lines 976-992. The phase of a new H-box is 1,
`/repo/pyzx/graph/base.py` lines 687-689. -/
noncomputable def addCCZ (s : St) (c1 c2 t : ℕ) : Option St := do
  let s1 ← addNode s .Z t 0 .simple
  let s2 ← addNode s1 .Z c1 0 .simple
  let s3 ← addNode s2 .Z c2 0 .simple
  let h := s3.1.vindex
  let g := s3.1.addVertex .hbox 1
  let g ← g.addEdge s.1.vindex h .simple
  let g ← g.addEdge s1.1.vindex h .simple
  let g ← g.addEdge s2.1.vindex h .simple
  return (g, s3.2)

/-- The gates with their own `to_graph`: `ZPhase` and `XPhase`, `/repo/pyzx/circuit/gates.py` lines 315-317 and 400-402, `HAD`,
lines 541-545, `CNOT`, `CZ`, `XCX`, `FSim`, `CCZ` and `Tofolli`, lines 1021-1025. The other gates are not handled here. -/
noncomputable def direct (s : St) : Gate → Option St
  | .zrot _ t p _ => addNode s .Z t p .simple
  | .xrot _ t p _ => addNode s .X t p .simple
  | .had t => addNode s .Z t 0 .had
  | .cnot c t => addPair s .X .Z c t .simple
  | .cz c t => addPair s .Z .Z c t .had
  | .xcx c t => addPair s .X .X c t .had
  | .fsim c t phi => addFSim s c t phi
  | .ccz c1 c2 t => addCCZ s c1 c2 t
  | .tof c1 c2 t => do
      let s1 ← addNode s .Z t 0 .had
      let s2 ← addCCZ s1 c1 c2 t
      addNode s2 .Z t 0 .had
  | _ => none

/-- Whether a gate class has its own `to_graph`. -/
def isDirect : Gate → Bool
  | .zrot _ _ _ _ | .xrot _ _ _ _ | .had _ | .cnot _ _ | .cz _ _ | .xcx _ _ | .fsim _ _ _ | .ccz _ _ _ | .tof _ _ _ => true
  | _ => false

/-- `to_graph` of every gate class: its own, or that of all gates of `to_basic_gates`,
`/repo/pyzx/circuit/gates.py` lines 466-468, 492-494, 520-522, 644-646, 664-666, 683-685, 709-711, 731-733, 770-772, 804-806,
1045-1047, 1064-1066, 1086-1088, 1111-1113, 1135-1137. -/
noncomputable def gateToGraph (s : St) (g : Gate) : Option St :=
  if isDirect g then direct s g else g.toBasic.foldlM direct s

/-- The entries of `Circuit.gates`: gates, and the ancilla operations, `InitAncilla` and `PostSelect`,
`/repo/pyzx/circuit/gates.py` lines 1139-1150. -/
inductive Op
  | gate (g : Gate)
  | init (l : ℕ)
  | post (l : ℕ)

/-- One iteration of the main loop of `circuit_to_graph`, `/repo/pyzx/circuit/graphparser.py` lines 113-142. -/
noncomputable def step (s : St) : Op → Option St
  | .gate g => gateToGraph s g
  | .init l =>
      if l ∈ s.2.labels then none
      else some (s.1.addVertex .Z 0, s.2.setPrev l s.1.vindex)
  | .post l => do
      let u ← s.2.prevVertex l
      let g ← (s.1.addVertex .Z 0).addEdge u s.1.vindex .simple
      return (g, s.2.removeLabel l)

/-- One loop that adds input vertices, `/repo/pyzx/circuit/graphparser.py` lines 99-104 and 105-111. -/
noncomputable def addInputs (k : ℕ) (g : Graph) (ins : List ℕ) : Graph × Mapper × List ℕ :=
  (List.range k).foldl (fun r i => (r.1.addVertex .boundary 0, r.2.1.setPrev i r.1.vindex, r.2.2 ++ [r.1.vindex])) (g, Mapper.new, ins)

/-- The loop that adds the outputs of one mapper, `/repo/pyzx/circuit/graphparser.py` lines 146-151, for the labels in the
given order. -/
noncomputable def addOutputs (m : Mapper) (ls : List ℕ) (r : Graph × List ℕ) : Option (Graph × List ℕ) :=
  ls.foldlM (fun r l => do
    let u ← m.prevVertex l
    let g ← (r.1.addVertex .boundary 0).addEdge u r.1.vindex .simple
    return (g, r.2 ++ [r.1.vindex])) r

/-- `circuit_to_graph`, `/repo/pyzx/circuit/graphparser.py` lines 89-156. `ord` is the order in which a set of labels is
iterated over. -/
noncomputable def circuitToGraph (ord : Finset ℕ → List ℕ) (n b : ℕ) (ops : List Op) : Option Graph := do
  let (g, mq, ins) := addInputs n Graph.empty []
  let (g, mc, ins) := addInputs b g ins
  let s ← ops.foldlM step (g, mq)
  let (g, outs) ← addOutputs s.2 (ord s.2.labels) (s.1, [])
  let (g, outs) ← addOutputs mc (ord mc.labels) (g, outs)
  return { g with inputs := ins, outputs := outs }

/-- `circuit_to_graph` of a circuit without ancillas. -/
noncomputable def ofCircuit (ord : Finset ℕ → List ℕ) (c : Circuit) : Option Graph :=
  circuitToGraph ord c.qubits c.bits (c.gates.map Op.gate)

/-- `Circuit.to_graph`, `/repo/pyzx/circuit/__init__.py` lines 264-271. -/
noncomputable def toGraph (ord : Finset ℕ → List ℕ) (zh : Bool) (c : Circuit) : Option Graph :=
  ofCircuit ord (if zh then c else c.toBasicGates)

end ToGraph
end PyZX
