import Verif.Model.Graph

/-!
# Model of `pyzx/graph/diff.py`

The orders in which the sets of vertices and edges are iterated over are the parameters `vs1`, `vs2`, `es1`, `es2`. A dictionary is the list of its
entries in insertion order. The data of a vertex is modelled only as the label of a Z-box (a missing entry is the label 1). Types of variables and
the JSON encoding are not modelled.
-/

namespace PyZX

/-- A graph with positions: the dictionaries `_qindex`, `_rindex`, `/repo/pyzx/graph/graph_s.py` lines 38-41; a missing entry reads as -1 (lines 306-307
and 314-315). -/
structure PGraph where
  g : Graph
  pos : ℕ → ℚ × ℚ

namespace PGraph

/-- `remove_vertices`, `/repo/pyzx/graph/graph_s.py` lines 164-188, with the positions. -/
def removeVertices (p : PGraph) (vs : List ℕ) : Option PGraph :=
  (p.g.removeVertices vs).map fun g => ⟨g, fun v => if v ∈ vs then (-1, -1) else p.pos v⟩

/-- `set_position`, `/repo/pyzx/graph/base.py` lines 957-960. -/
def setPos (p : PGraph) (v : ℕ) (x : ℚ × ℚ) : PGraph := { p with pos := Function.update p.pos v x }

/-- `set_edge_type`, `/repo/pyzx/graph/graph_s.py` lines 281-284. -/
def setEdgeType (p : PGraph) (e : ℕ × ℕ) (t : EType) : Option PGraph :=
  if e.1 ∉ p.g.verts ∨ e.2 ∉ p.g.verts then none else some { p with g := p.g.setAdj e.1 e.2 (some t) }

end PGraph

/-- The fields of `GraphDiff`, `/repo/pyzx/graph/diff.py` lines 28-37. -/
structure Diff where
  removedVerts : List ℕ
  newVerts : List ℕ
  removedEdges : List (ℕ × ℕ)
  newEdges : List ((ℕ × ℕ) × EType)
  types : List (ℕ × VType)
  etypes : List ((ℕ × ℕ) × EType)
  phases : List (ℕ × ℚ)
  pos : List (ℕ × (ℚ × ℚ))
  labels : List (ℕ × ℂ)

namespace Diff

/-- A dictionary filled in a loop over `vs` (or edges): the entries for which `f` is defined. -/
def dict {κ β : Type} (vs : List κ) (f : κ → Option β) : List (κ × β) := vs.filterMap fun v => (f v).map fun x => (v, x)

/-- `edge_type`, `/repo/pyzx/graph/graph_s.py` lines 274-279, for an edge that exists. -/
def edgeType (g : Graph) (e : ℕ × ℕ) : EType := (g.adj e.1 e.2).getD .simple

open Classical in
/-- `calculate_diff`, `/repo/pyzx/graph/diff.py` lines 42-93. -/
noncomputable def calculate (p1 p2 : PGraph) (vs1 vs2 : List ℕ) (es1 es2 : List (ℕ × ℕ)) : Diff where
  removedVerts := vs1.filter (· ∉ vs2)
  newVerts := vs2.filter (· ∉ vs1)
  removedEdges := es1.filter (· ∉ es2)
  newEdges := (es2.filter (· ∉ es1)).map fun e => (e, edgeType p2.g e)
  types := dict vs2 fun v =>
    if v ∈ vs1 then (if p1.g.ty v ≠ p2.g.ty v then some (p2.g.ty v) else none)
    else if p2.g.ty v ≠ .Z then some (p2.g.ty v) else none
  etypes := dict es2 fun e =>
    if e ∈ es1 then (if edgeType p1.g e ≠ edgeType p2.g e then some (edgeType p2.g e) else none)
    else if edgeType p2.g e ≠ .had then some (edgeType p2.g e) else none
  phases := dict vs2 fun v =>
    if v ∈ vs1 then (if p1.g.phase v ≠ p2.g.phase v then some (p2.g.phase v) else none)
    else if p2.g.phase v ≠ 0 then some (p2.g.phase v) else none
  pos := dict vs2 fun v =>
    if v ∈ vs1 then (if p1.pos v ≠ p2.pos v then some (p2.pos v) else none) else some (p2.pos v)
  labels := dict vs2 fun v => if v ∈ vs1 then (if p1.g.label v ≠ p2.g.label v then some (p2.g.label v) else none) else none

/-- The loop over `new_verts`, `/repo/pyzx/graph/diff.py` lines 99-109. A vertex without a position raises. -/
noncomputable def addNew (d : Diff) (p : PGraph) (v : ℕ) : Option PGraph := do
  let g ← p.g.addVertexIndexed v
  let x ← d.pos.lookup v
  let g1 := g.setType v ((d.types.lookup v).getD .Z)
  let g2 := match d.phases.lookup v with | some q => g1.setPhase v q | none => g1
  let g3 := match d.labels.lookup v with | some c => g2.setLabel v c | none => g2
  return (PGraph.mk g3 p.pos).setPos v x

/-- `apply_diff`, `/repo/pyzx/graph/diff.py` lines 95-132. -/
noncomputable def apply (d : Diff) (p : PGraph) : Option PGraph := do
  let g1 ← p.g.removeEdges d.removedEdges
  let p2 ← (PGraph.mk g1 p.pos).removeVertices d.removedVerts
  let p3 ← d.newVerts.foldlM d.addNew p2
  let g4 ← d.newEdges.foldlM (fun g e => g.addEdge e.1.1 e.1.2 e.2) p3.g
  let pos5 := d.pos.foldl (fun f e => if e.1 ∈ d.newVerts then f else Function.update f e.1 e.2) p3.pos
  let g6 := d.types.foldl (fun g e => if e.1 ∈ d.newVerts then g else g.setType e.1 e.2) g4
  let g7 := d.phases.foldl (fun g e => if e.1 ∈ d.newVerts then g else g.setPhase e.1 e.2) g6
  let g8 := d.labels.foldl (fun g e => if e.1 ∈ d.newVerts then g else g.setLabel e.1 e.2) g7
  d.etypes.foldlM (fun p e => p.setEdgeType e.1 e.2) ⟨g8, pos5⟩

end Diff
end PyZX
