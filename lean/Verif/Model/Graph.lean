import Verif.Model.Scalar
import Mathlib.Data.Finset.Lattice.Fold

/-!
# Model of the graph backend `pyzx/graph/graph_s.py` (and shared methods of `pyzx/graph/base.py`)

The dictionaries `graph`, `ty`, `_phase` are total functions together with the finite set of their keys.
Values at names that are not vertices are junk, never read by the operations below.
`vdata` is modelled only for the label of Z-boxes. Positions, grounds and phase tracking are not modelled.
A raised exception is the result `none`.
-/

namespace PyZX

/-- `VertexType`, `/repo/pyzx/utils.py` lines 30-38. -/
inductive VType
  | boundary | Z | X | hbox | winput | woutput | zbox
  deriving DecidableEq, Repr

/-- `EdgeType`, `/repo/pyzx/utils.py` lines 75-79. -/
inductive EType
  | simple | had | wio
  deriving DecidableEq, Repr

/-- `vertex_is_z_like`, `/repo/pyzx/utils.py` lines 50-52. -/
def VType.zLike : VType → Bool
  | .Z => true
  | .zbox => true
  | _ => false

/-- `vertex_is_zx_like`, `/repo/pyzx/utils.py` lines 54-56. -/
def VType.zxLike (t : VType) : Bool := t.zLike || decide (t = .X)

/-- `vertex_is_zx`, `/repo/pyzx/utils.py` lines 40-42. -/
def VType.isZX (t : VType) : Bool := decide (t = .Z) || decide (t = .X)

/-- `toggle_edge`, `/repo/pyzx/utils.py` lines 81-83. -/
def EType.toggle (e : EType) : EType := if e = .simple then .had else .simple

/-- The fields of `GraphS`, `/repo/pyzx/graph/graph_s.py` lines 30-46. -/
structure Graph where
  verts : Finset ℕ
  adj : ℕ → ℕ → Option EType
  vindex : ℕ
  nedges : ℤ
  ty : ℕ → VType
  phase : ℕ → ℚ
  label : ℕ → ℂ
  scalar : Scalar
  inputs : List ℕ
  outputs : List ℕ

namespace Graph

/-- `GraphS.__init__`, `/repo/pyzx/graph/graph_s.py` lines 30-46. -/
noncomputable def empty : Graph :=
  { verts := ∅, adj := fun _ _ => none, vindex := 0, nedges := 0, ty := fun _ => .boundary, phase := fun _ => 0
    label := fun _ => 1, scalar := Scalar.new, inputs := [], outputs := [] }

/-- Assignment `graph[s][t] = graph[t][s] = e` (or deletion for `none`). -/
def setAdj (g : Graph) (s t : ℕ) (e : Option EType) : Graph :=
  { g with adj := fun a b => if (a = s ∧ b = t) ∨ (a = t ∧ b = s) then e else g.adj a b }

/-- `neighbors`, `/repo/pyzx/graph/graph_s.py` lines 260-261, as a set (the dictionary order is not modelled;
where the code depends on it the order is a parameter). -/
def nbrs (g : Graph) (v : ℕ) : Finset ℕ := g.verts.filter fun w => (g.adj v w).isSome

/-- `vertex_degree`, `/repo/pyzx/graph/graph_s.py` lines 263-264. -/
def degree (g : Graph) (v : ℕ) : ℕ := (g.nbrs v).card

/-- `set_type`, `/repo/pyzx/graph/graph_s.py` lines 288-289. -/
def setType (g : Graph) (v : ℕ) (t : VType) : Graph := { g with ty := Function.update g.ty v t }

/-- `set_phase`, `/repo/pyzx/graph/graph_s.py` lines 295-299. -/
def setPhase (g : Graph) (v : ℕ) (p : ℚ) : Graph := { g with phase := Function.update g.phase v (mod2 p) }

/-- `add_to_phase`, `/repo/pyzx/graph/graph_s.py` lines 300-305. -/
def addToPhase (g : Graph) (v : ℕ) (p : ℚ) : Graph :=
  { g with phase := Function.update g.phase v (mod2 (g.phase v + p)) }

/-- `set_z_box_label`, `/repo/pyzx/utils.py` lines 251-253. -/
def setLabel (g : Graph) (v : ℕ) (c : ℂ) : Graph := { g with label := Function.update g.label v c }

/-- One vertex of `add_vertices`, `/repo/pyzx/graph/graph_s.py` lines 98-104. -/
noncomputable def addVertex0 (g : Graph) : Graph :=
  { g with
    verts := insert g.vindex g.verts
    adj := fun a b => if a = g.vindex ∨ b = g.vindex then none else g.adj a b
    ty := Function.update g.ty g.vindex .boundary
    phase := Function.update g.phase g.vindex 0
    label := Function.update g.label g.vindex 1
    vindex := g.vindex + 1 }

/-- `add_vertex`, `/repo/pyzx/graph/base.py` lines 675-700. Returns the new graph; the new name is the old `vindex`.
Qubit, row, ground and phase tracking are not modelled; the phase is always given. -/
noncomputable def addVertex (g : Graph) (t : VType) (p : ℚ) : Graph :=
  let g1 := (g.addVertex0).setType g.vindex t
  if p = 0 then g1 else g1.setPhase g.vindex p

/-- `add_vertex_indexed`, `/repo/pyzx/graph/graph_s.py` lines 105-114. -/
noncomputable def addVertexIndexed (g : Graph) (v : ℕ) : Option Graph :=
  if v ∈ g.verts then none
  else some { g with
    verts := insert v g.verts
    adj := fun a b => if a = v ∨ b = v then none else g.adj a b
    ty := Function.update g.ty v .boundary
    phase := Function.update g.phase v 0
    label := Function.update g.label v 1
    vindex := if v ≥ g.vindex then v + 1 else g.vindex }

/-- One iteration of `remove_edges`, `/repo/pyzx/graph/graph_s.py` lines 193-197. Deleting a missing key raises. -/
def removeEdge (g : Graph) (s t : ℕ) : Option Graph :=
  if g.adj s t = none ∨ s = t then none
  else some { g.setAdj s t none with nedges := g.nedges - 1 }

/-- `remove_edges`, `/repo/pyzx/graph/graph_s.py` lines 193-197. -/
def removeEdges (g : Graph) (es : List (ℕ × ℕ)) : Option Graph :=
  es.foldlM (fun g e => g.removeEdge e.1 e.2) g

/-- `add_edge`, `/repo/pyzx/graph/graph_s.py` lines 122-162. -/
noncomputable def addEdge (g : Graph) (s t : ℕ) (e : EType) : Option Graph :=
  if s ∉ g.verts then none
  else match g.adj s t with
  | none => if t ∉ g.verts then none else some { g.setAdj s t (some e) with nedges := g.nedges + 1 }
  | some e1 =>
    if (g.ty s).zxLike ∧ (g.ty t).zxLike then
      let fuse := if (g.ty s).zLike = (g.ty t).zLike then EType.simple else EType.had
      let hopf := if (g.ty s).zLike = (g.ty t).zLike then EType.had else EType.simple
      if e = fuse ∧ e1 = fuse then some g
      else if (e = fuse ∧ e1 = hopf) ∨ (e = hopf ∧ e1 = fuse) then
        let g1 := g.setAdj s t (some fuse)
        let g2 := if g.ty s = .zbox then g1.setLabel s (g1.label s * (-1)) else g1.addToPhase s 1
        some { g2 with scalar := g2.scalar.addPower (-1) }
      else if e = hopf ∧ e1 = hopf then
        (g.removeEdge s t).map fun g1 => { g1 with scalar := g1.scalar.addPower (-2) }
      else none
    else none

/-- One iteration of `add_edges`, `/repo/pyzx/graph/graph_s.py` lines 117-120: plain assignment, no simplification of
parallel edges; the counter is always incremented. -/
def addEdge0 (g : Graph) (s t : ℕ) (e : EType) : Option Graph :=
  if s ∉ g.verts ∨ t ∉ g.verts then none else some { g.setAdj s t (some e) with nedges := g.nedges + 1 }

/-- `add_edges`, `/repo/pyzx/graph/graph_s.py` lines 116-120. -/
def addEdges (g : Graph) (es : List (ℕ × ℕ)) (e : EType) : Option Graph :=
  es.foldlM (fun g p => g.addEdge0 p.1 p.2 e) g

/-- One iteration of the loop of `remove_vertices`, `/repo/pyzx/graph/graph_s.py` lines 165-187.
A self-loop makes the second `del` raise. -/
def removeVertex1 (g : Graph) (v : ℕ) : Option Graph :=
  if v ∉ g.verts ∨ g.adj v v ≠ none then none
  else some { g with
    verts := g.verts.erase v
    adj := fun a b => if a = v ∨ b = v then none else g.adj a b
    nedges := g.nedges - (g.nbrs v).card
    inputs := g.inputs.filter (· ≠ v)
    outputs := g.outputs.filter (· ≠ v) }

/-- `remove_vertices`, `/repo/pyzx/graph/graph_s.py` lines 164-188. -/
def removeVertices (g : Graph) (vs : List ℕ) : Option Graph :=
  (vs.foldlM removeVertex1 g).map fun g1 => { g1 with vindex := g1.verts.sup id + 1 }

/-- An edge table: keys in insertion order with their pair of counts `[ns, nh]`. -/
abbrev ETab := List ((ℕ × ℕ) × (ℕ × ℕ))

/-- Repeating `add_edge` `n` times, the loops in `/repo/pyzx/graph/base.py` lines 724-725. -/
noncomputable def addEdgeN (g : Graph) (s t : ℕ) (e : EType) : ℕ → Option Graph
  | 0 => some g
  | n + 1 => (g.addEdge s t e).bind fun g1 => addEdgeN g1 s t e n

/-- `add_edge_table`, `/repo/pyzx/graph/base.py` lines 717-725. -/
noncomputable def addEdgeTable (g : Graph) (etab : ETab) : Option Graph :=
  etab.foldlM (fun g k => (g.addEdgeN k.1.1 k.1.2 .simple k.2.1).bind
    fun g1 => g1.addEdgeN k.1.1 k.1.2 .had k.2.2) g

/-- `scalar.add_power` on the scalar of the graph. -/
def addPower (g : Graph) (n : ℤ) : Graph := { g with scalar := g.scalar.addPower n }

/-- `scalar.add_phase` on the scalar of the graph. -/
def addScalarPhase (g : Graph) (p : ℚ) : Graph := { g with scalar := g.scalar.addPhase p }

end Graph
end PyZX
