import Verif.Model.Graph
import Verif.Lib.PSum

/-!
# Specification: the tensor network denoted by a diagram

This file is independent of the rewrite rules. Each vertex carries the tensor that `pyzx/tensor.py` gives it, each
edge is the identity or the Hadamard matrix, every half-edge (a pair of a vertex and a neighbour) carries an index
that is summed over. A boundary vertex forces the index of its leg to the external value `b v`.
The result is multiplied by the number held by the scalar.
-/

namespace PyZX

/-- Entry of the Hadamard matrix. -/
noncomputable def hmat (a b : Bool) : ℂ := sq2⁻¹ * (if a && b then -1 else 1)

/-- Entry of the identity matrix. -/
noncomputable def dmat (a b : Bool) : ℂ := if a = b then 1 else 0

/-- Matrix carried by an edge, `/repo/pyzx/tensor.py` lines 122, 164-171 (a Hadamard edge contracts with `had`). -/
noncomputable def edgeMat : EType → Bool → Bool → ℂ
  | .had => hmat
  | _ => dmat

/-- Factor of a pair of vertices in the contraction (1 if they are not connected). -/
noncomputable def edgeT : Option EType → Bool → Bool → ℂ
  | none => fun _ _ => 1
  | some e => edgeMat e

/-- Tensor of a Z-box, `/repo/pyzx/tensor.py` lines 48-55: 1 on the all-0 index plus the parameter on the
all-1 index. -/
noncomputable def zTensor (legs : Finset ℕ) (y : ℕ → Bool) (c : ℂ) : ℂ :=
  (if ∀ w ∈ legs, y w = false then 1 else 0) + (if ∀ w ∈ legs, y w = true then c else 0)

/-- Tensor of an X-spider, `/repo/pyzx/tensor.py` lines 60-70. -/
noncomputable def xTensor (legs : Finset ℕ) (y : ℕ → Bool) (c : ℂ) : ℂ :=
  (sq2⁻¹) ^ legs.card * (1 + (-1) ^ (legs.filter fun w => y w = true).card * c)

namespace Graph

/-- The tensor of a vertex with the given legs, `/repo/pyzx/tensor.py` lines 48-85 and 139-163. -/
noncomputable def nodeTensor (g : Graph) (b : ℕ → Bool) (v : ℕ) (y : ℕ → Bool) : ℂ :=
  match g.ty v with
  | .boundary => if ∀ w ∈ g.nbrs v, y w = b v then 1 else 0
  | .Z => zTensor (g.nbrs v) y (ph (g.phase v))
  | .zbox => zTensor (g.nbrs v) y (g.label v)
  | .X => xTensor (g.nbrs v) y (ph (g.phase v))
  | .hbox => if ∀ w ∈ g.nbrs v, y w = true then ph (g.phase v) else 1
  | .winput => if ((g.nbrs v).filter fun w => y w = true).card = 1 then 1 else 0
  | .woutput => if ((g.nbrs v).filter fun w => y w = true).card = 1 then 1 else 0

/-- All half-edges `(v, w)`: the end at `v` of the edge between `v` and `w`. -/
def halfEdges (g : Graph) : Finset (ℕ × ℕ) := (g.verts ×ˢ g.verts).filter fun p => (g.adj p.1 p.2).isSome

/-- The tensor denoted by the diagram, at the external indices `b` (indexed by boundary vertices). -/
noncomputable def sem (g : Graph) (b : ℕ → Bool) : ℂ :=
  g.scalar.toNumber * psum g.halfEdges (fun y =>
    (∏ v ∈ g.verts, g.nodeTensor b v (fun w => y (v, w))) *
      pairProd g.verts (fun u v => edgeT (g.adj u v) (y (u, v)) (y (v, u)))) (fun _ => false)

/-- Bookkeeping invariant of the backend: adjacency is symmetric and only mentions vertices, there are no self-loops,
fresh names are not in use, inputs and outputs are vertices, and the edge counter is the number of edges. -/
structure Inv (g : Graph) : Prop where
  symm : ∀ u v, g.adj u v = g.adj v u
  mem : ∀ u v, g.adj u v ≠ none → u ∈ g.verts
  lt : ∀ v ∈ g.verts, v < g.vindex
  inp : ∀ v ∈ g.inputs, v ∈ g.verts
  out : ∀ v ∈ g.outputs, v ∈ g.verts
  loopless : ∀ v, g.adj v v = none
  count : g.nedges = pairSum g.verts fun u v => if (g.adj u v).isSome then (1 : ℤ) else 0

/-- Well-formed ZX-diagrams: the bookkeeping invariant, ordinary edges, and only boundaries, Z- and
X-spiders and Z-boxes; inputs and outputs are boundaries. -/
structure WF (g : Graph) : Prop extends Inv g where
  noWio : ∀ u v, g.adj u v ≠ some .wio
  types : ∀ v ∈ g.verts, g.ty v = .boundary ∨ g.ty v = .Z ∨ g.ty v = .X ∨ g.ty v = .zbox
  io : ∀ v, v ∈ g.inputs ∨ v ∈ g.outputs → g.ty v = .boundary

/-- `g'` is again well-formed, has the same boundary (inputs, outputs and set of boundary vertices) and denotes the
same tensor as `g`, scalar included. -/
structure Preserves (g g' : Graph) : Prop where
  wf : g'.WF
  inputs : g'.inputs = g.inputs
  outputs : g'.outputs = g.outputs
  boundary : ∀ v, (v ∈ g'.verts ∧ g'.ty v = .boundary) ↔ (v ∈ g.verts ∧ g.ty v = .boundary)
  sem : ∀ b, g'.sem b = g.sem b

theorem Preserves.refl {g : Graph} (h : g.WF) : Preserves g g := ⟨h, rfl, rfl, fun _ => Iff.rfl, fun _ => rfl⟩

theorem Preserves.trans {g g' g'' : Graph} (h : Preserves g g') (h' : Preserves g' g'') : Preserves g g'' :=
  ⟨h'.wf, h'.inputs.trans h.inputs, h'.outputs.trans h.outputs, fun v => (h'.boundary v).trans (h.boundary v),
    fun b => (h'.sem b).trans (h.sem b)⟩

/-- Every boundary vertex has at most one neighbour. -/
def BDeg (g : Graph) : Prop :=
  ∀ b ∈ g.verts, g.ty b = .boundary → ∀ u w, g.adj b u ≠ none → g.adj b w ≠ none → u = w

/-- All edges between Z-spiders are Hadamard edges. -/
def ZHad (g : Graph) : Prop := ∀ u v, g.ty u = .Z → g.ty v = .Z → g.adj u v ≠ none → g.adj u v = some .had

end Graph
end PyZX
