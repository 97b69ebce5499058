import Verif.Spec.Tensor

/-!
# Specification: the matrix denoted by a diagram with inputs and outputs

The entry of the matrix at column `x` and row `y`, where `x i` is the bit of the `i`-th input and `y i` that of the `i`-th output.
-/

namespace PyZX
namespace Graph

/-- The values of the boundary vertices for the given input and output bits. -/
def bval (g : Graph) (x y : ℕ → Bool) (v : ℕ) : Bool := if v ∈ g.inputs then x (g.inputs.idxOf v) else y (g.outputs.idxOf v)

/-- The matrix of a diagram. -/
noncomputable def mat (g : Graph) (x y : ℕ → Bool) : ℂ := g.sem (g.bval x y)

/-- Every boundary vertex is an input or an output, exactly once. -/
structure IO (g : Graph) : Prop where
  nodupIn : g.inputs.Nodup
  nodupOut : g.outputs.Nodup
  disj : ∀ v ∈ g.inputs, v ∉ g.outputs
  all : ∀ v ∈ g.verts, g.ty v = .boundary → v ∈ g.inputs ∨ v ∈ g.outputs

/-- `vs` lists the vertices of `g`. -/
def VertOrder (g : Graph) (vs : List ℕ) : Prop := vs.Nodup ∧ ∀ v, v ∈ vs ↔ v ∈ g.verts

/-- `es` lists the edges of `g`, every one with the smaller end first. -/
def EdgeOrder (g : Graph) (es : List (ℕ × ℕ)) : Prop := es.Nodup ∧ ∀ p, p ∈ es ↔ p.1 < p.2 ∧ g.adj p.1 p.2 ≠ none

/-- Every vertex of the list has exactly one neighbour, which is not in the list. -/
def Wired (g : Graph) (bs : List ℕ) : Prop := ∀ v ∈ bs, ∃ n, n ∉ bs ∧ g.adj v n ≠ none ∧ ∀ w, g.adj v w ≠ none → w = n

/-- `g'` is `g` with its vertices renamed by `ρ`: same types, phases (modulo 2), labels and edges. -/
structure Renamed (g g' : Graph) (ρ : ℕ → ℕ) : Prop where
  inj : Function.Injective ρ
  verts : g'.verts = g.verts.image ρ
  ty : ∀ v ∈ g.verts, g'.ty (ρ v) = g.ty v
  phase : ∀ v ∈ g.verts, g'.phase (ρ v) = mod2 (g.phase v)
  label : ∀ v ∈ g.verts, g'.label (ρ v) = g.label v
  adj : ∀ u ∈ g.verts, ∀ v ∈ g.verts, g'.adj (ρ u) (ρ v) = g.adj u v

end Graph
end PyZX
