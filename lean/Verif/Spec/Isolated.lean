import Verif.Spec.Tensor
import Verif.Props.Scalar

/-!
# Specification of the removal of isolated vertices
-/

namespace PyZX
namespace Graph

/-- Two spiders that are connected to each other and to nothing else. -/
def IsoPair (g : Graph) (v w : ℕ) : Prop :=
  v ∈ g.verts ∧ w ∈ g.verts ∧ g.nbrs v = {w} ∧ g.nbrs w = {v} ∧ g.ty v ≠ .boundary ∧ g.ty w ≠ .boundary

/-- A vertex that is not connected to anything, or only to one vertex that is not connected to anything else. -/
def Isolated (g : Graph) (v : ℕ) : Prop := v ∈ g.verts ∧ (g.nbrs v = ∅ ∨ ∃ w, g.IsoPair v w)

/-- Two connected spiders act as two Z-spiders connected by a Hadamard edge. -/
def HadLike (g : Graph) (v w : ℕ) : Prop := (g.ty v = g.ty w ∧ g.adj v w = some .had) ∨ (g.ty v ≠ g.ty w ∧ g.adj v w = some .simple)

/-- The isolated part of the diagram is made of spiders with phases in `[0, 2)` (and not of Z-boxes), and no boundary is isolated. -/
structure IsoOK (g : Graph) : Prop where
  boundary : ∀ v ∈ g.verts, g.ty v = .boundary → g.nbrs v ≠ ∅
  zx : ∀ v, g.Isolated v → g.ty v = .Z ∨ g.ty v = .X
  reduced : ∀ v, g.Isolated v → 0 ≤ g.phase v ∧ g.phase v < 2

/-- No isolated pair takes the branch of `add_spider_pair` that is wrong. -/
def IsoBranch (g : Graph) : Prop := ∀ v w, g.IsoPair v w → g.HadLike v w → ¬ Scalar.cosBranch (g.phase v) (g.phase w)

end Graph
end PyZX
