import Verif.Spec.Simp
import Verif.Props.GadgetFuse

/-!
# Specification: what `gadget_simp` and `full_reduce` need and leave
-/

namespace PyZX
namespace Graph
open Props

/-- Boundary vertices carry no phase and are inputs or outputs. -/
structure PlainBnd (g : Graph) : Prop where
  phase : ∀ v ∈ g.verts, g.ty v = .boundary → g.phase v = 0
  io : ∀ v ∈ g.verts, g.ty v = .boundary → v ∈ g.inputs ∨ v ∈ g.outputs

/-- Of two connected spiders that carry phase gadgets at least one is next to a boundary. -/
def AxelSep (g : Graph) : Prop :=
  ∀ n n', IsAxel g n → IsAxel g n' → g.adj n n' ≠ none → ∃ b, (g.adj n b ≠ none ∨ g.adj n' b ≠ none) ∧ g.ty b = .boundary

/-- The spiders that carry phase gadgets have phase 0, and phase gadgets on different spiders have different targets. -/
def NoGadgetFuse (g : Graph) : Prop :=
  ∀ n v, IsGadget g n v → g.phase n = 0 ∧ ∀ n' v', IsGadget g n' v' → n ≠ n' → (g.nbrs n).erase v ≠ (g.nbrs n').erase v'

/-- The form reached by `full_reduce`. -/
structure FullNF (g : Graph) : Prop where
  interior : g.InteriorNF
  boundary : g.NoBoundaryPivot
  gadget : g.NoGadgetPivot
  fuse : g.NoGadgetFuse

end Graph
end PyZX
