import Verif.Model.GFlow

/-!
# Specification: generalised flow (for measurements in the XY-plane)

Browne, Kashefi, Mhalla, Perdrix, "Generalized flow and determinism in measurement-based quantum computation", Definition 3.
-/

namespace PyZX

/-- `(f, lt)` is a generalised flow of the open graph with vertices `V`, inputs `I` and outputs `O` and the edges of `g`: a vertex `u` is
corrected on the set `f u` of later vertices; `u` has an odd number of neighbours in `f u`, and so have otherwise only later vertices. -/
structure IsGFlow (g : Graph) (V I O : Finset ℕ) (f : ℕ → Finset ℕ) (lt : ℕ → ℕ → Prop) : Prop where
  irrefl : ∀ u, ¬ lt u u
  trans : ∀ u v w, lt u v → lt v w → lt u w
  sub : ∀ u ∈ V \ O, f u ⊆ V \ I
  later : ∀ u ∈ V \ O, ∀ w ∈ f u, lt u w
  odd : ∀ u ∈ V \ O, Odd (f u ∩ g.nbrs u).card
  other : ∀ u ∈ V \ O, ∀ w ∈ V, w ≠ u → Odd (f u ∩ g.nbrs w).card → lt u w

namespace Graph

/-- The inputs of the open graph of a diagram: the neighbours of the input boundaries (and inputs that are no boundaries). -/
def OpenIn (g : Graph) (v : ℕ) : Prop := (v ∈ g.inputs ∧ g.ty v ≠ .boundary) ∨ ∃ i ∈ g.inputs, g.ty i = .boundary ∧ g.adj i v ≠ none

open Classical in
/-- The inputs of the open graph as a set. -/
noncomputable def openIn (g : Graph) : Finset ℕ := g.verts.filter g.OpenIn

/-- The vertices of the open graph: all but the input boundaries. -/
noncomputable def openV (g : Graph) : Finset ℕ := g.verts \ (g.inputs.toFinset \ g.openIn)

end Graph
end PyZX
