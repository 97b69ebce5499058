import Mathlib.LinearAlgebra.Matrix.NonsingularInverse
import Verif.Spec.Simp
import Verif.Spec.Matrix

/-!
# Specification: diagrams that circuits are extracted from
-/

namespace PyZX
namespace Graph

/-- The bits of a register, as a function on all numbers. -/
def bits {n : ℕ} (x : Fin n → Bool) (q : ℕ) : Bool := if h : q < n then x ⟨q, h⟩ else false

/-- The linear map of a diagram with `n` inputs and `n` outputs, as a square matrix. -/
noncomputable def toMatrix (g : Graph) (n : ℕ) : Matrix (Fin n → Bool) (Fin n → Bool) ℂ := Matrix.of fun y x => g.mat (bits x) (bits y)

/-- Every spider with a single neighbour (the leaf of a phase gadget) is connected to a spider with phase 0 or π that has another neighbour
and is not next to an input or output. -/
def Gadgets (g : Graph) : Prop :=
  ∀ v ∈ g.verts, g.ty v = .Z → (g.nbrs v).card = 1 → ∀ w, g.adj v w ≠ none →
    g.ty w = .Z ∧ (g.phase w = 0 ∨ g.phase w = 1) ∧ (∀ u, g.adj w u ≠ none → g.ty u = .Z) ∧ ∃ u, u ≠ v ∧ g.adj w u ≠ none

/-- A graph-like diagram with `n` inputs and `n` outputs that denotes an invertible matrix. -/
structure Extractable (n : ℕ) (g : Graph) : Prop where
  zx : g.ZX Reduced
  tys : ∀ v ∈ g.verts, g.ty v = .boundary ∨ g.ty v = .Z
  zh : g.ZHad
  io : g.IO
  gad : g.Gadgets
  ins : g.inputs.length = n
  outs : g.outputs.length = n
  unit : IsUnit (g.toMatrix n)

end Graph
end PyZX
