import Verif.Spec.Tensor

/-!
# Specification: equality up to a global factor
-/

namespace PyZX
namespace Graph

/-- `g'` is again well-formed, has the same boundary and denotes the same tensor as `g` up to a number that is not 0. -/
structure PreservesUpTo (g g' : Graph) : Prop where
  wf : g'.WF
  inputs : g'.inputs = g.inputs
  outputs : g'.outputs = g.outputs
  boundary : ∀ v, (v ∈ g'.verts ∧ g'.ty v = .boundary) ↔ (v ∈ g.verts ∧ g.ty v = .boundary)
  sem : ∃ c : ℂ, c ≠ 0 ∧ ∀ b, g'.sem b = c * g.sem b

theorem Preserves.upTo {g g' : Graph} (h : Preserves g g') : PreservesUpTo g g' :=
  ⟨h.wf, h.inputs, h.outputs, h.boundary, 1, one_ne_zero, fun b => by rw [one_mul, h.sem b]⟩

theorem PreservesUpTo.trans {g g' g'' : Graph} (h : PreservesUpTo g g') (h' : PreservesUpTo g' g'') : PreservesUpTo g g'' := by
  obtain ⟨c, hc, e⟩ := h.sem
  obtain ⟨d, hd, e'⟩ := h'.sem
  exact ⟨h'.wf, h'.inputs.trans h.inputs, h'.outputs.trans h.outputs, fun v => (h'.boundary v).trans (h.boundary v),
    d * c, mul_ne_zero hd hc, fun b => by rw [e', e, mul_assoc]⟩

end Graph
end PyZX
