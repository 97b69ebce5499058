import Verif.Spec.Tensor
import Verif.Model.Rules

/-!
# Specification: when a list of matches may be applied together

These predicates state the side conditions of the rewrite rules in terms of the diagram only (types, phases, neighbours,
edge types), together with the independence of simultaneous matches. They do not mention how the matchers search.
-/

namespace PyZX
namespace Graph

/-- Conditions under which a list of identity matches can be removed together. -/
structure IdsOK (g : Graph) (ms : List Rules.IdMatch) : Prop where
  mem : ∀ m ∈ ms, m.v ∈ g.verts
  ty : ∀ m ∈ ms, g.ty m.v = .Z ∨ g.ty m.v = .X
  phase : ∀ m ∈ ms, g.phase m.v = 0
  nbrs : ∀ m ∈ ms, g.nbrs m.v = {m.v0, m.v1}
  ne : ∀ m ∈ ms, m.v0 ≠ m.v1
  et : ∀ m ∈ ms, m.et = if g.adj m.v m.v0 = g.adj m.v m.v1 then .simple else .had
  nodup : (ms.map (·.v)).Nodup
  indep : ∀ m ∈ ms, ∀ m' ∈ ms, m'.v ≠ m.v0 ∧ m'.v ≠ m.v1

/-- Conditions under which a list of local complementations can be applied together. -/
structure LcompOK (g : Graph) (ms : List Rules.LcompMatch) : Prop where
  mem : ∀ m ∈ ms, m.v ∈ g.verts
  ty : ∀ m ∈ ms, g.ty m.v = .Z
  phase : ∀ m ∈ ms, g.phase m.v = 1 / 2 ∨ g.phase m.v = 3 / 2
  nbrs : ∀ m ∈ ms, m.vn.Nodup ∧ m.vn.toFinset = g.nbrs m.v
  nty : ∀ m ∈ ms, ∀ w ∈ m.vn, g.ty w = .Z ∧ g.adj m.v w = some .had
  nodup : (ms.map (·.v)).Nodup
  indep : ∀ m ∈ ms, ∀ m' ∈ ms, m'.v ∉ m.vn

/-- Conditions under which pairs `(kept, removed)` can be fused together. -/
structure SpiderOK (g : Graph) (ps : List (ℕ × ℕ)) : Prop where
  adj : ∀ p ∈ ps, g.adj p.1 p.2 = some .simple
  ty : ∀ p ∈ ps, (g.ty p.1 = .X ∧ g.ty p.2 = .X) ∨ ((g.ty p.1).zLike ∧ (g.ty p.2).zLike)
  nodup : ps.Nodup
  indep : ∀ p ∈ ps, ∀ q ∈ ps, p ≠ q → p.1 ≠ q.1 ∧ p.1 ≠ q.2 ∧ p.2 ≠ q.2 ∧ g.adj p.2 q.2 = none

/-- Conditions on a single pivot match. -/
structure PivotOK1 (g : Graph) (m : Rules.PivotMatch) : Prop where
  adj : g.adj m.v0 m.v1 = some .had
  ty0 : g.ty m.v0 = .Z
  ty1 : g.ty m.v1 = .Z
  ph0 : g.phase m.v0 = 0 ∨ g.phase m.v0 = 1
  ph1 : g.phase m.v1 = 0 ∨ g.phase m.v1 = 1
  n0 : ∀ w, g.adj m.v0 w ≠ none → m.b0 = some w ∨ (g.ty w = .Z ∧ g.adj m.v0 w = some .had)
  n1 : ∀ w, g.adj m.v1 w ≠ none → m.b1 = some w ∨ (g.ty w = .Z ∧ g.adj m.v1 w = some .had)
  b0 : ∀ w, m.b0 = some w → g.adj m.v0 w ≠ none ∧ g.ty w ≠ .X ∧ w ≠ m.v1 ∧ g.adj m.v1 w = none
  b1 : ∀ w, m.b1 = some w → g.adj m.v1 w ≠ none ∧ g.ty w ≠ .X ∧ w ≠ m.v0 ∧ g.adj m.v0 w = none
  one : m.b0 = none ∨ m.b1 = none

/-- Conditions under which a list of pivots can be applied together. -/
structure PivotOK (g : Graph) (ms : List Rules.PivotMatch) : Prop where
  each : ∀ m ∈ ms, PivotOK1 g m
  indep : ms.Pairwise fun m m' => ∀ v, v = m.v0 ∨ v = m.v1 → ∀ w, w = m'.v0 ∨ w = m'.v1 → v ≠ w ∧ g.adj v w = none

end Graph
end PyZX
