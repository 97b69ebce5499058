import Verif.Spec.UpTo
import Verif.Spec.Isolated
import Verif.Model.Simp

/-!
# Specification: the diagrams the simplification loops are used on, and what the loops keep
-/

namespace PyZX
namespace Graph

/-- A set of phases in `[0, 2)` that contains 0 and π and is closed under sums and differences. -/
structure PhaseSet (P : ℚ → Prop) : Prop where
  zero : P 0
  one : P 1
  add : ∀ p q, P p → P q → P (mod2 (p + q))
  sub : ∀ p q, P p → P q → P (mod2 (p - q))
  reduced : ∀ p, P p → 0 ≤ p ∧ p < 2

/-- A ZX-diagram: spiders and boundaries only, every boundary vertex has exactly one neighbour, phases in `P`. -/
structure ZX (P : ℚ → Prop) (g : Graph) : Prop where
  wf : g.WF
  bdeg : g.BDeg
  badj : ∀ b ∈ g.verts, g.ty b = .boundary → ∃ z, g.adj b z ≠ none
  types : ∀ v ∈ g.verts, g.ty v = .boundary ∨ g.ty v = .Z ∨ g.ty v = .X
  phases : ∀ v ∈ g.verts, P (g.phase v)

/-- All phases in `[0, 2)`. -/
def Reduced (p : ℚ) : Prop := 0 ≤ p ∧ p < 2

/-- Multiples of π/4. -/
def Quarter (p : ℚ) : Prop := (0 ≤ p ∧ p < 2) ∧ (4 * p).isInt

/-- The phases stored at boundaries are kept. -/
def BPh (g g' : Graph) : Prop := ∀ v ∈ g.verts, g.ty v = .boundary → g'.phase v = g.phase v

/-- The boundary is kept, and the tensor up to a number that is not 0; the number is 1 if all phases are multiples of π/4. -/
structure Keeps (P : ℚ → Prop) (g g' : Graph) : Prop where
  upTo : PreservesUpTo g g'
  exact : (∀ p, P p → Quarter p) → Preserves g g'
  bphase : BPh g g'

/-! ### What is left when a loop has ended -/

/-- There is no phase-free spider with exactly two neighbours. -/
def NoIds (g : Graph) : Prop := ∀ v ∈ g.verts, g.ty v = .Z ∨ g.ty v = .X → g.phase v = 0 → (g.nbrs v).card ≠ 2

/-- No two spiders of the same colour are connected by a simple edge. -/
def NoFuse (g : Graph) : Prop :=
  ∀ a b, g.adj a b = some .simple → ¬ (g.ty a = .Z ∧ g.ty b = .Z) ∧ ¬ (g.ty a = .X ∧ g.ty b = .X)

/-- Every Z-spider with phase ±π/2 has a neighbour that is not a Z-spider connected by a Hadamard edge. -/
def NoLcomp (g : Graph) : Prop :=
  ∀ v ∈ g.verts, g.ty v = .Z → g.phase v = 1 / 2 ∨ g.phase v = 3 / 2 → ∃ w, g.adj v w ≠ none ∧ ¬ (g.ty w = .Z ∧ g.adj v w = some .had)

/-- The boundary vertices next to `v`. -/
def bnds (g : Graph) (v : ℕ) : Finset ℕ := (g.nbrs v).filter fun w => g.ty w = .boundary

/-- For any two Z-spiders with phases 0 or π that are connected by a Hadamard edge, one of them has a neighbour that is neither a boundary
nor a Z-spider connected by a Hadamard edge, or they have at least two boundaries. -/
def NoPivot (g : Graph) : Prop :=
  ∀ a b, g.adj a b = some .had → g.ty a = .Z → g.ty b = .Z → g.phase a = 0 ∨ g.phase a = 1 → g.phase b = 0 ∨ g.phase b = 1 →
    (∃ v w, (v = a ∨ v = b) ∧ g.adj v w ≠ none ∧ g.ty w ≠ .boundary ∧ ¬ (g.ty w = .Z ∧ g.adj v w = some .had)) ∨
      2 ≤ (g.bnds a).card + (g.bnds b).card

/-- The form reached by `interior_clifford_simp`: only Z-spiders, connected by Hadamard edges only; no phase-free spider with two
neighbours; a spider with phase ±π/2 is next to a boundary; two connected spiders with phases 0 or π have together at least two
boundaries. -/
structure InteriorNF (g : Graph) : Prop where
  types : ∀ v ∈ g.verts, g.ty v = .boundary ∨ g.ty v = .Z
  had : ∀ a b, g.adj a b ≠ none → g.ty a = .Z → g.ty b = .Z → g.adj a b = some .had
  ids : ∀ v ∈ g.verts, g.ty v = .Z → g.phase v = 0 → (g.nbrs v).card ≠ 2
  half : ∀ v ∈ g.verts, g.ty v = .Z → g.phase v = 1 / 2 ∨ g.phase v = 3 / 2 → ∃ w, g.adj v w ≠ none ∧ g.ty w = .boundary
  pauli : ∀ a b, g.adj a b ≠ none → g.ty a = .Z → g.ty b = .Z → g.phase a = 0 ∨ g.phase a = 1 → g.phase b = 0 ∨ g.phase b = 1 →
    2 ≤ (g.bnds a).card + (g.bnds b).card

/-- Every pair of neighbouring Z-spiders `a`, `b` of which only the first has phase 0 or π is protected against a pivot: `b` has only one
neighbour, or a neighbour of one of them is not a Z-spider, or `a` has another neighbour with only one neighbour. -/
def NoGadgetPivot (g : Graph) : Prop :=
  ∀ a b, g.adj a b ≠ none → g.ty a = .Z → g.ty b = .Z → g.phase a = 0 ∨ g.phase a = 1 → ¬ (g.phase b = 0 ∨ g.phase b = 1) →
    (g.nbrs b).card = 1 ∨ (∃ v n, (v = a ∨ v = b) ∧ g.adj v n ≠ none ∧ g.ty n ≠ .Z) ∨
      ∃ n, g.adj a n ≠ none ∧ n ≠ b ∧ (g.nbrs n).card = 1

/-- If a Z-spider has phase 0 or π and only Z-spiders with at least two neighbours around it, none of these has exactly one boundary and
otherwise only Z-spiders around it. -/
def NoBoundaryPivot (g : Graph) : Prop :=
  ∀ v ∈ g.verts, g.ty v = .Z → g.phase v = 0 ∨ g.phase v = 1 → (∀ n, g.adj v n ≠ none → g.ty n = .Z ∧ (g.nbrs n).card ≠ 1) →
    ∀ w, g.adj v w ≠ none → (g.bnds w).card = 1 → ∃ u, g.adj w u ≠ none ∧ g.ty u ≠ .boundary ∧ g.ty u ≠ .Z

end Graph

namespace Simplify

open Graph

/-- The choices are possible ones: they list neighbours, vertices and sets completely and without repetition, and candidates without
repetition. -/
structure Orders.OK (o : Orders) : Prop where
  nbr : ∀ g, Rules.NbrOrder g (o.nbr g)
  vcand : ∀ g, (o.vcand g).Nodup ∧ ∀ v ∈ o.vcand g, v ∈ g.verts
  ecand : ∀ g, (o.ecand g).Nodup ∧ ∀ e ∈ o.ecand g, g.adj e.1 e.2 ≠ none
  all : ∀ g, (o.all g).Nodup ∧ (o.all g).toFinset = g.verts
  lst : Rules.SetOrder o.lst

/-- There is no filter: all vertices and all edges are candidates. -/
structure Orders.Full (o : Orders) : Prop where
  vcand : ∀ g : Graph, g.WF → ∀ v ∈ g.verts, v ∈ o.vcand g
  ecand : ∀ g : Graph, g.WF → ∀ a b, g.adj a b ≠ none → (a, b) ∈ o.ecand g ∨ (b, a) ∈ o.ecand g

end Simplify
end PyZX
