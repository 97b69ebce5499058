import Verif.Sem.PathSumH

/-! # Diagrams with H-boxes -/

namespace PyZX
namespace Graph

/-- Well-formed diagrams of spiders, Z-boxes and H-boxes: the bookkeeping invariant, ordinary edges, no W-nodes; inputs and outputs are
boundaries. -/
structure HWF (g : Graph) : Prop extends Inv g where
  noWio : ∀ u v, g.adj u v ≠ some .wio
  noW : ∀ v ∈ g.verts, g.ty v ≠ .winput ∧ g.ty v ≠ .woutput
  io : ∀ v, v ∈ g.inputs ∨ v ∈ g.outputs → g.ty v = .boundary

/-- `g'` is again well-formed, has the same boundary and denotes the same tensor as `g`, scalar included. -/
structure HPreserves (g g' : Graph) : Prop where
  wf : g'.HWF
  inputs : g'.inputs = g.inputs
  outputs : g'.outputs = g.outputs
  boundary : ∀ v, (v ∈ g'.verts ∧ g'.ty v = .boundary) ↔ (v ∈ g.verts ∧ g.ty v = .boundary)
  sem : ∀ b, g'.sem b = g.sem b

/-- Matches of `match_hadamards`: H-boxes with two legs and phase 1, no two of them adjacent or with a common neighbour. -/
structure HadOK (g : Graph) (ms : List ℕ) : Prop where
  nodup : ms.Nodup
  mem : ∀ v ∈ ms, v ∈ g.verts
  ty : ∀ v ∈ ms, g.ty v = .hbox
  phase : ∀ v ∈ ms, g.phase v = 1
  deg : ∀ v ∈ ms, (g.nbrs v).card = 2
  indep : ∀ v ∈ ms, ∀ w ∈ ms, w ∉ g.nbrs v
  apart : ∀ v ∈ ms, ∀ w ∈ ms, v ≠ w → Disjoint (g.nbrs v) (g.nbrs w)

/-- Pairs `(k, r)` of H-boxes connected by a Hadamard edge, where `r` has phase 1 and is fused into `k`: different pairs have no vertex in common,
the removed H-boxes are not adjacent, and no two pairs are connected crosswise. -/
structure FuseOK (g : Graph) (ms : List (ℕ × ℕ)) : Prop where
  nodup : ms.Nodup
  edge : ∀ m ∈ ms, g.adj m.1 m.2 = some .had
  hbox : ∀ m ∈ ms, g.ty m.1 = .hbox ∧ g.ty m.2 = .hbox
  phase : ∀ m ∈ ms, g.phase m.2 = 1
  disj : ∀ m ∈ ms, ∀ m' ∈ ms, m ≠ m' → m.1 ≠ m'.1 ∧ m.1 ≠ m'.2 ∧ m.2 ≠ m'.1 ∧ m.2 ≠ m'.2
  apart : ∀ m ∈ ms, ∀ m' ∈ ms, g.adj m.2 m'.2 = none
  uncrossed : ∀ m ∈ ms, ∀ m' ∈ ms, m ≠ m' → ¬ (g.adj m.2 m'.1 ≠ none ∧ g.adj m'.2 m.1 ≠ none)

/-- `n` is a white spider from the point of view of its neighbour `h`: not an X-spider or H-box, with an ordinary edge, or an X-spider with a Hadamard
edge. -/
def White (g : Graph) (h n : ℕ) : Prop :=
  (g.adj h n = some .simple ∧ g.ty n ≠ .X ∧ g.ty n ≠ .hbox) ∨ (g.adj h n = some .had ∧ g.ty n = .X)

/-- `v` is a NOT gate between `h` and the Z-spider `w`. -/
def IsNot (g : Graph) (h v w : ℕ) : Prop :=
  g.phase v = 1 ∧ g.nbrs v = {h, w} ∧ h ≠ w ∧ g.ty w = .Z ∧
    ((g.ty v = .X ∧ g.adj h v = some .simple ∧ g.adj v w = some .simple) ∨ (g.ty v = .Z ∧ g.adj h v = some .had ∧ g.adj v w = some .had))

/-- The H-box `h` has the white neighbours `R`, and is connected by the NOT gates `N` to the spiders `t v`. -/
structure HLegs (g : Graph) (h : ℕ) (R N : Finset ℕ) (t : ℕ → ℕ) : Prop where
  ty : g.ty h = .hbox
  nbrs : g.nbrs h = R ∪ N
  disj : Disjoint R N
  white : ∀ r ∈ R, g.White h r
  isNot : ∀ v ∈ N, g.IsNot h v (t v)

/-- Groups of at least two H-boxes, each given by the list of H-boxes, the NOT gates of the first one and those of the others. The H-boxes of a group
have the same white neighbours and are connected by NOT gates to the same spiders; different groups have no H-box in common. -/
structure ParOK (g : Graph) (ms : List (List ℕ × List ℕ × List ℕ)) (R N : ℕ → Finset ℕ) (t : ℕ → ℕ) : Prop where
  nodup : (ms.flatMap fun m => m.1).Nodup
  mem : ∀ m ∈ ms, ∀ h ∈ m.1, h ∈ g.verts
  two : ∀ m ∈ ms, 2 ≤ m.1.length
  legs : ∀ m ∈ ms, ∀ h ∈ m.1, HLegs g h (R h) (N h) t
  same : ∀ m ∈ ms, ∀ h ∈ m.1, ∀ h' ∈ m.1, R h = R h' ∧ (N h).image t = (N h').image t
  first : ∀ m ∈ ms, m.2.1.Nodup ∧ ∀ h tl, m.1 = h :: tl → m.2.1.toFinset = N h
  nots : ∀ m ∈ ms, m.2.2.Nodup ∧ m.2.2.toFinset = m.1.tail.toFinset.biUnion N

end Graph
end PyZX
