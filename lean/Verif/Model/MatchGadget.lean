import Verif.Model.Match

/-!
# Model of the matchers that add gadgets: `match_pivot_gadget` and `match_pivot_boundary` of `pyzx/rules.py`

These matchers change the graph while they search: they move the phase of a vertex to a new vertex. The loop state
contains the live graph. Only `num=-1` is modelled, the value used by all simplification routines.
-/

namespace PyZX
namespace Rules

/-- `phase in (0, 1)`. -/
def isPauli (p : ℚ) : Prop := p = 0 ∨ p = 1

instance (p : ℚ) : Decidable (isPauli p) := by unfold isPauli; infer_instance

/-- The ends of a candidate edge with the Pauli vertex first, `/repo/pyzx/rules.py` lines 480-493. -/
def gadgetEnds (g : Graph) (c : ℕ × ℕ) : Option (ℕ × ℕ) :=
  if ¬ (g.ty c.1 = .Z ∧ g.ty c.2 = .Z) then none
  else if ¬ isPauli (g.phase c.1) then (if isPauli (g.phase c.2) then some (c.2, c.1) else none)
  else if isPauli (g.phase c.2) then none
  else some c

/-- The checks of `match_pivot_gadget`, `/repo/pyzx/rules.py` lines 480-518 (no grounds). A neighbour `n` of `v0` of degree 1
has the single edge `(n, v0)`, which is the candidate edge `e` exactly if `n = v1`. -/
def gadgetTry (g : Graph) (c : ℕ × ℕ) : Option (ℕ × ℕ) :=
  match gadgetEnds g c with
  | none => none
  | some (v0, v1) =>
    if g.degree v1 = 1 then none
    else if (∀ n ∈ g.nbrs v0, g.ty n = .Z ∧ ¬ (g.degree n = 1 ∧ n ≠ v1)) ∧ (∀ n ∈ g.nbrs v1, g.ty n = .Z) then some (v0, v1)
    else none

/-- Loop state of the two matchers: live graph, `edge_list`, matches found, discarded candidates. -/
structure GState (γ : Type) where
  g : Graph
  el : List (ℕ × ℕ)
  ms : List PivotMatch
  dead : γ

/-- The body of the loop of `match_pivot_gadget`, `/repo/pyzx/rules.py` lines 478-527. -/
noncomputable def gadgetStep (s : GState (ℕ × ℕ → Bool)) (c : ℕ × ℕ) : GState (ℕ × ℕ → Bool) :=
  if s.dead c then s
  else match gadgetTry s.g c with
    | none => s
    | some (v0, v1) =>
      { g := (s.g.addVertex .Z (s.g.phase v1)).setPhase v1 0
        el := s.el ++ [(s.g.vindex, v1)]
        ms := s.ms ++ [⟨v0, v1, none, some s.g.vindex⟩]
        dead := fun c' => s.dead c' || edgeDisc s.g v0 v1 c' }

/-- `match_pivot_gadget`, `/repo/pyzx/rules.py` lines 461-529: the changed graph and the matches. -/
noncomputable def matchPivotGadget (g : Graph) (cands : List (ℕ × ℕ)) : Option (Graph × List PivotMatch) :=
  let s := cands.foldl gadgetStep ⟨g, [], [], fun _ => false⟩
  (s.g.addEdges s.el .simple).map fun g1 => (g1, s.ms)

/-- One iteration of the loop over the neighbours of `v` in `match_pivot_boundary`, `/repo/pyzx/rules.py` lines 559-587.
The state is the pair `(w, bound)`, the result `none` is `good_vert = False`. `g.is_ground(n)` is `False`, so the test
`g.is_ground(n) in consumed_vertices` of line 569 asks whether vertex 0 is consumed (`False == 0`). `if not w` in line 585
also holds for `w = 0`. -/
def boundaryScan1 (g : Graph) (ord : ℕ → List ℕ) (consumed : ℕ → Bool) (wb : Option (ℕ × ℕ)) (n : ℕ) : Option (Option (ℕ × ℕ)) :=
  if g.ty n ≠ .Z ∨ g.degree n = 1 ∨ consumed n ∨ consumed 0 then none
  else match (ord n).filter fun b => g.ty b = .boundary with
    | [b] =>
      if ¬ (∀ u ∈ ord n, g.ty u = .boundary ∨ g.ty u = .Z) then some wb
      else if g.phase n ≠ 0 ∧ (g.phase n).den = 2 then some (some (n, b))
      else match wb with
        | none => some (some (n, b))
        | some (w, _) => if w = 0 then some (some (n, b)) else some wb
    | _ => some wb

/-- The body of the loop of `match_pivot_boundary`, `/repo/pyzx/rules.py` lines 551-604 (no grounds). The vertices added to
`consumed_vertices` are the same as those discarded from `candidates`, so one set represents both. -/
noncomputable def boundaryStep (ord : ℕ → List ℕ) (s : GState (ℕ → Bool)) (v : ℕ) : GState (ℕ → Bool) :=
  if s.dead v then s
  else if s.g.ty v ≠ .Z ∨ ¬ isPauli (s.g.phase v) then s
  else match (ord v).foldlM (boundaryScan1 s.g ord s.dead) none with
    | none => s
    | some none => s
    | some (some (w, b)) =>
      { g := ((s.g.addVertex .Z (s.g.phase w)).addVertex .Z 0).setPhase w 0
        el := s.el ++ [(w, s.g.vindex + 1), (s.g.vindex, s.g.vindex + 1)]
        ms := s.ms ++ [⟨v, w, none, some b⟩]
        dead := fun n => s.dead n || (ord v).contains n || (ord w).contains n }

/-- `match_pivot_boundary`, `/repo/pyzx/rules.py` lines 532-604: the changed graph and the matches. -/
noncomputable def matchPivotBoundary (g : Graph) (ord : ℕ → List ℕ) (cands : List ℕ) : Option (Graph × List PivotMatch) :=
  let s := cands.foldl (boundaryStep ord) ⟨g, [], [], fun _ => false⟩
  (s.g.addEdges s.el .had).map fun g1 => (g1, s.ms)

end Rules
end PyZX
