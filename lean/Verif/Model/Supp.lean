import Verif.Model.Rule
import Verif.Model.Rules

/-!
# Model of the supplementarity rule of `pyzx/rules.py`

The order in which `candidates` is popped is the parameter `cands`, the order in which a set is iterated over is the parameter `lst`.
-/

namespace PyZX
namespace Rules

/-- A match of `match_supplementarity`, `/repo/pyzx/rules.py` line 888. -/
structure SuppMatch where
  v : ℕ
  w : ℕ
  t : ℕ
  neigh : Finset ℕ

/-- State of `match_supplementarity`, `/repo/pyzx/rules.py` lines 900-902: the candidates that were discarded, the dictionary `parities`,
the list `m` and the set `taken`. -/
structure SuppState where
  dead : Finset ℕ
  par : List (Finset ℕ × List ℕ)
  ms : List SuppMatch
  taken : Finset ℕ

/-- `phases[v] == 0 or phases[v].denominator <= 2`, `/repo/pyzx/rules.py` lines 906 and 922. -/
def isCliff (g : Graph) (v : ℕ) : Bool := decide (g.phase v = 0) || decide ((g.phase v).den ≤ 2)

/-- The test of `/repo/pyzx/rules.py` line 912. -/
def suppTest1 (g : Graph) (v w : ℕ) : Bool := decide (mod2 (g.phase v - g.phase w) = 1) || decide (mod2 (g.phase v + g.phase w) = 1)

/-- The tests of `/repo/pyzx/rules.py` lines 922-925. -/
def suppTest2 (g : Graph) (taken : Finset ℕ) (v w : ℕ) : Bool :=
  !(isCliff g w || decide (w ∈ taken)) && decide ((symmDiff (g.nbrs v) (g.nbrs w)).card = 2) &&
    (decide (mod2 (g.phase v + g.phase w) = 0) || decide (mod2 (g.phase v - g.phase w) = 1))

/-- A match is recorded, `/repo/pyzx/rules.py` lines 913-916 and 926-929. -/
def SuppState.record (g : Graph) (s : SuppState) (v w t : ℕ) (neigh : Finset ℕ) : SuppState :=
  { s with ms := s.ms ++ [⟨v, w, t, neigh⟩], taken := s.taken ∪ {v, w} ∪ g.nbrs v, dead := s.dead ∪ g.nbrs v }

/-- The loop `for w in neigh`, `/repo/pyzx/rules.py` lines 921-930. -/
def suppConn (g : Graph) (lst : Finset ℕ → List ℕ) (s : SuppState) (v : ℕ) : SuppState :=
  match (lst (g.nbrs v)).find? (suppTest2 g s.taken v) with
  | none => s
  | some w => s.record g v w 2 ((g.nbrs v).erase w)

/-- The loop body of `match_supplementarity`, `/repo/pyzx/rules.py` lines 904-930. -/
def suppStep (g : Graph) (lst : Finset ℕ → List ℕ) (s : SuppState) (v : ℕ) : SuppState :=
  if v ∈ s.dead then s
  else if isCliff g v then s
  else if ¬ Disjoint (g.nbrs v) s.taken then s
  else match s.par.lookup (g.nbrs v) with
    | some ws =>
      match ws.find? (suppTest1 g v) with
      | some w => s.record g v w 1 (g.nbrs v)
      | none =>
        let s1 := { s with par := s.par.map fun p => if p.1 = g.nbrs v then (p.1, p.2 ++ [v]) else p }
        if v ∈ s1.taken then s1 else suppConn g lst s1 v
    | none => suppConn g lst { s with par := s.par ++ [(g.nbrs v, [v])] } v

/-- `match_supplementarity`, `/repo/pyzx/rules.py` lines 890-931. -/
def matchSupp (g : Graph) (lst : Finset ℕ → List ℕ) (cands : List ℕ) : List SuppMatch :=
  (cands.foldl (suppStep g lst) ⟨∅, [], [], ∅⟩).ms

/-- `g.scalar.add_node`. -/
def addNode (g : Graph) (p : ℚ) : Graph := { g with scalar := g.scalar.addNode p }

/-- The body of the loop of `apply_supplementarity`, `/repo/pyzx/rules.py` lines 939-960. -/
def suppApply (lst : Finset ℕ → List ℕ) (s : Graph × List ℕ) (m : SuppMatch) : Option (Graph × List ℕ) :=
  let alpha := s.1.phase m.v
  let beta := s.1.phase m.w
  let g1 := s.1.addPower (-2 * (m.neigh.card : ℤ))
  if m.t = 1 then
    let g2 := addNode g1 (2 * alpha + 1)
    some (if mod2 (alpha + beta) = 1 then addToPhases (g2.addScalarPhase (-alpha + 1)) (lst m.neigh) 1 else g2, s.2 ++ [m.v, m.w])
  else if m.t = 2 then
    let g2 := addNode (g1.addPower (-1)) (2 * alpha)
    some (if mod2 (alpha + beta) = 0 then addToPhases (g2.addScalarPhase (-alpha)) (lst m.neigh) 1 else g2, s.2 ++ [m.v, m.w])
  else none

/-- `apply_supplementarity`, `/repo/pyzx/rules.py` lines 933-961, followed by the removal of the vertices (`/repo/pyzx/rules.py` line 75). -/
noncomputable def applySupp (g : Graph) (lst : Finset ℕ → List ℕ) (ms : List SuppMatch) : Option Graph :=
  (ms.foldlM (suppApply lst) (g, [])).bind fun s => s.1.removeVertices s.2

end Rules
end PyZX
