import Verif.Model.Match

/-!
# Model of the conversion of H-boxes to Hadamard edges and of the fusion and removal of H-boxes (`pyzx/hrules.py` lines 26-103 and 433-442)
-/

namespace PyZX
namespace HRules

open RewriteState

/-- `upair`, `/repo/pyzx/graph/base.py` lines 71-76. -/
def upair (a b : ℕ) : ℕ × ℕ := if a ≤ b then (a, b) else (b, a)

/-- State of the loop of `match_hadamards`: the set `m` (in order of insertion) and the set `taken`. -/
structure HadSt where
  m : List ℕ
  taken : List ℕ

/-- The body of the loop of `match_hadamards`, `/repo/pyzx/hrules.py` lines 37-44. `ord` is the order of the adjacency dictionaries. -/
def hadTry (g : Graph) (ord : ℕ → List ℕ) (s : HadSt) (v : ℕ) : HadSt :=
  if g.ty v = .hbox ∧ g.degree v = 2 ∧ g.phase v = 1 then
    match ord v with
    | [n1, n2] =>
      if n1 ∈ s.taken ∨ n2 ∈ s.taken then s
      else if n1 ∉ s.m ∧ n2 ∉ s.m then ⟨s.m ++ [v], n2 :: n1 :: s.taken⟩
      else s
    | _ => s
  else s

/-- `match_hadamards`, `/repo/pyzx/hrules.py` lines 26-46. `cands` is the set of candidates in the order in which it is iterated (a filter only
restricts it). The code returns the set `m` as a list in an unspecified order; here it is the order of insertion. -/
def matchHadamards (g : Graph) (ord : ℕ → List ℕ) (cands : List ℕ) : List ℕ := (cands.foldl (hadTry g ord) ⟨[], []⟩).m

/-- The body of the loop of `hadamard_to_h_edge`, `/repo/pyzx/hrules.py` lines 52-60: the entry of the table is assigned, not
incremented. Unpacking a list that has not two elements raises. -/
def hadStep (g : Graph) (ord : ℕ → List ℕ) (s : RewriteState) (v : ℕ) : Option RewriteState :=
  match ord v with
  | [w1, w2] => some { s with
      remVerts := s.remVerts ++ [v]
      etab := ETab.upd s.etab (upair w1 w2) fun _ => if g.adj w1 v = g.adj w2 v then (0, 1) else (1, 0) }
  | _ => none

/-- `hadamard_to_h_edge`, `/repo/pyzx/hrules.py` lines 48-62. -/
def hadamardToHEdge (g : Graph) (ord : ℕ → List ℕ) (ms : List ℕ) : Option RewriteState :=
  (ms.foldlM (hadStep g ord) (start g)).map fun s => { s with g := s.g.addPower ms.length }

/-- The body of the loop of `match_connected_hboxes`, `/repo/pyzx/hrules.py` lines 74-78. -/
def connTry (g : Graph) (c : ℕ × ℕ) : Option (ℕ × ℕ) :=
  if g.adj c.1 c.2 ≠ some .had then none
  else if g.ty c.1 ≠ .hbox ∨ g.ty c.2 ≠ .hbox then none
  else if g.phase c.1 ≠ 1 ∧ g.phase c.2 ≠ 1 then none
  else some c

/-- Candidates discarded by a match, `/repo/pyzx/hrules.py` lines 80-81. -/
def connDisc (m c : ℕ × ℕ) : Bool := c.1 == m.1 || c.2 == m.1 || c.1 == m.2 || c.2 == m.2

/-- `match_connected_hboxes`, `/repo/pyzx/hrules.py` lines 64-82. The candidates are edges, in the order in which they are popped. -/
def matchConnected (g : Graph) (cands : List (ℕ × ℕ)) : List (ℕ × ℕ) :=
  Rules.greedy (connTry g) connDisc 1 (-1) (fun _ => false) 0 cands

/-- The H-box that stays and the one that is removed, `/repo/pyzx/hrules.py` lines 90-93. -/
def orient (g : Graph) (m : ℕ × ℕ) : ℕ × ℕ := if g.phase m.2 ≠ 1 then (m.2, m.1) else m

/-- The inner loop of `fuse_hboxes`, `/repo/pyzx/hrules.py` lines 95-101: the entry of the table is assigned, not incremented. -/
def fuseNbr (g : Graph) (v1 v2 : ℕ) (t : Graph.ETab) (n : ℕ) : Graph.ETab :=
  if n = v1 then t else ETab.upd t (upair v1 n) fun _ => if g.adj v2 n = some .simple then (1, 0) else (0, 1)

/-- The body of the loop of `fuse_hboxes`, `/repo/pyzx/hrules.py` lines 89-101. -/
def fuseStep (g : Graph) (ord : ℕ → List ℕ) (s : RewriteState) (m : ℕ × ℕ) : RewriteState :=
  { s with
    g := s.g.addPower 1
    remVerts := s.remVerts ++ [(orient g m).2]
    etab := (ord (orient g m).2).foldl (fuseNbr g (orient g m).1 (orient g m).2) s.etab }

/-- `fuse_hboxes`, `/repo/pyzx/hrules.py` lines 84-103. -/
def fuseHboxes (g : Graph) (ord : ℕ → List ℕ) (ms : List (ℕ × ℕ)) : RewriteState := ms.foldl (fuseStep g ord) (start g)

/-- `match_zero_hbox`, `/repo/pyzx/hrules.py` lines 433-437. `vs` are the vertices in the order of the graph. -/
def matchZero (g : Graph) (vs : List ℕ) : List ℕ := vs.filter fun v => g.ty v = .hbox ∧ g.phase v = 0

/-- `zero_hbox`, `/repo/pyzx/hrules.py` lines 439-442. -/
def zeroHbox (g : Graph) (ms : List ℕ) : Option Graph := g.removeVertices ms

end HRules
end PyZX
