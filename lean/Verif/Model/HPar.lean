import Verif.Model.HRules

/-!
# Model of the multiplication of parallel H-boxes (`pyzx/hrules.py` lines 273-343)
-/

namespace PyZX
namespace HRules

open RewriteState

/-- A match `(hs, firstNOTs, NOTs)` of `match_par_hbox`, `/repo/pyzx/hrules.py` line 272. -/
abbrev ParMatch := List ℕ × List ℕ × List ℕ

/-- State of the inner loop of `match_par_hbox`: `neighbors_regular`, `neighbors_NOT`, `NOTs`. -/
structure ParSt where
  reg : Finset ℕ
  neg : Finset ℕ
  nots : List ℕ

/-- The NOT branches, `/repo/pyzx/hrules.py` lines 295-301 and 307-313: `v` is connected to `h` by an edge of type `e`. The other neighbour exists because
`v` has degree 2. -/
def parNot (g : Graph) (ord : ℕ → List ℕ) (h : ℕ) (e : EType) (s : ParSt) (v : ℕ) : Option ParSt :=
  match (ord v).filter (· ≠ h) with
  | w :: _ => if g.ty w ≠ .Z ∨ g.adj v w ≠ some e then none else some ⟨s.reg, insert w s.neg, s.nots ++ [v]⟩
  | [] => none

/-- The inner loop of `match_par_hbox`, `/repo/pyzx/hrules.py` lines 290-317; `none` stands for `suitable = False`. -/
def parNbr (g : Graph) (ord : ℕ → List ℕ) (h : ℕ) (s : ParSt) (v : ℕ) : Option ParSt :=
  if g.adj v h = some .had then
    if g.ty v = .X then some { s with reg := insert v s.reg }
    else if g.ty v = .Z ∧ g.degree v = 2 ∧ g.phase v = 1 then parNot g ord h .had s v
    else none
  else
    if g.ty v = .Z then some { s with reg := insert v s.reg }
    else if g.ty v = .X ∧ g.degree v = 2 ∧ g.phase v = 1 then parNot g ord h .simple s v
    else none

/-- The legs of one H-box, `/repo/pyzx/hrules.py` lines 286-317. -/
def parScan (g : Graph) (ord : ℕ → List ℕ) (h : ℕ) : Option ParSt := (ord h).foldlM (parNbr g ord h) ⟨∅, ∅, []⟩

/-- Adding an H-box to its group, `/repo/pyzx/hrules.py` lines 319-323. A dictionary is a list of pairs in order of insertion. -/
def parInsert (key : Finset ℕ × Finset ℕ) (h : ℕ) (nots : List ℕ) :
    List ((Finset ℕ × Finset ℕ) × ParMatch) → List ((Finset ℕ × Finset ℕ) × ParMatch)
  | [] => [(key, ([h], nots, []))]
  | (k, m) :: gs => if k = key then (k, (m.1 ++ [h], m.2.1, m.2.2 ++ nots)) :: gs else (k, m) :: parInsert key h nots gs

/-- The body of the loop of `match_par_hbox`, `/repo/pyzx/hrules.py` lines 285-323. -/
def parTry (g : Graph) (ord : ℕ → List ℕ) (gs : List ((Finset ℕ × Finset ℕ) × ParMatch)) (h : ℕ) : List ((Finset ℕ × Finset ℕ) × ParMatch) :=
  if g.ty h ≠ .hbox then gs
  else match parScan g ord h with
    | none => gs
    | some s => parInsert (s.reg, s.neg) h s.nots gs

/-- `match_par_hbox`, `/repo/pyzx/hrules.py` lines 273-329. -/
def matchPar (g : Graph) (ord : ℕ → List ℕ) (cands : List ℕ) : List ParMatch :=
  ((cands.foldl (parTry g ord) []).map Prod.snd).filter fun m => 2 ≤ m.1.length

/-- The phase of the H-box that stays, `/repo/pyzx/hrules.py` line 335. -/
def parPhase (g : Graph) (m : ParMatch) : ℚ := mod2 (m.1.map g.phase).sum

/-- The body of the loop of `par_hbox`, `/repo/pyzx/hrules.py` lines 334-341. -/
def parStep (s : RewriteState) (m : ParMatch) : RewriteState :=
  if parPhase s.g m = 0 then { s with remVerts := s.remVerts ++ (m.1.tail ++ m.2.2 ++ (m.1.headD 0 :: m.2.1)) }
  else { s with g := s.g.setPhase (m.1.headD 0) (parPhase s.g m), remVerts := s.remVerts ++ (m.1.tail ++ m.2.2) }

/-- `par_hbox`, `/repo/pyzx/hrules.py` lines 331-343. -/
def parHbox (g : Graph) (ms : List ParMatch) : RewriteState := ms.foldl parStep (start g)

end HRules
end PyZX
