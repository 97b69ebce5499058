import Verif.Model.HRules

/-!
# Model of the removal of H-boxes with a parallel NOT (`pyzx/hrules.py` lines 206-245)
-/

namespace PyZX
namespace HRules

/-- `is_NOT_gate`, `/repo/pyzx/hrules.py` lines 206-216. -/
def isNotGate (g : Graph) (v n1 n2 : ℕ) : Bool :=
  if g.adj n1 v = some .simple ∧ g.ty v = .X then g.adj n2 v = some .simple
  else if g.adj n1 v = some .had ∧ g.ty v = .Z then g.adj n2 v = some .had
  else false

/-- The inner loop of `match_hbox_parallel_not`, `/repo/pyzx/hrules.py` lines 233-240: the first neighbour of `h` that passes, with its other neighbour. -/
def notNbr (g : Graph) (ord : ℕ → List ℕ) (h : ℕ) : List ℕ → Option (ℕ × ℕ)
  | [] => none
  | n :: ns =>
    if g.degree n ≠ 2 ∨ g.phase n ≠ 1 then notNbr g ord h ns
    else match (ord n).filter (· ≠ h) with
      | [] => none
      | v :: _ => if g.adj v h = none ∨ isNotGate g n h v = false then notNbr g ord h ns else some (v, n)

/-- `match_hbox_parallel_not`, `/repo/pyzx/hrules.py` lines 219-245. `drop` are the vertices removed from the candidates. -/
def matchNot (g : Graph) (ord : ℕ → List ℕ) : List ℕ → List ℕ → List (ℕ × ℕ × ℕ)
  | _, [] => []
  | drop, h :: hs =>
    if h ∈ drop then matchNot g ord drop hs
    else if g.ty h ≠ .hbox ∨ g.phase h ≠ 1 then matchNot g ord drop hs
    else match notNbr g ord h (ord h) with
      | none => matchNot g ord drop hs
      | some (v, n) => (h, v, n) :: matchNot g ord (drop ++ ord h) hs

/-- `hbox_parallel_not_remove`, `/repo/pyzx/hrules.py` lines 248-269, for matches whose H-boxes have no further neighbours that need a new vertex: then the table
of edges is empty and the H-box and the NOT gate are removed. -/
def removeNot (g : Graph) (ms : List (ℕ × ℕ × ℕ)) : RewriteState := ⟨g, [], ms.flatMap fun m => [m.1, m.2.2], []⟩

end HRules
end PyZX
