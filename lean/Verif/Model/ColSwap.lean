import Verif.Model.Choose

/-!
# Model of `column_optimal_swap`, `pyzx/extract.py`

Sets are iterated in an arbitrary order, which may depend on the targets found so far and the row that is looked at: `order tgt i l` is a
reordering of the list `l`.
-/

namespace PyZX
namespace Extract
namespace ColSwap

/-- A dictionary `target` of `/repo/pyzx/extract.py` lines 112-117: pairs of a column and its row, in the order of insertion. -/
abbrev Target := List (ℕ × ℕ)

/-- An order of iteration of sets. -/
abbrev Order := Target → ℕ → List ℕ → List ℕ

/-- Entry of the matrix, `m.data[i][j]`, `/repo/pyzx/extract.py` line 96. -/
def ent (m : Mat2.Data) (i j : ℕ) : Bool := (m.getD i []).getD j false

/-- `conn[i] - claimedcols`, `/repo/pyzx/extract.py` lines 91-98 and 129. -/
def freeCols (m : Mat2.Data) (c : ℕ) (tgt : Target) (i : ℕ) : List ℕ :=
  (List.range c).filter fun j => ent m i j && !(tgt.map Prod.fst).contains j

/-- `connr[j] - claimedrows`, `/repo/pyzx/extract.py` lines 91-98 and 139. -/
def freeRows (m : Mat2.Data) (tgt : Target) (j : ℕ) : List ℕ :=
  (List.range m.length).filter fun i => ent m i j && !(tgt.map Prod.snd).contains i

/-- How the `for` loop of lines 127-149 of `/repo/pyzx/extract.py` ends. -/
inductive Scan where
  /-- `break` after `target[j] = i`. -/
  | claim (j i : ℕ)
  /-- `return None`. -/
  | contra
  /-- The `else` branch, with `min_index` and `min_options` (`none` for the initial values). -/
  | idle (mn : Option (ℕ × List ℕ))

/-- `len(min_options)`, `/repo/pyzx/extract.py` lines 126 and 147. -/
def minSize : Option (ℕ × List ℕ) → ℕ
  | none => 1000
  | some (_, s) => s.length

/-- The `for` loop, `/repo/pyzx/extract.py` lines 127-149. -/
def scan (m : Mat2.Data) (c : ℕ) (order : Order) (tgt : Target) : List ℕ → Option (ℕ × List ℕ) → Scan
  | [], mn => .idle mn
  | i :: is, mn =>
    if (tgt.map Prod.snd).contains i then scan m c order tgt is mn
    else match order tgt i (freeCols m c tgt i) with
      | [] => .contra
      | [j] => .claim j i
      | s => match s.find? (fun j => (freeRows m tgt j).length == 1) with
        | some j => .claim j i
        | none => scan m c order tgt is (if s.length < minSize mn then some (i, s) else mn)

/-- The depth first search, `/repo/pyzx/extract.py` lines 155-163: `rec` is the recursive call, `target` the dictionary to be returned without
success, the last argument is `tgt`, which keeps the entries of the earlier options. An empty dictionary counts as a failure. -/
def tryOptions (rec : Target → Option (Option Target)) (target : Target) (i : ℕ) : List ℕ → Target → Option (Option Target)
  | [], _ => some (some target)
  | j :: js, tgt =>
    match rec (tgt ++ [(j, i)]) with
    | none => none
    | some (some (p :: t)) => some (some (p :: t))
    | some _ => tryOptions rec target i js (tgt ++ [(j, i)])

/-- `_find_targets`, `/repo/pyzx/extract.py` lines 109-163. The outer `none` is the exception of line 153 (or too little fuel; every round of the
loop and every recursive call claims one more row), the inner `none` the result `None`. -/
def findTargets (m : Mat2.Data) (c : ℕ) (order : Order) : ℕ → Target → Option (Option Target)
  | 0, _ => none
  | n + 1, tgt =>
    match scan m c order tgt (List.range m.length) none with
    | .claim j i => findTargets m c order n (tgt ++ [(j, i)])
    | .contra => some none
    | .idle mn =>
      if (List.range m.length).all fun i => (tgt.map Prod.snd).contains i then some (some tgt)
      else match mn with
        | none => none
        | some (i, s) => tryOptions (findTargets m c order n) tgt i s tgt

/-- Lines 103-106 of `/repo/pyzx/extract.py`: the other columns. `none`: `right[i]` raises. The indices for `order` only distinguish the two
sets. -/
def fillTarget (c : ℕ) (order : Order) (tgt : Target) : Option Target :=
  let left := order tgt 0 ((List.range c).filter fun i => !(tgt.map Prod.snd).contains i)
  let right := order tgt 1 ((List.range c).filter fun j => !(tgt.map Prod.fst).contains j)
  if left.length ≤ right.length then some (tgt ++ right.zip left) else none

/-- `column_optimal_swap`, `/repo/pyzx/extract.py` lines 85-107. -/
def columnOptimalSwap (order : Order) (m : Mat2.Data) : Option Target :=
  let c := Mat2.cols m
  match findTargets m c order (m.length + 1) [] with
  | none => none
  | some t => fillTarget c order (t.getD [])

/-- `perm` after line 674 of `/repo/pyzx/extract.py`, as the list of `perm[i]` of line 675. A later entry of the dictionary overwrites an earlier
one; `none`: `perm[i]` raises. -/
def columnOrder (order : Order) (m : Mat2.Data) : Option (List ℕ) :=
  (columnOptimalSwap order m).bind fun tgt =>
    (List.range (Mat2.cols m)).mapM fun i => (tgt.reverse.find? fun p => p.2 == i).map Prod.fst

end ColSwap
end Extract
end PyZX
