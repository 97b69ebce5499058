import Mathlib.Data.List.Basic

/-!
# Model of `permutation_as_swaps` in `pyzx/extract.py`
-/

namespace PyZX

/-- One round of the loop of `permutation_as_swaps`, `/repo/pyzx/extract.py` lines 73-81. The state is `(swaps, l, linv)`. -/
def swapStep (s : List (ℕ × ℕ) × List ℕ × List ℕ) (i : ℕ) : List (ℕ × ℕ) × List ℕ × List ℕ :=
  let (swaps, l, linv) := s
  if l.getD i 0 = i then s
  else
    let t1 := l.getD i 0
    let t2 := linv.getD i 0
    (swaps ++ [(i, t2)], l.set t2 t1, linv.set t1 t2)

/-- `permutation_as_swaps`, `/repo/pyzx/extract.py` lines 64-82. The dictionary is the list of its values for the keys
`0, ..., n-1`; its inverse dictionary (lines 71-72) gives for each value its position. A dictionary that is not a permutation
raises in the code. -/
def permutationAsSwaps (perm : List ℕ) : List (ℕ × ℕ) :=
  ((List.range perm.length).foldl swapStep
    ([], perm, (List.range perm.length).map fun i => perm.idxOf i)).1

end PyZX
