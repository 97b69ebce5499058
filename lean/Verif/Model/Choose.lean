import Verif.Model.Linalg
import Verif.Model.Optimize
import Mathlib.Data.Int.Init

/-!
# Model of the choice of CNOTs in `extract_circuit`, `pyzx/extract.py`
-/

namespace PyZX
namespace Extract

/-- The rows to be added up, with their sum: an entry of the dictionary `combs`, `/repo/pyzx/extract.py` lines 177-178. -/
abbrev Comb := List ℕ × List Bool

/-- The inner loop of `find_minimal_sums`, `/repo/pyzx/extract.py` lines 185-192: `Sum.inl` is the `return` of line 190, `Sum.inr` are
`combs2` (as a list in the order of insertion; all keys are different) and `iterations`. -/
def sumsRow (d : Mat2.Data) (c : Comb) : List ℕ → List Comb → ℕ → List ℕ ⊕ List Comb × ℕ
  | [], acc, it => .inr (acc, it)
  | k :: ks, acc, it =>
    let row := List.zipWith xor c.2 (d.getD k [])
    if row.count true = 1 then .inl (c.1 ++ [k]) else sumsRow d c ks (acc ++ [(c.1 ++ [k], row)]) (it + 1)

/-- The range of line 184 of `/repo/pyzx/extract.py`. -/
def sumsRange (rev : Bool) (r : ℕ) (index : List ℕ) : List ℕ :=
  let l := List.range' (index.foldl max 0 + 1) (r - (index.foldl max 0 + 1))
  if rev then l.reverse else l

/-- The loop on `combs`, `/repo/pyzx/extract.py` lines 182-194. `Sum.inl` are the two `return` statements. -/
def sumsLevel (rev : Bool) (d : Mat2.Data) : List Comb → List Comb → ℕ → Option (List ℕ) ⊕ List Comb × ℕ
  | [], acc, it => .inr (acc, it)
  | c :: cs, acc, it =>
    match sumsRow d c (sumsRange rev d.length c.1) acc it with
    | .inl t => .inl (some t)
    | .inr (acc, it) => if 100000 < it then .inl none else sumsLevel rev d cs acc it

/-- The `while` loop, `/repo/pyzx/extract.py` lines 180-198. The first argument bounds the number of passes; one pass per row is always
enough, as the tuples get longer. -/
def sumsLoop (rev : Bool) (d : Mat2.Data) : ℕ → List Comb → ℕ → Option (List ℕ)
  | 0, _, _ => none
  | n + 1, cs, it =>
    match sumsLevel rev d cs [] it with
    | .inl t => t
    | .inr (cs, it) => if cs = [] then none else sumsLoop rev d n cs it

/-- `find_minimal_sums`, `/repo/pyzx/extract.py` lines 170-198. -/
def findMinimalSums (rev : Bool) (d : Mat2.Data) : Option (List ℕ) :=
  if d.any (fun row => row.count true == 1) then some []
  else sumsLoop rev d d.length ((List.range d.length).map fun i => ([i], d.getD i [])) 0

/-- `xor_rows`, `/repo/pyzx/extract.py` lines 166-167, for rows of the same length. -/
def xorRows (a b : List Bool) : List Bool := List.zipWith xor a b

/-- The loop body that searches the best pair in `greedy_reduction`, `/repo/pyzx/extract.py` lines 214-223: the state is `best`, where `none`
is `(-1,-1)`, and `reduction`. -/
def pickStep (rows : ℕ → List Bool) (wt : ℕ → ℤ) (st : Option (ℕ × ℕ) × ℤ) (p : ℕ × ℕ) : Option (ℕ × ℕ) × ℤ :=
  if p.2 ≤ p.1 then st
  else
    let w : ℤ := (xorRows (rows p.1) (rows p.2)).count true
    let st := if wt p.1 - w > st.2 then (some (p.2, p.1), wt p.1 - w) else st
    if wt p.2 - w > st.2 then (some (p.1, p.2), wt p.2 - w) else st

/-- The search for the best pair, `/repo/pyzx/extract.py` lines 212-223. -/
def pickBest (rows : ℕ → List Bool) (wt : ℕ → ℤ) (ix : List ℕ) : Option (ℕ × ℕ) × ℤ :=
  (ix ×ˢ ix).foldl (pickStep rows wt) (none, -10000)

/-- The `while` loop of `greedy_reduction`, `/repo/pyzx/extract.py` lines 211-228. The first argument bounds the number of passes (every pass
removes an index). `none`: no pair was found, and `rows[-1]` raises. -/
def greedyLoop : ℕ → List ℕ → (ℕ → List Bool) → (ℕ → ℤ) → Option (List (ℕ × ℕ))
  | 0, _, _, _ => some []
  | n + 1, ix, rows, wt =>
    if ix.length ≤ 1 then some []
    else match pickBest rows wt ix with
      | (none, _) => none
      | (some (c, t), red) =>
        (greedyLoop n (ix.erase c) (Function.update rows t (xorRows (rows c) (rows t))) (Function.update wt t (wt t - red))).map ((c, t) :: ·)

/-- `greedy_reduction`, `/repo/pyzx/extract.py` lines 201-229. The outer `none` is an exception, the inner `none` the result `None`. -/
def greedyReduction (d : Mat2.Data) : Option (Option (List (ℕ × ℕ))) :=
  match findMinimalSums false d with
  | none => some none
  | some ix => (greedyLoop ix.length ix (fun i => d.getD i []) fun i => ((d.getD i []).count true : ℕ)).map some

/-- `bi_adj(g, neighbors2, frontier)`, `/repo/pyzx/extract.py` lines 673-676: the columns of the matrix in the order `p`. -/
def permCols (p : List ℕ) (m : Mat2.Data) : Mat2.Data := m.map fun row => p.map fun j => row.getD j false

/-- The control and the target of a CNOT. -/
def cnotPair : Gate → Option (ℕ × ℕ)
  | .cnot c t => some (c, t)
  | _ => none

/-- `filter_duplicate_cnots`, `/repo/pyzx/extract.py` lines 385-393. A gate in the result that is not a CNOT (there never is one, see
`filterDuplicateCnots_ok`) would be `none` here. -/
def filterDuplicateCnots (cs : List (ℕ × ℕ)) : Option (List (ℕ × ℕ)) :=
  if cs = [] then some []
  else (Optimize.basicOptimization ⟨(cs.map fun c => max c.1 c.2).foldl max 0 + 1, 0, cs.map fun c => .cnot c.1 c.2⟩ false).bind fun c =>
    c.gates.mapM cnotPair

/-- The choice of the CNOTs in `extract_circuit` with `optimize_cnots` at most 2, `/repo/pyzx/extract.py` lines 660-682. A CNOT is the pair of
control and target. The order of columns found by `column_optimal_swap` is the parameter `perm`, where `none` means that the function
raises; `filter_duplicate_cnots` is the parameter `filt`. (With the level 3 the matrix that is used afterwards can be changed as well; this is
not modelled.) -/
def chooseCnots (level : ℕ) (perm : Mat2.Data → Option (List ℕ)) (filt : List (ℕ × ℕ) → Option (List (ℕ × ℕ))) (stale : ℕ → List ℕ)
    (m : Mat2.Data) : Option (List (ℕ × ℕ)) :=
  let gauss := do
    let p ← perm m
    let cs ← Mat2.toCnots stale (decide (0 < level)) false (permCols p m)
    filt cs
  if level ≤ 1 then gauss
  else match greedyReduction m with
    | none => none
    | some none => gauss
    | some (some l) => some (l.map Prod.swap)

end Extract
end PyZX
