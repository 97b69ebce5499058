import Mathlib.Data.List.Range
import Mathlib.Data.Nat.Log
import Mathlib.Data.Int.Init

/-!
# Model of `pyzx/linalg.py`

A matrix is a list of rows of bits, as in the code (`Mat2.data`). The code never checks that a matrix is rectangular; the
theorems assume it.
-/

namespace PyZX
namespace Mat2

/-- `Mat2.data`, `/repo/pyzx/linalg.py` lines 49-50. The entries 0 and 1 are `false` and `true`. -/
abbrev Data := List (List Bool)

/-- `self.data[i][j]`, `/repo/pyzx/linalg.py` line 74. Out of range is `false` here; the code raises. -/
def get (d : Data) (i j : ℕ) : Bool := (d.getD i []).getD j false

/-- `Mat2.cols`, `/repo/pyzx/linalg.py` lines 112-113. (`Mat2.rows` is the length of the list.) -/
def cols (d : Data) : ℕ := (d.getD 0 []).length

/-- `Mat2.id`, `/repo/pyzx/linalg.py` lines 35-39. -/
def ident (n : ℕ) : Data := (List.range n).map fun i => (List.range n).map fun j => decide (i = j)

/-- `Mat2.zeros`, `/repo/pyzx/linalg.py` lines 40-44. -/
def zeros (m n : ℕ) : Data := (List.range m).map fun _ => (List.range n).map fun _ => false

/-- `Mat2.__mul__`, `/repo/pyzx/linalg.py` lines 51-53. `m.data[0]` raises if the second factor has no rows and the first one has
some; otherwise an index error occurs if a row of the first factor is too short (not modelled: entries read as 0). -/
def mul (a b : Data) : Option Data :=
  if b = [] ∧ a ≠ [] then none
  else some ((List.range a.length).map fun i => (List.range (cols b)).map fun j =>
    ((List.range b.length).foldl (fun (n : ℕ) k => n + (get a i k).toNat * (get b k j).toNat) 0) % 2 == 1)

/-- `Mat2.transpose`, `/repo/pyzx/linalg.py` lines 108-109. -/
def transpose (d : Data) : Data :=
  (List.range (cols d)).map fun j => (List.range d.length).map fun i => get d i j

/-- `Mat2.row_add`, `/repo/pyzx/linalg.py` lines 114-120. -/
def rowAdd (r0 r1 : ℕ) (d : Data) : Data := d.set r1 (List.zipWith xor (d.getD r1 []) (d.getD r0 []))

/-- `Mat2.col_add`, `/repo/pyzx/linalg.py` lines 121-126. -/
def colAdd (c0 c1 : ℕ) (d : Data) : Data :=
  d.map fun row => if row.getD c0 false then row.set c1 (!(row.getD c1 false)) else row

/-- The mutable state of `Mat2.gauss`: the matrix and the two optional objects to which row operations are copied. -/
structure St (X Y : Type*) where
  /-- `self.data` -/
  m : Data
  /-- the argument `x` -/
  x : X
  /-- the argument `y` -/
  y : Y

section
variable {X Y : Type*} (ra : ℕ → ℕ → X → X) (ca : ℕ → ℕ → Y → Y)

/-- The three lines `self.row_add(a,b); x.row_add(a,b); y.col_add(b,a)` which occur five times in `gauss`,
`/repo/pyzx/linalg.py` lines 189-191, 200-202, 207-209, 233-235 and 243-245. `ra` and `ca` are the methods `row_add` of `x` and
`col_add` of `y`; an argument that is `None` is an object of the unit type. -/
def St.op (a b : ℕ) (s : St X Y) : St X Y := ⟨rowAdd a b s.m, ra a b s.x, ca b a s.y⟩

/-- `tuple(self.data[r][i0:i1])`, `/repo/pyzx/linalg.py` line 185. -/
def chunk (d : Data) (r i0 i1 : ℕ) : List Bool := ((d.getD r []).take i1).drop i0

/-- The loop body that eliminates duplicate chunks, `/repo/pyzx/linalg.py` lines 185-193 and 229-237. The dictionary `chunks` is an
association list. -/
def dedupeStep (i0 i1 : ℕ) (sc : St X Y × List (List Bool × ℕ)) (r : ℕ) : St X Y × List (List Bool × ℕ) :=
  let t := chunk sc.1.m r i0 i1
  if ¬ t.any id then sc
  else match sc.2.lookup t with
    | some a => (sc.1.op ra ca a r, sc.2)
    | none => (sc.1, (t, r) :: sc.2)

/-- The loop that eliminates duplicate chunks in the rows `rs`, `/repo/pyzx/linalg.py` lines 183-193 and 227-237. -/
def dedupe (i0 i1 : ℕ) (rs : List ℕ) (s : St X Y) : St X Y := (rs.foldl (dedupeStep ra ca i0 i1) (s, [])).1

/-- `for r in rs: if self.data[r][p] != 0: row_add(a, r)`, `/repo/pyzx/linalg.py` lines 204-209 and 241-245. The condition
`pivot_row != r1` of line 206 always holds in the range and is kept as in the code. -/
def clearRows (a p : ℕ) (rs : List ℕ) (s : St X Y) : St X Y :=
  rs.foldl (fun s r => if a ≠ r ∧ get s.m r p then s.op ra ca a r else s) s

/-- One column of the forward pass, `/repo/pyzx/linalg.py` lines 197-213; the state carries `pivot_row` and the columns appended to
`pivot_cols`. -/
def colStep (rows : ℕ) (t : St X Y × ℕ × List ℕ) (p : ℕ) : St X Y × ℕ × List ℕ :=
  let (s, row, piv) := t
  match (List.range' row (rows - row)).find? (fun r0 => get s.m r0 p) with
  | none => (s, row, piv)
  | some r0 =>
    let s1 := if r0 ≠ row then s.op ra ca r0 row else s
    (clearRows ra ca row p (List.range' (row + 1) (rows - (row + 1))) s1, row + 1, piv ++ [p])

/-- One section of the forward pass, `/repo/pyzx/linalg.py` lines 179-214. -/
def fwdSec (rows ncols b : ℕ) (t : St X Y × ℕ × List ℕ) (sec : ℕ) : St X Y × ℕ × List ℕ :=
  let i0 := sec * b
  let i1 := min ncols ((sec + 1) * b)
  let s1 := dedupe ra ca i0 i1 (List.range' t.2.1 (rows - t.2.1)) t.1
  (List.range' i0 (i1 - i0)).foldl (colStep ra ca rows) (s1, t.2.1, t.2.2)

/-- `math.ceil(cols / blocksize)`, `/repo/pyzx/linalg.py` lines 178 and 222 (exact division instead of floats). -/
def nsec (ncols b : ℕ) : ℕ := (ncols + b - 1) / b

/-- The forward pass, `/repo/pyzx/linalg.py` lines 174-214. -/
def forward (b : ℕ) (s : St X Y) : St X Y × ℕ × List ℕ :=
  (List.range (nsec (cols s.m) b)).foldl (fwdSec ra ca s.m.length (cols s.m) b) (s, 0, [])

/-- The `while` loop of the backward pass, `/repo/pyzx/linalg.py` lines 239-246. The list is `pivot_cols1` with its end first;
`q` is `pivot_row`, which can become negative. -/
def popLoop (i0 i1 : ℕ) : List ℕ → ℤ → St X Y → List ℕ × ℤ × St X Y
  | [], q, s => ([], q, s)
  | pc :: stk, q, s =>
    if i0 ≤ pc ∧ pc < i1 then
      popLoop i0 i1 stk (q - 1) (clearRows ra ca q.toNat pc (List.range q.toNat) s)
    else (pc :: stk, q, s)

/-- One section of the backward pass, `/repo/pyzx/linalg.py` lines 223-246. -/
def bwdSec (ncols b : ℕ) (t : List ℕ × ℤ × St X Y) (sec : ℕ) : List ℕ × ℤ × St X Y :=
  let i0 := sec * b
  let i1 := min ncols ((sec + 1) * b)
  popLoop ra ca i0 i1 t.1 t.2.1 (dedupe ra ca i0 i1 (List.range (t.2.1 + 1).toNat).reverse t.2.2)

/-- The backward pass, `/repo/pyzx/linalg.py` lines 219-246. `piv` is the whole list `pivot_cols`. -/
def backward (b ncols rank : ℕ) (piv : List ℕ) (s : St X Y) : St X Y :=
  ((List.range (nsec ncols b)).reverse.foldl (bwdSec ra ca ncols b) (piv.reverse, (rank : ℤ) - 1, s)).2.2

/-- `Mat2.gauss`, `/repo/pyzx/linalg.py` lines 146-248. `stale` is the content of the list `pivot_cols` at the time of the call; when
the argument is not given this is the default list, which is shared by all calls. Returns the state, the rank and the list
`pivot_cols` after the call. A block size of 0 raises in the code. -/
def gauss (full : Bool) (b : ℕ) (stale : List ℕ) (s : St X Y) : St X Y × ℕ × List ℕ :=
  let t := forward ra ca b s
  let piv := stale ++ t.2.2
  (if full then backward ra ca b (cols s.m) t.2.1 piv t.1 else t.1, t.2.1, piv)

end

/-- An object without effect, for an argument `x` or `y` that is `None`. -/
def noOp (_ _ : ℕ) (u : Unit) : Unit := u

/-- `Mat2.rank`, `/repo/pyzx/linalg.py` lines 250-253; `stale` is the content of the shared default list. -/
def rank (stale : List ℕ) (d : Data) : ℕ := (gauss noOp noOp false 6 stale ⟨d, (), ()⟩).2.1

/-- `Mat2.factor`, `/repo/pyzx/linalg.py` lines 255-273. -/
def factor (stale : List ℕ) (d : Data) : Data × Data :=
  let r := gauss noOp colAdd false 6 stale ⟨d, (), ident d.length⟩
  (r.1.y.map fun row => (List.range r.2.1).map fun i => row.getD i false, (List.range r.2.1).map fun i => r.1.m.getD i [])

/-- `Mat2.inverse`, `/repo/pyzx/linalg.py` lines 275-282. -/
def inverse (stale : List ℕ) (d : Data) : Option Data :=
  if d.length ≠ cols d then none
  else
    let r := gauss rowAdd noOp true 6 stale ⟨d, ident d.length, ()⟩
    if r.2.1 < d.length then none else some r.1.x

/-- The loop of `solve`, `/repo/pyzx/linalg.py` lines 293-302: for each row the first non-zero column gets the right-hand side. -/
def solveLoop (b1 : Data) : ℕ → Data → Data → Option Data
  | _, [], x => some x
  | i, row :: rest, x =>
    match row.findIdx? id with
    | some j => solveLoop b1 (i + 1) rest (x.set j [get b1 i 0])
    | none => if get b1 i 0 then none else solveLoop b1 (i + 1) rest x

/-- `Mat2.solve`, `/repo/pyzx/linalg.py` lines 284-303. -/
def solve (stale : List ℕ) (d b : Data) : Option Data :=
  let r := gauss rowAdd noOp true 6 stale ⟨d, b, ()⟩
  solveLoop r.1.x 0 r.1.m (zeros (cols d) 1)

/-- The loop of `nullspace` that finds the pivots, `/repo/pyzx/linalg.py` lines 331-336: returns `nonpivots` and `pivots`. -/
def findPivots : Data → List ℕ → List ℕ → List ℕ × List ℕ
  | [], np, p => (np, p)
  | row :: rest, np, p =>
    match row.findIdx? id with
    | some j => findPivots rest (np.erase j) (p ++ [j])
    | none => findPivots rest np p

/-- The vector for one non-pivot column, `/repo/pyzx/linalg.py` lines 339-342. -/
def nullVec (m : Data) (ncols : ℕ) (pivots : List ℕ) (n : ℕ) : List Bool :=
  (m.zip pivots).foldl (fun v rp => if rp.1.getD n false then v.set rp.2 true else v) ((List.replicate ncols false).set n true)

/-- `Mat2.nullspace`, `/repo/pyzx/linalg.py` lines 316-344, without the optional C extension `gauss_fast`. -/
def nullspace (stale : List ℕ) (d : Data) : List (List Bool) :=
  let m := (gauss noOp noOp true 6 stale ⟨d, (), ()⟩).1.m
  let q := findPivots m (List.range (cols d)) []
  q.1.map (nullVec m (cols d) q.2)

/-- `CNOTMaker.row_add`, `/repo/pyzx/linalg.py` lines 370-374. A CNOT is the pair of its control and its target. -/
def cnotMaker (r1 r2 : ℕ) (l : List (ℕ × ℕ)) : List (ℕ × ℕ) := l ++ [(r2, r1)]

/-- The loop over block sizes of `to_cnots(optimize=True)`, `/repo/pyzx/linalg.py` lines 356-365. All calls share the default list;
`stale` gives its content at each call. -/
def bestCnots (stale : ℕ → List ℕ) (d : Data) : List ℕ → ℕ → Option (List (ℕ × ℕ)) → Option (List (ℕ × ℕ))
  | [], _, bc => bc
  | size :: rest, best, bc =>
    let cn := (gauss cnotMaker noOp true size (stale size) ⟨d, [], ()⟩).1.x
    if cn.length < best then bestCnots stale d rest cn.length (some cn) else bestCnots stale d rest best bc

/-- `Mat2.to_cnots`, `/repo/pyzx/linalg.py` lines 346-367. `none` is an exception: a block size 0, the logarithm of 0 or the failing
assertion. -/
def toCnots (stale : ℕ → List ℕ) (optimize useLog : Bool) (d : Data) : Option (List (ℕ × ℕ)) :=
  if optimize then bestCnots stale d (List.range' 1 (d.length - 1)) 1000000 none
  else
    let b := if useLog then Nat.log 2 d.length else 5
    if b = 0 then none else some (gauss cnotMaker noOp true b (stale b) ⟨d, [], ()⟩).1.x

end Mat2
end PyZX
