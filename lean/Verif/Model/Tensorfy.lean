import Verif.Model.Graph
import Verif.Spec.Tensor

/-!
# Model of `/repo/pyzx/tensor.py`: from a diagram to a multidimensional array

A numpy array all of whose axes have size 2 is its number of axes and its entry at an index (`idx j` is the index along axis `j`).
`none` stands for an exception. Numbers are exact complex numbers instead of floats.
-/

namespace PyZX

/-- A numpy array with `rank` axes of size 2 (`np.ndarray`, used in `/repo/pyzx/tensor.py`). Simplification: an axis of size 1 (which
only `X_to_tensor` with arity 0 makes) is an axis on whose index the entry does not depend; such an axis is never contracted. -/
structure NT where
  rank : ℕ
  val : (ℕ → Bool) → ℂ

namespace NT

/-- `np.identity(2)`, `/repo/pyzx/tensor.py` line 123. -/
noncomputable def id2 : NT := ⟨2, fun idx => if idx 0 = idx 1 then 1 else 0⟩

/-- `had`, `/repo/pyzx/tensor.py` line 122. -/
noncomputable def had : NT := ⟨2, fun idx => sq2⁻¹ * (if idx 0 && idx 1 then -1 else 1)⟩

/-- `Z_box_to_tensor`, `/repo/pyzx/tensor.py` lines 48-55. -/
noncomputable def zBox (arity : ℕ) (c : ℂ) : NT :=
  ⟨arity, fun idx =>
    if arity = 0 then 1 + c
    else if ∀ j < arity, idx j = true then c
    else if ∀ j < arity, idx j = false then 1
    else 0⟩

/-- `X_to_tensor`, `/repo/pyzx/tensor.py` lines 60-70; `c` is `np.exp(1j*phase)`. With arity 0 the array is `np.ones(1)`, which has
one axis (of size 1), and is returned before the `reshape`. -/
noncomputable def xSpider (arity : ℕ) (c : ℂ) : NT :=
  if arity = 0 then ⟨1, fun _ => 1 + c⟩
  else ⟨arity, fun idx =>
    (sq2⁻¹) ^ arity * (if ((List.range arity).filter fun j => idx j).length % 2 = 0 then 1 + c else 1 - c)⟩

/-- The position of axis `j` among the axes not in `la`. -/
def pos (la : List ℕ) (j : ℕ) : ℕ := ((List.range j).filter fun i => i ∉ la).length

/-- `np.tensordot(A, B, axes=(la, lb))` (called in `/repo/pyzx/tensor.py` lines 126, 169, 171): axis `la[i]` of `A` is summed against
axis `lb[i]` of `B`; the axes of the result are the remaining axes of `A` and then those of `B`. -/
noncomputable def dot (A B : NT) (la lb : List ℕ) : Option NT :=
  if la.length = lb.length ∧ la.Nodup ∧ lb.Nodup ∧ (∀ a ∈ la, a < A.rank) ∧ ∀ b ∈ lb, b < B.rank then
    some ⟨(A.rank - la.length) + (B.rank - lb.length), fun idx =>
      psum (Finset.range la.length) (fun c =>
        A.val (fun j => if j ∈ la then c (la.idxOf j) else idx (pos la j)) *
          B.val (fun j => if j ∈ lb then c (lb.idxOf j) else idx (A.rank - la.length + pos lb j))) (fun _ => false)⟩
  else none

/-- `np.transpose(A, perm)` (called in `/repo/pyzx/tensor.py` line 183): axis `i` of the result is axis `perm[i]` of `A`; raises unless
`perm` is a permutation of the axes. -/
def transpose (A : NT) (perm : List ℕ) : Option NT :=
  if perm.length = A.rank ∧ perm.Nodup ∧ ∀ a ∈ perm, a < A.rank then
    some ⟨A.rank, fun idx => A.val fun a => idx (perm.idxOf a)⟩
  else none

end NT

namespace Tensorfy

/-- The dictionary `indices`: the open axes of every vertex that has been processed. -/
abbrev Ind := ℕ → Option (List ℕ)

/-- First loop of `pop_and_shift`, `/repo/pyzx/tensor.py` lines 88-90. -/
def popAll : List ℕ → Ind → Option (List ℕ × Ind)
  | [], ind => some ([], ind)
  | v :: vs, ind => do
    let l ← ind v
    let a ← l.getLast?
    let (res, ind') ← popAll vs (Function.update ind v (some l.dropLast))
    some (a :: res, ind')

/-- Body of the second loop of `pop_and_shift`, `/repo/pyzx/tensor.py` lines 92-97. -/
def shift (i : ℕ) (l : List ℕ) : List ℕ := l.map fun j => if j > i then j - 1 else j

/-- `pop_and_shift`, `/repo/pyzx/tensor.py` lines 87-98. -/
def popAndShift (vs : List ℕ) (ind : Ind) : Option (List ℕ × Ind) := do
  let (res, ind') ← popAll vs ind
  some (res, (res.mergeSort fun a b => decide (b ≤ a)).foldl (fun ind i w => (ind w).map (shift i)) ind')

/-- The tensor of a vertex that is neither input nor output, `/repo/pyzx/tensor.py` lines 145-163. Simplification: H-boxes and W
nodes are not modelled. -/
noncomputable def vertexTensor (g : Graph) (v d : ℕ) : Option NT :=
  match g.ty v with
  | .Z => some (NT.zBox d (ph (g.phase v)))
  | .X => some (NT.xSpider d (ph (g.phase v)))
  | .zbox => if g.phase v ≠ 0 then none else some (NT.zBox d (g.label v))
  | _ => none

/-- The order in which vertices are processed: `rows[n] < r or (rows[n] == r and n < v)`, `/repo/pyzx/tensor.py` line 164. -/
def before (rows : ℕ → ℚ) (n v : ℕ) : Bool := decide (rows n < rows v ∨ rows n = rows v ∧ n < v)

/-- One iteration of the main loop, `/repo/pyzx/tensor.py` lines 133-172. `ord v` is `list(g.neighbors(v))`. The stable sort of `nn` by
edge type puts the simple edges first. -/
noncomputable def step (g : Graph) (ord : ℕ → List ℕ) (rows : ℕ → ℚ) (s : NT × Ind) (v : ℕ) : Option (NT × Ind) :=
  let neigh := ord v
  if v ∈ g.inputs then
    if g.ty v ≠ .boundary then none else some s
  else do
    let (d, t) ← (if v ∈ g.outputs then
        if neigh.length ≠ 1 then none
        else if g.ty v ≠ .boundary then none
        else some (neigh.length + 1, NT.id2)
      else (vertexTensor g v neigh.length).map fun t => (neigh.length, t))
    let nn0 := neigh.filter fun n => before rows n v
    let nn := (nn0.filter fun n => g.adj v n ≠ some .had) ++ nn0.filter fun n => g.adj v n = some .had
    let t' ← (nn.filter fun n => g.adj v n = some .had).foldlM (fun t _ => t.dot NT.had [0] [0]) t
    let (contr, ind') ← popAndShift nn s.2
    let T' ← s.1.dot t' contr ((List.range contr.length).map fun i => t'.rank - contr.length + i)
    some (T', Function.update ind' v
      (some ((List.range (T'.rank - (T'.rank + contr.length - d))).map fun i => T'.rank + contr.length - d + i)))

/-- The tensor before the main loop, `/repo/pyzx/tensor.py` lines 124-126 (`axes=0` is the outer product). -/
noncomputable def startTensor : ℕ → Option NT
  | 0 => some ⟨0, fun _ => 1⟩
  | n + 1 => do (← startTensor n).dot NT.id2 [] []

/-- `indices` before the main loop, `/repo/pyzx/tensor.py` lines 128-130. -/
def startInd (g : Graph) : Ind := fun v => if v ∈ g.inputs then some [1 + 2 * g.inputs.idxOf v] else none

/-- `tensorfy(g)` with `preserve_scalar=True`, `/repo/pyzx/tensor.py` lines 100-185. `vs` are the vertices sorted by row and then by
index (lines 110-114, 132-133). Simplification: hybrid graphs and symbolic phases are not modelled. -/
noncomputable def tensorfy (g : Graph) (ord : ℕ → List ℕ) (rows : ℕ → ℚ) (vs : List ℕ) : Option NT := do
  if g.inputs = [] ∧ g.outputs = [] ∧ ∃ v ∈ vs, g.ty v = .boundary then none
  else
    let T0 ← startTensor g.inputs.length
    let (T, ind) ← vs.foldlM (step g ord rows) (T0, startInd g)
    let perm0 ← g.outputs.mapM fun o => do (← ind o).head?
    let R ← T.transpose (perm0 ++ List.range g.inputs.length)
    some ⟨R.rank, fun idx => R.val idx * g.scalar.toNumber⟩

end Tensorfy
end PyZX
