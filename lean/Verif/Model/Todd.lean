import Verif.Model.Linalg
import Verif.Model.Circuit

/-!
# Model of `pyzx/parity_network.py` and `pyzx/todd.py`

A parity is the list of its bits. `random.shuffle` is a parameter. `settings.topt_command` is `None`. The content of the shared default
list of `gauss` is taken to be empty; the results do not depend on it (C04). The exceptions are `none`.
-/

namespace PyZX
namespace Todd

open Mat2

abbrev Row := List Bool

/-! ### `parity_network.py` -/

/-- An element `(S, I, i)` of the stack, `/repo/pyzx/parity_network.py` lines 26-29; `none` is `-1`. -/
abbrev Item := List Row × List ℕ × Option ℕ

/-- `y[j] = (y[i]+y[j])%2`, `/repo/pyzx/parity_network.py` line 39. -/
def addTo (i j : ℕ) (y : Row) : Row := y.set j (xor (y.getD i false) (y.getD j false))

/-- The inner `while` loop, `/repo/pyzx/parity_network.py` lines 32-42. A CNOT is the pair of its control and its target. `fuel` limits the
number of iterations. -/
def absorb (n i : ℕ) : ℕ → List Row × List Item × List (ℕ × ℕ) → List Row × List Item × List (ℕ × ℕ)
  | 0, s => s
  | fuel + 1, s =>
    match (List.range n).find? fun j => decide (j ≠ i) && s.1.all fun y => y.getD j false with
    | none => s
    | some j => absorb n i fuel (s.1.map (addTo i j), s.2.1.map fun it => (it.1.map (addTo i j), it.2), s.2.2 ++ [(j, i)])

/-- The key in `/repo/pyzx/parity_network.py` line 43. -/
def score (S : List Row) (j : ℕ) : ℕ := max (S.countP fun y => !y.getD j false) (S.countP fun y => y.getD j false)

/-- `max(I, key=...)`, `/repo/pyzx/parity_network.py` line 43: the first element with the largest key. -/
def pick (S : List Row) : List ℕ → ℕ
  | [] => 0
  | j :: I => I.foldl (fun b k => if score S b < score S k then k else b) j

/-- The outer `while` loop, `/repo/pyzx/parity_network.py` lines 28-51. The top of the stack is the head of the list. -/
def network (n : ℕ) : ℕ → List Item → List (ℕ × ℕ) → Option (List (ℕ × ℕ))
  | 0, _, _ => none
  | _ + 1, [], c => some c
  | fuel + 1, (S, I, i) :: Q, c =>
    if S = [] ∨ I = [] then network n fuel Q c
    else
      let s := match i with
        | none => (S, Q, c)
        | some i => absorb n i n (S, Q, c)
      let j := pick s.1 I
      let S0 := s.1.filter fun y => !y.getD j false
      let S1 := s.1.filter fun y => y.getD j false
      let I' := I.filter fun k => decide (k ≠ j)
      let it := match i with
        | none => (S1, I', some j)
        | some i => (S1, I.filter fun k => decide (k ≠ i), some i)
      network n fuel ((S0, I', i) :: it :: s.2.1) s.2.2

/-- `parity_network`, `/repo/pyzx/parity_network.py` lines 22-52. The number of iterations is enough. -/
def parityNetwork (n : ℕ) (S : List Row) : Option (List (ℕ × ℕ)) := network n (3 ^ (S.length + n) + 1) [(S, List.range n, none)] []

/-! ### Phase polynomials -/

/-- `ParityPolynomial.add_term`, `/repo/pyzx/todd.py` lines 69-75. The dictionary is an association list; the tuple of the qubits of a
parity is replaced by the list of its bits. -/
def addTerm (terms : List (Row × ℕ)) (t : Row) (v : ℤ) : List (Row × ℕ) :=
  match terms.lookup t with
  | some w =>
    let u := ((w : ℤ) + v) % 8
    if u = 0 then terms.filter fun e => decide (e.1 ≠ t) else terms.map fun e => if e.1 = t then (t, u.toNat) else e
  | none => if v % 8 = 0 then terms else terms ++ [(t, (v % 8).toNat)]

/-- `ParityPolynomial.to_par_matrix`, `/repo/pyzx/todd.py` lines 86-92. -/
def toParMatrix (terms : List (Row × ℕ)) : Data := transpose (terms.flatMap fun e => List.replicate e.2 e.1)

/-- `int(float(g_phase*4))`, `/repo/pyzx/todd.py` line 191; the rounding of floats is not modelled. -/
def quarter (p : ℚ) : ℤ := (p * 4).num.tdiv (p * 4).den

/-- The variables `phase_poly` and `expression_polys` of `phase_gates_to_poly`, `/repo/pyzx/todd.py` lines 180-183. -/
structure Polys where
  terms : List (Row × ℕ)
  exprs : List Row

/-- The case `CZ` of the loop, `/repo/pyzx/todd.py` lines 192-198; the classes `XCX` and `SWAP` are subclasses of `CZ`. -/
def czToPoly (s : Polys) (c t : ℕ) : Option Polys := do
  let p1 ← s.exprs[t]?
  let p2 ← s.exprs[c]?
  return { s with terms := addTerm (addTerm (addTerm s.terms p1 2) p2 2) (List.zipWith xor p1 p2) 6 }

/-- The loop body of `phase_gates_to_poly`, `/repo/pyzx/todd.py` lines 185-203. -/
def gateToPoly (s : Polys) : Gate → Option Polys
  | .zrot _ t p _ => do
    let par ← s.exprs[t]?
    return { s with terms := addTerm s.terms par (quarter p) }
  | .cz c t => czToPoly s c t
  | .xcx c t => czToPoly s c t
  | .swap c t => czToPoly s c t
  | .cnot c t => do
    let p1 ← s.exprs[t]?
    let p2 ← s.exprs[c]?
    return { s with exprs := s.exprs.set t (List.zipWith xor p1 p2) }
  | _ => none

/-- `phase_gates_to_poly`, `/repo/pyzx/todd.py` lines 177-205. -/
def phaseGatesToPoly (n : ℕ) (gates : List Gate) : Option Polys := gates.foldlM gateToPoly ⟨[], ident n⟩

/-! ### The TODD algorithm -/

/-- Product of rows, `ra*rb` in `/repo/pyzx/todd.py` lines 218-238. -/
def rmul (a b : Row) : Row := List.zipWith and a b

/-- Sum of rows modulo 2, `/repo/pyzx/todd.py` lines 227-243. -/
def radd (a b : Row) : Row := List.zipWith xor a b

/-- The row for three indices, `/repo/pyzx/todd.py` lines 221-246. -/
def xiRow (za zb zg : Bool) (ra rb rg : Row) : Option Row :=
  if za then
    if !zb then
      if !zg then some (rmul rb rg) else some (radd (rmul rb rg) (rmul ra rb))
    else if !zg then some (radd (rmul rb rg) (rmul ra rg))
    else some (radd (radd (rmul ra rb) (rmul ra rg)) (rmul rb rg))
  else if zb then
    if zg then some (radd (rmul ra rb) (rmul ra rg)) else some (rmul ra rg)
  else if zg then some (rmul ra rb)
  else none

/-- `range(a+1, n)`. -/
def after (a n : ℕ) : List ℕ := List.range' (a + 1) (n - (a + 1))

/-- `xi`, `/repo/pyzx/todd.py` lines 209-248. -/
def xi (m : Data) (z : Row) : Data :=
  ((List.range m.length).flatMap fun a => (after a m.length).flatMap fun b => (after b m.length).filterMap fun g =>
    xiRow (z.getD a false) (z.getD b false) (z.getD g false) (m.getD a []) (m.getD b []) (m.getD g [])) ++ m

/-- The vector `z`, `/repo/pyzx/todd.py` lines 257-265. -/
def zVec (m : Data) (a b : ℕ) : Row := m.map fun r => if r.getD a false then !r.getD b false else r.getD b false

/-- `find_todd_match`, `/repo/pyzx/todd.py` lines 251-273. -/
def findMatch (m : Data) : Option (ℕ × ℕ × Row × Row) :=
  (List.range (cols m)).findSome? fun a => (after a (cols m)).findSome? fun b =>
    ((nullspace [] (xi m (zVec m a b))).find? fun y => xor (y.getD a false) (y.getD b false)).map fun y => (a, b, zVec m a b, y)

/-- The first removal found by the loops of `remove_trivial_cols`, `/repo/pyzx/todd.py` lines 281-293. -/
def trivialStep (d : Data) : Option Data :=
  (List.range d.length).findSome? fun a =>
    if ¬ (d.getD a []).any id then some (d.eraseIdx a)
    else ((after a d.length).find? fun b => decide (d.getD a [] = d.getD b [])).map fun b => (d.eraseIdx b).eraseIdx a

/-- The outer loop of `remove_trivial_cols`, `/repo/pyzx/todd.py` lines 280-295. `fuel` limits the number of iterations. -/
def removeLoop : ℕ → Data → Data
  | 0, d => d
  | fuel + 1, d => match trivialStep d with
    | none => d
    | some d' => removeLoop fuel d'

/-- `remove_trivial_cols`, `/repo/pyzx/todd.py` lines 276-296. Every iteration removes a row, so their number is enough. The returned number
of rows is the length of the result. -/
def removeTrivial (d : Data) : Data := removeLoop d.length d

/-- `do_todd_single`, `/repo/pyzx/todd.py` lines 298-317. The second component is the number of columns removed. -/
def doTodd (m : Data) : Data × ℤ :=
  match findMatch m with
  | none => (m, 0)
  | some (a, b, z, y) =>
    let d := (transpose m).mapIdx fun i c => if y.getD i false then List.zipWith xor c z else c
    let d := if y.count true % 2 = 1 then d ++ [z] else d
    let d := removeTrivial ((d.eraseIdx b).eraseIdx a)
    (transpose d, (cols m : ℤ) - d.length)

/-- The loop of `todd_iter`, `/repo/pyzx/todd.py` lines 330-335. -/
def toddLoop : ℕ → Data → Option Data
  | 0, _ => none
  | fuel + 1, m => let r := doTodd m
    if r.2 = 0 then some r.1 else toddLoop fuel r.1

/-- `todd_iter`, `/repo/pyzx/todd.py` lines 319-335. Every iteration of the loop removes a column, so their number is enough. -/
def toddIter (shuffle : Data → Data) (m : Data) : Option Data :=
  let m := transpose (shuffle (removeTrivial (transpose m)))
  if cols m = 0 ∨ m.length = 0 then some m else toddLoop (cols m + 1) m

/-! ### Clifford corrections -/

/-- `MultiLinearPoly`, `/repo/pyzx/todd.py` lines 110-116. The dictionaries are association lists. -/
structure MLP where
  l : List (ℕ × ℤ) := []
  q : List ((ℕ × ℕ) × ℤ) := []
  c : List (ℕ × ℕ × ℕ) := []

/-- `if k not in d: d[k] = first else: d[k] = (d[k] + delta) % m`, `/repo/pyzx/todd.py` lines 125-126 and 130-131. -/
def bump {κ : Type} [DecidableEq κ] (d : List (κ × ℤ)) (k : κ) (first delta m : ℤ) : List (κ × ℤ) :=
  if k ∈ d.map Prod.fst then d.map fun e => if e.1 = k then (k, (e.2 + delta) % m) else e else d ++ [(k, first)]

/-- The sign `mult`, `/repo/pyzx/todd.py` line 120. -/
def mult (subtract : Bool) : ℤ := if subtract then -1 else 1

/-- The innermost loop of `add_parity`, `/repo/pyzx/todd.py` lines 133-136. -/
def addC (v1 v2 : ℕ) (p : List ℕ) (s : MLP) : MLP :=
  p.foldl (fun s v3 => { s with c := if (v1, v2, v3) ∈ s.c then s.c.erase (v1, v2, v3) else s.c ++ [(v1, v2, v3)] }) s

/-- The middle loop of `add_parity`, `/repo/pyzx/todd.py` lines 128-136. -/
def addQ (sub : Bool) (v1 : ℕ) : List ℕ → MLP → MLP
  | [], s => s
  | v2 :: p, s => addQ sub v1 p (addC v1 v2 p { s with q := bump s.q (v1, v2) (if sub then 1 else 3) (-mult sub) 4 })

/-- The outer loop of `add_parity`, `/repo/pyzx/todd.py` lines 123-136. -/
def addL (sub : Bool) : List ℕ → MLP → MLP
  | [], s => s
  | v1 :: p, s => addL sub p (addQ sub v1 p { s with l := bump s.l v1 (mult sub) (mult sub) 8 })

/-- The qubits of a parity, `/repo/pyzx/todd.py` lines 119 and 121-122. -/
def supp (par : Row) : List ℕ := (List.range par.length).filter fun i => par.getD i false

/-- `MultiLinearPoly.add_parity`, `/repo/pyzx/todd.py` lines 118-136. -/
def addParity (sub : Bool) (s : MLP) (par : Row) : MLP := addL sub (supp par) s

/-- `MultiLinearPoly.add_par_matrix`, `/repo/pyzx/todd.py` lines 138-140. -/
def addParMatrix (sub : Bool) (s : MLP) (m : Data) : MLP := (transpose m).foldl (addParity sub) s

/-- The gate for a term of degree one, `/repo/pyzx/todd.py` lines 146-154. -/
def cliffordL (e : ℕ × ℤ) : Option (List Gate) :=
  if e.2 = 2 then some [.mkS e.1 false] else if e.2 = 4 then some [.mkZ e.1] else if e.2 = 6 then some [.mkS e.1 true]
  else if e.2 = 0 then some [] else none

/-- The gate for a term of degree two, `/repo/pyzx/todd.py` lines 155-159. -/
def cliffordQ (e : (ℕ × ℕ) × ℤ) : Option (List Gate) :=
  if e.2 = 2 then some [.cz e.1.1 e.1.2] else if e.2 = 0 then some [] else none

/-- `MultiLinearPoly.to_clifford`, `/repo/pyzx/todd.py` lines 142-162. -/
def toClifford (s : MLP) : Option (List Gate) := do
  let a ← s.l.mapM cliffordL
  let b ← s.q.mapM cliffordQ
  if s.c ≠ [] then none else some (a.flatten ++ b.flatten)

/-! ### `todd_simp` -/

/-- The loop that puts T gates between the CNOTs, `/repo/pyzx/todd.py` lines 428-436: the gates and the parities that are left. -/
def placeT : List (ℕ × ℕ) → Data → List Row → List Gate × List Row
  | [], _, par => ([], par)
  | g :: cnots, m, par =>
    let m := rowAdd g.1 g.2 m
    match par.find? fun p => decide (p ∈ m) with
    | some p => let r := placeT cnots m (par.erase p)
      (.cnot g.1 g.2 :: .mkT (m.idxOf p) :: r.1, r.2)
    | none => let r := placeT cnots m par
      (.cnot g.1 g.2 :: r.1, r.2)

/-- `todd_simp`, `/repo/pyzx/todd.py` lines 386-441. The returned permutation is always the identity (lines 420-423); its list of swaps is
empty. -/
def toddSimp (shuffle : Data → Data) (n : ℕ) (gates : List Gate) : Option (List Gate) := do
  let s ← phaseGatesToPoly n gates
  let m := toParMatrix s.terms
  let m2 ← toddIter shuffle m
  let single := (transpose m2).filter fun c => decide (c.count true = 1)
  let parities := (transpose m2).filter fun c => decide (c.count true ≠ 1)
  let clif ← toClifford (addParMatrix true (addParMatrix false {} m) m2)
  let cnots ← parityNetwork n parities
  let inv ← inverse [] (cnots.foldl (fun m g => rowAdd g.1 g.2 m) (ident n))
  let target ← mul s.exprs inv
  let rest ← toCnots (fun _ => []) true false target
  let r := placeT (cnots ++ rest.reverse.map Prod.swap) (ident n) parities
  if r.2 ≠ [] then none else some (single.map (fun c => .mkT (c.findIdx id)) ++ clif ++ r.1)

end Todd
end PyZX
