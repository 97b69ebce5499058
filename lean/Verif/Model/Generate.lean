import Verif.Model.ToGraph

/-!
# Model of the generators of random circuits

Source: `/repo/pyzx/generate.py`. Every call of the random number generator takes its value from a parameter, so that the theorems
quantify over all outcomes. `random.random()` is a rational number of `[0, 1)` (not a float), and `random.randrange(k)` is
`d % k` for an arbitrary natural number `d`. Qubit and row coordinates are not modelled. The counter `v` of the code is the name of the next
vertex of the graph, `vindex`.
-/

namespace PyZX
namespace Generate

open ToGraph

/-- `random.randrange(k)`; the empty range raises `ValueError`. -/
def randrange (k d : ℕ) : Option ℕ := if k = 0 then none else some (d % k)

/-- The probabilities `p_t, p_s, p_hsh, p_cnot, p_meas` in use. -/
structure Probs where
  t : ℚ
  s : ℚ
  hsh : ℚ
  cnot : ℚ
  meas : ℚ

/-- The number of probabilities that are not given, `/repo/pyzx/generate.py` lines 283-294. -/
def free (ps : List (Option ℚ)) : ℚ := (ps.map fun p => if p.isNone then (1 : ℚ) else 0).sum

/-- What the given probabilities leave, `/repo/pyzx/generate.py` lines 284-294. -/
def rest (ps : List (Option ℚ)) : ℚ := ps.foldl (fun r p => match p with | none => r | some x => r - x) 1

/-- The probabilities of the gates, `/repo/pyzx/generate.py` lines 283-302; `none` is the `ValueError` of line 296. -/
def probs (t s hsh cnot meas : Option ℚ) : Option Probs :=
  let ps := [t, s, hsh, cnot, meas]
  if rest ps < 0 then none
  else
    let d := rest ps / free ps
    some ⟨t.getD d, s.getD d, hsh.getD d, cnot.getD d, meas.getD d⟩

/-- The branches of the main loop of `cliffordTmeas`. -/
inductive Kind
  | cnot
  | hsh
  | s
  | meas
  | t
  deriving DecidableEq, Repr

/-- Which branch is taken, `/repo/pyzx/generate.py` lines 334-357. -/
def kind (P : Probs) (p : ℚ) : Kind :=
  if p > 1 - P.cnot then .cnot
  else if p > 1 - P.cnot - P.hsh then .hsh
  else if p > 1 - P.cnot - P.hsh - P.s then .s
  else if p > 1 - P.cnot - P.hsh - P.s - P.meas then .meas
  else .t

/-- The random numbers of one iteration: `random.random()` and the draws of the two `randrange`. -/
structure Draw where
  p : ℚ
  q0 : ℕ
  q1 : ℕ

/-- One iteration of the main loop of `cliffordTmeas`, `/repo/pyzx/generate.py` lines 324-357. Lines 328-331 are `addNode` with phase
0. `set_ground` is not modelled: the branch of line 352 has no result. -/
noncomputable def iter (P : Probs) (n : ℕ) (s : St) (d : Draw) : Option St := do
  let q0 ← randrange n d.q0
  let v := s.1.vindex
  let s1 ← addNode s .Z q0 0 .simple
  match kind P d.p with
  | .cnot => do
      let r ← randrange (n - 1) d.q1
      let q1 := if r ≥ q0 then r + 1 else r
      let w := s1.1.vindex
      let s2 ← addNode s1 .X q1 0 .simple
      let g ← s2.1.addEdge v w .simple
      return (g.addPower 1, s2.2)
  | .hsh => return ((s1.1.setType v .X).setPhase v (1/2), s1.2)
  | .s => return (s1.1.setPhase v (1/2), s1.2)
  | .meas => none
  | .t => return (s1.1.setPhase v (1/4), s1.2)

/-- The first and the last row of Z-spiders, `/repo/pyzx/generate.py` lines 317-321 and 359-363. -/
noncomputable def row (n : ℕ) (s : St) : Option St := (List.range n).foldlM (fun s i => addNode s .Z i 0 .simple) s

/-- `cliffordT`, `/repo/pyzx/generate.py` lines 377-400, and `cliffordTmeas`, lines 253-375, with `p_meas = 0`. There is one
element of `ds` for every iteration: `ds.length` is the `depth`. -/
noncomputable def cliffordT (n : ℕ) (t s hsh cnot : Option ℚ) (ds : List Draw) : Option Graph := do
  let P ← probs t s hsh cnot (some 0)
  let (g, m, ins) := addInputs n Graph.empty []
  let s ← row n (g, m)
  let s ← ds.foldlM (iter P n) s
  let s ← row n s
  let (g, outs) ← addOutputs s.2 (List.range n) (s.1, [])
  return { g with inputs := ins, outputs := outs }

/-! ### `CNOT_HAD_PHASE_circuit` -/

/-- The random numbers of one iteration: `random.random()`, the draw of the qubit, and the draws of the `while` loop. -/
structure HDraw where
  p : ℚ
  q : ℕ
  loop : ℕ → ℕ

/-- The loop `while True` that draws a control, `/repo/pyzx/generate.py` lines 157-159, for at most `k` rounds; `none` is a loop that has
not ended. -/
def drawCtrl (n tgt : ℕ) (loop : ℕ → ℕ) : ℕ → ℕ → Option ℕ
  | _, 0 => none
  | i, k + 1 =>
      let ctrl := loop i % n
      if ctrl ≠ tgt then some ctrl else drawCtrl n tgt loop (i + 1) k

/-- One iteration of `CNOT_HAD_PHASE_circuit`, `/repo/pyzx/generate.py` lines 149-160. `k` bounds the rounds of the loop; the order of
the arguments is that of `add_gate("CNOT", tgt, ctrl)`: the first is the control of the gate. -/
def hadGate (n : ℕ) (had t : ℚ) (clifford : Bool) (k : ℕ) (d : HDraw) : Option Gate := do
  let q ← randrange n d.q
  if d.p > 1 - had then return .had q
  else if d.p > 1 - had - t then
    return if clifford then .mkS q else .mkT q
  else
    let ctrl ← drawCtrl n q d.loop 0 k
    return .cnot q ctrl

/-- `CNOT_HAD_PHASE_circuit`, `/repo/pyzx/generate.py` lines 124-161. -/
def hadCircuit (n : ℕ) (had t : ℚ) (clifford : Bool) (k : ℕ) (ds : List HDraw) : Option Circuit := do
  let gs ← ds.mapM (hadGate n had t clifford k)
  return { qubits := n, bits := 0, gates := gs }

/-! ### `cnots` -/

/-- The lists of `cnots` before the graph is made: the last vertex of every qubit (`q`), the types of the vertices (`ty`, whose
length is `v`) and the edges (`es`). -/
structure Plan where
  q : ℕ → ℕ
  ty : List VType
  es : List (ℕ × ℕ)

namespace Plan

/-- The start, `/repo/pyzx/generate.py` lines 177-183. -/
def init (n : ℕ) : Plan := ⟨id, List.replicate n .boundary, []⟩

/-- One new vertex on a qubit: `/repo/pyzx/generate.py` lines 187-192 and 211-216. -/
def node (P : Plan) (t : VType) (i : ℕ) : Plan :=
  ⟨Function.update P.q i P.ty.length, P.ty ++ [t], P.es ++ [(P.q i, P.ty.length)]⟩

/-- The first and the last row, `/repo/pyzx/generate.py` lines 186-192 and 210-216. -/
def row (n : ℕ) (P : Plan) : Plan := (List.range n).foldl (fun P i => P.node .Z i) P

/-- One CNOT, `/repo/pyzx/generate.py` lines 197-206; `randint(0, k)` is `randrange(k + 1)`. -/
def cnot (n : ℕ) (P : Plan) (d : ℕ × ℕ) : Option Plan := do
  let c ← randrange n d.1
  let t ← randrange (n - 1) d.2
  let t := if t ≥ c then t + 1 else t
  let v := P.ty.length
  return ⟨Function.update (Function.update P.q c v) t (v + 1), P.ty ++ [.Z, .X], P.es ++ [(P.q c, v), (P.q t, v + 1), (v, v + 1)]⟩

/-- The outputs, `/repo/pyzx/generate.py` lines 222-224. -/
def outs (n : ℕ) (P : Plan) : Plan :=
  { P with ty := P.ty ++ List.replicate n .boundary, es := P.es ++ (List.range n).map fun i => (P.q i, P.ty.length + i) }

end Plan

/-- `cnots`, `/repo/pyzx/generate.py` lines 164-243. -/
noncomputable def cnots (n : ℕ) (ds : List (ℕ × ℕ)) : Option Graph := do
  let P ← ds.foldlM (Plan.cnot n) ((Plan.init n).row n)
  let P := (P.row n).outs n
  let v := P.ty.length
  let g ← (P.ty.foldl (fun g t => g.addVertex t 0) Graph.empty).addEdges P.es .simple
  return ({ g with
    inputs := List.range n
    outputs := (List.range n).map fun i => v - i - 1 } : Graph).addPower ds.length

end Generate
end PyZX
