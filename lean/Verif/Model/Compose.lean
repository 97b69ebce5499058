import Verif.Model.Graph

/-!
# Model of copying, adjoint, tensor product, composition and plugging of states of `pyzx/graph/base.py`

The order of the vertices (`vertices()`) is the parameter `vs`, that of the edges (`edges()`) the parameter `es`. Positions, grounds, phase
tracking and vertex data other than the label of Z-boxes are not modelled.
-/

namespace PyZX
namespace Graph

/-- One round of the loops that copy vertices, `/repo/pyzx/graph/base.py` lines 162-170, 299-306 and 331-334. The dictionary `vtab` is a partial
function. The data of a vertex (here the label) is copied unchanged. -/
noncomputable def copyVertex (o : Graph) (mult : ℚ) (s : Graph × (ℕ → Option ℕ)) (v : ℕ) : Graph × (ℕ → Option ℕ) :=
  ((s.1.addVertex (o.ty v) (mult * o.phase v)).setLabel s.1.vindex (o.label v), Function.update s.2 v (some s.1.vindex))

/-- The loops that copy vertices, `/repo/pyzx/graph/base.py` lines 162-170, 299-306 and 331-334. -/
noncomputable def copyVertices (g o : Graph) (mult : ℚ) (vs : List ℕ) : Graph × (ℕ → Option ℕ) :=
  vs.foldl (copyVertex o mult) (g, fun _ => none)

/-- One round of the loops that copy edges, `/repo/pyzx/graph/base.py` lines 183-185, 307-310 and 335-337. A name that is not in `vtab` raises. -/
noncomputable def copyEdge (o : Graph) (vtab : ℕ → Option ℕ) (g : Graph) (p : ℕ × ℕ) : Option Graph := do
  let a ← vtab p.1
  let b ← vtab p.2
  let e ← o.adj p.1 p.2
  g.addEdge a b e

/-- The loops that copy edges, `/repo/pyzx/graph/base.py` lines 183-185, 307-310 and 335-337. -/
noncomputable def copyEdges (g o : Graph) (vtab : ℕ → Option ℕ) (es : List (ℕ × ℕ)) : Option Graph := es.foldlM (copyEdge o vtab) g

/-- `copy`, `/repo/pyzx/graph/base.py` lines 127-187. -/
noncomputable def copy (g : Graph) (adj : Bool) (vs : List ℕ) (es : List (ℕ × ℕ)) : Option Graph := do
  let s := copyVertices { empty with scalar := g.scalar.copy adj } g (if adj then -1 else 1) vs
  let ins ← g.inputs.mapM s.2
  let outs ← g.outputs.mapM s.2
  copyEdges { s.1 with inputs := if adj then outs else ins, outputs := if adj then ins else outs } g s.2 es

/-- `clone` of the default backend, `/repo/pyzx/graph/graph_s.py` lines 47-68. The dictionaries are copied, so the modelled result shares nothing
with the original; positions and phase tracking are not modelled, grounds (which the code drops) neither. -/
noncomputable def clone (g : Graph) : Graph where
  verts := g.verts
  adj := g.adj
  vindex := g.vindex
  nedges := g.nedges
  ty := g.ty
  phase := g.phase
  label := g.label
  scalar := g.scalar.copy false
  inputs := g.inputs
  outputs := g.outputs

/-- `adjoint`, `/repo/pyzx/graph/base.py` lines 189-191. -/
noncomputable def adjoint (g : Graph) (vs : List ℕ) (es : List (ℕ × ℕ)) : Option Graph := g.copy true vs es

/-- `tensor`, `/repo/pyzx/graph/base.py` lines 319-352. `vs`, `es` are the orders of `g`, `vs'`, `es'` those of `o`. -/
noncomputable def tensor (g o : Graph) (vs : List ℕ) (es : List (ℕ × ℕ)) (vs' : List ℕ) (es' : List (ℕ × ℕ)) : Option Graph := do
  let g0 ← g.copy false vs es
  let s := copyVertices { g0 with scalar := g0.scalar.multWithScalar o.scalar } o 1 vs'
  let g1 ← copyEdges s.1 o s.2 es'
  let ins ← o.inputs.mapM s.2
  let outs ← o.outputs.mapM s.2
  return { g1 with inputs := g1.inputs ++ ins, outputs := g1.outputs ++ outs }

/-- One round of the loop that collects the plugs, `/repo/pyzx/graph/base.py` lines 276-288. The only neighbour is taken from the list of
neighbours, which has length 1. -/
def plug (g o : Graph) (ord ord' : ℕ → List ℕ) (q : ℕ × ℕ) : Option (ℕ × ℕ × EType) :=
  match ord q.1, ord' q.2 with
  | [no], [ni] => some (no, ni, if g.adj no q.1 ≠ o.adj q.2 ni then .had else .simple)
  | _, _ => none

/-- One round of the loop that connects the plugs, `/repo/pyzx/graph/base.py` lines 312-313. -/
noncomputable def plugEdge (vtab : ℕ → Option ℕ) (g : Graph) (p : ℕ × ℕ × EType) : Option Graph := do
  let w ← vtab p.2.1
  g.addEdge p.1 w p.2.2

/-- `compose`, `/repo/pyzx/graph/base.py` lines 265-315, after its first line, which copies `other`. `ord`, `ord'` are the orders of neighbours
of the two graphs, `vs`, `es` those of the vertices and edges of `o`. -/
noncomputable def composeInto (g o : Graph) (ord ord' : ℕ → List ℕ) (vs : List ℕ) (es : List (ℕ × ℕ)) : Option Graph :=
  if g.outputs.length ≠ o.inputs.length then none
  else do
    let plugs ← (g.outputs.zip o.inputs).mapM (plug g o ord ord')
    let g1 ← g.outputs.foldlM (fun g v => g.removeVertices [v]) { g with scalar := g.scalar.multWithScalar o.scalar }
    let s := copyVertices g1 o 1 (vs.filter (· ∉ o.inputs))
    let g2 ← copyEdges s.1 o s.2 (es.filter fun p => p.1 ∉ o.inputs ∧ p.2 ∉ o.inputs)
    let g3 ← plugs.foldlM (plugEdge s.2) g2
    let outs ← o.outputs.mapM s.2
    return { g3 with outputs := outs }

/-- `compose`, `/repo/pyzx/graph/base.py` lines 265-315. `vs`, `es` are the orders of `other`; the orders of its copy are given as functions of the
copy. -/
noncomputable def compose (g o : Graph) (ord : ℕ → List ℕ) (vs : List ℕ) (es : List (ℕ × ℕ)) (ord' : Graph → ℕ → List ℕ) (vs' : Graph → List ℕ)
    (es' : Graph → List (ℕ × ℕ)) : Option Graph := do
  let o' ← o.copy false vs es
  composeInto g o' ord (ord' o') (vs' o') (es' o')

/-- One round of the loops of `apply_state` and `apply_effect`, `/repo/pyzx/graph/base.py` lines 431-446 and 458-473. Any other character raises. -/
noncomputable def stateStep (s : Graph × List ℕ) (q : ℕ × Char) : Option (Graph × List ℕ) :=
  if q.2 = '/' then some (s.1, s.2 ++ [q.1])
  else if q.2 = '0' then some ((s.1.addPower (-1)).setType q.1 .X, s.2)
  else if q.2 = '1' then some (((s.1.addPower (-1)).setType q.1 .X).setPhase q.1 1, s.2)
  else if q.2 = '+' then some ((s.1.addPower (-1)).setType q.1 .Z, s.2)
  else if q.2 = '-' then some (((s.1.addPower (-1)).setType q.1 .Z).setPhase q.1 1, s.2)
  else none

/-- `apply_state`, `/repo/pyzx/graph/base.py` lines 422-447. -/
noncomputable def applyState (g : Graph) (st : List Char) : Option Graph :=
  if st.length > g.inputs.length then none
  else (( g.inputs.zip st).foldlM stateStep (g, [])).map fun s => { s.1 with inputs := s.2 }

/-- `apply_effect`, `/repo/pyzx/graph/base.py` lines 449-474. -/
noncomputable def applyEffect (g : Graph) (st : List Char) : Option Graph :=
  if st.length > g.outputs.length then none
  else ((g.outputs.zip st).foldlM stateStep (g, [])).map fun s => { s.1 with outputs := s.2 }

end Graph
end PyZX
