import Verif.Model.Rules

/-!
# Model of `pyzx/basicrules.py`

W-nodes are not modelled. The order in which the dictionary of neighbours of a vertex is iterated over is the parameter `ord`.
A function that returns a Boolean returns it together with the new graph.
-/

namespace PyZX

/-- `toggle_vertex`, `/repo/pyzx/utils.py` lines 44-48. -/
def VType.toggle (t : VType) : VType := if t = .Z then .X else if t = .X then .Z else t

namespace Basic

/-- `set_edge_type(e, toggle_edge(edge_type(e)))` for the edge of `v` and `w`, `/repo/pyzx/graph/graph_s.py` lines 281-284. -/
def toggleEdge (g : Graph) (v w : ℕ) : Graph := g.setAdj v w ((g.adj v w).map EType.toggle)

/-- The loops `for e in g.incident_edges(v): g.set_edge_type(e, toggle_edge(g.edge_type(e)))`. -/
def toggleEdges (g : Graph) (v : ℕ) (ns : List ℕ) : Graph := ns.foldl (fun g w => toggleEdge g v w) g

/-- `color_change`, `/repo/pyzx/basicrules.py` lines 71-79. -/
def colorChange (g : Graph) (ord : ℕ → List ℕ) (v : ℕ) : Graph × Bool :=
  if (g.ty v).isZX then (toggleEdges (g.setType v (g.ty v).toggle) v (ord v), true) else (g, false)

/-- Body of the loop of `color_change_diagram`, `/repo/pyzx/basicrules.py` lines 55-62. -/
def colorChangeStep (ord : ℕ → List ℕ) (g : Graph) (v : ℕ) : Option Graph :=
  if g.ty v = .boundary then
    if g.degree v ≠ 1 then none else some (toggleEdges g v (ord v))
  else if (g.ty v).isZX then some (colorChange g ord v).1
  else some g

/-- `color_change_diagram`, `/repo/pyzx/basicrules.py` lines 53-62; `vs` is the order of `g.vertices()`. -/
def colorChangeDiagram (g : Graph) (ord : ℕ → List ℕ) (vs : List ℕ) : Option Graph :=
  vs.foldlM (colorChangeStep ord) g

/-- `is_pauli`, `/repo/pyzx/utils.py` lines 235-244, for a number. -/
def isPauli (p : ℚ) : Bool := decide (p = 0) || decide (p = 1)

/-- `check_strong_comp`, `/repo/pyzx/basicrules.py` lines 81-89. -/
def checkStrongComp (g : Graph) (v1 v2 : ℕ) : Bool :=
  ((decide (g.ty v1 = .X) && decide (g.ty v2 = .Z)) || (decide (g.ty v1 = .Z) && decide (g.ty v2 = .X))) &&
    isPauli (g.phase v1) && isPauli (g.phase v2) && decide (g.adj v1 v2 = some .simple)

/-- Body of the inner loop of `strong_comp`, `/repo/pyzx/basicrules.py` lines 99-106. Positions are not modelled. -/
noncomputable def strongCompStep (vi vj : ℕ) (s : Graph × List ℕ) (vn : ℕ) : Option (Graph × List ℕ) :=
  if vn = vj then some s
  else
    let newv := s.1.vindex
    let g1 := s.1.addVertex (s.1.ty vj) 0
    (g1.adj vi vn).bind fun e => (g1.addEdge newv vn e).map fun g2 => (g2.setPhase newv (g2.phase vj), s.2 ++ [newv])

/-- The loop `for i in range(2)` of `strong_comp` for one value of `i`, `/repo/pyzx/basicrules.py` lines 97-106. -/
noncomputable def strongCompLoop (g : Graph) (vi vj : ℕ) (ns : List ℕ) : Option (Graph × List ℕ) :=
  ns.foldlM (strongCompStep vi vj) (g, [])

/-- `add_edge` for a list of pairs, one after the other. -/
noncomputable def addEdgeList (g : Graph) (es : List (ℕ × ℕ)) (e : EType) : Option Graph :=
  es.foldlM (fun g p => g.addEdge p.1 p.2 e) g

/-- `strong_comp`, `/repo/pyzx/basicrules.py` lines 91-119. -/
noncomputable def strongComp (g : Graph) (ord : ℕ → List ℕ) (v1 v2 : ℕ) : Option (Graph × Bool) :=
  if checkStrongComp g v1 v2 = false then some (g, false)
  else
    (strongCompLoop g v1 v2 (ord v1)).bind fun s0 =>
    (strongCompLoop s0.1 v2 v1 (ord v2)).bind fun s1 =>
    (addEdgeList s1.1 (s0.2.flatMap fun n1 => s1.2.map fun n2 => (n1, n2)) .simple).bind fun g2 =>
    let g3 := g2.addPower (((s0.2.length : ℤ) - 1) * ((s1.2.length : ℤ) - 1))
    let g4 := if g3.phase v1 = 1 ∧ g3.phase v2 = 1 then g3.addScalarPhase 1 else g3
    (g4.removeVertices [v1]).bind fun g5 => (g5.removeVertices [v2]).map fun g6 => (g6, true)

/-- `check_copy_X`, `/repo/pyzx/basicrules.py` lines 121-130. The only neighbour is the head of `ord v`. -/
def checkCopyX (g : Graph) (ord : ℕ → List ℕ) (v : ℕ) : Bool :=
  decide (g.degree v = 1) && decide (g.ty v = .X) && isPauli (g.phase v) &&
    (match (ord v).head? with
      | none => false
      | some nv => decide (g.ty nv = .Z) && decide (g.adj v nv = some .simple))

/-- `copy_X`, `/repo/pyzx/basicrules.py` lines 132-137. -/
noncomputable def copyX (g : Graph) (ord : ℕ → List ℕ) (v : ℕ) : Option (Graph × Bool) :=
  if checkCopyX g ord v = false then some (g, false)
  else match (ord v).head? with
    | none => none
    | some nv => (strongComp g ord v nv).map fun r => (r.1, true)

/-- The test of the loop of `pi_commute_Z`, `/repo/pyzx/basicrules.py` lines 149-150: the new X-spider can be absorbed by `w`. -/
def piAbsorbs (g : Graph) (v w : ℕ) : Bool :=
  (decide (g.ty w = .Z) && decide (g.adj v w = some .had)) || (decide (g.ty w = .X) && decide (g.adj v w = some .simple))

/-- `pi_commute_Z`, `/repo/pyzx/basicrules.py` lines 142-159, when every neighbour absorbs its X-spider (lines 149-151). Otherwise the
code deletes and inserts keys of the dictionary it iterates over (lines 152-158); this branch is not modelled and is `none` here. -/
def piCommuteZ (g : Graph) (ord : ℕ → List ℕ) (v : ℕ) : Option (Graph × Bool) :=
  if g.ty v ≠ .Z then some (g, false)
  else if (ord v).all (piAbsorbs g v) then
    some ((ord v).foldl (fun g w => g.addToPhase w 1) (g.setPhase v (-g.phase v)), true)
  else none

/-- `check_fuse`, `/repo/pyzx/basicrules.py` lines 185-192, for vertices that are not W-nodes. -/
def checkFuse (g : Graph) (v1 v2 : ℕ) : Bool :=
  ((decide (g.ty v1 = .X) && decide (g.ty v2 = .X)) || ((g.ty v1).zLike && (g.ty v2).zLike)) && decide (g.adj v1 v2 = some .simple)

/-- `z_to_z_box` on one vertex, `/repo/pyzx/rules.py` lines 298-304. The code rounds the label to 8 decimals; the model does not. -/
noncomputable def zToZBox (g : Graph) (v : ℕ) : Graph :=
  ((g.setType v .zbox).setLabel v (ph (g.phase v))).setPhase v 0

/-- The first half of `fuse`, `/repo/pyzx/basicrules.py` lines 198-205: the phase or label of the fused vertex. -/
noncomputable def fuseData (g : Graph) (v1 v2 : ℕ) : Graph :=
  if g.ty v1 = .zbox ∨ g.ty v2 = .zbox then
    let g1 := if g.ty v1 = .Z then zToZBox g v1 else g
    let g2 := if g1.ty v2 = .Z then zToZBox g1 v2 else g1
    g2.setLabel v1 (g2.label v1 * g2.label v2)
  else g.addToPhase v1 (g.phase v2)

/-- Body of the loop of `fuse`, `/repo/pyzx/basicrules.py` lines 206-218. The backend has no self-loops, so the case of lines 213-214
does not occur. -/
noncomputable def fuseStep (v1 v2 : ℕ) (g : Graph) (w : ℕ) : Option Graph :=
  if w = v1 ∧ g.adj v2 w = some .simple then some g
  else (g.adj v2 w).bind fun e => g.addEdge v1 w e

/-- `fuse`, `/repo/pyzx/basicrules.py` lines 194-220. -/
noncomputable def fuse (g : Graph) (ord : ℕ → List ℕ) (v1 v2 : ℕ) : Option (Graph × Bool) :=
  if checkFuse g v1 v2 = false then some (g, false)
  else ((ord v2).foldlM (fuseStep v1 v2) (fuseData g v1 v2)).bind fun g1 => (g1.removeVertices [v2]).map fun g2 => (g2, true)

/-- `check_remove_id`, `/repo/pyzx/basicrules.py` lines 241-249. -/
noncomputable def checkRemoveId (g : Graph) (v : ℕ) : Prop :=
  g.degree v = 2 ∧ ((g.ty v = .zbox ∧ g.label v = 1) ∨ (g.ty v ≠ .zbox ∧ g.phase v = 0))

open Classical in
/-- `remove_id`, `/repo/pyzx/basicrules.py` lines 251-262. -/
noncomputable def removeId (g : Graph) (ord : ℕ → List ℕ) (v : ℕ) : Option (Graph × Bool) :=
  if ¬ checkRemoveId g v then some (g, false)
  else match ord v with
    | [v1, v2] =>
      (g.addEdge v1 v2 (if g.adj v v1 = g.adj v v2 then .simple else .had)).bind fun g1 =>
      (g1.removeVertices [v]).map fun g2 => (g2, true)
    | _ => none

end Basic
end PyZX
