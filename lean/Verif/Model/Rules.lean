import Verif.Model.Rule

/-!
# Model of the rewrite rules of `pyzx/rules.py`

Each rule is a fold over the list of matches which mutates the graph and accumulates the edge table, the vertices to be
removed and the edges to be removed. Grounds and phase tracking are not modelled.
-/

namespace PyZX
namespace Rules

open RewriteState

/-- A match `(v, v0, v1, et)` of `match_ids_parallel`, `/repo/pyzx/rules.py` line 761. -/
structure IdMatch where
  v : ℕ
  v0 : ℕ
  v1 : ℕ
  et : EType

/-- Body of the loop of `remove_ids`, `/repo/pyzx/rules.py` lines 814-819. -/
def idStep (s : RewriteState) (m : IdMatch) : RewriteState :=
  { s with
    remVerts := s.remVerts ++ [m.v]
    etab := ETab.upd s.etab (m.v0, m.v1) fun p => if m.et = .simple then (p.1 + 1, p.2) else (p.1, p.2 + 1) }

/-- `remove_ids`, `/repo/pyzx/rules.py` lines 809-820. -/
def removeIds (g : Graph) (ms : List IdMatch) : RewriteState := ms.foldl idStep (start g)

/-- A match `(v, vn)` of `match_lcomp_parallel`, `/repo/pyzx/rules.py` line 682. -/
structure LcompMatch where
  v : ℕ
  vn : List ℕ

/-- The inner loop `for j in range(i+1,n)` of `lcomp`, `/repo/pyzx/rules.py` lines 754-757. -/
def lcompInner (t : Graph.ETab) (a : ℕ) (js : List ℕ) : Graph.ETab := js.foldl (fun t b => ETab.setHad t (a, b)) t

/-- The loop `for i in range(n)` of `lcomp`, `/repo/pyzx/rules.py` lines 751-757, on the tail of the neighbour list
that starts at index `i`. -/
def lcompLoop (a : ℚ) : Graph → Graph.ETab → List ℕ → Graph × Graph.ETab
  | g, t, [] => (g, t)
  | g, t, n :: ns => lcompLoop a (g.addToPhase n (-a)) (lcompInner t n ns) ns

/-- Body of the loop of `lcomp`, `/repo/pyzx/rules.py` lines 743-757. `(n-2)*(n-1)//2` is Python's floor division on
integers. -/
def lcompStep (s : RewriteState) (m : LcompMatch) : RewriteState :=
  let a := s.g.phase m.v
  let g1 := if a.num = 1 then s.g.addScalarPhase (1 / 4) else s.g.addScalarPhase (7 / 4)
  let n : ℤ := m.vn.length
  let g2 := g1.addPower (((n - 2) * (n - 1)) / 2)
  let r := lcompLoop a g2 s.etab m.vn
  { s with g := r.1, etab := r.2, remVerts := s.remVerts ++ [m.v] }

/-- `lcomp`, `/repo/pyzx/rules.py` lines 736-759. -/
def lcomp (g : Graph) (ms : List LcompMatch) : RewriteState := ms.foldl lcompStep (start g)

/-- `ord` lists the neighbours of every vertex, in the (unspecified) order of the adjacency dictionary. -/
def NbrOrder (g : Graph) (ord : ℕ → List ℕ) : Prop := ∀ v ∈ g.verts, (ord v).Nodup ∧ (ord v).toFinset = g.nbrs v

/-- `z_to_z_box` on one vertex, `/repo/pyzx/rules.py` lines 298-304. The code rounds the label to 8 digits; here it is
exact. -/
noncomputable def zToZBox (g : Graph) (v : ℕ) : Graph :=
  ((g.setType v .zbox).setLabel v (ph (g.phase v))).setPhase v 0

/-- The change of the phase or label of the surviving vertex in `spider`, `/repo/pyzx/rules.py` lines 208-218 (no
grounds). -/
noncomputable def spiderPhase (g : Graph) (v0 v1 : ℕ) : Graph :=
  if g.ty v0 = .zbox ∨ g.ty v1 = .zbox then
    let g1 := if g.ty v0 = .Z then zToZBox g v0 else g
    let g2 := if g1.ty v1 = .Z then zToZBox g1 v1 else g1
    let g3 := g2.setPhase v0 0
    g3.setLabel v0 (g3.label v0 * g3.label v1)
  else g.addToPhase v0 (g.phase v1)

/-- The new entries of the edge table in `spider`, `/repo/pyzx/rules.py` lines 227-239, for the neighbours `ns` of `v1`.
Self-loops do not occur in well-formed graphs. -/
def spiderTab (g : Graph) (v0 v1 : ℕ) (ns : List ℕ) (t : Graph.ETab) : Graph.ETab :=
  ETab.upd (ns.foldl (fun t w => ETab.incr t (v0, w) ((g.adj v1 w).getD .simple)) t) (v0, v0) fun p => (0, p.2)

/-- The choice which of the two vertices survives, `/repo/pyzx/rules.py` lines 201-204. `row0 v` stands for
`g.row(v) == 0`. -/
def spiderPair (row0 : ℕ → Bool) (m : ℕ × ℕ) : ℕ × ℕ := if row0 m.1 then (m.2, m.1) else m

/-- Body of the loop of `spider`, `/repo/pyzx/rules.py` lines 200-239, with `m = (v0, v1)` after the choice.
`ord` is the order of the adjacency dictionaries. -/
noncomputable def spiderStep (ord : ℕ → List ℕ) (s : RewriteState) (m : ℕ × ℕ) : RewriteState :=
  { s with
    g := spiderPhase s.g m.1 m.2
    etab := spiderTab s.g m.1 m.2 (ord m.2) s.etab
    remVerts := s.remVerts ++ [m.2] }

/-- `spider`, `/repo/pyzx/rules.py` lines 194-240. -/
noncomputable def spider (row0 : ℕ → Bool) (ord : ℕ → List ℕ) (g : Graph) (ms : List (ℕ × ℕ)) : RewriteState :=
  (ms.map (spiderPair row0)).foldl (spiderStep ord) (start g)

/-- A match `((v0, v1), (b0, b1))` of the pivot rules, `/repo/pyzx/rules.py` lines 379 and 607-614. The lists `b0`,
`b1` of zero or one vertices are optional values. -/
structure PivotMatch where
  v0 : ℕ
  v1 : ℕ
  b0 : Option ℕ
  b1 : Option ℕ

/-- `SetOrder lst`: `lst` lists the elements of a set, in the (unspecified) iteration order of a Python set. As a
simplification the order is a function of the set. -/
def SetOrder (lst : Finset ℕ → List ℕ) : Prop := ∀ s, (lst s).Nodup ∧ (lst s).toFinset = s

/-- `for v in vs: g.add_to_phase(v, a)`. -/
def addToPhases (g : Graph) (vs : List ℕ) (a : ℚ) : Graph := vs.foldl (fun g v => g.addToPhase v a) g

/-- Neighbours of a pivot vertex without its partner and its boundary, `/repo/pyzx/rules.py` lines 626-629. -/
def pivotNbrs (g : Graph) (v other : ℕ) (b : Option ℕ) : Finset ℕ := ((g.nbrs v).erase other).filter fun w => b ≠ some w

/-- The list of pairs that are toggled, `/repo/pyzx/rules.py` lines 633-635. -/
def pivotPairs (l0 l1 l2 : List ℕ) : List (ℕ × ℕ) := (l0 ×ˢ l1) ++ (l1 ×ˢ l2) ++ (l0 ×ˢ l2)

/-- One iteration of the loop `for i in 0, 1` of `pivot` on the phases, `/repo/pyzx/rules.py` lines 653-660. -/
def pivotPhases (g : Graph) (v : ℕ) (other both : List ℕ) : Graph :=
  let a := g.phase v
  if a = 0 then g else addToPhases (addToPhases g other a) both a

/-- Moving a boundary to the other vertex, `/repo/pyzx/rules.py` lines 662-675: `v` is `m[0][i]`, `other` is
`m[0][1-i]`. `edge` sorts the two ends (`/repo/pyzx/graph/graph_s.py` lines 253-254), which does not matter for
`remove_edges`. -/
def pivotBoundary (s : RewriteState) (v other : ℕ) (b : Option ℕ) : RewriteState :=
  match b with
  | none => { s with remVerts := s.remVerts ++ [other] }
  | some w =>
    { s with
      etab := ETab.upd s.etab (other, w) fun p =>
        if s.g.adj v w = some .simple then (p.1, p.2 + 1) else if s.g.adj v w = some .had then (p.1 + 1, p.2) else p
      remEdges := s.remEdges ++ [(v, w)] }

/-- Body of the loop of `pivot`, `/repo/pyzx/rules.py` lines 620-679. -/
def pivotStep (lst : Finset ℕ → List ℕ) (s : RewriteState) (m : PivotMatch) : RewriteState :=
  let n0 := pivotNbrs s.g m.v0 m.v1 m.b0
  let n1 := pivotNbrs s.g m.v1 m.v0 m.b1
  let l2 := lst (n0 ∩ n1)
  let l0 := lst (n0 \ (n0 ∩ n1))
  let l1 := lst (n1 \ (n0 ∩ n1))
  let k0 : ℤ := l0.length
  let k1 : ℤ := l1.length
  let k2 : ℤ := l2.length
  let g1 := s.g.addPower (k0 * k2 + k1 * k2 + k0 * k1)
  let g2 := addToPhases g1 l2 1
  let g3 := if g2.phase m.v0 ≠ 0 ∧ g2.phase m.v1 ≠ 0 then g2.addScalarPhase 1 else g2
  let g4 := g3.addPower (if m.b0 = none ∧ m.b1 = none then -(k0 + k1 + 2 * k2 - 1)
    else if m.b0 = none then -(k1 + k2) else -(k0 + k2))
  let s5 := pivotBoundary { s with g := pivotPhases g4 m.v0 l1 l2 } m.v0 m.v1 m.b0
  let s6 := pivotBoundary { s5 with g := pivotPhases s5.g m.v1 l0 l2 } m.v1 m.v0 m.b1
  { s6 with etab := (pivotPairs l0 l1 l2).foldl ETab.setHad s6.etab }

/-- `pivot`, `/repo/pyzx/rules.py` lines 606-680. -/
def pivot (lst : Finset ℕ → List ℕ) (g : Graph) (ms : List PivotMatch) : RewriteState :=
  ms.foldl (pivotStep lst) (start g)

end Rules
end PyZX
