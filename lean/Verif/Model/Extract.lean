import Verif.Model.Simp
import Verif.Model.GFlow
import Verif.Model.Perm
import Verif.Model.Circuit

/-!
# Model of circuit extraction, `pyzx/extract.py`

`extract_circuit` and the functions it is made of. Printing, the statistics and the positions of vertices are not modelled.

The choice of row operations (`greedy_reduction`, `column_optimal_swap`, `Mat2.to_cnots`, `filter_duplicate_cnots`, lines 658-692) is a
parameter: an arbitrary function from the matrix to a list of CNOTs. Loops of unknown length take a number of iterations after which the
model gives up.
-/

namespace PyZX
namespace Extract

open Simplify (Orders Run)

/-- The outcome of a function that may raise or run out of fuel. -/
inductive Out (α : Type) where
  | raised
  | running
  | ok (a : α)

/-- Continue with the value of a finished call. -/
def Out.bind {α β : Type} (r : Out α) (f : α → Out β) : Out β :=
  match r with
  | .raised => .raised
  | .running => .running
  | .ok a => f a

/-- `none` stands for an exception. -/
def ofOption {α : Type} : Option α → Out α
  | none => .raised
  | some a => .ok a

/-- The local variables of `extract_circuit`, `/repo/pyzx/extract.py` lines 620-638: the graph, the gates of `c` in the order in which they
were added, `frontier`, `qubit_map` and the keys of `gadgets` (its values are not used). -/
structure State where
  g : Graph
  gates : List Gate
  frontier : List ℕ
  qmap : ℕ → Option ℕ
  gadgets : Finset ℕ

/-! ### `clean_frontier` -/

/-- `[w for w in g.neighbors(v) if w in outputs][0]`, `/repo/pyzx/extract.py` lines 479 and 501. -/
def outputOf (o : Orders) (g : Graph) (v : ℕ) : Option ℕ := ((o.nbr g v).filter (· ∈ g.outputs)).head?

/-- Body of the first loop of `clean_frontier`, `/repo/pyzx/extract.py` lines 500-508. `set_edge_type` replaces the entry of the edge
(`/repo/pyzx/graph/graph_s.py` lines 279-282). -/
def cleanVertex (o : Orders) (s : State) (v : ℕ) : Option State :=
  (s.qmap v).bind fun q =>
  (outputOf o s.g v).map fun b =>
  let s1 := if s.g.adj v b = some .had then { s with g := s.g.setAdj v b (some .simple), gates := s.gates ++ [.had q] } else s
  if s1.g.phase v = 0 then s1
  else { s1 with g := s1.g.setPhase v 0, gates := s1.gates ++ [Gate.mkZPhase q (s1.g.phase v)] }

/-- A symmetric table of bits, with the entries `i j` and `j i` changed. -/
def setPair (m : ℕ → ℕ → Bool) (i j : ℕ) (b : Bool) : ℕ → ℕ → Bool :=
  fun a c => if (a = i ∧ c = j) ∨ (a = j ∧ c = i) then b else m a c

/-- Body of the inner loop on the edges between frontier vertices, `/repo/pyzx/extract.py` lines 513-516. -/
def czEdge (s : State) (v : ℕ) (p : Graph × (ℕ → ℕ → Bool)) (w : ℕ) : Option (Graph × (ℕ → ℕ → Bool)) :=
  if w ∈ s.frontier then
    (s.qmap v).bind fun qv => (s.qmap w).bind fun qw => (p.1.removeEdge v w).map fun g' => (g', setPair p.2 qv qw true)
  else some p

/-- The loop that collects the CZ gates, `/repo/pyzx/extract.py` lines 510-516. The matrix `cz_mat` is a function of two indices. -/
def czCollect (o : Orders) (s : State) : Option (Graph × (ℕ → ℕ → Bool)) :=
  s.frontier.foldlM (fun p v => (o.nbr p.1 v).foldlM (czEdge s v) p) (s.g, fun _ _ => false)

/-- All pairs `i < j < n` in the order of `for i in range(n): for j in range(i+1, n)`. -/
def upairs (n : ℕ) : List (ℕ × ℕ) := (List.range n).flatMap fun i => ((List.range n).filter (i < ·)).map fun j => (i, j)

/-- The common ones of two rows, `/repo/pyzx/extract.py` lines 365-376. -/
def common (n : ℕ) (m : ℕ → ℕ → Bool) (i j : ℕ) : List ℕ := (List.range n).filter fun k => m i k && m j k

/-- The number of ones of a row, `/repo/pyzx/extract.py` lines 365-376. -/
def rowOnes (n : ℕ) (m : ℕ → ℕ → Bool) (i : ℕ) : ℕ := ((List.range n).filter fun k => m i k).length

/-- `max_overlap`, `/repo/pyzx/extract.py` lines 351-383. -/
def maxOverlap (n : ℕ) (m : ℕ → ℕ → Bool) : (ℕ × ℕ) × List ℕ :=
  (upairs n).foldl (fun best p =>
    if best.2.length < (common n m p.1 p.2).length then
      (if rowOnes n m p.1 < rowOnes n m p.2 then (p.2, p.1) else p, common n m p.1 p.2)
    else best) ((0, 0), [])

/-- Clearing the entries of the CZ gates that are replaced, `/repo/pyzx/extract.py` lines 524-529. -/
def clearCommon (m : ℕ → ℕ → Bool) (i j : ℕ) (ks : List ℕ) : ℕ → ℕ → Bool :=
  ks.foldl (fun m k => setPair (setPair m i k false) j k false) m

/-- The gates added for one overlap, `/repo/pyzx/extract.py` lines 523-530. -/
def overlapGates (i j : ℕ) (ks : List ℕ) : List Gate := .cnot i j :: (ks.map fun k => .cz j k) ++ [.cnot i j]

/-- The loop of the CZ optimisation, `/repo/pyzx/extract.py` lines 519-531. -/
def czOptimize (n : ℕ) : ℕ → (ℕ → ℕ → Bool) → List Gate → Out ((ℕ → ℕ → Bool) × List Gate)
  | 0, _, _ => .running
  | fuel + 1, m, c =>
    let d := maxOverlap n m
    if 2 < d.2.length then czOptimize n fuel (clearCommon m d.1.1 d.1.2 d.2) (c ++ overlapGates d.1.1 d.1.2 d.2) else .ok (m, c)

/-- The remaining CZ gates, `/repo/pyzx/extract.py` lines 533-536. -/
def czRest (n : ℕ) (m : ℕ → ℕ → Bool) : List Gate := ((upairs n).filter fun p => m p.1 p.2).map fun p => .cz p.1 p.2

/-- `clean_frontier`, `/repo/pyzx/extract.py` lines 492-538. Without outputs `max_overlap` raises (line 357). -/
def cleanFrontier (o : Orders) (opt : Bool) (fuel : ℕ) (s : State) : Out State :=
  (ofOption (s.frontier.foldlM (cleanVertex o) s)).bind fun s1 =>
  (ofOption (czCollect o s1)).bind fun p =>
  let n := s1.g.outputs.length
  (if opt then (if n = 0 then .raised else czOptimize n fuel p.2 s1.gates) else .ok (p.2, s1.gates)).bind fun r =>
  .ok { s1 with g := p.1, gates := r.2 ++ czRest n r.1 }

/-! ### `neighbors_of_frontier` -/

/-- The variables of `neighbors_of_frontier`. -/
structure NbrState where
  g : Graph
  frontier : List ℕ
  set : Finset ℕ

/-- Body of the loop of `neighbors_of_frontier`, `/repo/pyzx/extract.py` lines 552-570. -/
noncomputable def nbrStep (o : Orders) (p : NbrState) (v : ℕ) : Option NbrState :=
  let d := (o.nbr p.g v).filter (· ∉ p.g.outputs)
  match d.filter (· ∈ p.g.inputs) with
  | [] => some { p with set := p.set ∪ d.toFinset }
  | b :: _ =>
    if d.length = 1 then some { p with frontier := p.frontier.erase v }
    else
      let w := p.g.vindex
      (p.g.adj v b).bind fun et =>
      ((p.g.addVertex .Z 0).removeEdge v b).bind fun g1 =>
      (g1.addEdge v w .had).bind fun g2 =>
      (g2.addEdge w b et.toggle).map fun g3 => { p with g := g3, set := p.set ∪ (d.erase b ++ [w]).toFinset }

/-- `neighbors_of_frontier`, `/repo/pyzx/extract.py` lines 541-571. -/
noncomputable def neighborsOfFrontier (o : Orders) (g : Graph) (frontier : List ℕ) : Option NbrState :=
  frontier.foldlM (nbrStep o) ⟨g, frontier, ∅⟩

/-! ### `remove_gadget` -/

/-- Body of the loop of `remove_gadget`, `/repo/pyzx/extract.py` lines 579-589; the boolean is `removed_gadget`. `apply_rule`
(`/repo/pyzx/rules.py` lines 65-76) is the same as the part of a simplification pass after the matcher. The list of the outputs next to `v`
is `none` or one output: a list with several outputs raises in the model. -/
noncomputable def gadgetStep (o : Orders) (s : State × Bool) (w : ℕ) : Option (State × Bool) :=
  if w ∈ s.1.gadgets then
    match (o.nbr s.1.g w).find? (· ∈ s.1.frontier) with
    | none => some s
    | some v =>
      let outs := (o.nbr s.1.g v).filter (· ∈ s.1.g.outputs)
      if 1 < outs.length then none
      else
        (Simplify.afterRewrite o true (Rules.pivot o.lst s.1.g [⟨w, v, none, outs.head?⟩])).bind fun r =>
        (s.1.qmap v).map fun q =>
          ({ s.1 with
              g := r.2
              frontier := s.1.frontier.erase v ++ [w]
              gadgets := s.1.gadgets.erase w
              qmap := Function.update s.1.qmap w (some q) }, true)
  else some s

/-- `remove_gadget`, `/repo/pyzx/extract.py` lines 574-590. -/
noncomputable def removeGadget (o : Orders) (s : State) (nbs : Finset ℕ) : Option (State × Bool) :=
  (o.lst nbs).foldlM (gadgetStep o) (s, false)

/-! ### `apply_cnots` -/

/-- Body of the loops of `connectivity_from_biadj`, `/repo/pyzx/extract.py` lines 48-53, for `edgetype = HADAMARD`. -/
noncomputable def connStep (m : Mat2.Data) (left right : List ℕ) (g : Graph) (p : ℕ × ℕ) : Option Graph :=
  let r := right.getD p.1 0
  let l := left.getD p.2 0
  if Mat2.get m p.1 p.2 = true then (if g.adj r l = none then g.addEdge r l .had else some g)
  else (if g.adj r l = none then some g else g.removeEdge r l)

/-- `connectivity_from_biadj`, `/repo/pyzx/extract.py` lines 40-53. -/
noncomputable def connectivity (g : Graph) (m : Mat2.Data) (left right : List ℕ) : Option Graph :=
  (List.range right.length ×ˢ List.range left.length).foldlM (connStep m left right) g

/-- The row additions, `/repo/pyzx/extract.py` line 460, for CNOTs given as pairs `(control, target)`. -/
def addRows (m : Mat2.Data) (cnots : List (ℕ × ℕ)) : Mat2.Data := cnots.foldl (fun m c => Mat2.rowAdd c.2 c.1 m) m

/-- The CNOT gates, `/repo/pyzx/extract.py` line 461. -/
def cnotGates (qmap : ℕ → Option ℕ) (frontier : List ℕ) (cnots : List (ℕ × ℕ)) : Option (List Gate) :=
  cnots.mapM fun c => (frontier[c.1]?.bind qmap).bind fun a => (frontier[c.2]?.bind qmap).map fun b => .cnot a b

/-- `good_verts` as a list, `/repo/pyzx/extract.py` lines 464-469. A Python dictionary would join equal keys, but the vertices of the
frontier are different. -/
def goodVerts (m : Mat2.Data) (frontier nbs : List ℕ) : List (ℕ × ℕ) :=
  (m.zipIdx.filter fun p => p.1.count true = 1).map fun p => (frontier.getD p.2 0, nbs.getD (p.1.idxOf true) 0)

/-- Body of the loop on `good_verts`, `/repo/pyzx/extract.py` lines 474-483. -/
noncomputable def extractVert (o : Orders) (s : State) (p : ℕ × ℕ) : Option State :=
  (s.qmap p.1).bind fun q =>
  (outputOf o s.g p.1).bind fun b =>
  (s.g.removeVertices [p.1]).bind fun g1 =>
  (g1.addEdge p.2 b .simple).map fun g2 =>
    { s with
      g := g2
      gates := s.gates ++ [.had q]
      qmap := Function.update s.qmap p.2 (some q)
      frontier := s.frontier.erase p.1 ++ [p.2] }

/-- `apply_cnots`, `/repo/pyzx/extract.py` lines 452-489. The CNOT gates come before the Hadamard gates (lines 485-488). -/
noncomputable def applyCnots (o : Orders) (s : State) (cnots : List (ℕ × ℕ)) (m : Mat2.Data) (nbs : List ℕ) : Option State :=
  (cnotGates s.qmap s.frontier cnots).bind fun cs =>
  (if cnots = [] then some s.g else connectivity s.g (addRows m cnots) nbs s.frontier).bind fun g1 =>
  let good := goodVerts (addRows m cnots) s.frontier nbs
  if good = [] then none else good.foldlM (extractVert o) { s with g := g1, gates := s.gates ++ cs }

/-! ### `extract_circuit` -/

/-- The dictionary `gadgets`, `/repo/pyzx/extract.py` lines 626-629: its keys. -/
def initGadgets (g : Graph) : Finset ℕ :=
  (g.verts.filter fun v => g.degree v = 1 ∧ v ∉ g.inputs ∧ v ∉ g.outputs).biUnion g.nbrs

/-- Body of the loop that makes the frontier, `/repo/pyzx/extract.py` lines 633-638. -/
def initStep (o : Orders) (g : Graph) (s : List ℕ × (ℕ → Option ℕ)) (p : ℕ × ℕ) : Option (List ℕ × (ℕ → Option ℕ)) :=
  (o.nbr g p.1).head?.map fun v => if v ∈ g.inputs then s else (s.1 ++ [v], Function.update s.2 v (some p.2))

/-- The initial state, `/repo/pyzx/extract.py` lines 620-638. -/
def init (o : Orders) (g : Graph) : Option State :=
  (g.outputs.zipIdx.foldlM (initStep o g) ([], fun _ => none)).map fun r => ⟨g, [], r.1, r.2, initGadgets g⟩

/-- One iteration of the main loop, `/repo/pyzx/extract.py` lines 643-695. The boolean says whether the loop ended. `choose` chooses the
CNOTs when no row has exactly one neighbour. As in the code, the neighbours found before a gadget was removed are not used again. -/
noncomputable def iteration (o : Orders) (choose : Mat2.Data → Option (List (ℕ × ℕ))) (opt : Bool) (fuel : ℕ) (s : State) :
    Out (State × Bool) :=
  (cleanFrontier o opt fuel s).bind fun s1 =>
  (ofOption (neighborsOfFrontier o s1.g s1.frontier)).bind fun p =>
  let s2 : State := { s1 with g := p.g, frontier := p.frontier }
  if p.frontier = [] then .ok (s2, true)
  else
    (ofOption (removeGadget o s2 p.set)).bind fun r =>
    if r.2 then .ok (r.1, false)
    else
      let nbs := o.lst p.set
      let m := GFlow.biAdj r.1.g nbs r.1.frontier
      (ofOption (if ∀ row ∈ m, row.count true ≠ 1 then choose m else some [])).bind fun cnots =>
      (ofOption (applyCnots o r.1 cnots m nbs)).bind fun s3 => .ok (s3, false)

/-- The main loop, `/repo/pyzx/extract.py` lines 643-695. -/
noncomputable def mainLoop (ω : ℕ → Orders) (choose : ℕ → Mat2.Data → Option (List (ℕ × ℕ))) (opt : Bool) (fuel : ℕ) :
    ℕ → ℕ → State → Out (State × ℕ)
  | 0, _, _ => .running
  | n + 1, t, s =>
    (iteration (ω t) (choose t) opt fuel s).bind fun r => if r.2 then .ok (r.1, t + 1) else mainLoop ω choose opt fuel n (t + 1) r.1

/-- Body of the loop of `graph_to_swaps`, `/repo/pyzx/extract.py` lines 793-803; the state is the list of gates and `swap_map`. The edge is
made simple in the code, which no later iteration looks at (the outputs are different). -/
def swapsStep (o : Orders) (g : Graph) (s : List Gate × List ℕ) (p : ℕ × ℕ) : Option (List Gate × List ℕ) :=
  (o.nbr g p.1).head?.bind fun i =>
    if i ∈ g.inputs then some (if g.adj p.1 i = some .had then .had p.2 :: s.1 else s.1, s.2 ++ [g.inputs.idxOf i]) else none

/-- `graph_to_swaps`, `/repo/pyzx/extract.py` lines 782-807. -/
def graphToSwaps (o : Orders) (noSwaps : Bool) (g : Graph) : Option Circuit :=
  (g.outputs.zipIdx.foldlM (swapsStep o g) ([], [])).map fun r =>
    { qubits := g.inputs.length
      bits := 0
      gates :=
        if noSwaps = false ∧ r.2 ≠ List.range r.2.length then ((permutationAsSwaps r.2).map fun p => .swap p.1 p.2).reverse ++ r.1
        else r.1 }

/-- `extract_circuit`, `/repo/pyzx/extract.py` lines 593-710. `id_simp` uses the choices after those of the main loop. -/
noncomputable def extractCircuit (ω : ℕ → Orders) (choose : ℕ → Mat2.Data → Option (List (ℕ × ℕ))) (opt upToPerm : Bool) (fuel : ℕ)
    (g : Graph) : Out Circuit :=
  (ofOption (init (ω 0) g)).bind fun s =>
  (mainLoop ω choose opt fuel fuel 0 s).bind fun r =>
  match Simplify.idSimp ω fuel r.2 r.1.g with
  | .raised => .raised
  | .running => .running
  | .done g' t _ =>
    (ofOption (graphToSwaps (ω t) upToPerm g')).bind fun c =>
    ofOption (c.addCircuit { qubits := g.outputs.length, bits := 0, gates := r.1.gates.reverse })

end Extract
end PyZX
