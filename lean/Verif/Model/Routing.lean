import Mathlib.Data.List.Sort
import Verif.Model.Linalg

/-!
# Model of `pyzx/routing/architecture.py`, `pyzx/routing/steiner.py` and of `CNOT_tracker` in `pyzx/routing/parity_maps.py`

The coupling graph is a list of adjacency lists, as the dictionary of dictionaries of `GraphS`. Exceptions and loops that do not
end within their fuel are both `none`. Sets of vertices and edges are iterated in an order that Python does not specify: it is an
argument (`Order`), of which the theorems only assume that it returns a permutation.
-/

namespace PyZX
namespace Routing
open Mat2

/-- `Architecture`, `/repo/pyzx/routing/architecture.py` lines 62-113: the coupling graph, the placement `qubit_map` and
`reduce_order`. -/
structure Arch where
  /-- `self.graph`: each vertex with its neighbours -/
  adj : List (ℕ × List ℕ)
  /-- `self.qubit_map` -/
  qmap : List ℕ
  /-- `self.reduce_order` -/
  order : List ℕ
deriving DecidableEq

/-- `self.graph.neighbors(v)`, `/repo/pyzx/graph/graph_s.py`. -/
def nbrsOf (adj : List (ℕ × List ℕ)) (v : ℕ) : List ℕ := (adj.lookup v).getD []

/-- `self.graph.edges()`, `/repo/pyzx/graph/graph_s.py`: every edge once, smaller vertex first. -/
def edgesOf (adj : List (ℕ × List ℕ)) : List (ℕ × ℕ) := adj.flatMap fun p => (p.2.filter (p.1 < ·)).map fun w => (p.1, w)

/-- `self.vertices`, `/repo/pyzx/routing/architecture.py` line 90. -/
def Arch.verts (A : Arch) : List ℕ := A.adj.map Prod.fst

/-- `self.graph.neighbors(v)` -/
def Arch.nbrs (A : Arch) (v : ℕ) : List ℕ := nbrsOf A.adj v

/-- `self.graph.edges()` -/
def Arch.edges (A : Arch) : List (ℕ × ℕ) := edgesOf A.adj

/-- The last position of a vertex in the list, `/repo/pyzx/routing/architecture.py` lines 99-100: later entries overwrite earlier ones. -/
def lastIdx (l : List ℕ) (v : ℕ) : Option ℕ := (l.zipIdx.reverse.find? fun p => p.1 == v).map Prod.snd

/-- `Architecture.vertex2qubit`, `/repo/pyzx/routing/architecture.py` lines 99-105 and 119-121. -/
def Arch.qubit (A : Arch) (v : ℕ) : ℕ := (lastIdx A.qmap v).getD (A.verts.idxOf v)

/-- `Architecture.qubit2vertex`, `/repo/pyzx/routing/architecture.py` lines 115-117. Negative indices do not occur. -/
def Arch.vertex (A : Arch) (q : ℕ) : Option ℕ := A.qmap[q]?

/-! ### Placement -/

/-- The loop over the neighbours in `dft`, `/repo/pyzx/routing/architecture.py` lines 164-166, for the function that visits one of them. -/
def dftLoop (f : ℕ → List ℕ × List ℕ → Option (List ℕ × List ℕ)) : List ℕ → List ℕ × List ℕ → Option (List ℕ × List ℕ)
  | [], s => some s
  | n :: ns, s => if n ∈ s.1 then dftLoop f ns s else (f n s).bind (dftLoop f ns)

/-- `dft` in `Architecture._place_qubits`, `/repo/pyzx/routing/architecture.py` lines 159-168. The state is `(visited, qubit_map)`. The
fuel bounds the depth of the recursion, which is at most the number of vertices. -/
def dft (adj : List (ℕ × List ℕ)) : ℕ → ℕ → List ℕ × List ℕ → Option (List ℕ × List ℕ)
  | 0, _, _ => none
  | fuel + 1, cur, s =>
    (dftLoop (dft adj fuel) ((nbrsOf adj cur).insertionSort (· ≥ ·)) (s.1 ++ [cur], s.2)).map fun s => (s.1, s.2 ++ [cur])

/-- `Architecture._place_qubits()`, `/repo/pyzx/routing/architecture.py` lines 149-170. `max` of no vertices raises. -/
def placeQubits (adj : List (ℕ × List ℕ)) : Option (List ℕ) :=
  match (adj.map Prod.fst).max? with
  | none => none
  | some v => (dft adj (adj.length + 1) v ([], [])).map Prod.snd

/-- The mutable lists of `_is_cutting`, `/repo/pyzx/routing/architecture.py` lines 218-226, keyed by the vertex. -/
structure Cut where
  /-- `dfs_counter` -/
  counter : ℕ
  /-- `discovery_times`, absent is -1 -/
  disc : List (ℕ × ℕ)
  /-- `lows` -/
  low : List (ℕ × ℕ)
  /-- `cutting` -/
  cut : List ℕ
  /-- `parent`, absent is -1 -/
  par : List (ℕ × ℕ)

/-- The loop over the edges in `dfs`, `/repo/pyzx/routing/architecture.py` lines 233-247, for the function that visits a neighbour; `ch` is
`children`. -/
def cutLoop (f : ℕ → Cut → Option Cut) (v : ℕ) : ℕ → List ℕ → Cut → Option Cut
  | _, [], s => some s
  | ch, w :: ws, s =>
    match s.disc.lookup w with
    | none =>
      (f w { s with par := (w, v) :: s.par }).bind fun s =>
        let lw := (s.low.lookup w).getD 0
        let lv := min ((s.low.lookup v).getD 0) lw
        let root := (s.par.lookup v).isNone
        let c := (root && decide (1 < ch + 1)) || (!root && decide ((s.disc.lookup v).getD 0 ≤ lw))
        cutLoop f v (ch + 1) ws { s with low := (v, lv) :: s.low, cut := if c then v :: s.cut else s.cut }
    | some dw =>
      if s.par.lookup v = some w then cutLoop f v ch ws s
      else cutLoop f v ch ws { s with low := (v, min ((s.low.lookup v).getD 0) dw) :: s.low }

/-- `dfs` in `Architecture._is_cutting`, `/repo/pyzx/routing/architecture.py` lines 227-247. -/
def cutDfs (es : List (ℕ × ℕ)) : ℕ → ℕ → Cut → Option Cut
  | 0, _, _ => none
  | fuel + 1, v, s =>
    cutLoop (cutDfs es fuel) v 0 ((es.filter fun e => e.1 == v).map Prod.snd)
      { s with counter := s.counter + 1, disc := (v, s.counter + 1) :: s.disc, low := (v, s.counter + 1) :: s.low }

/-- `Architecture._is_cutting`, `/repo/pyzx/routing/architecture.py` lines 214-252: the vertices marked as cutting. -/
def cutting (adj : List (ℕ × List ℕ)) (vs : List ℕ) : Option (List ℕ) :=
  let e := (edgesOf adj).filter fun e => e.1 ∈ vs && e.2 ∈ vs
  let es := e ++ e.map Prod.swap
  (vs.foldlM (fun (s : Cut) v => if (s.disc.lookup v).isNone then cutDfs es (vs.length + 1) v s else some s) (⟨0, [], [], [], []⟩ : Cut)).map Cut.cut

/-- The loop of `Architecture._get_reduce_order`, `/repo/pyzx/routing/architecture.py` lines 139-145. -/
def reduceLoop (adj : List (ℕ × List ℕ)) (qubit : ℕ → ℕ) : ℕ → List ℕ → Option (List ℕ)
  | 0, _ => some []
  | _, [] => some []
  | n + 1, vs =>
    match cutting adj vs with
    | none => none
    | some cut =>
      match vs.find? fun v => decide (v ∉ cut) with
      | none => none
      | some v => (reduceLoop adj qubit n (vs.erase v)).map fun l => qubit v :: l

/-- `Architecture.__init__` for a coupling graph and optional `qubit_map` and `reduce_order`,
`/repo/pyzx/routing/architecture.py` lines 67-113. The name, the cached distances and `n_qubits` are left out. -/
def build (adj : List (ℕ × List ℕ)) (qmap order : Option (List ℕ)) : Option Arch :=
  let q := match qmap, order with
    | some q, _ => some q
    | none, some o => some (List.range o.length)
    | none, none => placeQubits adj
  match q with
  | none => none
  | some q =>
    match order with
    | some o => some ⟨adj, q, o⟩
    | none =>
      let A : Arch := ⟨adj, q, []⟩
      (reduceLoop adj A.qubit adj.length (A.verts.insertionSort fun v w => A.qubit w ≤ A.qubit v)).map fun o => ⟨adj, q, o⟩

/-! ### Distances -/

/-- The dictionary returned by `floyd_warshall`: for a pair of vertices the length of a path and the path. -/
abbrev Dist := List ((ℕ × ℕ) × (ℕ × List (ℕ × ℕ)))

/-- `distances.get((a,b))` -/
def Dist.get (d : Dist) (a b : ℕ) : Option (ℕ × List (ℕ × ℕ)) := d.lookup (a, b)

/-- `distances[(a,b)] = v` -/
def Dist.put (d : Dist) (a b : ℕ) (v : ℕ × List (ℕ × ℕ)) : Dist := ((a, b), v) :: d

/-- The first two loops of `floyd_warshall`, `/repo/pyzx/routing/architecture.py` lines 294-306. -/
def fwInit (A : Arch) (vs : List ℕ) (upper : Bool) (rec : List ℕ) : Dist :=
  vs.foldl (fun d v => d.put v v (0, []))
    (A.edges.foldl (fun d e =>
      if e.1 ∈ vs ∧ e.2 ∈ vs then
        if upper = true ∨ (e.1 ∈ rec ∧ e.2 ∈ rec) then (d.put e.1 e.2 (1, [(e.1, e.2)])).put e.2 e.1 (1, [(e.2, e.1)])
        else if A.qubit e.1 > A.qubit e.2 then d.put e.1 e.2 (1, [(e.1, e.2)]) else d.put e.2 e.1 (1, [(e.2, e.1)])
      else d) [])

/-- `(v0,v2) not in distances or distances[(v0,v2)][0] > d`, `/repo/pyzx/routing/architecture.py` line 311. -/
def worse (x : Option (ℕ × List (ℕ × ℕ))) (n : ℕ) : Bool :=
  match x with
  | none => true
  | some (c, _) => decide (c > n)

/-- The body of the triple loop of `floyd_warshall`, `/repo/pyzx/routing/architecture.py` lines 310-317. A missing key raises. -/
def fwStep (upper : Bool) (v0 v1 v2 : ℕ) (d : Dist) : Option Dist :=
  match d.get v0 v1, d.get v1 v2 with
  | some (a, p), some (b, q) =>
    if worse (d.get v0 v2) (a + b) then
      let d := d.put v0 v2 (a + b, p ++ q)
      if upper then
        match d.get v2 v1, d.get v1 v0 with
        | some (_, p'), some (_, q') => some (d.put v2 v0 (a + b, p' ++ q'))
        | _, _ => none
      else some d
    else some d
  | _, _ => some d

/-- `Architecture.floyd_warshall`, `/repo/pyzx/routing/architecture.py` lines 282-318. -/
def floyd (A : Arch) (vs : List ℕ) (upper : Bool) (rec : List ℕ) : Option Dist :=
  (vs ++ vs).foldlM (fun d v0 => vs.foldlM (fun d v1 => vs.foldlM (fun d v2 => fwStep upper v0 v1 v2 d) d) d) (fwInit A vs upper rec)

/-- The loop of `Architecture.shortest_path`, `/repo/pyzx/routing/architecture.py` lines 332-341, with the stack in reverse order. -/
def pathLoop (A : Arch) (target : ℕ) : ℕ → List (ℕ × List ℕ) → List ℕ → Option (List ℕ)
  | 0, _, _ => none
  | _, [], _ => none
  | fuel + 1, (node, path) :: st, visited =>
    if node = target then some path
    else
      let ns := (A.edges.filter fun e => e.1 == node || e.2 == node).flatMap fun e => [e.1, e.2].filter (· ≠ node)
      let ns := (ns.filter fun n => n ∈ A.verts && n ∉ visited).dedup
      pathLoop A target fuel ((ns.map fun n => (n, path ++ [n])).reverse ++ st) (visited ++ ns)

/-- `Architecture.shortest_path(start, end)`, `/repo/pyzx/routing/architecture.py` lines 320-342, without `qubits_to_use`. The result
`None` of the code, a key error and a lack of fuel are all `none`: the caller raises on `None`. -/
def shortestPath (A : Arch) (q0 q1 : ℕ) : Option (List ℕ) :=
  match A.vertex q0, A.vertex q1 with
  | some s, some t => pathLoop A t (A.adj.length + 1) [(s, [s])] [s]
  | _, _ => none

/-! ### Steiner trees -/

/-- The unspecified iteration order of sets of vertices and of edges. -/
structure Order where
  /-- the order of a set of vertices -/
  v : List ℕ → List ℕ
  /-- the order of a set of edges -/
  e : List (ℕ × ℕ) → List (ℕ × ℕ)

/-- The assumption on the iteration order. -/
def Order.OK (o : Order) : Prop := (∀ l, (o.v l).Perm l) ∧ ∀ l, (o.e l).Perm l

/-- `min(candidates, key=...)`: the first candidate of least distance. A candidate is `(node, distance, path)`. -/
def best : List (ℕ × ℕ × List (ℕ × ℕ)) → Option (ℕ × ℕ × List (ℕ × ℕ))
  | [] => none
  | c :: cs => some (cs.foldl (fun m c => if c.2.1 < m.2.1 then c else m) c)

/-- The candidates, `/repo/pyzx/routing/architecture.py` lines 383-390 and 444-445. -/
def candidates (d : Dist) (nodes tree : List ℕ) : List (ℕ × ℕ × List (ℕ × ℕ)) :=
  nodes.flatMap fun n => tree.filterMap fun v => (d.get v n).map fun x => (n, x.1, x.2)

/-- The loop `while remaining_nodes`, `/repo/pyzx/routing/architecture.py` lines 381-404; the number bounds the remaining nodes.
The set `edges` is not used afterwards. -/
def primLoop (o : Order) (d : Dist) : ℕ → List ℕ → List ℕ → Option (List ℕ)
  | _, tree, [] => some tree
  | 0, _, _ => none
  | n + 1, tree, rem =>
    match best (candidates d (o.v rem) (o.v tree)) with
    | none => none
    | some c => primLoop o d n ((c.2.2.map Prod.snd).foldl (fun t v => if v ∈ t then t else t ++ [v]) (if c.1 ∈ tree then tree else tree ++ [c.1]))
        (rem.erase c.1)

/-- The breadth-first traversal, `/repo/pyzx/routing/architecture.py` lines 408-420. -/
def bfs (A : Arch) (tree : List ℕ) : ℕ → List ℕ → List ℕ → Option (List (ℕ × ℕ))
  | _, [], _ => some []
  | 0, _, _ => none
  | fuel + 1, node :: queue, visited =>
    let ns := (A.nbrs node).filter fun v => v ∈ tree && v ∉ visited
    (bfs A tree fuel (queue ++ ns) (visited ++ ns)).map fun l => ns.map (fun v => (node, v)) ++ l

/-- `Architecture.steiner_tree`, `/repo/pyzx/routing/architecture.py` lines 344-426: the edges (of qubits) in the order of the first phase;
the second phase yields the reverse. The root is also used as an index into the list of vertices (lines 130-133 and 374). -/
def steinerTree (A : Arch) (o : Order) (start : ℕ) (qs : List ℕ) (upper : Bool) : Option (List (ℕ × ℕ)) :=
  match A.vertex start, qs.mapM A.vertex with
  | some root, some ts =>
    if (∀ n ∈ ts, if upper = true then root ≤ n else n ≤ root) ∧ qs.Nodup ∧ root < A.verts.length then
      match floyd A (if upper = true then A.verts.drop root else A.verts.take (root + 1)) upper [] with
      | none => none
      | some d =>
        match primLoop o d ts.length [root] (ts.dedup.filter (· ≠ root)) with
        | none => none
        | some tree => (bfs A tree (tree.length + 1) [root] [root]).map fun l => l.map fun e => (A.qubit e.1, A.qubit e.2)
    else none
  | _, _ => none

/-- The first loop of `rec_steiner_tree`, `/repo/pyzx/routing/architecture.py` lines 443-453. The state is
`(vertices, steiner_pnts, edges)`. -/
def recPrim (d : Dist) : ℕ → List ℕ × List ℕ × List (ℕ × ℕ) → List ℕ → Option (List ℕ × List ℕ × List (ℕ × ℕ))
  | _, s, [] => some s
  | 0, _, _ => none
  | n + 1, s, nodes =>
    match best (candidates d nodes (s.1 ++ s.2.1)) with
    | none => none
    | some c =>
      let vs := s.1 ++ [c.1]
      recPrim d n (vs, s.2.1 ++ (c.2.2.flatMap fun e => [e.1, e.2].filter (· ∉ vs)), s.2.2 ++ c.2.2) (nodes.erase c.1)

/-- The first phase of `rec_steiner_tree`, `/repo/pyzx/routing/architecture.py` lines 456-466. -/
def recDown (edges : List (ℕ × ℕ)) : ℕ → List ℕ → List (ℕ × ℕ) → Option (List (ℕ × ℕ))
  | 0, _, _ => none
  | fuel + 1, vs, seen =>
    if seen.length < edges.length then
      let es := edges.filter fun e => decide (e.1 ∈ vs)
      (recDown edges fuel (((vs ++ es.map Prod.snd).dedup).filter (· ∉ vs)) ((seen ++ es).dedup)).map fun l => es ++ l
    else some []

/-- The body of the loop `for v in vs_to_consider`, `/repo/pyzx/routing/architecture.py` lines 473-476: the yielded and the remaining
edges. -/
def upLeaf (s : List (ℕ × ℕ) × List (ℕ × ℕ)) (v : ℕ) : List (ℕ × ℕ) × List (ℕ × ℕ) :=
  (s.1 ++ s.2.filter (·.2 = v), s.2.filter (·.2 ≠ v))

/-- The second phase of `rec_steiner_tree`, `/repo/pyzx/routing/architecture.py` lines 469-476. -/
def recUp (vs pnts : List ℕ) : ℕ → List (ℕ × ℕ) → Option (List (ℕ × ℕ))
  | _, [] => some []
  | 0, _ => none
  | fuel + 1, edges =>
    let s := ((vs ++ pnts).filter fun v => decide (v ∉ edges.map Prod.fst)).foldl upLeaf ([], edges)
    (recUp vs pnts fuel s.2).map fun l => s.1 ++ l

/-- `Architecture.rec_steiner_tree`, `/repo/pyzx/routing/architecture.py` lines 428-477: the edges (of qubits) of the two phases. The
set of edges is listed in an unspecified order (line 454). -/
def recTree (A : Arch) (o : Order) (start : ℕ) (ts usable rec : List ℕ) (upper : Bool) : Option (List (ℕ × ℕ) × List (ℕ × ℕ)) :=
  if ∀ q ∈ ts, q ∈ usable then
    match A.vertex start, usable.mapM A.vertex, ts.mapM A.vertex, rec.mapM A.vertex with
    | some root, some us, some ns, some rs =>
      match floyd A us upper rs with
      | none => none
      | some d =>
        match recPrim d ns.length ([root], [], []) ns with
        | none => none
        | some (vs, pnts, es) =>
          let edges := o.e es.dedup
          match recDown edges (edges.length + 1) [root] [], recUp vs pnts (edges.length + 1) edges with
          | some l1, some l2 => some (l1.map fun e => (A.qubit e.1, A.qubit e.2), l2.map fun e => (A.qubit e.1, A.qubit e.2))
          | _, _ => none
    | _, _, _, _ => none
  else none

/-! ### Elimination -/

section
variable {X Y : Type*} (ra : ℕ → ℕ → X → X) (ca : ℕ → ℕ → Y → Y)

/-- All indices are rows of the matrix; otherwise the code raises an index error. -/
def inRange (n : ℕ) (l : List (ℕ × ℕ)) : Bool := l.all fun e => decide (e.1 < n) && decide (e.2 < n)

/-- The list of row additions. -/
def addAll (l : List (ℕ × ℕ)) (s : St X Y) : St X Y := l.foldl (fun s e => s.op ra ca e.1 e.2) s

/-- One step of the loop `while len(zeros) > 0`, `/repo/pyzx/routing/steiner.py` lines 66-68. -/
def zeroStep (col : ℕ) (s : St X Y) (e : ℕ × ℕ) : St X Y := if get s.m e.1 col then s else s.op ra ca e.2 e.1

/-- `steiner_reduce` in `steiner_gauss`, `/repo/pyzx/routing/steiner.py` lines 54-92. If `upper` is false the first `next` drops the
first edge of the tree (line 57), and lines 85-90 run through the rest of the first phase, root first. -/
def steinerReduce (A : Arch) (o : Order) (col root : ℕ) (nodes : List ℕ) (upper : Bool) (s : St X Y) : Option (St X Y) :=
  match steinerTree A o root nodes upper with
  | none => none
  | some E =>
    if upper then
      if inRange s.m.length E then
        some (addAll ra ca E.reverse (((E.filter fun e => !(get s.m e.1 col)).reverse).foldl (zeroStep ra ca col) s))
      else none
    else if inRange s.m.length E.tail then some (addAll ra ca E.tail s) else none

/-- The loop `while not found_pivot`, `/repo/pyzx/routing/steiner.py` lines 104-110: the first column from `pivot` on with a one in the rows
from `row` on. The number is the number of columns left. -/
def findPivot (d : Data) (row : ℕ) : ℕ → ℕ → Option ℕ
  | 0, _ => none
  | n + 1, p => if (List.range d.length).any fun r => decide (row ≤ r) && get d r p then some p else findPivot d row n (p + 1)

/-- The rows from `row` on with a one in the column, with `row` itself in front, `/repo/pyzx/routing/steiner.py` lines 105 and 115-116. -/
def pivotNodes (d : Data) (row p : ℕ) : List ℕ :=
  let nodes := (List.range d.length).filter fun r => decide (row ≤ r) && get d r p
  if nodes.head? = some row then nodes else row :: nodes

/-- The loop over the rows, `/repo/pyzx/routing/steiner.py` lines 101-118. The first number is the number of rows left. The result is the
state and `p_cols`. -/
def upLoop (A : Arch) (o : Order) : ℕ → ℕ → ℕ → St X Y × List ℕ → Option (St X Y × List ℕ)
  | 0, _, _, t => some t
  | n + 1, row, p, t =>
    match findPivot t.1.m row (cols t.1.m - p) p with
    | none => some t
    | some p =>
      match steinerReduce ra ca A o p row (pivotNodes t.1.m row p) true t.1 with
      | none => none
      | some s => upLoop A o n (row + 1) (p + 1) (s, t.2 ++ [p])

/-- The loop of the full reduction, `/repo/pyzx/routing/steiner.py` lines 133-139: the rows `n - 1`, ..., `0`. -/
def downLoop (A : Arch) (o : Order) (pc : List ℕ) : ℕ → St X Y → Option (St X Y)
  | 0, s => some s
  | n + 1, s =>
    let nodes := (List.range n).filter fun r => get s.m r (pc.getD n 0)
    if nodes = [] then downLoop A o pc n s
    else (steinerReduce ra ca A o (pc.getD n 0) n (nodes ++ [n]) false s).bind (downLoop A o pc n)

/-- `steiner_gauss`, `/repo/pyzx/routing/steiner.py` lines 27-149: the final state and the returned rank. -/
def steinerGauss (A : Arch) (o : Order) (full : Bool) (s : St X Y) : Option (St X Y × ℕ) :=
  match upLoop ra ca A o s.m.length 0 0 (s, []) with
  | none => none
  | some t => if full then (downLoop ra ca A o t.2 t.2.length t.1).map fun s => (s, t.2.length) else some (t.1, t.2.length)

/-- One addition on the copy of the column, `/repo/pyzx/routing/steiner.py` lines 301, 315 and 324. -/
def colOp (a b : ℕ) (c : List Bool) : List Bool := c.set b (xor (c.getD b false) (c.getD a false))

/-- One step of lines 299-302 of `/repo/pyzx/routing/steiner.py`: the column and the yielded pairs. -/
def colZero (t : List Bool × List (ℕ × ℕ)) (e : ℕ × ℕ) : List Bool × List (ℕ × ℕ) :=
  if t.1.getD e.1 false then t else (colOp e.2 e.1 t.1, t.2 ++ [(e.2, e.1)])

/-- One step of lines 313-317 of `/repo/pyzx/routing/steiner.py`. -/
def colFill (t : List Bool × List (ℕ × ℕ)) (e : ℕ × ℕ) : List Bool × List (ℕ × ℕ) :=
  if t.1.getD e.2 false then t else (colOp e.1 e.2 t.1, t.2 ++ [(e.1, e.2)])

/-- `steiner_reduce_column`, `/repo/pyzx/routing/steiner.py` lines 275-330: the yielded row additions. -/
def reduceColumn (A : Arch) (o : Order) (col : List Bool) (root : ℕ) (nodes usable rec : List ℕ) (upper : Bool) : Option (List (ℕ × ℕ)) :=
  match recTree A o root nodes usable rec upper with
  | none => none
  | some (l1, l2) =>
    if inRange col.length (l1 ++ l2) then
      if upper then some ((((l1.filter fun e => !(col.getD e.1 false)).reverse).foldl colZero (col, [])).2 ++ l2)
      else some ((l1.foldl colFill (col, [])).2 ++ l2)
    else none

/-- `steiner_reduce` in `rec_steiner_gauss`, `/repo/pyzx/routing/steiner.py` lines 186-213. -/
def recReduce (A : Arch) (o : Order) (c : ℕ) (nodes usable rec : List ℕ) (upper : Bool) (s : St X Y) : Option (St X Y) :=
  if ∀ q ∈ nodes, q ∈ usable then
    match reduceColumn A o (s.m.map fun row => row.getD c false) c nodes usable rec upper with
    | none => none
    | some l => if ∀ e ∈ l, (e.1 ∈ usable ∨ e.1 ∈ rec) ∧ (e.2 ∈ usable ∨ e.2 ∈ rec) then some (addAll ra ca l s) else none
  else none

/-- The first loop of `rec_step`, `/repo/pyzx/routing/steiner.py` lines 220-224, for the remaining pivots. -/
def recUpper (A : Arch) (o : Order) : List ℕ → St X Y → Option (St X Y)
  | [], s => some s
  | c :: ps, s => (recReduce ra ca A o c ((c :: ps).filter fun r => decide (c = r) || get s.m r c) (c :: ps) [] true s).bind (recUpper A o ps)

/-- The second loop of `rec_step`, `/repo/pyzx/routing/steiner.py` lines 240-270, for the rest of the removal order and the recursive call. -/
def recLoop (f : List ℕ → St X Y → Option (St X Y)) (A : Arch) (o : Order) : List ℕ → St X Y → Option (St X Y)
  | [], s => some s
  | c :: us, s =>
    match ((c :: us).max?).bind fun k => shortestPath A c k with
    | none => none
    | some path =>
      let rq := path.map A.qubit
      let nodes := (c :: us).filter fun r => decide (r = c) || get s.m r c
      let s1 := if 1 < nodes.length then recReduce ra ca A o c nodes (c :: us) rq false s else some s
      let s2 := s1.bind fun s => if 1 < rq.length then f rq.reverse s else some s
      s2.bind (recLoop f A o us)

/-- `rec_step`, `/repo/pyzx/routing/steiner.py` lines 215-270. The fuel bounds the depth of the recursion. -/
def recStep (A : Arch) (o : Order) (full : Bool) : ℕ → List ℕ → St X Y → Option (St X Y)
  | 0, _, _ => none
  | fuel + 1, order, s =>
    (recUpper ra ca A o (order.insertionSort (· ≤ ·)) s).bind fun s => if full then recLoop ra ca (recStep A o full fuel) A o order s else some s

/-- The second loop of `rec_step` with its recursive calls. -/
def recFull (A : Arch) (o : Order) (full : Bool) (fuel : ℕ) : List ℕ → St X Y → Option (St X Y) := recLoop ra ca (recStep ra ca A o full fuel) A o

/-- `rec_steiner_gauss` without `permutation`, `/repo/pyzx/routing/steiner.py` lines 152-272. An entry outside of the matrix reads as 0 in
lines 222 and 257; the code raises. -/
def recGauss (A : Arch) (o : Order) (full : Bool) (fuel : ℕ) (s : St X Y) : Option (St X Y) := recStep ra ca A o full fuel A.order s

end

/-! ### The tracker -/

/-- `CNOT_tracker`, `/repo/pyzx/routing/parity_maps.py` lines 24-44: the CNOTs as pairs (control, target), and the parity matrix. -/
structure Tracker where
  /-- `self.gates` -/
  gates : List (ℕ × ℕ)
  /-- `self.matrix` -/
  mat : Data

/-- `CNOT_tracker(n)`, `/repo/pyzx/routing/parity_maps.py` lines 39-44. -/
def Tracker.new (n : ℕ) : Tracker := ⟨[], ident n⟩

/-- `CNOT_tracker.row_add`, `/repo/pyzx/routing/parity_maps.py` lines 66-75. -/
def Tracker.rowAdd (a b : ℕ) (t : Tracker) : Tracker := ⟨t.gates ++ [(a, b)], Mat2.rowAdd a b t.mat⟩

/-- `CNOT_tracker.col_add`, `/repo/pyzx/routing/parity_maps.py` lines 77-80 and 94-107. -/
def Tracker.colAdd (a b : ℕ) (t : Tracker) : Tracker := ⟨(b, a) :: t.gates, Mat2.colAdd a b t.mat⟩

/-- `CNOT_tracker.update_matrix`, `/repo/pyzx/routing/parity_maps.py` lines 122-131, for CNOTs. -/
def Tracker.update (n : ℕ) (t : Tracker) : Tracker := ⟨t.gates, t.gates.foldl (fun d e => Mat2.rowAdd e.1 e.2 d) (ident n)⟩

end Routing
end PyZX
