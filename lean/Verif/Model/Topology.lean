import Verif.Model.Routing

/-!
# Model of the constructors of architectures in `pyzx/routing/architecture.py`
-/

namespace PyZX
namespace Routing

/-- Setting a key of a dictionary; an existing key keeps its place. -/
def insKey (l : List ℕ) (x : ℕ) : List ℕ := if x ∈ l then l else l ++ [x]

/-- `self.graph[s][t] = ...`, `/repo/pyzx/graph/graph_s.py` line 119. -/
def setNbr (s t : ℕ) (adj : List (ℕ × List ℕ)) : List (ℕ × List ℕ) := adj.map fun p => if p.1 = s then (p.1, insKey p.2 t) else p

/-- `Graph()`, `add_vertices(n)` and `add_edges(edges)`, `/repo/pyzx/graph/graph_s.py` lines 83-120. Edge types are left out. -/
def fromEdges (n : ℕ) (es : List (ℕ × ℕ)) : List (ℕ × List ℕ) :=
  es.foldl (fun adj e => setNbr e.2 e.1 (setNbr e.1 e.2 adj)) ((List.range n).map fun v => (v, []))

/-- `connect_vertices_in_line`, `/repo/pyzx/routing/architecture.py` lines 497-498. -/
def lineEdges (vs : List ℕ) : List (ℕ × ℕ) := vs.zip vs.tail

/-- `connect_vertices_as_grid`, `/repo/pyzx/routing/architecture.py` lines 500-508. -/
def gridEdges (w h : ℕ) (vs : List ℕ) : List (ℕ × ℕ) :=
  let lines := (List.range h).map fun i => (vs.drop (i * w)).take w
  lineEdges vs ++ (lines.zip lines.tail).flatMap fun p => p.1.dropLast.zip p.2.tail.reverse

/-- `create_line_architecture`, `/repo/pyzx/routing/architecture.py` lines 510-516: the coupling graph. -/
def lineGraph (n : ℕ) : List (ℕ × List ℕ) := fromEdges n (lineEdges (List.range n))

/-- `create_circle_architecture`, `/repo/pyzx/routing/architecture.py` lines 518-525: the coupling graph. `vertices[-1]` of no vertices raises. -/
def circleGraph (n : ℕ) : List (ℕ × List ℕ) := fromEdges n (lineEdges (List.range n) ++ [(n - 1, 0)])

/-- `create_square_architecture`, `/repo/pyzx/routing/architecture.py` lines 527-537: the coupling graph for `k * k` qubits. -/
def squareGraph (k : ℕ) : List (ℕ × List ℕ) := fromEdges (k * k) (gridEdges k k (List.range (k * k)))

/-- `create_fully_connected_architecture`, `/repo/pyzx/routing/architecture.py` lines 723-731 and 83-89: the coupling graph. -/
def fullGraph (n : ℕ) : List (ℕ × List ℕ) :=
  fromEdges n ((List.range n).flatMap fun i => ((List.range n).filter fun j => decide (i ≠ j)).map fun j => (i, j))

end Routing
end PyZX
