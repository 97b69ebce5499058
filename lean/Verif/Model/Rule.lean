import Verif.Model.Graph

/-!
# Edge tables and rule application (`rules.py` lines 65-76)
-/

namespace PyZX

namespace ETab

open Graph (ETab)

/-- `etab.get(k, [0,0])`. -/
def get : ETab → ℕ × ℕ → ℕ × ℕ
  | [], _ => (0, 0)
  | (k', p) :: t, k => if k' = k then p else get t k

/-- `etab[k] = f(etab.get(k, [0,0]))`; a new key is inserted at the end as in a Python dictionary. -/
def upd : ETab → ℕ × ℕ → (ℕ × ℕ → ℕ × ℕ) → ETab
  | [], k, f => [(k, f (0, 0))]
  | (k', p) :: t, k, f => if k' = k then (k', f p) :: t else (k', p) :: upd t k f

/-- `etab[k][0] += 1` or `etab[k][1] += 1` depending on the edge type (index `edge_type - 1`). A `W_IO` edge would
index out of range; well-formed diagrams have none, here it counts as Hadamard. -/
def incr (t : ETab) (k : ℕ × ℕ) (e : EType) : ETab :=
  upd t k fun p => if e = .simple then (p.1 + 1, p.2) else (p.1, p.2 + 1)

/-- `etab[k] = [0, he + 1]`. -/
def setHad (t : ETab) (k : ℕ × ℕ) : ETab := upd t k fun p => (0, p.2 + 1)

end ETab

/-- Mutated graph plus the output tuple of a rewrite, `/repo/pyzx/rules.py` line 61 (`RewriteOutputType`). -/
structure RewriteState where
  g : Graph
  etab : Graph.ETab
  remVerts : List ℕ
  remEdges : List (ℕ × ℕ)

namespace RewriteState

/-- Initial state of the accumulators of a rewrite. -/
def start (g : Graph) : RewriteState := ⟨g, [], [], []⟩

/-- The part of `apply_rule` before the removal of isolated vertices, `/repo/pyzx/rules.py` lines 73-75
(the same three calls are in `/repo/pyzx/simplify.py` lines 89-91). -/
noncomputable def finish (s : RewriteState) : Option Graph :=
  (s.g.addEdgeTable s.etab).bind fun g1 =>
  (g1.removeEdges s.remEdges).bind fun g2 => g2.removeVertices s.remVerts

end RewriteState
end PyZX
