import Verif.Model.ToGraph
import Verif.Model.Simp

/-!
# Model of `Circuit.verify_equality` and `BaseGraph.is_id`
-/

namespace PyZX

namespace Graph

/-- The test of lines 94-95 of `/repo/pyzx/circuit/__init__.py`: there are `2 * n` vertices and all edges are simple. -/
def onlyWires (g : Graph) (n : ℕ) : Prop := g.verts.card = n * 2 ∧ ∀ u ∈ g.verts, ∀ v ∈ g.verts, g.adj u v ≠ none → g.adj u v = some .simple

instance (g : Graph) (n : ℕ) : Decidable (g.onlyWires n) := inferInstanceAs (Decidable (_ ∧ _))

/-- The test of line 99 of `/repo/pyzx/circuit/__init__.py`: the inputs are connected to the outputs in order. -/
def straight (g : Graph) : Bool := (g.inputs.zip g.outputs).all fun p => (g.adj p.1 p.2).isSome

/-- `is_id`, `/repo/pyzx/graph/base.py` lines 527-540. -/
def isId (g : Graph) : Bool :=
  decide (g.inputs.length = g.outputs.length ∧ g.verts.card = 2 * g.inputs.length ∧ g.nedges = g.inputs.length) && g.straight

end Graph

namespace Verify

open ToGraph Simplify

/-- The outcome of `verify_equality`. -/
inductive Outcome
  | raised
  | running
  | answer (b : Bool)
deriving DecidableEq

/-- `verify_equality`, `/repo/pyzx/circuit/__init__.py` lines 72-101. `ord` is the order in which `to_graph` iterates over the labels, `ω`
and `fuel` are those of `full_reduce`. -/
noncomputable def verifyEquality (ord : Finset ℕ → List ℕ) (ω : ℕ → Orders) (fuel : ℕ) (c d : Circuit) (upToSwaps : Bool) : Outcome :=
  if c.bits ≠ 0 ∨ d.bits ≠ 0 then .raised
  else
    match c.adjoint.addCircuit d with
    | none => .raised
    | some e =>
      match toGraph ord false e with
      | none => .raised
      | some g =>
        match fullReduce ω fuel 0 g with
        | .raised => .raised
        | .running => .running
        | .done g' _ _ => .answer (decide (g'.onlyWires c.qubits) && (upToSwaps || g'.straight))

end Verify
end PyZX
