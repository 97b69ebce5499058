import Verif.Model.ToGraph
import Verif.Spec.Circuit
import Verif.Spec.Matrix

/-!
# Specification: the linear map of a circuit with ancillas

A basis state of `n` qubits, and the (unnormalised) preparation of `|0⟩ + |1⟩` and the effect `⟨0| + ⟨1|`.
-/

namespace PyZX

/-- The basis state of the first `n` qubits given by `x`. -/
noncomputable def basisState (n : ℕ) (x : ℕ → Bool) : QState := fun o => if ∀ q < n, o q = x q then 1 else 0

namespace ToGraph

/-- The linear map of an operation: a gate is its matrix, `InitAncilla` prepares `|0⟩ + |1⟩`, `PostSelect` applies `⟨0| + ⟨1|`. -/
noncomputable def Op.sem : Op → QState → QState
  | .gate g => g.sem
  | .init l => fun ψ o => ψ (Function.update o l false)
  | .post l => fun ψ o => ∑ i : Bool, ψ (Function.update o l i)

/-- The linear map of a list of operations, first one first. -/
noncomputable def semOps (ops : List Op) (ψ : QState) : QState := ops.foldl (fun ψ o => o.sem ψ) ψ

/-- The labels in use after some operations, if every gate acts on different qubits in use, every new ancilla is not in use,
and every ancilla is in use when it is removed. -/
def labelsAfter (L : Finset ℕ) : List Op → Option (Finset ℕ)
  | [] => some L
  | .gate g :: r => if g.qubits ≠ [] ∧ g.qubits.Nodup ∧ ∀ q ∈ g.qubits, q ∈ L then labelsAfter L r else none
  | .init l :: r => if l ∈ L then none else labelsAfter (insert l L) r
  | .post l :: r => if l ∈ L then labelsAfter (L.erase l) r else none

/-- `ord` iterates over every element of a set once. -/
def LabelOrder (ord : Finset ℕ → List ℕ) : Prop := ∀ s, (ord s).Nodup ∧ (ord s).toFinset = s

end ToGraph
end PyZX
