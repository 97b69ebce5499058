import Verif.Spec.Extract
import Verif.Spec.Circuit

/-!
# Specification: the norm of a state of `n` qubits
-/

namespace PyZX

/-- The square of the norm of a state of the first `n` qubits. -/
noncomputable def QState.norm2 (n : ℕ) (ψ : QState) : ℝ := ∑ x : Fin n → Bool, ‖ψ (Graph.bits x)‖ ^ 2

end PyZX
