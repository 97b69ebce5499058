import Verif.Spec.Circuit
import Verif.Spec.Linalg

/-!
# Specification of `parity_network` and `todd_simp`
-/

namespace PyZX
namespace ToddSpec

open Mat2

/-- The gates of a phase polynomial circuit on `n` qubits: phase gates with a multiple of `π/4`, CZ and CNOT. -/
def PhaseGate (n : ℕ) : Gate → Prop
  | .zrot _ t p _ => t < n ∧ ∃ k : ℤ, 4 * p = k
  | .cz c t => c < n ∧ t < n ∧ c ≠ t
  | .cnot c t => c < n ∧ t < n ∧ c ≠ t
  | _ => False

/-- At some time, when a basis state `x` is sent through the CNOTs, some qubit holds the parity `p` of `x`. -/
def Visits (n : ℕ) (cs : List (ℕ × ℕ)) (p : List Bool) : Prop :=
  ∃ c1 c2, cs = c1 ++ c2 ∧ ∃ q : Fin n, ∀ x : Fin n → ZMod 2, circAct c1 x q = ∑ k : Fin n, bit (p.getD k false) * x k

end ToddSpec
end PyZX
