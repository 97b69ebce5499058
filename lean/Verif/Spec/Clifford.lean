import Verif.Spec.Simp
import Verif.Spec.Linalg
import Verif.Model.Extract

/-!
# Specification: Clifford phases, and choices of row additions that make progress
-/

namespace PyZX
namespace Graph

/-- Multiples of π/2. -/
def Clifford (p : ℚ) : Prop := (0 ≤ p ∧ p < 2) ∧ (2 * p).isInt

end Graph

namespace Gate

/-- Clifford gates: Hadamard, CNOT, CZ, XCX, CY and SWAP gates, and rotations (also those of several qubits, RXX, U2 and U3) with angles that
are multiples of π/2. -/
def IsClifford : Gate → Prop
  | .zrot _ _ p _ => (2 * p).isInt
  | .xrot _ _ p _ => (2 * p).isInt
  | .yrot _ _ p => (2 * p).isInt
  | .had _ => True
  | .cnot _ _ => True
  | .cz _ _ => True
  | .xcx _ _ => True
  | .swap _ _ => True
  | .cy _ _ => True
  | .rxx _ _ p => (2 * p).isInt
  | .parity p _ => (2 * p).isInt
  | .rzz _ _ _ p => (2 * p).isInt
  | .u2 _ p q => (2 * p).isInt ∧ (2 * q).isInt
  | .u3 _ p q r => (2 * p).isInt ∧ (2 * q).isInt ∧ (2 * r).isInt
  | _ => False

end Gate

namespace Extract

/-- A strategy that makes progress: for every invertible `k × k` matrix, `k ≤ n`, in which no row has exactly one entry it gives row
additions after which some row has exactly one entry. -/
def ChooseGood (n : ℕ) (choose : ℕ → Mat2.Data → Option (List (ℕ × ℕ))) : Prop :=
  ∀ t k m, 0 < k → k ≤ n → Mat2.Rect k k m → IsUnit (Mat2.mat k k m) → (∀ row ∈ m, row.count true ≠ 1) →
    ∃ cs, choose t m = some cs ∧ (∀ c ∈ cs, c.1 < k ∧ c.2 < k ∧ c.1 ≠ c.2) ∧ ∃ row ∈ addRows m cs, row.count true = 1

/-- The filter for the CNOTs gives CNOTs with the same effect. -/
def FiltOK (filt : List (ℕ × ℕ) → Option (List (ℕ × ℕ))) : Prop :=
  ∀ k cs, (∀ c ∈ cs, c.1 < k ∧ c.2 < k ∧ c.1 ≠ c.2) →
    ∃ cs', filt cs = some cs' ∧ (∀ c ∈ cs', c.1 < k ∧ c.2 < k ∧ c.1 ≠ c.2) ∧ ∀ v : Fin k → ZMod 2, Mat2.circAct cs' v = Mat2.circAct cs v

end Extract
end PyZX
