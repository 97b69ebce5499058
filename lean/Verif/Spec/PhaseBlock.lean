import Verif.Spec.Circuit

/-!
# Specification for C52: the gates of Clifford+T circuits
-/

namespace PyZX
namespace BlockSpec

/-- A `HAD`, `CZ` or `CNOT` gate, or a phase gate around Z whose phase is a multiple of `π/4`, on distinct qubits below `n`. -/
inductive Block (n : ℕ) : Gate → Prop
  | had {t : ℕ} (h : t < n) : Block n (.had t)
  | phase {cls : ZCls} {t : ℕ} {p : ℚ} {adj : Bool} (h : t < n) (hp : ∃ k : ℤ, p = k / 4) : Block n (.zrot cls t p adj)
  | cz {c t : ℕ} (hct : c ≠ t) (hc : c < n) (ht : t < n) : Block n (.cz c t)
  | cnot {c t : ℕ} (hct : c ≠ t) (hc : c < n) (ht : t < n) : Block n (.cnot c t)

/-- These gates and `NOT`. -/
inductive CliffordT (n : ℕ) : Gate → Prop
  | block {g : Gate} (h : Block n g) : CliffordT n g
  | not {t : ℕ} {p : ℚ} {adj : Bool} (h : t < n) (hp : mod2 p = 1) : CliffordT n (.xrot .not t p adj)

/-- The gates of the result of `phase_block_optimize`. -/
inductive BlockOut (n : ℕ) : Gate → Prop
  | block {g : Gate} (h : Block n g) : BlockOut n g
  | not {t : ℕ} (h : t < n) : BlockOut n (.mkNOT t)
  | swap {a b : ℕ} (hab : a < b) (hb : b < n) : BlockOut n (.swap a b)

end BlockSpec
end PyZX
