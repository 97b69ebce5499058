import Verif.Spec.Circuit

/-!
# Specification for C49: what an optimised circuit has to satisfy
-/

namespace PyZX
namespace OptSpec

/-- A gate of the set `HAD`, phase gates around Z, `NOT`, `CZ`, `CNOT`, on qubits below `n`. -/
inductive Handled (n : ℕ) : Gate → Prop
  | had {t : ℕ} (h : t < n) : Handled n (.had t)
  | phase {cls : ZCls} {t : ℕ} {p : ℚ} {adj : Bool} (h : t < n) : Handled n (.zrot cls t p adj)
  | not {t : ℕ} {p : ℚ} {adj : Bool} (h : t < n) (hp : mod2 p = 1) : Handled n (.xrot .not t p adj)
  | cz {c t : ℕ} (hct : c ≠ t) (hc : c < n) (ht : t < n) : Handled n (.cz c t)
  | cnot {c t : ℕ} (hct : c ≠ t) (hc : c < n) (ht : t < n) : Handled n (.cnot c t)

/-- A gate as the constructors of the classes make it: on distinct qubits, and with phase π if it is a `NOT`. -/
def WellFormed (g : Gate) : Prop := g.Valid ∧ ∀ t p adj, g = .xrot .not t p adj → mod2 p = 1

/-- The gate is a `CZ` or `CNOT` on the qubits `a` and `b`, in either order. -/
def On (g : Gate) (a b : ℕ) : Prop := g = .cz a b ∨ g = .cz b a ∨ g = .cnot a b ∨ g = .cnot b a

end OptSpec
end PyZX
