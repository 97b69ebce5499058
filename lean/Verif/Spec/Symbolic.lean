import Verif.Model.Symbolic

/-!
# Specification: values of symbolic phases
-/

namespace PyZX
namespace Symb

/-- The value of a product of powers. -/
noncomputable def tval (ρ : String → ℂ) (t : Term) : ℂ := (t.map fun p => ρ p.1.name ^ p.2).prod

/-- The value of a polynomial. -/
noncomputable def pval (ρ : String → ℂ) (p : Poly) : ℂ := (p.map fun e => e.1.val * tval ρ e.2).sum

/-- The valuation gives 0 or 1 to every Boolean variable of the polynomial. -/
def BoolVal (ρ : String → ℂ) (p : Poly) : Prop := ∀ e ∈ p, ∀ x ∈ e.2, x.1.isBool = true → ρ x.1.name = 0 ∨ ρ x.1.name = 1

/-- Equal phases: the difference is an even integer. -/
def EqMod2 (a b : ℂ) : Prop := ∃ k : ℤ, a - b = 2 * k

end Symb
end PyZX
