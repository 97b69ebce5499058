import Verif.Lib.Phase

/-!
# Model of the symbolic phases, `pyzx/symbolic.py`

Variables are frozen: a name and the flag for Boolean variables. Two variables are equal if their names are (the code compares hashes of the names;
hashes are assumed to have no collisions). Exponents are natural numbers; division, which may create negative ones, is not modelled. Coefficients are
rational numbers (`int`, `Fraction`; `float` without rounding) or complex numbers.
-/

namespace PyZX
namespace Symb

/-- `Var`, `/repo/pyzx/symbolic.py` lines 31-86. -/
structure Var where
  name : String
  isBool : Bool

/-- `Term`, `/repo/pyzx/symbolic.py` lines 88-92: the variables with their exponents. -/
abbrev Term := List (Var × ℕ)

/-- Coefficients: `int`, `float` and `Fraction` are rational numbers, `complex` is separate because the code tests for it. -/
inductive Coef where
  | rat (q : ℚ)
  | cpx (z : ℂ)

/-- The number a coefficient stands for. -/
noncomputable def Coef.val : Coef → ℂ
  | .rat q => (q : ℂ)
  | .cpx z => z

/-- Addition of Python numbers. -/
noncomputable def Coef.add : Coef → Coef → Coef
  | .rat p, .rat q => .rat (p + q)
  | a, b => .cpx (a.val + b.val)

/-- Multiplication of Python numbers. -/
noncomputable def Coef.mul : Coef → Coef → Coef
  | .rat p, .rat q => .rat (p * q)
  | a, b => .cpx (a.val * b.val)

/-- Negation of Python numbers. -/
noncomputable def Coef.neg : Coef → Coef
  | .rat p => .rat (-p)
  | .cpx z => .cpx (-z)

/-- Power of Python numbers. -/
noncomputable def Coef.pow : Coef → ℕ → Coef
  | .rat p, n => .rat (p ^ n)
  | .cpx z, n => .cpx (z ^ n)

/-- `Poly`, `/repo/pyzx/symbolic.py` lines 149-153. -/
abbrev Poly := List (Coef × Term)

/-- The dictionary update of one round of `Term.__mul__`, `/repo/pyzx/symbolic.py` lines 113-117. The key of the first occurrence stays. The test of
line 116 looks at the exponent `c` that is added, not at the sum. -/
def Term.insert : Term → Var × ℕ → Term
  | [], (v, c) => [(v, if v.isBool ∧ 1 < c then 1 else c)]
  | (w, k) :: r, (v, c) =>
      if w.name = v.name then (w, if v.isBool ∧ 1 < c then 1 else k + c) :: r else (w, k) :: Term.insert r (v, c)

/-- `Term.__mul__`, `/repo/pyzx/symbolic.py` lines 110-118. -/
def Term.mul (s t : Term) : Term := (s ++ t).foldl Term.insert []

/-- `Term.__eq__`, `/repo/pyzx/symbolic.py` lines 120-124: equal after sorting, i.e. the same names and exponents in some order. -/
def Term.same (s t : Term) : Prop := (s.map fun p => (p.1.name, p.2)).Perm (t.map fun p => (p.1.name, p.2))

/-- `len(t.vars) > 0 and all(tt[0].is_bool for tt in t.vars)`, `/repo/pyzx/symbolic.py` line 176. -/
def Term.allBool (t : Term) : Prop := t ≠ [] ∧ ∀ p ∈ t, p.1.isBool = true

open Classical in
/-- The reduction of lines 175-177 of `/repo/pyzx/symbolic.py`. -/
noncomputable def reduce (c : Coef) (t : Term) : Coef :=
  match c with
  | .rat q => if Term.allBool t then .rat (mod2 q) else .rat q
  | .cpx z => .cpx z

open Classical in
/-- One round of the loop of `Poly.__add__`, `/repo/pyzx/symbolic.py` lines 172-177; the dictionary as a list of entries in order of insertion. -/
noncomputable def Poly.insert : Poly → Coef × Term → Poly
  | [], (c, t) => [(reduce c t, t)]
  | (d, s) :: r, (c, t) => if Term.same s t then (reduce (d.add c) t, s) :: r else (d, s) :: Poly.insert r (c, t)

open Classical in
/-- `Poly.__add__`, `/repo/pyzx/symbolic.py` lines 168-183. -/
noncomputable def Poly.add (p q : Poly) : Poly := ((p ++ q).foldl Poly.insert []).filter fun e => decide (e.1.val ≠ 0)

/-- A number as a polynomial, `/repo/pyzx/symbolic.py` lines 169-170 and `new_const`, line 334. -/
def Poly.const (c : Coef) : Poly := [(c, [])]

/-- `new_var`, `/repo/pyzx/symbolic.py` line 331. -/
def Poly.var (v : Var) : Poly := [(.rat 1, [(v, 1)])]

/-- `Poly.__neg__`, `/repo/pyzx/symbolic.py` lines 187-188. -/
noncomputable def Poly.neg (p : Poly) : Poly := p.map fun e => (e.1.neg, e.2)

/-- `Poly.__sub__`, `/repo/pyzx/symbolic.py` lines 190-191. -/
noncomputable def Poly.sub (p q : Poly) : Poly := p.add q.neg

/-- `Poly.__mul__`, `/repo/pyzx/symbolic.py` lines 196-203. -/
noncomputable def Poly.mul (p q : Poly) : Poly :=
  p.foldl (fun acc a => q.foldl (fun acc b => acc.add [(a.1.mul b.1, a.2.mul b.2)]) acc) []

/-- `Poly.__pow__` for non-negative exponents, `/repo/pyzx/symbolic.py` lines 223-230. -/
noncomputable def Poly.pow (p : Poly) : ℕ → Poly
  | 0 => Poly.const (.rat 1)
  | 1 => p
  | n + 2 => p.mul (Poly.pow p (n + 1))

/-- `Poly.__mod__` with modulus 2, `/repo/pyzx/symbolic.py` lines 232-233. -/
noncomputable def Poly.mod2 (p : Poly) : Poly := p.filterMap fun e =>
  match e.1 with
  | .rat q => some (.rat (PyZX.mod2 q), e.2)
  | .cpx _ => none

/-- `Poly.__eq__`, `/repo/pyzx/symbolic.py` lines 249-256: the same set of pairs. -/
def Poly.eq (p q : Poly) : Prop :=
  (∀ a ∈ p, ∃ b ∈ q, a.1.val = b.1.val ∧ Term.same a.2 b.2) ∧ ∀ b ∈ q, ∃ a ∈ p, a.1.val = b.1.val ∧ Term.same a.2 b.2

/-- `Poly.is_pauli`, `/repo/pyzx/symbolic.py` lines 286-295. -/
def Poly.isPauli (p : Poly) : Prop := ∀ e ∈ p, ∃ q, e.1 = .rat q ∧ (∀ x ∈ e.2, x.1.isBool = true) ∧ Int.fract q = 0

/-- `Poly.is_clifford`, `/repo/pyzx/symbolic.py` lines 297-310. -/
def Poly.isClifford (p : Poly) : Prop := ∀ e ∈ p, ∃ q, e.1 = .rat q ∧ (∀ x ∈ e.2, x.1.isBool = true) ∧
  if e.2 ≠ [] then Int.fract q = 0 else Int.fract (q * 2) = 0

/-- `Term.substitute`, `/repo/pyzx/symbolic.py` lines 134-146. -/
noncomputable def Term.substitute (m : String → Option Coef) : Term → Coef × Term
  | t => t.foldl (fun s p => match m p.1.name with
      | some x => (s.1.mul (x.pow p.2), s.2)
      | none => (s.1, s.2 ++ [p])) (.rat 1, [])

/-- `Poly.substitute`, `/repo/pyzx/symbolic.py` lines 323-329. -/
noncomputable def Poly.substitute (m : String → Option Coef) (p : Poly) : Poly :=
  p.foldl (fun acc e => acc.add [(e.1.mul (Term.substitute m e.2).1, (Term.substitute m e.2).2)]) []

end Symb
end PyZX
