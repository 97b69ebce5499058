import Verif.Model.Linalg
import Mathlib.LinearAlgebra.Matrix.Rank
import Mathlib.Data.ZMod.Basic

/-!
# Specification for `pyzx/linalg.py`: lists of bits as matrices over `ZMod 2`
-/

namespace PyZX
namespace Mat2

/-- A rectangular list of rows. -/
def Rect (r c : ℕ) (d : Data) : Prop := d.length = r ∧ ∀ row ∈ d, row.length = c

/-- The bit as an element of the field with two elements. -/
def bit (b : Bool) : ZMod 2 := if b then 1 else 0

/-- The matrix denoted by a list of rows. -/
def mat (r c : ℕ) (d : Data) : Matrix (Fin r) (Fin c) (ZMod 2) := fun i j => bit (get d i j)

/-- Row echelon form: the first non-zero entry of a row is further to the right than that of every row above, and zero rows are
at the bottom. -/
def Echelon {r c : ℕ} (M : Matrix (Fin r) (Fin c) (ZMod 2)) : Prop :=
  ∀ i i' j, i < i' → M i' j ≠ 0 → ∃ l < j, M i l ≠ 0 ∧ ∀ l' ≤ l, M i' l' = 0

/-- Reduced row echelon form: furthermore the first non-zero entry of a row is the only non-zero entry of its column. -/
def Reduced {r c : ℕ} (M : Matrix (Fin r) (Fin c) (ZMod 2)) : Prop :=
  Echelon M ∧ ∀ i j, M i j ≠ 0 → (∀ l < j, M i l = 0) → ∀ i', i' ≠ i → M i' j = 0

/-- The row space. -/
def rowSpace {r c : ℕ} (M : Matrix (Fin r) (Fin c) (ZMod 2)) : Submodule (ZMod 2) (Fin c → ZMod 2) :=
  Submodule.span (ZMod 2) (Set.range M.row)

/-- The column vector denoted by a list of one-element rows. -/
def vec (c : ℕ) (x : Data) : Fin c → ZMod 2 := fun j => bit (get x j 0)

/-- The vector denoted by a list of bits. -/
def rowVec (c : ℕ) (v : List Bool) : Fin c → ZMod 2 := fun j => bit (v.getD j false)

/-- A list of bit vectors is a basis of the kernel. -/
def KerBasis {r c : ℕ} (M : Matrix (Fin r) (Fin c) (ZMod 2)) (N : List (List Bool)) : Prop :=
  (∀ v ∈ N, v.length = c) ∧ LinearIndependent (ZMod 2) (fun k : Fin N.length => rowVec c (N.get k)) ∧
    ∀ w, w ∈ Submodule.span (ZMod 2) (Set.range fun k : Fin N.length => rowVec c (N.get k)) ↔ M.mulVec w = 0

/-- The effect on a computational basis state of a CNOT with control `g.1` and target `g.2`. -/
def cnotAct {r : ℕ} (g : ℕ × ℕ) (v : Fin r → ZMod 2) : Fin r → ZMod 2 :=
  fun i => if (i : ℕ) = g.2 then v i + (if h : g.1 < r then v ⟨g.1, h⟩ else 0) else v i

/-- The effect of a circuit of CNOTs, first gate first. -/
def circAct {r : ℕ} (gs : List (ℕ × ℕ)) (v : Fin r → ZMod 2) : Fin r → ZMod 2 := gs.foldl (fun v g => cnotAct g v) v

end Mat2
end PyZX
