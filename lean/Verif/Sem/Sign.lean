import Verif.Sem.Frame

/-! # Signs and parities -/

namespace PyZX
open Finset

namespace Graph

/-- Sign of a bit. -/
noncomputable def sgn (c : Bool) : ℂ := if c then -1 else 1

theorem sgn_mul_self (c : Bool) : sgn c * sgn c = 1 := by cases c <;> simp [sgn]

theorem hmat_eq (a b : Bool) : hmat a b = sq2⁻¹ * (if a then sgn b else 1) := by
  cases a <;> cases b <;> simp [hmat, sgn]

theorem prod_sgn_sq (l : List Bool) : (l.map sgn).prod * (l.map sgn).prod = 1 := by
  induction l with
  | nil => simp
  | cons a l ih =>
    simp only [List.map_cons, List.prod_cons]
    linear_combination (sgn a * sgn a) * ih + sgn_mul_self a

theorem prod_hmat_list (c : Bool) (l : List Bool) :
    (l.map (hmat c)).prod = (sq2⁻¹) ^ l.length * (if c then (l.map sgn).prod else 1) := by
  induction l with
  | nil => simp
  | cons a l ih =>
    simp only [List.map_cons, List.prod_cons, List.length_cons, ih, hmat_eq]
    cases c <;> simp <;> ring

theorem hmat_sgn (a b : Bool) : hmat a b = sq2⁻¹ * sgn (a && b) := by
  cases a <;> cases b <;> simp [hmat, sgn]

/-- The parity of a list of bits. -/
theorem exists_par (l : List Bool) : ∃ p : Bool, ∀ c : Bool, (l.map fun b => sgn (c && b)).prod = sgn (c && p) := by
  induction l with
  | nil => exact ⟨false, fun c => by simp [sgn]⟩
  | cons a l ih =>
    obtain ⟨p, hp⟩ := ih
    refine ⟨xor a p, fun c => ?_⟩
    rw [List.map_cons, List.prod_cons, hp]
    cases a <;> cases p <;> cases c <;> simp [sgn]

theorem exists_par_fin (s : Finset ℕ) (x : ℕ → Bool) :
    ∃ p : Bool, ∀ c : Bool, ∏ w ∈ s, sgn (c && x w) = sgn (c && p) := by
  induction s using Finset.induction_on with
  | empty => exact ⟨false, fun c => by simp [sgn]⟩
  | insert a s ha ih =>
    obtain ⟨p, hp⟩ := ih
    refine ⟨xor (x a) p, fun c => ?_⟩
    rw [Finset.prod_insert ha, hp]
    cases x a <;> cases p <;> cases c <;> simp [sgn]

theorem prod_hmat_fin {s : Finset ℕ} {x : ℕ → Bool} {p : Bool} (h : ∀ c : Bool, ∏ w ∈ s, sgn (c && x w) = sgn (c && p))
    (c : Bool) : ∏ w ∈ s, hmat c (x w) = (sq2⁻¹) ^ s.card * sgn (c && p) := by
  simp only [hmat_sgn]
  rw [Finset.prod_mul_distrib, Finset.prod_const, h]

theorem prod_hmat_fin₂ {s t : Finset ℕ} {x : ℕ → Bool} {p q : Bool} (h : ∀ c : Bool, ∏ w ∈ s, sgn (c && x w) = sgn (c && p))
    (h' : ∀ c : Bool, ∏ w ∈ t, sgn (c && x w) = sgn (c && q)) :
    ∏ v ∈ s, ∏ w ∈ t, hmat (x v) (x w) = (sq2⁻¹) ^ (s.card * t.card) * sgn (p && q) := by
  simp only [prod_hmat_fin h']
  rw [Finset.prod_mul_distrib, Finset.prod_const, ← pow_mul, Nat.mul_comm]
  congr 1
  have := h q
  simp only [Bool.and_comm q] at this
  exact this

end Graph
end PyZX
