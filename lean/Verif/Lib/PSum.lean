import Mathlib.Algebra.BigOperators.Ring.Finset
import Mathlib.Data.Complex.Basic
import Mathlib.Data.Finset.Powerset
import Mathlib.Tactic

/-!
# Sums over Boolean assignments and products over unordered pairs

Generic library used by the path-sum semantics.
-/

namespace PyZX

open Finset

section PSum

variable {α : Type*} [DecidableEq α]

/-- The assignment equal to the indicator of `T` on `I` and to `b` elsewhere. -/
def setOn (I T : Finset α) (b : α → Bool) : α → Bool := fun v => if v ∈ I then decide (v ∈ T) else b v

/-- Sum of `f` over all assignments of the variables in `I`, the other variables being fixed by `b`. -/
def psum (I : Finset α) (f : (α → Bool) → ℂ) (b : α → Bool) : ℂ :=
  ∑ T ∈ I.powerset, f (setOn I T b)

theorem setOn_notMem {I T : Finset α} {b : α → Bool} {v : α} (h : v ∉ I) : setOn I T b v = b v := by
  simp [setOn, h]

theorem psum_congr {I : Finset α} {f g : (α → Bool) → ℂ} {b : α → Bool}
    (h : ∀ x : α → Bool, (∀ v, v ∉ I → x v = b v) → f x = g x) : psum I f b = psum I g b := by
  unfold psum
  exact Finset.sum_congr rfl fun T _ => h _ fun v hv => setOn_notMem hv

theorem psum_congr_env {I : Finset α} {f : (α → Bool) → ℂ} {b c : α → Bool}
    (h : ∀ v, v ∉ I → b v = c v) : psum I f b = psum I f c := by
  unfold psum
  refine Finset.sum_congr rfl fun T _ => ?_
  congr 1
  funext v
  unfold setOn
  split
  · rfl
  · exact h v ‹_›

@[simp] theorem psum_empty (f : (α → Bool) → ℂ) (b : α → Bool) : psum ∅ f b = f b := by
  have h : setOn ∅ ∅ b = b := by funext v; simp [setOn]
  simp [psum, h]

theorem psum_const_mul (I : Finset α) (c : ℂ) (f : (α → Bool) → ℂ) (b : α → Bool) :
    psum I (fun x => c * f x) b = c * psum I f b := by
  unfold psum; rw [Finset.mul_sum]

theorem psum_mul_const (I : Finset α) (c : ℂ) (f : (α → Bool) → ℂ) (b : α → Bool) :
    psum I (fun x => f x * c) b = psum I f b * c := by
  unfold psum; rw [Finset.sum_mul]

theorem psum_add (I : Finset α) (f g : (α → Bool) → ℂ) (b : α → Bool) :
    psum I (fun x => f x + g x) b = psum I f b + psum I g b := by
  unfold psum; rw [Finset.sum_add_distrib]

/-- Sum out one variable. -/
theorem psum_insert {I : Finset α} {v : α} (hv : v ∉ I) (f : (α → Bool) → ℂ) (b : α → Bool) :
    psum (insert v I) f b =
      psum I (fun x => f (Function.update x v false) + f (Function.update x v true)) b := by
  unfold psum
  rw [Finset.sum_powerset_insert hv, Finset.sum_add_distrib]
  congr 1
  · refine Finset.sum_congr rfl fun T hT => ?_
    congr 1
    funext w
    by_cases h : w = v
    · subst h
      have : w ∉ T := fun h' => hv (Finset.mem_powerset.mp hT h')
      simp [setOn, this]
    · simp [setOn, h]
  · refine Finset.sum_congr rfl fun T hT => ?_
    congr 1
    funext w
    by_cases h : w = v
    · subst h; simp [setOn]
    · simp [setOn, h]

/-- Sum out one variable (the variable is in the index set). -/
theorem psum_erase {I : Finset α} {v : α} (hv : v ∈ I) (f : (α → Bool) → ℂ) (b : α → Bool) :
    psum I f b =
      psum (I.erase v) (fun x => f (Function.update x v false) + f (Function.update x v true)) b := by
  conv_lhs => rw [← Finset.insert_erase hv]
  rw [psum_insert (Finset.notMem_erase v I)]

/-- Summing out a variable in the environment form. -/
theorem psum_insert_env {I : Finset α} {v : α} (hv : v ∉ I) (f : (α → Bool) → ℂ) (b : α → Bool) :
    psum (insert v I) f b =
      psum I f (Function.update b v false) + psum I f (Function.update b v true) := by
  rw [psum_insert hv, psum_add]
  have key : ∀ c, psum I (fun x => f (Function.update x v c)) b = psum I f (Function.update b v c) := by
    intro c
    unfold psum
    refine Finset.sum_congr rfl fun T hT => ?_
    show f _ = f _
    congr 1
    funext w
    by_cases h : w = v
    · subst h; simp [setOn, hv]
    · simp [setOn, Function.update_of_ne h]
  rw [key, key]

/-- Iterated summation. -/
theorem psum_union {I J : Finset α} (h : Disjoint I J) (f : (α → Bool) → ℂ) (b : α → Bool) :
    psum (I ∪ J) f b = psum I (psum J f) b := by
  induction I using Finset.induction_on generalizing b with
  | empty => simp
  | insert v I hv ih =>
    rw [Finset.disjoint_insert_left] at h
    rw [Finset.insert_union, psum_insert_env (by simp [hv, h.1]), ih h.2, ih h.2, psum_insert_env hv]

end PSum

/-- Unordered pairs `(a, b)` with `a < b` of elements of `s`. -/
def pairs (s : Finset ℕ) : Finset (ℕ × ℕ) := (s ×ˢ s).filter fun p => p.1 < p.2

theorem mem_pairs {s : Finset ℕ} {p : ℕ × ℕ} : p ∈ pairs s ↔ p.1 ∈ s ∧ p.2 ∈ s ∧ p.1 < p.2 := by
  simp [pairs, and_assoc]

section PairProd

variable {M : Type*} [CommMonoid M]

/-- Sum over unordered pairs. -/
def pairSum {A : Type*} [AddCommMonoid A] (s : Finset ℕ) (F : ℕ → ℕ → A) : A := ∑ p ∈ pairs s, F p.1 p.2

/-- Product over unordered pairs. -/
@[to_additive existing]
def pairProd (s : Finset ℕ) (F : ℕ → ℕ → M) : M := ∏ p ∈ pairs s, F p.1 p.2

@[to_additive]
theorem pairProd_congr {s : Finset ℕ} {F G : ℕ → ℕ → M}
    (h : ∀ a ∈ s, ∀ b ∈ s, a < b → F a b = G a b) : pairProd s F = pairProd s G := by
  unfold pairProd
  exact Finset.prod_congr rfl fun p hp => by
    obtain ⟨h1, h2, h3⟩ := mem_pairs.mp hp
    exact h _ h1 _ h2 h3

@[to_additive]
theorem pairProd_mul (s : Finset ℕ) (F G : ℕ → ℕ → M) :
    pairProd s (fun a b => F a b * G a b) = pairProd s F * pairProd s G := by
  unfold pairProd; rw [Finset.prod_mul_distrib]

@[to_additive]
theorem pairProd_one (s : Finset ℕ) : pairProd s (fun _ _ => (1 : M)) = 1 := by
  simp [pairProd]

@[to_additive (attr := simp)]
theorem pairProd_empty (F : ℕ → ℕ → M) : pairProd ∅ F = 1 := by simp [pairProd, pairs]

/-- Split off the pairs containing a given vertex. -/
@[to_additive]
theorem pairProd_insert {s : Finset ℕ} {v : ℕ} (hv : v ∉ s) {F : ℕ → ℕ → M}
    (hF : ∀ a b, F a b = F b a) : pairProd (insert v s) F = (∏ w ∈ s, F v w) * pairProd s F := by
  have hp : pairs (insert v s) =
      (s.filter (fun w => v < w)).image (fun w => (v, w)) ∪
        ((s.filter (fun w => w < v)).image (fun w => (w, v)) ∪ pairs s) := by
    ext ⟨a, b⟩
    simp only [mem_pairs, Finset.mem_insert, Finset.mem_union, Finset.mem_image, Finset.mem_filter,
      Prod.mk.injEq]
    constructor
    · rintro ⟨rfl | ha, rfl | hb, hlt⟩
      · exact absurd hlt (lt_irrefl _)
      · exact Or.inl ⟨b, ⟨hb, hlt⟩, rfl, rfl⟩
      · exact Or.inr (Or.inl ⟨a, ⟨ha, hlt⟩, rfl, rfl⟩)
      · exact Or.inr (Or.inr ⟨ha, hb, hlt⟩)
    · rintro (⟨w, ⟨hw, hlt⟩, rfl, rfl⟩ | ⟨w, ⟨hw, hlt⟩, rfl, rfl⟩ | ⟨ha, hb, hlt⟩)
      · exact ⟨Or.inl rfl, Or.inr hw, hlt⟩
      · exact ⟨Or.inr hw, Or.inl rfl, hlt⟩
      · exact ⟨Or.inr ha, Or.inr hb, hlt⟩
  have hd2 : Disjoint ((s.filter (fun w => w < v)).image (fun w => (w, v))) (pairs s) := by
    rw [Finset.disjoint_left]
    rintro ⟨a, b⟩ h1 h2
    simp only [Finset.mem_image, Finset.mem_filter, Prod.mk.injEq] at h1
    obtain ⟨w, -, -, rfl⟩ := h1
    exact hv (mem_pairs.mp h2).2.1
  have hd1 : Disjoint ((s.filter (fun w => v < w)).image (fun w => (v, w)))
      ((s.filter (fun w => w < v)).image (fun w => (w, v)) ∪ pairs s) := by
    rw [Finset.disjoint_left]
    rintro ⟨a, b⟩ h1 h2
    simp only [Finset.mem_image, Finset.mem_filter, Prod.mk.injEq, Finset.mem_union] at h1 h2
    obtain ⟨w, ⟨hw, hlt⟩, rfl, rfl⟩ := h1
    rcases h2 with ⟨w', ⟨hw', hlt'⟩, rfl, rfl⟩ | h2
    · exact absurd hlt (lt_irrefl _)
    · exact hv (mem_pairs.mp h2).1
  unfold pairProd
  rw [hp, Finset.prod_union hd1, Finset.prod_union hd2, ← mul_assoc]
  congr 1
  rw [Finset.prod_image (by intro a _ b _ h; exact (Prod.mk.inj h).2),
    Finset.prod_image (by intro a _ b _ h; exact (Prod.mk.inj h).1)]
  have hsplit : s = s.filter (fun w => v < w) ∪ s.filter (fun w => w < v) := by
    ext w
    simp only [Finset.mem_union, Finset.mem_filter]
    constructor
    · intro hw
      rcases lt_trichotomy v w with h | h | h
      · exact Or.inl ⟨hw, h⟩
      · subst h; exact absurd hw hv
      · exact Or.inr ⟨hw, h⟩
    · rintro (h | h) <;> exact h.1
  have hdis : Disjoint (s.filter (fun w => v < w)) (s.filter (fun w => w < v)) := by
    rw [Finset.disjoint_left]
    intro w h1 h2
    simp only [Finset.mem_filter] at h1 h2
    omega
  conv_rhs => rw [hsplit, Finset.prod_union hdis]
  congr 1
  exact Finset.prod_congr rfl fun w _ => hF _ _

@[to_additive]
theorem pairProd_erase {s : Finset ℕ} {v : ℕ} (hv : v ∈ s) {F : ℕ → ℕ → M}
    (hF : ∀ a b, F a b = F b a) : pairProd s F = (∏ w ∈ s.erase v, F v w) * pairProd (s.erase v) F := by
  conv_lhs => rw [← Finset.insert_erase hv]
  exact pairProd_insert (Finset.notMem_erase v s) hF

/-- Multiplying the factor of a single pair. -/
@[to_additive]
theorem pairProd_single {s : Finset ℕ} {a b : ℕ} (ha : a ∈ s) (hb : b ∈ s) (hab : a ≠ b)
    {F G : ℕ → ℕ → M} (hF : ∀ a b, F a b = F b a) (hG : ∀ a b, G a b = G b a) {c : M}
    (hc : G a b = F a b * c)
    (h : ∀ u w, ¬ (u = a ∧ w = b) → ¬ (u = b ∧ w = a) → G u w = F u w) :
    pairProd s G = pairProd s F * c := by
  have hb' : b ∈ s.erase a := Finset.mem_erase.mpr ⟨Ne.symm hab, hb⟩
  rw [pairProd_erase ha hG, pairProd_erase ha hF, ← Finset.mul_prod_erase _ _ hb',
    ← Finset.mul_prod_erase _ _ hb', hc]
  have h1 : ∏ w ∈ (s.erase a).erase b, G a w = ∏ w ∈ (s.erase a).erase b, F a w := by
    refine Finset.prod_congr rfl fun w hw => h _ _ ?_ ?_
    · rintro ⟨-, rfl⟩; simp at hw
    · rintro ⟨h', -⟩; exact hab h'
  have h2 : pairProd (s.erase a) G = pairProd (s.erase a) F := by
    refine pairProd_congr fun u hu w hw _ => h _ _ ?_ ?_
    · rintro ⟨rfl, -⟩; simp at hu
    · rintro ⟨-, rfl⟩; simp at hw
  rw [h1, h2, mul_assoc, mul_assoc, mul_assoc, mul_comm c, mul_assoc, mul_assoc]

end PairProd

end PyZX
