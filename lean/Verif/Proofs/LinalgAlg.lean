import Verif.Proofs.Linalg
import Mathlib.LinearAlgebra.Dimension.Constructions
import Mathlib.Algebra.Field.ZMod

/-!
# Row operations as matrices, echelon forms and rank
-/

namespace PyZX
namespace Mat2

open Matrix

theorem bit_xor (a b : Bool) : bit (xor a b) = bit a + bit b := by
  cases a <;> cases b <;> decide

theorem bit_ne_zero {a : Bool} : bit a ≠ 0 ↔ a = true := by cases a <;> decide

theorem bit_eq_zero {a : Bool} : bit a = 0 ↔ a = false := by cases a <;> decide

theorem bit_inj {a b : Bool} : bit a = bit b ↔ a = b := by cases a <;> cases b <;> decide

theorem bit_true : bit true = 1 := rfl
theorem bit_false : bit false = 0 := rfl

theorem zmod2_ne {a : ZMod 2} : a ≠ 0 ↔ a = 1 := by revert a; decide

/-- The elementary matrix that adds row `a` to row `b`. -/
def ed (r a b : ℕ) : Matrix (Fin r) (Fin r) (ZMod 2) := fun i j => (if i = j then 1 else 0) + if i.1 = b ∧ j.1 = a then 1 else 0

theorem ed_mul {r c a b : ℕ} (ha : a < r) (M : Matrix (Fin r) (Fin c) (ZMod 2)) (i : Fin r) (j : Fin c) :
    (ed r a b * M) i j = M i j + if i.1 = b then M ⟨a, ha⟩ j else 0 := by
  simp only [Matrix.mul_apply, ed, add_mul, Finset.sum_add_distrib, ite_mul, one_mul, zero_mul, Finset.sum_ite_eq, Finset.mem_univ, if_true]
  congr 1
  by_cases h : i.1 = b
  · simp only [h, true_and, if_true]
    rw [Finset.sum_eq_single ⟨a, ha⟩]
    · simp
    · intro k _ hk
      rw [if_neg (fun h => hk (Fin.ext h))]
    · simp
  · simp [h]

theorem mul_ed {q r a b : ℕ} (hb : b < r) (M : Matrix (Fin q) (Fin r) (ZMod 2)) (i : Fin q) (j : Fin r) :
    (M * ed r a b) i j = M i j + if j.1 = a then M i ⟨b, hb⟩ else 0 := by
  simp only [Matrix.mul_apply, ed, mul_add, Finset.sum_add_distrib, mul_ite, mul_one, mul_zero, Finset.sum_ite_eq', Finset.mem_univ, if_true]
  congr 1
  by_cases h : j.1 = a
  · simp only [h, and_true, if_true]
    rw [Finset.sum_eq_single ⟨b, hb⟩]
    · simp
    · intro k _ hk
      rw [if_neg (fun h => hk (Fin.ext h))]
    · simp
  · simp [h]

theorem ed_sq {r a b : ℕ} (h : Valid r a b) : ed r a b * ed r a b = 1 := by
  ext i j
  rw [ed_mul h.1]
  have hab := h.2.2
  simp only [ed, Matrix.one_apply]
  by_cases h1 : i.1 = b
  · have h2 : ¬ (a = b) := hab
    simp only [h1, true_and, if_true, h2, false_and, if_false, add_zero]
    by_cases h3 : j.1 = a
    · have : (⟨a, h.1⟩ : Fin r) = j := Fin.ext h3.symm
      have h4 : ¬ (i = j) := fun e => h2 (by rw [← h1, e, h3])
      simp only [h3, if_true, this, h4, if_false]
      decide
    · have : ¬ (⟨a, h.1⟩ : Fin r) = j := fun e => h3 (by rw [← e])
      simp [h3, this]
  · simp [h1]

theorem mat_rowAdd {r c a b : ℕ} {d : Data} (h : Rect r c d) (hv : Valid r a b) : mat r c (rowAdd a b d) = ed r a b * mat r c d := by
  ext i j
  rw [ed_mul hv.1]
  simp only [mat]
  rw [get_rowAdd h hv.1 hv.2.1]
  by_cases hi : i.1 = b
  · rw [if_pos hi, if_pos hi, bit_xor, hi]
  · rw [if_neg hi, if_neg hi, add_zero]

theorem get_colAdd {q r a b : ℕ} {d : Data} (h : Rect q r d) (ha : a < r) (i j : ℕ) (hi : i < q) :
    get (colAdd b a d) i j = if j = a then xor (get d i a) (get d i b) else get d i j := by
  have h1 : i < d.length := h.1 ▸ hi
  have hl := h.length_getD hi
  unfold get colAdd
  have e : (d.map fun row => if row.getD b false then row.set a (!(row.getD a false)) else row).getD i [] =
      if (d.getD i []).getD b false then (d.getD i []).set a (!((d.getD i []).getD a false)) else d.getD i [] := by
    simp [List.getD_eq_getElem?_getD, List.getElem?_eq_getElem h1]
  rw [e]
  by_cases hb : (d.getD i []).getD b false = true
  · rw [if_pos hb]
    by_cases hj : j = a
    · subst hj
      rw [if_pos rfl, List.getD_eq_getElem?_getD, List.getElem?_set_self (by rw [hl]; exact ha), hb]
      simp
    · rw [if_neg hj, List.getD_eq_getElem?_getD, List.getElem?_set_ne (Ne.symm hj), ← List.getD_eq_getElem?_getD]
  · rw [if_neg hb]
    have hb' : (d.getD i []).getD b false = false := by simpa using hb
    rw [hb']
    split_ifs with hj
    · subst hj; simp
    · rfl

theorem Rect.colAdd {q r a b : ℕ} {d : Data} (h : Rect q r d) : Rect q r (colAdd b a d) := by
  refine ⟨by simp [Mat2.colAdd, h.1], fun row hrow => ?_⟩
  simp only [Mat2.colAdd, List.mem_map] at hrow
  obtain ⟨row', h1, rfl⟩ := hrow
  split
  · rw [List.length_set]; exact h.2 _ h1
  · exact h.2 _ h1

theorem mat_colAdd {q r a b : ℕ} {d : Data} (h : Rect q r d) (hv : Valid r a b) : mat q r (colAdd b a d) = mat q r d * ed r a b := by
  ext i j
  rw [mul_ed hv.2.1]
  simp only [mat]
  rw [get_colAdd h hv.1 _ _ i.2]
  by_cases hj : j.1 = a
  · rw [if_pos hj, if_pos hj, bit_xor, hj]
  · rw [if_neg hj, if_neg hj, add_zero]

/-- Every list of row operations is an invertible matrix, which acts on the left by row operations, and whose inverse acts on the
right by the corresponding column operations. -/
theorem log_mats {r : ℕ} (L : List (ℕ × ℕ)) (hL : ∀ p ∈ L, Valid r p.1 p.2) :
    ∃ E E' : Matrix (Fin r) (Fin r) (ZMod 2), E * E' = 1 ∧ E' * E = 1 ∧
      (∀ c d, Rect r c d → Rect r c (L.foldl (fun d p => rowAdd p.1 p.2 d) d) ∧
        mat r c (L.foldl (fun d p => rowAdd p.1 p.2 d) d) = E * mat r c d) ∧
      (∀ q y, Rect q r y → Rect q r (L.foldl (fun y p => colAdd p.2 p.1 y) y) ∧
        mat q r (L.foldl (fun y p => colAdd p.2 p.1 y) y) = mat q r y * E') ∧
      (∀ v : Fin r → ZMod 2, circAct (L.map Prod.swap) v = v ᵥ* E') := by
  induction L with
  | nil => exact ⟨1, 1, by simp, by simp, fun c d h => ⟨h, by simp⟩, fun q y h => ⟨h, by simp⟩, fun v => by simp [circAct]⟩
  | cons p L ih =>
    obtain ⟨E, E', h1, h2, h3, h4, h0⟩ := ih fun q hq => hL q (by simp [hq])
    have hp := hL p (by simp)
    have hsq := ed_sq hp
    refine ⟨E * ed r p.1 p.2, ed r p.1 p.2 * E', ?_, ?_, fun c d h => ?_, fun q y h => ?_, fun v => ?_⟩
    · calc _ = E * (ed r p.1 p.2 * ed r p.1 p.2) * E' := by simp only [Matrix.mul_assoc]
        _ = 1 := by rw [hsq, Matrix.mul_one, h1]
    · calc _ = ed r p.1 p.2 * (E' * E) * ed r p.1 p.2 := by simp only [Matrix.mul_assoc]
        _ = 1 := by rw [h2, Matrix.mul_one, hsq]
    · obtain ⟨h5, h6⟩ := h3 c _ (h.rowAdd hp.1 hp.2.1 (a := p.1) (b := p.2))
      exact ⟨h5, by rw [List.foldl_cons, h6, mat_rowAdd h hp, Matrix.mul_assoc]⟩
    · obtain ⟨h5, h6⟩ := h4 q _ (h.colAdd (a := p.1) (b := p.2))
      exact ⟨h5, by rw [List.foldl_cons, h6, mat_colAdd h hp, Matrix.mul_assoc]⟩
    · have e : cnotAct p.swap v = v ᵥ* ed r p.1 p.2 := by
        funext j
        have := mul_ed (a := p.1) hp.2.1 (Matrix.of fun (_ : Fin 1) => v) 0 j
        rw [show (v ᵥ* ed r p.1 p.2) j = (Matrix.of (fun (_ : Fin 1) => v) * ed r p.1 p.2) 0 j from rfl, this]
        simp only [cnotAct, Prod.fst_swap, Prod.snd_swap, dif_pos hp.2.1, Matrix.of_apply]
        split <;> simp
      rw [List.map_cons, circAct, List.foldl_cons, e]
      show circAct (L.map Prod.swap) _ = _
      rw [h0, Matrix.vecMul_vecMul]

section
variable {X Y : Type*} {ra : ℕ → ℕ → X → X} {ca : ℕ → ℕ → Y → Y}

theorem runs_m (L : List (ℕ × ℕ)) (s : St X Y) : (runs ra ca L s).m = L.foldl (fun d p => rowAdd p.1 p.2 d) s.m := by
  induction L generalizing s with
  | nil => rfl
  | cons p L ih => exact ih _

theorem runs_x (L : List (ℕ × ℕ)) (s : St X Y) : (runs ra ca L s).x = L.foldl (fun x p => ra p.1 p.2 x) s.x := by
  induction L generalizing s with
  | nil => rfl
  | cons p L ih => exact ih _

theorem runs_y (L : List (ℕ × ℕ)) (s : St X Y) : (runs ra ca L s).y = L.foldl (fun y p => ca p.2 p.1 y) s.y := by
  induction L generalizing s with
  | nil => rfl
  | cons p L ih => exact ih _

end

theorem rowSpace_mul_le {r c : ℕ} (E : Matrix (Fin r) (Fin r) (ZMod 2)) (M : Matrix (Fin r) (Fin c) (ZMod 2)) :
    rowSpace (E * M) ≤ rowSpace M := by
  unfold rowSpace
  rw [← range_vecMulLinear, ← range_vecMulLinear]
  rintro _ ⟨v, rfl⟩
  exact ⟨v ᵥ* E, by simp⟩

theorem rowSpace_mul_unit {r c : ℕ} {E E' : Matrix (Fin r) (Fin r) (ZMod 2)} (h : E' * E = 1) (M : Matrix (Fin r) (Fin c) (ZMod 2)) :
    rowSpace (E * M) = rowSpace M := by
  refine le_antisymm (rowSpace_mul_le E M) ?_
  have : M = E' * (E * M) := by rw [← Matrix.mul_assoc, h, Matrix.one_mul]
  conv_lhs => rw [this]
  exact rowSpace_mul_le _ _

theorem rank_eq_rowSpace {r c : ℕ} (M : Matrix (Fin r) (Fin c) (ZMod 2)) : M.rank = Module.finrank (ZMod 2) (rowSpace M) := by
  have : Fact (Nat.Prime 2) := ⟨Nat.prime_two⟩
  exact rank_eq_finrank_span_row M

/-- The rank of a matrix in echelon form is the number of pivots. -/
theorem Fwd.rank {r c : ℕ} {piv : List ℕ} {m : Data} (h : Fwd r c c piv m) : (mat r c m).rank = piv.length := by
  have : Fact (Nat.Prime 2) := ⟨Nat.prime_two⟩
  rw [rank_eq_rowSpace]
  let f : Fin piv.length → (Fin c → ZMod 2) := fun i => (mat r c m).row ⟨i, lt_of_lt_of_le i.2 h.le⟩
  have hspan : rowSpace (mat r c m) = Submodule.span (ZMod 2) (Set.range f) := by
    refine le_antisymm (Submodule.span_le.mpr ?_) (Submodule.span_mono ?_)
    · rintro _ ⟨i, rfl⟩
      by_cases hi : i.1 < piv.length
      · exact Submodule.subset_span ⟨⟨i, hi⟩, rfl⟩
      · have : (mat r c m).row i = 0 := by
          funext j
          simp only [Matrix.row, mat, Pi.zero_apply, bit_eq_zero]
          exact h.below i (by omega) i.2 j j.2
        rw [this]
        exact Submodule.zero_mem _
    · rintro _ ⟨i, rfl⟩
      exact ⟨_, rfl⟩
  have hli : LinearIndependent (ZMod 2) f := by
    rw [Fintype.linearIndependent_iff]
    intro g hg
    have key : ∀ n (hn : n < piv.length), g ⟨n, hn⟩ = 0 := by
      intro n
      induction n using Nat.strong_induction_on with
      | _ n ih =>
        intro hn
        have h1 := congrFun hg ⟨piv.getD n 0, h.lt n hn⟩
        rw [Finset.sum_apply, Finset.sum_eq_single ⟨n, hn⟩] at h1
        · simp only [f, Matrix.row, mat, Pi.smul_apply, smul_eq_mul, h.one n hn, bit_true, mul_one, Pi.zero_apply] at h1
          exact h1
        · intro i _ hi
          have hne : i.1 ≠ n := fun e => hi (Fin.ext e)
          rcases lt_or_gt_of_ne hne with hlt | hgt
          · simp [ih i.1 hlt i.2]
          · have := h.left i.1 i.2 _ (h.mono n i.1 hgt i.2)
            simp only [f, Matrix.row, mat, Pi.smul_apply, smul_eq_mul, this, bit_false, mul_zero]
        · simp
    exact fun i => key i.1 i.2
  rw [hspan, finrank_span_eq_card hli, Fintype.card_fin]

theorem Fwd.echelon {r c : ℕ} {piv : List ℕ} {m : Data} (h : Fwd r c c piv m) : Echelon (mat r c m) := by
  intro i i' j hii hne
  simp only [mat, bit_ne_zero] at hne ⊢
  have hi' : i'.1 < piv.length := by
    by_contra hcon
    rw [h.below i' (by omega) i'.2 j j.2] at hne
    exact absurd hne (by simp)
  have hi : i.1 < piv.length := lt_trans hii hi'
  have hm := h.mono i i' hii hi'
  have hj : piv.getD i' 0 ≤ j := by
    by_contra hcon
    rw [h.left i' hi' j (by omega)] at hne
    exact absurd hne (by simp)
  refine ⟨⟨piv.getD i 0, h.lt i hi⟩, ?_, h.one i hi, fun l hl => ?_⟩
  · exact Fin.lt_def.mpr (lt_of_lt_of_le hm hj)
  · rw [bit_eq_zero]
    exact h.left i' hi' l (lt_of_le_of_lt (Fin.le_def.mp hl) hm)

/-- The leading entry of a row is at the pivot. -/
theorem Fwd.lead {r c : ℕ} {piv : List ℕ} {m : Data} (h : Fwd r c c piv m) {i j : ℕ} (hi : i < r) (hj : j < c) (h1 : get m i j = true)
    (h2 : ∀ l < j, get m i l = false) : i < piv.length ∧ j = piv.getD i 0 := by
  have hip : i < piv.length := by
    by_contra hcon
    rw [h.below i (by omega) hi j hj] at h1
    exact absurd h1 (by simp)
  refine ⟨hip, ?_⟩
  rcases lt_trichotomy j (piv.getD i 0) with hlt | heq | hgt
  · rw [h.left i hip j hlt] at h1
    exact absurd h1 (by simp)
  · exact heq
  · have := h.one i hip
    rw [h2 _ hgt] at this
    exact absurd this (by simp)

theorem Bwd.col {r c : ℕ} {piv : List ℕ} {m : Data} (h : Bwd r c piv 0 m) {k i : ℕ} (hk : k < piv.length) (hi : i < r) (hne : i ≠ k) :
    get m i (piv.getD k 0) = false := by
  rcases lt_or_gt_of_ne hne with hlt | hgt
  · exact h.clr k (Nat.zero_le _) hk i hlt
  · by_cases hip : i < piv.length
    · exact h.fwd.left i hip _ (h.fwd.mono k i hgt hip)
    · exact h.fwd.below i (by omega) hi _ (h.fwd.lt k hk)

theorem Bwd.reduced {r c : ℕ} {piv : List ℕ} {m : Data} (h : Bwd r c piv 0 m) : Reduced (mat r c m) := by
  refine ⟨h.fwd.echelon, fun i j h1 h2 i' hi' => ?_⟩
  simp only [mat, bit_ne_zero, bit_eq_zero] at h1 h2 ⊢
  obtain ⟨h3, h4⟩ := h.fwd.lead i.2 j.2 h1 fun l hl => h2 ⟨l, lt_trans hl j.2⟩ hl
  rw [h4]
  exact h.col h3 i'.2 fun e => hi' (Fin.ext e)

end Mat2
end PyZX
