import Verif.Model.Choose
import Verif.Proofs.LinalgApp
import Verif.Spec.Clifford
import Mathlib.Algebra.BigOperators.Group.List.Basic

/-!
# The choice of CNOTs: minimal sums of rows and the greedy reduction
-/

namespace PyZX
namespace Extract

open Mat2

/-! ### Rows -/

/-- A row with exactly one entry. -/
theorem count_unit {k a : ℕ} {row : List Bool} (hl : row.length = k) (ha : a < k) (h : ∀ j < k, row.getD j false = decide (j = a)) :
    row.count true = 1 := by
  have e : row = (List.range k).map fun j => decide (j = a) := by
    apply List.ext_getElem
    · simp [hl]
    · intro j h1 h2
      have := h j (by omega)
      rw [List.getD_eq_getElem _ _ h1] at this
      simp [this]
  rw [e, List.count, List.countP_map]
  have : (fun x => x == true) ∘ (fun j => decide (j = a)) = fun j => j == a := by
    funext j
    by_cases h : j = a <;> simp [h]
  rw [this]
  exact List.count_eq_one_of_mem List.nodup_range (List.mem_range.mpr ha)

theorem row_ext {k : ℕ} {a b : List Bool} (ha : a.length = k) (hb : b.length = k) (h : ∀ j < k, a.getD j false = b.getD j false) : a = b := by
  apply List.ext_getElem
  · rw [ha, hb]
  · intro j h1 h2
    have := h j (by omega)
    rwa [List.getD_eq_getElem _ _ h1, List.getD_eq_getElem _ _ h2] at this

/-- The sum of the rows with the given indices. -/
def sumRows (d : Data) : List ℕ → List Bool
  | [] => []
  | i :: l => l.foldl (fun row k => List.zipWith xor row (d.getD k [])) (d.getD i [])

theorem sumRows_snoc (d : Data) {l : List ℕ} (hl : l ≠ []) (k : ℕ) : sumRows d (l ++ [k]) = List.zipWith xor (sumRows d l) (d.getD k []) := by
  cases l with
  | nil => exact absurd rfl hl
  | cons i l => simp [sumRows]

theorem sumRows_spec {r c : ℕ} {d : Data} (hd : Rect r c d) {l : List ℕ} (hl : l ≠ []) (h : ∀ i ∈ l, i < r) :
    (sumRows d l).length = c ∧ ∀ j, bit ((sumRows d l).getD j false) = (l.map fun i => bit (get d i j)).sum := by
  induction l using List.reverseRecOn with
  | nil => exact absurd rfl hl
  | append_singleton l k ih =>
    by_cases hl' : l = []
    · subst hl'
      exact ⟨by simpa [sumRows] using hd.length_getD (h k (by simp)), fun j => by simp [sumRows, Mat2.get]⟩
    · obtain ⟨h1, h2⟩ := ih hl' fun i hi => h i (by simp [hi])
      have hk := hd.length_getD (h k (by simp))
      rw [sumRows_snoc d hl']
      refine ⟨by rw [List.length_zipWith, h1, hk, min_self], fun j => ?_⟩
      rw [getD_zipWith_xor (by rw [h1, hk]), bit_xor, h2, List.map_append, List.sum_append]
      simp [Mat2.get]

/-- For an invertible matrix some rows add up to a row with exactly one entry. -/
theorem exists_sum {k : ℕ} (hk : 0 < k) {d : Data} (hd : Rect k k d) (hu : IsUnit (mat k k d)) :
    ∃ l : List ℕ, l ≠ [] ∧ l.Pairwise (· < ·) ∧ (∀ i ∈ l, i < k) ∧ (sumRows d l).count true = 1 := by
  obtain ⟨N, -, hN⟩ := isUnit_iff_exists.mp hu
  let l := (List.range k).filter fun i => if h : i < k then decide (N ⟨0, hk⟩ ⟨i, h⟩ ≠ 0) else false
  have hlt : ∀ i ∈ l, i < k := fun i hi => List.mem_range.mp (List.mem_of_mem_filter hi)
  have hsum : ∀ j : Fin k, (l.map fun i => bit (get d i j)).sum = (N * mat k k d) ⟨0, hk⟩ j := by
    intro j
    rw [Matrix.mul_apply]
    have : ∀ (L : List ℕ), ((L.filter fun i => if h : i < k then decide (N ⟨0, hk⟩ ⟨i, h⟩ ≠ 0) else false).map fun i => bit (get d i j)).sum =
        (L.map fun i => if h : i < k then N ⟨0, hk⟩ ⟨i, h⟩ * bit (get d i j) else 0).sum := by
      intro L
      induction L with
      | nil => rfl
      | cons i L ih =>
        rw [List.map_cons, List.sum_cons, ← ih, List.filter_cons]
        by_cases h : i < k
        · by_cases hz : N ⟨0, hk⟩ ⟨i, h⟩ = 0
          · simp [h, hz]
          · have := zmod2_ne.mp hz
            simp [h, this]
        · simp [h]
    rw [show l = _ from rfl, this, ← List.sum_toFinset _ List.nodup_range, List.toFinset_range, Finset.sum_range]
    refine Finset.sum_congr rfl fun i _ => ?_
    rw [dif_pos i.2]
    rfl
  have hne : l ≠ [] := by
    intro hc
    have := hsum ⟨0, hk⟩
    rw [hN, hc] at this
    simp at this
  refine ⟨l, hne, List.pairwise_lt_range.sublist List.filter_sublist, hlt, ?_⟩
  obtain ⟨h1, h2⟩ := sumRows_spec hd hne hlt
  refine count_unit h1 hk fun j hj => ?_
  have h3 := h2 j
  have h4 := hsum ⟨j, hj⟩
  simp only at h4
  rw [h4, hN] at h3
  rw [← bit_inj, h3]
  by_cases hj0 : j = 0
  · subst hj0; simp [bit]
  · rw [Matrix.one_apply_ne (by intro hc; exact hj0 (Fin.mk.inj hc).symm)]
    simp [hj0, bit]

/-! ### Minimal sums -/

theorem le_foldl_max : ∀ (l : List ℕ) (a : ℕ), a ≤ l.foldl max a ∧ ∀ x ∈ l, x ≤ l.foldl max a := by
  intro l
  induction l with
  | nil => intro a; simp
  | cons b l ih =>
    intro a
    obtain ⟨h1, h2⟩ := ih (max a b)
    refine ⟨le_trans (le_max_left _ _) h1, fun x hx => ?_⟩
    rcases List.mem_cons.mp hx with rfl | hx
    · exact le_trans (le_max_right _ _) h1
    · exact h2 x hx

theorem mem_sumsRange {rev : Bool} {r k : ℕ} {ix : List ℕ} : k ∈ sumsRange rev r ix ↔ ix.foldl max 0 < k ∧ k < r := by
  unfold sumsRange
  cases rev <;> simp [List.mem_range'_1] <;> omega

theorem nodup_sumsRange (rev : Bool) (r : ℕ) (ix : List ℕ) : (sumsRange rev r ix).Nodup := by
  unfold sumsRange
  cases rev
  · simpa using List.nodup_range'
  · simpa using List.nodup_range'

/-- Increasing indices, not empty. -/
def Idx (r : ℕ) (l : List ℕ) : Prop := l ≠ [] ∧ l.Pairwise (· < ·) ∧ ∀ i ∈ l, i < r

theorem Idx.snoc {r : ℕ} {l : List ℕ} (h : Idx r l) {rev : Bool} {k : ℕ} (hk : k ∈ sumsRange rev r l) : Idx r (l ++ [k]) := by
  obtain ⟨h1, h2⟩ := mem_sumsRange.mp hk
  refine ⟨by simp, List.pairwise_append.mpr ⟨h.2.1, by simp, fun a ha b hb => ?_⟩, fun i hi => ?_⟩
  · rw [List.mem_singleton] at hb
    subst hb
    exact lt_of_le_of_lt ((le_foldl_max l 0).2 a ha) h1
  · rcases List.mem_append.mp hi with h3 | h3
    · exact h.2.2 i h3
    · rw [List.mem_singleton] at h3; omega

/-- The entries of the dictionary. -/
def CombOK (d : Data) (c : Comb) : Prop := Idx d.length c.1 ∧ c.2 = sumRows d c.1 ∧ c.2.count true ≠ 1

theorem sumsRow_spec {d : Data} {c : Comb} (hc : CombOK d c) {rev : Bool} : ∀ (ks : List ℕ) {acc : List Comb} {it : ℕ},
    (∀ k ∈ ks, k ∈ sumsRange rev d.length c.1) → (∀ c ∈ acc, CombOK d c) →
    (∃ t, sumsRow d c ks acc it = .inl t ∧ Idx d.length t ∧ (sumRows d t).count true = 1) ∨
    (sumsRow d c ks acc it = .inr (acc ++ ks.map (fun k => (c.1 ++ [k], sumRows d (c.1 ++ [k]))), it + ks.length) ∧
      ∀ k ∈ ks, CombOK d (c.1 ++ [k], sumRows d (c.1 ++ [k]))) := by
  intro ks
  induction ks with
  | nil => intro acc it _ _; right; simp [sumsRow]
  | cons k ks ih =>
    intro acc it hks hacc
    have hI := hc.1.snoc (hks k (by simp))
    have e : List.zipWith xor c.2 (d.getD k []) = sumRows d (c.1 ++ [k]) := by rw [sumRows_snoc d hc.1.1, hc.2.1]
    unfold sumsRow
    simp only [e]
    by_cases h1 : (sumRows d (c.1 ++ [k])).count true = 1
    · rw [if_pos h1]
      exact Or.inl ⟨_, rfl, hI, h1⟩
    · rw [if_neg h1]
      have hk : CombOK d (c.1 ++ [k], sumRows d (c.1 ++ [k])) := ⟨hI, rfl, h1⟩
      rcases ih (acc := acc ++ [(c.1 ++ [k], sumRows d (c.1 ++ [k]))]) (it := it + 1) (fun k hk => hks k (by simp [hk])) (by
        intro c' hc'
        rcases List.mem_append.mp hc' with h2 | h2
        · exact hacc c' h2
        · rw [List.mem_singleton] at h2; rw [h2]; exact hk) with h2 | ⟨h2, h3⟩
      · exact Or.inl h2
      · refine Or.inr ⟨by rw [h2]; simp; omega, fun k' hk' => ?_⟩
        rcases List.mem_cons.mp hk' with rfl | h4
        · exact hk
        · exact h3 k' h4

/-- The number of tuples that a tuple is continued to. -/
def desc (r : ℕ) (c : Comb) : ℕ := 2 ^ (r - (c.1.foldl max 0 + 1)) - 1

theorem sum_range_pow (r : ℕ) : ∀ n a, a + n = r → ((List.range' a n).map fun k => 2 ^ (r - (k + 1))).sum = 2 ^ n - 1 := by
  intro n
  induction n with
  | zero => intro a _; simp
  | succ n ih =>
    intro a h
    rw [List.range'_succ, List.map_cons, List.sum_cons, ih (a + 1) (by omega), show r - (a + 1) = n by omega, pow_succ]
    have := Nat.one_le_two_pow (n := n)
    omega

theorem desc_children (r : ℕ) (c : Comb) (f : List ℕ → List Bool) (rev : Bool) :
    (((sumsRange rev r c.1).map fun k => ((c.1 ++ [k], f (c.1 ++ [k])) : Comb)).map (desc r)).sum + (sumsRange rev r c.1).length = desc r c := by
  have h1 : ∀ ks : List ℕ, (∀ k ∈ ks, c.1.foldl max 0 < k ∧ k < r) →
      ((ks.map fun k => ((c.1 ++ [k], f (c.1 ++ [k])) : Comb)).map (desc r)).sum + ks.length = (ks.map fun k => 2 ^ (r - (k + 1))).sum := by
    intro ks
    induction ks with
    | nil => intro _; rfl
    | cons k ks ih =>
      intro h
      have := ih fun k hk => h k (by simp [hk])
      have hk := h k (by simp)
      simp only [List.map_cons, List.sum_cons, List.length_cons] at this ⊢
      rw [← this]
      have e : desc r (c.1 ++ [k], f (c.1 ++ [k])) = 2 ^ (r - (k + 1)) - 1 := by
        unfold desc
        simp only [List.foldl_append, List.foldl_cons, List.foldl_nil]
        rw [max_eq_right hk.1.le]
      rw [e]
      have := Nat.one_le_two_pow (n := r - (k + 1))
      omega
  rw [h1 _ fun k hk => mem_sumsRange.mp hk]
  have h2 : ((sumsRange rev r c.1).map fun k => 2 ^ (r - (k + 1))).sum =
      ((List.range' (c.1.foldl max 0 + 1) (r - (c.1.foldl max 0 + 1))).map fun k => 2 ^ (r - (k + 1))).sum := by
    unfold sumsRange
    cases rev
    · rfl
    · simp only [if_true, List.map_reverse, List.sum_reverse]
  rw [h2]
  unfold desc
  by_cases h3 : c.1.foldl max 0 + 1 ≤ r
  · exact sum_range_pow r _ _ (by omega)
  · rw [show r - (c.1.foldl max 0 + 1) = 0 by omega]; simp

theorem sumsLevel_spec {rev : Bool} {d : Data} : ∀ (cs : List Comb) {acc : List Comb} {it : ℕ}, (∀ c ∈ cs, CombOK d c) → (∀ c ∈ acc, CombOK d c) →
    (∃ t, sumsLevel rev d cs acc it = .inl (some t) ∧ Idx d.length t ∧ (sumRows d t).count true = 1) ∨
    (sumsLevel rev d cs acc it = .inl none ∧ 100000 < it + (cs.map (desc d.length)).sum) ∨
    ∃ acc' it', sumsLevel rev d cs acc it = .inr (acc', it') ∧ (∀ c ∈ acc', CombOK d c) ∧
      it' + (acc'.map (desc d.length)).sum = it + (acc.map (desc d.length)).sum + (cs.map (desc d.length)).sum ∧
      (∀ c ∈ acc, c.1 ∈ acc'.map Prod.fst) ∧
      ∀ c ∈ cs, ∀ k ∈ sumsRange rev d.length c.1, c.1 ++ [k] ∈ acc'.map Prod.fst := by
  intro cs
  induction cs with
  | nil =>
    intro acc it _ h
    exact Or.inr (Or.inr ⟨acc, it, rfl, h, by simp, fun c hc => List.mem_map.mpr ⟨c, hc, rfl⟩, by simp⟩)
  | cons c cs ih =>
    intro acc it hcs hacc
    unfold sumsLevel
    have hdc := desc_children d.length c (sumRows d) rev
    rcases sumsRow_spec (hcs c (by simp)) (sumsRange rev d.length c.1) (acc := acc) (it := it) (fun _ h => h) hacc with ⟨t, e, h⟩ | ⟨e, h⟩
    · rw [e]
      exact Or.inl ⟨t, rfl, h⟩
    · rw [e]
      simp only
      by_cases hit : 100000 < it + (sumsRange rev d.length c.1).length
      · rw [if_pos hit]
        refine Or.inr (Or.inl ⟨rfl, ?_⟩)
        rw [List.map_cons, List.sum_cons]
        omega
      · rw [if_neg hit]
        rcases ih (acc := acc ++ (sumsRange rev d.length c.1).map fun k => (c.1 ++ [k], sumRows d (c.1 ++ [k])))
          (it := it + (sumsRange rev d.length c.1).length) (fun c hc => hcs c (by simp [hc])) (by
            intro c' hc'
            rcases List.mem_append.mp hc' with h1 | h1
            · exact hacc c' h1
            · obtain ⟨k, hk, rfl⟩ := List.mem_map.mp h1
              exact h k hk) with ⟨t, e2, h2⟩ | ⟨e2, h2⟩ | ⟨acc', it', e2, h2, h3, h4, h5⟩
        · exact Or.inl ⟨t, e2, h2⟩
        · refine Or.inr (Or.inl ⟨e2, ?_⟩)
          rw [List.map_cons, List.sum_cons]
          omega
        · refine Or.inr (Or.inr ⟨acc', it', e2, h2, ?_, fun c' hc' => h4 c' (by simp [hc']), fun c' hc' k hk => ?_⟩)
          · rw [h3, List.map_append, List.sum_append, List.map_cons, List.sum_cons]
            omega
          · rcases List.mem_cons.mp hc' with rfl | hc'
            · exact h4 (c'.1 ++ [k], sumRows d (c'.1 ++ [k])) (List.mem_append_right _ (List.mem_map.mpr ⟨k, hk, rfl⟩))
            · exact h5 c' hc' k hk

theorem Idx.length_le {r : ℕ} {l : List ℕ} (h : Idx r l) : l.length ≤ r := by
  have hn : l.Nodup := h.2.1.imp fun h => Nat.ne_of_lt h
  have := List.Subperm.length_le (List.subperm_of_subset hn (l₂ := List.range r) fun i hi => List.mem_range.mpr (h.2.2 i hi))
  simpa using this

theorem sumsLoop_spec {rev : Bool} {d : Data} : ∀ (n p : ℕ) {cs : List Comb} {it : ℕ}, n + p = d.length + 1 → 0 < p → (∀ c ∈ cs, CombOK d c) →
    (∀ l, Idx d.length l → l.length = p → l ∈ cs.map Prod.fst) → (∀ l, Idx d.length l → l.length ≤ p → (sumRows d l).count true ≠ 1) →
    (∃ t, sumsLoop rev d n cs it = some t ∧ Idx d.length t ∧ (sumRows d t).count true = 1) ∨
    (sumsLoop rev d n cs it = none ∧ (100000 < it + (cs.map (desc d.length)).sum ∨ ∀ l, Idx d.length l → (sumRows d l).count true ≠ 1)) := by
  intro n
  induction n with
  | zero =>
    intro p cs it hp _ _ _ h
    refine Or.inr ⟨rfl, Or.inr fun l hl => h l hl ?_⟩
    have := hl.length_le
    omega
  | succ n ih =>
    intro p cs it hp hp0 hcs hall hno
    unfold sumsLoop
    rcases sumsLevel_spec (rev := rev) cs (acc := []) (it := it) hcs (by simp) with ⟨t, e, h⟩ | ⟨e, h⟩ | ⟨acc', it', e, h1, h2, -, h3⟩
    · rw [e]; exact Or.inl ⟨t, rfl, h⟩
    · rw [e]; exact Or.inr ⟨rfl, Or.inl h⟩
    · rw [e]
      simp only
      have hall' : ∀ l, Idx d.length l → l.length = p + 1 → l ∈ acc'.map Prod.fst := by
        intro l hl hlen
        obtain ⟨k, l', rfl⟩ : ∃ k l', l = l' ++ [k] := ⟨l.getLast hl.1, l.dropLast, (List.dropLast_append_getLast hl.1).symm⟩
        have hl'len : l'.length = p := by simpa using hlen
        obtain ⟨q1, -, q2⟩ := List.pairwise_append.mp hl.2.1
        have hl' : Idx d.length l' := ⟨by rintro rfl; simp at hl'len; omega, q1, fun i hi => hl.2.2 i (by simp [hi])⟩
        obtain ⟨c, hc, e1⟩ := List.mem_map.mp (hall l' hl' hl'len)
        rw [← e1]
        refine h3 c hc k (mem_sumsRange.mpr ⟨?_, hl.2.2 k (by simp)⟩)
        rw [e1]
        have : ∀ (L : List ℕ) (a : ℕ), a < k ∨ L ≠ [] ∧ a = 0 → (∀ x ∈ L, x < k) → L.foldl max a < k := by
          intro L
          induction L with
          | nil => intro a h _; simpa using h
          | cons b L ih =>
            intro a h hL
            have hb := hL b (by simp)
            refine ih _ (Or.inl ?_) fun x hx => hL x (by simp [hx])
            rcases h with h | ⟨-, h⟩ <;> omega
        exact this l' 0 (Or.inr ⟨hl'.1, rfl⟩) fun x hx => q2 x hx k (by simp)
      have hno' : ∀ l, Idx d.length l → l.length ≤ p + 1 → (sumRows d l).count true ≠ 1 := by
        intro l hl hlen
        rcases Nat.lt_or_ge p l.length with h4 | h4
        · obtain ⟨c, hc, rfl⟩ := List.mem_map.mp (hall' l hl (by omega))
          have := h1 c hc
          rw [← this.2.1]
          exact this.2.2
        · exact hno l hl h4
      by_cases hemp : acc' = []
      · rw [if_pos hemp]
        refine Or.inr ⟨rfl, Or.inr fun l hl => hno' l hl ?_⟩
        by_contra hc
        have hI : Idx d.length (l.take (p + 1)) := ⟨by
            intro h
            rw [List.take_eq_nil_iff] at h
            rcases h with h | h
            · omega
            · exact hl.1 h, hl.2.1.sublist (List.take_sublist _ _), fun i hi => hl.2.2 i (List.mem_of_mem_take hi)⟩
        have := hall' _ hI (by rw [List.length_take]; omega)
        rw [hemp] at this
        simp at this
      · rw [if_neg hemp]
        rcases ih (p + 1) (cs := acc') (it := it') (by omega) (by omega) h1 hall' hno' with h4 | ⟨h4, h5⟩
        · exact Or.inl h4
        · refine Or.inr ⟨h4, ?_⟩
          rcases h5 with h5 | h5
          · left
            simp only [List.map_nil, List.sum_nil] at h2
            omega
          · exact Or.inr h5

/-- `find_minimal_sums` on a matrix without rows with exactly one entry. -/
theorem findMinimalSums_spec (rev : Bool) {d : Data} (h : ∀ row ∈ d, row.count true ≠ 1) :
    (∃ t, findMinimalSums rev d = some t ∧ Idx d.length t ∧ (sumRows d t).count true = 1) ∨
    (findMinimalSums rev d = none ∧ (16 < d.length ∨ ∀ l, Idx d.length l → (sumRows d l).count true ≠ 1)) := by
  have h1 : ∀ l, Idx d.length l → l.length ≤ 1 → (sumRows d l).count true ≠ 1 := by
    intro l hl hlen
    obtain ⟨i, rfl⟩ : ∃ i, l = [i] := List.length_eq_one_iff.mp (by have := List.length_pos_iff.mpr hl.1; omega)
    have hi := hl.2.2 i (by simp)
    show (d.getD i []).count true ≠ 1
    rw [List.getD_eq_getElem _ _ hi]
    exact h _ (List.getElem_mem hi)
  have hstart : ∀ c ∈ (List.range d.length).map fun i => (([i], d.getD i []) : Comb), CombOK d c := by
    intro c hc
    obtain ⟨i, hi, rfl⟩ := List.mem_map.mp hc
    have hI : Idx d.length [i] := ⟨by simp, by simp, by simpa using hi⟩
    exact ⟨hI, rfl, h1 _ hI (by simp)⟩
  unfold findMinimalSums
  rw [if_neg (by simpa using h)]
  rcases sumsLoop_spec (rev := rev) d.length 1 (it := 0) (by omega) (by omega) hstart (by
      intro l hl hlen
      obtain ⟨i, rfl⟩ := List.length_eq_one_iff.mp hlen
      exact List.mem_map.mpr ⟨([i], d.getD i []), List.mem_map.mpr ⟨i, by simpa using hl.2.2 i (by simp), rfl⟩, rfl⟩) h1 with h2 | ⟨h2, h3⟩
  · exact Or.inl h2
  · refine Or.inr ⟨h2, ?_⟩
    rcases h3 with h3 | h3
    · left
      by_contra hc
      have hb : (((List.range d.length).map fun i => (([i], d.getD i []) : Comb)).map (desc d.length)).sum ≤
          ((List.range' 0 d.length).map fun k => 2 ^ (d.length - (k + 1))).sum := by
        rw [List.map_map, ← List.range_eq_range']
        refine List.sum_le_sum fun i _ => ?_
        simp [desc]
      rw [sum_range_pow d.length d.length 0 (by omega)] at hb
      have : 2 ^ d.length ≤ 2 ^ 16 := Nat.pow_le_pow_right (by norm_num) (by omega)
      norm_num at this
      omega
    · exact Or.inr h3

end Extract
end PyZX
