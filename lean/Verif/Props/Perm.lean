import Verif.Model.Perm
import Mathlib.Logic.Equiv.Basic
import Mathlib.Data.List.GetD
import Mathlib.Data.List.Nodup
import Mathlib.Data.List.Perm.Subperm
import Mathlib.Data.Nat.Basic
import Mathlib.Order.Basic

/-!
# C32: `permutation_as_swaps` realises the permutation
-/

namespace PyZX

/-- Specification: where a position ends up when a list of swaps is executed, first swap first. -/
def followSwaps (swaps : List (ℕ × ℕ)) (x : ℕ) : ℕ := swaps.foldl (fun y s => Equiv.swap s.1 s.2 y) x

/-- Specification: a list of the values of a permutation of `0, ..., n-1`. -/
def IsPerm (perm : List ℕ) : Prop := perm.Nodup ∧ ∀ v ∈ perm, v < perm.length

/-- Invariant of the loop. -/
structure SwapInv (perm : List ℕ) (i : ℕ) (s : List (ℕ × ℕ) × List ℕ × List ℕ) : Prop where
  len : s.2.1.length = perm.length
  len' : s.2.2.length = perm.length
  fwd : ∀ j, i ≤ j → j < perm.length → i ≤ s.2.1.getD j 0 ∧ s.2.1.getD j 0 < perm.length ∧ s.2.2.getD (s.2.1.getD j 0) 0 = j
  bwd : ∀ j, i ≤ j → j < perm.length → i ≤ s.2.2.getD j 0 ∧ s.2.2.getD j 0 < perm.length ∧ s.2.1.getD (s.2.2.getD j 0) 0 = j
  cur : ∀ x < perm.length, followSwaps s.1 x < perm.length ∧
    perm.getD x 0 = if i ≤ followSwaps s.1 x then s.2.1.getD (followSwaps s.1 x) 0 else followSwaps s.1 x
  count : s.1.length ≤ i
  range : ∀ p ∈ s.1, p.1 < p.2 ∧ p.2 < perm.length

theorem getD_set (l : List ℕ) {a : ℕ} (ha : a < l.length) (v j : ℕ) : (l.set a v).getD j 0 = if j = a then v else l.getD j 0 := by
  by_cases h : j = a
  · subst h
    rw [if_pos rfl, List.getD_eq_getElem?_getD, List.getElem?_set_self ha]; rfl
  · rw [if_neg h, List.getD_eq_getElem?_getD, List.getElem?_set_ne (Ne.symm h), ← List.getD_eq_getElem?_getD]

theorem SwapInv.step {perm : List ℕ} {i : ℕ} {s : List (ℕ × ℕ) × List ℕ × List ℕ} (h : SwapInv perm i s) (hi : i < perm.length) :
    SwapInv perm (i + 1) (swapStep s i) := by
  obtain ⟨swaps, l, linv⟩ := s
  have hf := h.fwd
  have hb := h.bwd
  simp only at hf hb
  unfold swapStep
  by_cases he : l.getD i 0 = i
  · simp only [he, if_true]
    have hinv : linv.getD i 0 = i := by have := (hf i le_rfl hi).2.2; rwa [he] at this
    refine ⟨h.len, h.len', fun j hj hjn => ?_, fun j hj hjn => ?_, fun x hx => ?_, le_trans h.count (Nat.le_succ i), h.range⟩
    · obtain ⟨h1, h2, h3⟩ := hf j (by omega) hjn
      refine ⟨?_, h2, h3⟩
      rcases Nat.eq_or_lt_of_le h1 with h4 | h4
      · rw [← h4, hinv] at h3; omega
      · exact h4
    · obtain ⟨h1, h2, h3⟩ := hb j (by omega) hjn
      refine ⟨?_, h2, h3⟩
      rcases Nat.eq_or_lt_of_le h1 with h4 | h4
      · rw [← h4, he] at h3; omega
      · exact h4
    · obtain ⟨h1, h2⟩ := h.cur x hx
      refine ⟨h1, ?_⟩
      simp only at h1 h2 ⊢
      rw [h2]
      by_cases h3 : i ≤ followSwaps swaps x
      · rw [if_pos h3]
        rcases Nat.eq_or_lt_of_le h3 with h4 | h4
        · rw [← h4, he, if_neg (by omega)]
        · rw [if_pos (show i + 1 ≤ _ from h4)]
      · rw [if_neg h3, if_neg (by omega)]
  · simp only [he, if_false]
    obtain ⟨a1, a2, a3⟩ := hf i le_rfl hi
    obtain ⟨b1, b2, b3⟩ := hb i le_rfl hi
    have ht1 : i < l.getD i 0 := lt_of_le_of_ne a1 (Ne.symm he)
    have ht2 : i < linv.getD i 0 := by
      refine lt_of_le_of_ne b1 fun e => he ?_
      rw [← e] at b3
      exact b3
    have hl : l.length = perm.length := h.len
    have hl' : linv.length = perm.length := h.len'
    set t1 := l.getD i 0 with ht1d
    set t2 := linv.getD i 0 with ht2d
    have gl := fun j => getD_set l (a := t2) (by rw [hl]; exact b2) t1 j
    have gi := fun j => getD_set linv (a := t1) (by rw [hl']; exact a2) t2 j
    refine ⟨by simpa using hl, by simpa using hl', fun j hj hjn => ?_, fun j hj hjn => ?_, fun x hx => ?_, ?_, ?_⟩
    · simp only [gl, gi]
      obtain ⟨h1, h2, h3⟩ := hf j (by omega) hjn
      by_cases hjt : j = t2
      · rw [if_pos hjt, if_pos rfl]; exact ⟨ht1, a2, hjt.symm⟩
      · rw [if_neg hjt]
        have hne : l.getD j 0 ≠ t1 := fun e => by rw [e, a3] at h3; omega
        rw [if_neg hne]
        refine ⟨?_, h2, h3⟩
        rcases Nat.eq_or_lt_of_le h1 with h4 | h4
        · rw [← h4] at h3; exact absurd h3.symm hjt
        · exact h4
    · simp only [gl, gi]
      obtain ⟨h1, h2, h3⟩ := hb j (by omega) hjn
      by_cases hjt : j = t1
      · rw [if_pos hjt, if_pos rfl]; exact ⟨ht2, b2, hjt.symm⟩
      · rw [if_neg hjt]
        have hne : linv.getD j 0 ≠ t2 := fun e => by rw [e, b3] at h3; omega
        rw [if_neg hne]
        refine ⟨?_, h2, h3⟩
        rcases Nat.eq_or_lt_of_le h1 with h4 | h4
        · rw [← h4] at h3; exact absurd h3.symm hjt
        · exact h4
    · obtain ⟨h1, h2⟩ := h.cur x hx
      simp only at h1 h2
      have hfol : followSwaps (swaps ++ [(i, t2)]) x = Equiv.swap i t2 (followSwaps swaps x) := by
        simp [followSwaps, List.foldl_append]
      rw [hfol, h2]
      simp only [gl]
      set y := followSwaps swaps x with hy
      by_cases hyi : y = i
      · rw [hyi, Equiv.swap_apply_left]
        exact ⟨b2, by rw [if_pos le_rfl, if_pos (show i + 1 ≤ t2 from ht2), if_pos rfl]⟩
      · by_cases hyt : y = t2
        · rw [hyt, Equiv.swap_apply_right]
          exact ⟨hi, by rw [if_pos b1, if_neg (by omega), b3]⟩
        · rw [Equiv.swap_apply_of_ne_of_ne hyi hyt, if_neg hyt]
          refine ⟨h1, ?_⟩
          by_cases h3 : i ≤ y
          · rw [if_pos h3, if_pos (by omega)]
          · rw [if_neg h3, if_neg (by omega)]
    · have := h.count
      simp only at this
      simp only [List.length_append, List.length_singleton]
      omega
    · intro p hp
      rcases List.mem_append.mp hp with hp | hp
      · exact h.range p hp
      · rw [List.mem_singleton.mp hp]; exact ⟨ht2, b2⟩

theorem swapInv_start {perm : List ℕ} (h : IsPerm perm) :
    SwapInv perm 0 ([], perm, (List.range perm.length).map fun i => perm.idxOf i) := by
  have hidx : ∀ j < perm.length, ((List.range perm.length).map fun i => perm.idxOf i).getD j 0 = perm.idxOf j := by
    intro j hj
    simp [List.getD_eq_getElem?_getD, hj]
  have hsurj : ∀ j < perm.length, j ∈ perm := by
    have hsub : perm ⊆ List.range perm.length := fun v hv => List.mem_range.mpr (h.2 v hv)
    have hperm : perm.Perm (List.range perm.length) :=
      (h.1.subperm hsub).perm_of_length_le (by simp)
    intro j hj
    exact hperm.symm.subset (List.mem_range.mpr hj)
  refine ⟨rfl, by simp, fun j _ hj => ?_, fun j _ hj => ?_, fun x hx => ⟨hx, by simp [followSwaps]⟩, le_rfl, by simp⟩
  · have hm : perm.getD j 0 < perm.length := by
      rw [List.getD_eq_getElem _ _ hj]; exact h.2 _ (List.getElem_mem hj)
    refine ⟨Nat.zero_le _, hm, ?_⟩
    simp only
    rw [hidx _ hm, List.getD_eq_getElem _ _ hj]
    exact h.1.idxOf_getElem j hj
  · simp only
    rw [hidx j hj]
    have h1 := List.idxOf_lt_length_of_mem (hsurj j hj)
    refine ⟨Nat.zero_le _, h1, ?_⟩
    rw [List.getD_eq_getElem _ _ h1]
    exact List.getElem_idxOf h1

theorem swapInv_fold {perm : List ℕ} (h : IsPerm perm) {n : ℕ} (hn : n ≤ perm.length) :
    SwapInv perm n ((List.range n).foldl swapStep ([], perm, (List.range perm.length).map fun i => perm.idxOf i)) := by
  induction n with
  | zero => exact swapInv_start h
  | succ n ih =>
    rw [List.range_succ, List.foldl_append, List.foldl_cons, List.foldl_nil]
    exact (ih (by omega)).step (by omega)

namespace Props

/-- C32: following the swaps from first to last takes every position `x` to `perm[x]`. -/
theorem swaps_realise {perm : List ℕ} (h : IsPerm perm) {x : ℕ} (hx : x < perm.length) :
    followSwaps (permutationAsSwaps perm) x = perm.getD x 0 := by
  obtain ⟨h1, h2⟩ := (swapInv_fold h le_rfl).cur x hx
  rw [if_neg (by omega)] at h2
  exact h2.symm

/-- C32: every swap exchanges two different positions. -/
theorem swaps_range {perm : List ℕ} (h : IsPerm perm) : ∀ p ∈ permutationAsSwaps perm, p.1 < p.2 ∧ p.2 < perm.length :=
  (swapInv_fold h le_rfl).range

/-- C32: there are fewer swaps than positions. -/
theorem swaps_count {perm : List ℕ} (h : IsPerm perm) (hne : perm ≠ []) : (permutationAsSwaps perm).length < perm.length := by
  obtain ⟨n, hn⟩ : ∃ n, perm.length = n + 1 := ⟨perm.length - 1, by have := List.length_pos_of_ne_nil hne; omega⟩
  have hi := swapInv_fold h (n := n) (by omega)
  have hlast : permutationAsSwaps perm = ((List.range n).foldl swapStep
      ([], perm, (List.range perm.length).map fun i => perm.idxOf i)).1 := by
    unfold permutationAsSwaps
    have hr : List.range perm.length = List.range n ++ [n] := by rw [hn, List.range_succ]
    have happ : ∀ s, (List.range perm.length).foldl swapStep s = swapStep ((List.range n).foldl swapStep s) n := by
      intro s; rw [hr, List.foldl_append]; rfl
    rw [happ]
    obtain ⟨h1, h2, -⟩ := hi.fwd n le_rfl (by omega)
    generalize List.foldl swapStep _ (List.range n) = s at h1 h2
    unfold swapStep
    simp only
    rw [if_pos (show s.2.1.getD n 0 = n by omega)]
  rw [hlast]
  have := hi.count
  omega

/-- A permutation with a cycle of length 3, a transposition and a fixed point. -/
example : IsPerm [2, 0, 1, 4, 3, 5] := ⟨by decide, by decide⟩

end Props
end PyZX
