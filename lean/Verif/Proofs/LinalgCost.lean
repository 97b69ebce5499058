import Verif.Proofs.LinalgApp

/-!
# The number of row operations of `Mat2.gauss`
-/

namespace PyZX
namespace Mat2

section
variable {X Y : Type*} {ra : ℕ → ℕ → X → X} {ca : ℕ → ℕ → Y → Y} {μ : X → ℕ}

theorem clearRows_cost (hμ : ∀ a b x, μ (ra a b x) ≤ μ x + 1) (a p : ℕ) (rs : List ℕ) (s : St X Y) :
    μ (clearRows ra ca a p rs s).x ≤ μ s.x + rs.length := by
  induction rs generalizing s with
  | nil => exact le_rfl
  | cons r rs ih =>
    simp only [clearRows, List.foldl_cons, List.length_cons]
    have h := ih (if a ≠ r ∧ get s.m r p then s.op ra ca a r else s)
    have h1 : μ (if a ≠ r ∧ get s.m r p then s.op ra ca a r else s).x ≤ μ s.x + 1 := by
      split
      · exact hμ a r s.x
      · omega
    simp only [clearRows] at h
    omega

theorem dedupe_cost (hμ : ∀ a b x, μ (ra a b x) ≤ μ x + 1) (i0 i1 : ℕ) (rs : List ℕ) (s : St X Y) :
    μ (dedupe ra ca i0 i1 rs s).x ≤ μ s.x + rs.length := by
  have key : ∀ ch, μ (rs.foldl (dedupeStep ra ca i0 i1) (s, ch)).1.x ≤ μ s.x + rs.length := by
    induction rs generalizing s with
    | nil => intro ch; exact le_rfl
    | cons r rs ih =>
      intro ch
      rw [List.foldl_cons, List.length_cons]
      have h1 : μ (dedupeStep ra ca i0 i1 (s, ch) r).1.x ≤ μ s.x + 1 := by
        unfold dedupeStep
        simp only
        split
        · simp
        · split
          · exact hμ _ _ s.x
          · simp
      have h := ih (dedupeStep ra ca i0 i1 (s, ch) r).1 (dedupeStep ra ca i0 i1 (s, ch) r).2
      rw [Prod.mk.eta] at h
      omega
  exact key []

theorem colStep_cost (hμ : ∀ a b x, μ (ra a b x) ≤ μ x + 1) (rows : ℕ) (t : St X Y × ℕ × List ℕ) (p : ℕ) :
    μ (colStep ra ca rows t p).1.x ≤ μ t.1.x + rows := by
  obtain ⟨s, row, piv⟩ := t
  unfold colStep
  simp only
  split
  · simp
  · next r0 hf =>
    have hmem := List.mem_of_find?_eq_some hf
    rw [List.mem_range'_1] at hmem
    have h1 : μ (if r0 ≠ row then s.op ra ca r0 row else s).x ≤ μ s.x + 1 := by
      split
      · exact hμ _ _ s.x
      · omega
    have h2 := clearRows_cost (ca := ca) hμ row p (List.range' (row + 1) (rows - (row + 1))) (if r0 ≠ row then s.op ra ca r0 row else s)
    rw [List.length_range'] at h2
    simp only
    omega

theorem cols_cost (hμ : ∀ a b x, μ (ra a b x) ≤ μ x + 1) (rows : ℕ) (ps : List ℕ) (t : St X Y × ℕ × List ℕ) :
    μ (ps.foldl (colStep ra ca rows) t).1.x ≤ μ t.1.x + ps.length * rows := by
  induction ps generalizing t with
  | nil => simp
  | cons p ps ih =>
    rw [List.foldl_cons, List.length_cons, Nat.succ_mul]
    have := ih (colStep ra ca rows t p)
    have := colStep_cost (ca := ca) hμ rows t p
    omega

theorem secs_cost (hμ : ∀ a b x, μ (ra a b x) ≤ μ x + 1) (rows ncols b : ℕ) (n : ℕ) (t : St X Y × ℕ × List ℕ) :
    μ ((List.range n).foldl (fwdSec ra ca rows ncols b) t).1.x ≤ μ t.1.x + n * rows + min ncols (n * b) * rows := by
  induction n with
  | zero => simp
  | succ n ih =>
    rw [List.range_succ, List.foldl_append, List.foldl_cons, List.foldl_nil]
    set u := (List.range n).foldl (fwdSec ra ca rows ncols b) t
    have h1 := cols_cost (ca := ca) hμ rows (List.range' (n * b) (min ncols ((n + 1) * b) - n * b))
      (dedupe ra ca (n * b) (min ncols ((n + 1) * b)) (List.range' u.2.1 (rows - u.2.1)) u.1, u.2.1, u.2.2)
    have h2 := dedupe_cost (ca := ca) hμ (n * b) (min ncols ((n + 1) * b)) (List.range' u.2.1 (rows - u.2.1)) u.1
    rw [List.length_range'] at h1 h2
    have h3 : (min ncols ((n + 1) * b) - n * b) * rows + min ncols (n * b) * rows ≤ min ncols ((n + 1) * b) * rows := by
      rw [← Nat.add_mul]
      refine Nat.mul_le_mul_right _ ?_
      have : n * b ≤ (n + 1) * b := Nat.mul_le_mul_right _ (Nat.le_succ n)
      omega
    have h4 : fwdSec ra ca rows ncols b u n = (List.range' (n * b) (min ncols ((n + 1) * b) - n * b)).foldl (colStep ra ca rows)
      (dedupe ra ca (n * b) (min ncols ((n + 1) * b)) (List.range' u.2.1 (rows - u.2.1)) u.1, u.2.1, u.2.2) := rfl
    rw [h4, Nat.succ_mul n rows]
    simp only at h1
    omega

theorem popRef_cost (hμ : ∀ a b x, μ (ra a b x) ≤ μ x + 1) (piv : List ℕ) (i0 i1 : ℕ) {n r : ℕ} (hn : n ≤ r) (s : St X Y) :
    μ (popRef ra ca piv i0 i1 n s).2.x + (popRef ra ca piv i0 i1 n s).1 * r ≤ μ s.x + n * r := by
  induction n generalizing s with
  | zero => simp [popRef]
  | succ n ih =>
    unfold popRef
    split
    · have h1 := ih (by omega) (clearRows ra ca n (piv.getD n 0) (List.range n) s)
      have h2 := clearRows_cost (ca := ca) hμ n (piv.getD n 0) (List.range n) s
      rw [List.length_range] at h2
      rw [Nat.succ_mul]
      omega
    · exact le_rfl

theorem popRef_le (piv : List ℕ) (i0 i1 n : ℕ) (s : St X Y) : (popRef ra ca piv i0 i1 n s).1 ≤ n := by
  induction n generalizing s with
  | zero => simp [popRef]
  | succ n ih =>
    unfold popRef
    split
    · exact le_trans (ih _) (Nat.le_succ n)
    · exact le_rfl

theorem bwdRef_cost (hμ : ∀ a b x, μ (ra a b x) ≤ μ x + 1) (piv : List ℕ) (ncols b : ℕ) {r : ℕ} (secs : List ℕ) {n : ℕ} (hn : n ≤ r) (s : St X Y) :
    μ (secs.foldl (bwdRef ra ca piv ncols b) (n, s)).2.x ≤ μ s.x + secs.length * r + n * r := by
  induction secs generalizing n s with
  | nil => simp
  | cons sec secs ih =>
    rw [List.foldl_cons, List.length_cons, Nat.succ_mul]
    set s1 := dedupe ra ca (sec * b) (min ncols ((sec + 1) * b)) (List.range n).reverse s with hs1
    have h1 := dedupe_cost (ca := ca) hμ (sec * b) (min ncols ((sec + 1) * b)) (List.range n).reverse s
    rw [List.length_reverse, List.length_range, ← hs1] at h1
    have h2 := popRef_cost (ca := ca) hμ piv (sec * b) (min ncols ((sec + 1) * b)) hn s1
    have h3 := popRef_le (ra := ra) (ca := ca) piv (sec * b) (min ncols ((sec + 1) * b)) n s1
    have h4 := ih (le_trans h3 hn) (popRef ra ca piv (sec * b) (min ncols ((sec + 1) * b)) n s1).2
    have h5 : bwdRef ra ca piv ncols b (n, s) sec = popRef ra ca piv (sec * b) (min ncols ((sec + 1) * b)) n s1 := rfl
    rw [h5]
    rw [Prod.mk.eta] at h4
    omega

theorem nsec_le {c b : ℕ} (hb : 0 < b) : nsec c b ≤ c := by
  unfold nsec
  rw [Nat.div_le_iff_le_mul_add_pred hb]
  have : c ≤ b * c := Nat.le_mul_of_pos_left c hb
  omega

/-- At most `4 * rows * cols` row operations if there are at least as many columns as rows. -/
theorem gauss_cost (hμ : ∀ a b x, μ (ra a b x) ≤ μ x + 1) {r b : ℕ} (hb : 0 < b) {s : St X Y} (hs : Rect r (cols s.m) s.m)
    (hrc : r ≤ cols s.m) (stale : List ℕ) : μ (gauss ra ca true b stale s).1.x ≤ μ s.x + 4 * (r * cols s.m) := by
  obtain ⟨h1, h2, -⟩ := forward_spec (ra := ra) (ca := ca) hb hs
  unfold gauss
  simp only [if_true]
  rw [h2, backward_ref]
  have h3 := bwdRef_cost (ca := ca) hμ (forward ra ca b s).2.2 (cols s.m) b (List.range (nsec (cols s.m) b)).reverse h1.le (forward ra ca b s).1
  have h4 := secs_cost (ca := ca) hμ r (cols s.m) b (nsec (cols s.m) b) (s, 0, [])
  have h5 : (forward ra ca b s) = (List.range (nsec (cols s.m) b)).foldl (fwdSec ra ca r (cols s.m) b) (s, 0, []) := by
    unfold forward; rw [hs.1]
  rw [← h5] at h4
  rw [List.length_reverse, List.length_range] at h3
  have h6 : nsec (cols s.m) b * r ≤ r * cols s.m := by
    rw [Nat.mul_comm]; exact Nat.mul_le_mul_left _ (nsec_le hb)
  have h7 : min (cols s.m) (nsec (cols s.m) b * b) * r ≤ r * cols s.m := by
    rw [Nat.mul_comm]; exact Nat.mul_le_mul_left _ (min_le_left _ _)
  have h8 : (forward ra ca b s).2.2.length * r ≤ r * cols s.m := by
    rw [Nat.mul_comm]; exact Nat.mul_le_mul_left _ (le_trans h1.le hrc)
  simp only at h4
  omega

end

theorem bestCnots_isSome {stale : ℕ → List ℕ} {d : Data} {sizes : List ℕ} {best : ℕ} {bc : Option (List (ℕ × ℕ))}
    (h : bc.isSome ∨ ∃ b ∈ sizes, (gauss cnotMaker noOp true b (stale b) ⟨d, [], ()⟩).1.x.length < best) :
    (bestCnots stale d sizes best bc).isSome := by
  induction sizes generalizing best bc with
  | nil =>
    rcases h with h | ⟨b, hb, -⟩
    · exact h
    · simp at hb
  | cons a sizes ih =>
    unfold bestCnots
    simp only
    split
    · exact ih (Or.inl rfl)
    · next hlt =>
      rcases h with h | ⟨b, hb, hlb⟩
      · exact ih (Or.inl h)
      · rcases List.mem_cons.mp hb with rfl | hb
        · exact absurd hlb hlt
        · exact ih (Or.inr ⟨b, hb, hlb⟩)

end Mat2
end PyZX
