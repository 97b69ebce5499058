import Verif.Spec.Linalg
import Mathlib.Tactic.Ring
import Mathlib.Data.List.GetD
import Mathlib.Tactic.IntervalCases

/-!
# Row operations and the loops of `Mat2.gauss`
-/

namespace PyZX
namespace Mat2

theorem Rect.length_getD {r c : ℕ} {d : Data} (h : Rect r c d) {i : ℕ} (hi : i < r) : (d.getD i []).length = c := by
  have h1 : i < d.length := h.1 ▸ hi
  rw [List.getD_eq_getElem _ _ h1]
  exact h.2 _ (List.getElem_mem h1)

theorem Rect.rowAdd {r c : ℕ} {d : Data} (h : Rect r c d) {a b : ℕ} (ha : a < r) (hb : b < r) : Rect r c (rowAdd a b d) := by
  refine ⟨by simp [Mat2.rowAdd, h.1], fun row hrow => ?_⟩
  rcases List.mem_or_eq_of_mem_set hrow with h1 | rfl
  · exact h.2 _ h1
  · rw [List.length_zipWith, h.length_getD ha, h.length_getD hb, min_self]

theorem getD_zipWith_xor {l m : List Bool} (h : l.length = m.length) (j : ℕ) :
    (List.zipWith xor l m).getD j false = xor (l.getD j false) (m.getD j false) := by
  simp only [List.getD_eq_getElem?_getD, List.getElem?_zipWith]
  rcases lt_or_ge j l.length with h1 | h1
  · have h2 : j < m.length := h ▸ h1
    rw [List.getElem?_eq_getElem h1, List.getElem?_eq_getElem h2]; simp
  · have h2 : m.length ≤ j := h ▸ h1
    rw [List.getElem?_eq_none h1, List.getElem?_eq_none h2]; simp

theorem get_rowAdd {r c : ℕ} {d : Data} (h : Rect r c d) {a b : ℕ} (ha : a < r) (hb : b < r) (i j : ℕ) :
    get (rowAdd a b d) i j = if i = b then xor (get d b j) (get d a j) else get d i j := by
  unfold get Mat2.rowAdd
  by_cases hi : i = b
  · subst hi
    rw [if_pos rfl, List.getD_eq_getElem?_getD (l := d.set _ _), List.getElem?_set_self (by rw [h.1]; exact hb)]
    simp only [Option.getD_some]
    exact getD_zipWith_xor (by rw [h.length_getD ha, h.length_getD hb]) j
  · rw [if_neg hi, List.getD_eq_getElem?_getD (l := d.set _ _), List.getElem?_set_ne (Ne.symm hi), ← List.getD_eq_getElem?_getD]

theorem rect_cols {r c : ℕ} {d : Data} (h : Rect r c d) (hr : 0 < r) : cols d = c := h.length_getD hr

section
variable {X Y : Type*} {ra : ℕ → ℕ → X → X} {ca : ℕ → ℕ → Y → Y}

/-- Execution of a list of row operations. -/
def runs (ra : ℕ → ℕ → X → X) (ca : ℕ → ℕ → Y → Y) (L : List (ℕ × ℕ)) (s : St X Y) : St X Y :=
  L.foldl (fun s p => s.op ra ca p.1 p.2) s

/-- `s'` arises from `s` by row operations of a certain kind. -/
def Run (ra : ℕ → ℕ → X → X) (ca : ℕ → ℕ → Y → Y) (P : ℕ → ℕ → Prop) (s s' : St X Y) : Prop :=
  ∃ L : List (ℕ × ℕ), (∀ p ∈ L, P p.1 p.2) ∧ s' = runs ra ca L s

variable {P Q : ℕ → ℕ → Prop} {s s' s'' : St X Y}

theorem Run.refl : Run ra ca P s s := ⟨[], by simp, rfl⟩

theorem Run.trans (h1 : Run ra ca P s s') (h2 : Run ra ca P s' s'') : Run ra ca P s s'' := by
  obtain ⟨L1, a1, rfl⟩ := h1
  obtain ⟨L2, a2, rfl⟩ := h2
  refine ⟨L1 ++ L2, fun p hp => ?_, by simp [runs, List.foldl_append]⟩
  rcases List.mem_append.mp hp with h | h
  · exact a1 p h
  · exact a2 p h

theorem Run.mono (h : Run ra ca P s s') (hPQ : ∀ a b, P a b → Q a b) : Run ra ca Q s s' := by
  obtain ⟨L, a, rfl⟩ := h
  exact ⟨L, fun p hp => hPQ _ _ (a p hp), rfl⟩

theorem Run.op {a b : ℕ} (h : P a b) : Run ra ca P s (s.op ra ca a b) := ⟨[(a, b)], by simpa using h, rfl⟩

/-- Invariants of the matrix under all operations of the kind are kept. -/
theorem Run.induct {I : Data → Prop} (h : Run ra ca P s s') (hs : I s.m) (hI : ∀ d a b, I d → P a b → I (rowAdd a b d)) :
    I s'.m := by
  obtain ⟨L, h, rfl⟩ := h
  induction L generalizing s with
  | nil => exact hs
  | cons p L ih =>
    exact ih (s := s.op ra ca p.1 p.2) (hI _ _ _ hs (h p (by simp))) fun q hq => h q (by simp [hq])

theorem clearRows_run {a p : ℕ} {rs : List ℕ} : Run ra ca (fun a' b => a' = a ∧ b ∈ rs ∧ a ≠ b) s (clearRows ra ca a p rs s) := by
  induction rs generalizing s with
  | nil => exact Run.refl
  | cons r rs ih =>
    simp only [clearRows, List.foldl_cons]
    refine Run.trans ?_ ((ih (s := if a ≠ r ∧ get s.m r p then s.op ra ca a r else s)).mono ?_)
    · split
      · next h => exact Run.op ⟨rfl, by simp, h.1⟩
      · exact Run.refl
    · rintro a' b ⟨rfl, h1, h2⟩
      exact ⟨rfl, by simp [h1], h2⟩

theorem dedupe_fold_run {i0 i1 : ℕ} {R : ℕ → ℕ → Prop} {rs : List ℕ} (hr : rs.Pairwise R) {all : List ℕ} (hall : ∀ r ∈ rs, r ∈ all)
    {ch : List (List Bool × ℕ)} (hch : ∀ t ∈ ch, t.2 ∈ all ∧ ∀ r ∈ rs, R t.2 r) :
    Run ra ca (fun a b => a ∈ all ∧ b ∈ all ∧ R a b) s (rs.foldl (dedupeStep ra ca i0 i1) (s, ch)).1 := by
  induction rs generalizing s ch with
  | nil => exact Run.refl
  | cons r rs ih =>
    rw [List.pairwise_cons] at hr
    rw [List.foldl_cons]
    have hall' : ∀ r ∈ rs, r ∈ all := fun q hq => hall q (by simp [hq])
    have hch' : ∀ t ∈ ch, t.2 ∈ all ∧ ∀ r ∈ rs, R t.2 r := fun t ht => ⟨(hch t ht).1, fun q hq => (hch t ht).2 q (by simp [hq])⟩
    unfold dedupeStep
    by_cases ht : (chunk s.m r i0 i1).any id
    · simp only [ht, not_true_eq_false, if_false]
      cases hl : ch.lookup (chunk s.m r i0 i1) with
      | none =>
        refine ih hr.2 hall' fun t ht => ?_
        rcases List.mem_cons.mp ht with rfl | ht
        · exact ⟨hall r (by simp), hr.1⟩
        · exact hch' t ht
      | some a =>
        have hm : ∃ t ∈ ch, t.2 = a := by
          clear hch hch' ih
          induction ch with
          | nil => simp at hl
          | cons t ch ihc =>
            rw [List.lookup_cons] at hl
            split at hl
            · exact ⟨t, by simp, Option.some.inj hl⟩
            · obtain ⟨t', h1, h2⟩ := ihc hl
              exact ⟨t', by simp [h1], h2⟩
        obtain ⟨t, h1, rfl⟩ := hm
        exact Run.trans (Run.op ⟨(hch t h1).1, hall r (by simp), (hch t h1).2 r (by simp)⟩) (ih hr.2 hall' hch')
    · simp only [ht]
      exact ih hr.2 hall' hch'

theorem dedupe_run {i0 i1 : ℕ} {R : ℕ → ℕ → Prop} {rs : List ℕ} (hr : rs.Pairwise R) :
    Run ra ca (fun a b => a ∈ rs ∧ b ∈ rs ∧ R a b) s (dedupe ra ca i0 i1 rs s) :=
  dedupe_fold_run hr (fun _ h => h) (by simp)

/-- Row operations within the rows. -/
def Valid (r : ℕ) (a b : ℕ) : Prop := a < r ∧ b < r ∧ a ≠ b

theorem Run.rect {r c : ℕ} (h : Run ra ca (Valid r) s s') (hs : Rect r c s.m) : Rect r c s'.m :=
  h.induct (I := Rect r c) hs fun _ _ _ h1 h2 => h1.rowAdd h2.1 h2.2.1

/-- The effect of clearing a column with a row not in the list. -/
theorem clearRows_get {r c a p : ℕ} {rs : List ℕ} (hs : Rect r c s.m) (ha : a < r) (hrs : ∀ b ∈ rs, b < r ∧ a ≠ b) (hn : rs.Nodup)
    (hone : get s.m a p = true) (i j : ℕ) : get (clearRows ra ca a p rs s).m i j =
      if i ∈ rs ∧ get s.m i p then xor (get s.m i j) (get s.m a j) else get s.m i j := by
  induction rs generalizing s with
  | nil => simp [clearRows]
  | cons b rs ih =>
    rw [List.nodup_cons] at hn
    have hb := hrs b (by simp)
    simp only [clearRows, List.foldl_cons]
    have hcl : ∀ s : St X Y, List.foldl (fun s r => if a ≠ r ∧ get s.m r p then s.op ra ca a r else s) s rs = clearRows ra ca a p rs s :=
      fun _ => rfl
    by_cases hbp : get s.m b p = true
    · rw [if_pos ⟨hb.2, hbp⟩, hcl]
      have h1 : (s.op ra ca a b).m = rowAdd a b s.m := rfl
      rw [ih (s := s.op ra ca a b) (hs.rowAdd ha hb.1) (fun b hb => hrs b (by simp [hb])) hn.2
        (by rw [h1, get_rowAdd hs ha hb.1, if_neg hb.2]; exact hone), h1]
      simp only [get_rowAdd hs ha hb.1, if_neg hb.2]
      by_cases hi : i = b
      · subst hi
        simp [hn.1, hbp]
      · simp [hi]
    · rw [if_neg (fun h => hbp h.2), hcl, ih hs (fun b hb => hrs b (by simp [hb])) hn.2 hone]
      by_cases hi : i = b
      · subst hi
        simp [hn.1, hbp]
      · simp [hi]

/-! ### The forward pass -/

/-- Echelon form of the columns below `p`, with the pivots `piv`. -/
structure Fwd (r c p : ℕ) (piv : List ℕ) (m : Data) : Prop where
  rect : Rect r c m
  le : piv.length ≤ r
  lt : ∀ i < piv.length, piv.getD i 0 < p
  mono : ∀ i i', i < i' → i' < piv.length → piv.getD i 0 < piv.getD i' 0
  one : ∀ i < piv.length, get m i (piv.getD i 0) = true
  left : ∀ i < piv.length, ∀ j < piv.getD i 0, get m i j = false
  below : ∀ i, piv.length ≤ i → i < r → ∀ j < p, get m i j = false

/-- Operations on the rows that have no pivot yet. -/
def Low (r k : ℕ) (a b : ℕ) : Prop := k ≤ a ∧ a < r ∧ k ≤ b ∧ b < r ∧ a ≠ b

theorem Fwd.rowAdd {r c p : ℕ} {piv : List ℕ} {m : Data} (h : Fwd r c p piv m) {a b : ℕ} (hab : Low r piv.length a b) :
    Fwd r c p piv (rowAdd a b m) := by
  obtain ⟨h1, h2, h3, h4, h5⟩ := hab
  have hg := fun i j => get_rowAdd h.rect h2 h4 i j
  refine ⟨h.rect.rowAdd h2 h4, h.le, h.lt, h.mono, ?_, ?_, ?_⟩
  · intro i hi
    rw [hg, if_neg (by omega)]; exact h.one i hi
  · intro i hi j hj
    rw [hg, if_neg (by omega)]; exact h.left i hi j hj
  · intro i hi hir j hj
    rw [hg, h.below i hi hir j hj, h.below a h1 h2 j hj, h.below b h3 h4 j hj]
    simp

theorem Low.valid {r k a b : ℕ} (h : Low r k a b) : Valid r a b := ⟨h.2.1, h.2.2.2.1, h.2.2.2.2⟩

theorem getD_snoc {l : List ℕ} {p i : ℕ} : (l ++ [p]).getD i 0 = if i < l.length then l.getD i 0 else if i = l.length then p else 0 := by
  simp only [List.getD_eq_getElem?_getD]
  by_cases h : i < l.length
  · rw [List.getElem?_append_left h, if_pos h]
  · rw [List.getElem?_append_right (by omega), if_neg h]
    by_cases h1 : i = l.length
    · simp [h1]
    · rw [if_neg h1, List.getElem?_eq_none (by simp; omega)]; rfl

theorem colStep_fwd {r c p : ℕ} {piv : List ℕ} (h : Fwd r c p piv s.m) {t' : St X Y × ℕ × List ℕ}
    (ht : colStep ra ca r (s, piv.length, piv) p = t') :
    Fwd r c (p + 1) t'.2.2 t'.1.m ∧ t'.2.1 = t'.2.2.length ∧ Run ra ca (Valid r) s t'.1 := by
  subst ht
  unfold colStep
  cases hf : (List.range' piv.length (r - piv.length)).find? (fun r0 => get s.m r0 p) with
  | none =>
    simp only [hf]
    refine ⟨⟨h.rect, h.le, fun i hi => Nat.lt_succ_of_lt (h.lt i hi), h.mono, h.one, h.left, ?_⟩, trivial, Run.refl⟩
    intro i hi hir j hj
    rcases Nat.lt_succ_iff_lt_or_eq.mp hj with hj | rfl
    · exact h.below i hi hir j hj
    · rw [List.find?_eq_none] at hf
      have := hf i (List.mem_range'_1.mpr ⟨hi, by omega⟩)
      simpa using this
  | some r0 =>
    simp only [hf]
    obtain ⟨hbit, as, bs, has, hmin⟩ := List.find?_eq_some_iff_append.mp hf
    have hmem : r0 ∈ List.range' piv.length (r - piv.length) := List.mem_of_find?_eq_some hf
    rw [List.mem_range'_1] at hmem
    have hrow : piv.length < r := by omega
    set s1 := if r0 ≠ piv.length then s.op ra ca r0 piv.length else s with hs1
    have hrun1 : Run ra ca (Low r piv.length) s s1 := by
      rw [hs1]
      split
      · next hne => exact Run.op ⟨hmem.1, by omega, le_rfl, hrow, hne⟩
      · exact Run.refl
    have hF1 : Fwd r c p piv s1.m := hrun1.induct (I := Fwd r c p piv) h fun _ _ _ h1 h2 => h1.rowAdd h2
    have hone : get s1.m piv.length p = true := by
      by_cases hne : r0 = piv.length
      · rw [hs1, if_neg (by simpa using hne), ← hne]; exact hbit
      · rw [hs1, if_pos hne]
        show get (rowAdd r0 piv.length s.m) piv.length p = true
        rw [get_rowAdd h.rect (by omega) hrow, if_pos rfl, hbit]
        have : get s.m piv.length p = false := by
          have hp : piv.length ∈ as := by
            cases as with
            | nil =>
              rw [List.nil_append, List.range'_eq_cons_iff] at has
              exact absurd has.1.symm hne
            | cons a as =>
              rw [List.cons_append, List.range'_eq_cons_iff] at has
              simp [has.1]
          simpa using hmin _ hp
        rw [this]; rfl
    set rs := List.range' (piv.length + 1) (r - (piv.length + 1)) with hrs
    have hrs1 : ∀ b, b ∈ rs ↔ piv.length + 1 ≤ b ∧ b < r := by
      intro b
      rw [hrs, List.mem_range'_1]
      omega
    have hrun2 : Run ra ca (Low r piv.length) s1 (clearRows ra ca piv.length p rs s1) := by
      refine clearRows_run.mono ?_
      rintro a b ⟨rfl, h1, h2⟩
      have := (hrs1 b).mp h1
      exact ⟨le_rfl, hrow, by omega, this.2, h2⟩
    set s2 := clearRows ra ca piv.length p rs s1 with hs2
    have hF2 : Fwd r c p piv s2.m := hrun2.induct (I := Fwd r c p piv) hF1 fun _ _ _ h1 h2 => h1.rowAdd h2
    have hget : ∀ i j, get s2.m i j = if i ∈ rs ∧ get s1.m i p then xor (get s1.m i j) (get s1.m piv.length j) else get s1.m i j :=
      clearRows_get hF1.rect hrow (fun b hb => ⟨((hrs1 b).mp hb).2, by have := ((hrs1 b).mp hb).1; omega⟩)
        (List.nodup_range' ..) hone
    refine ⟨⟨hF2.rect, ?_, ?_, ?_, ?_, ?_, ?_⟩, by simp, (hrun1.trans hrun2).mono fun _ _ h => h.valid⟩
    · simp; omega
    · intro i hi
      rw [List.length_append, List.length_singleton] at hi
      rw [getD_snoc]
      split_ifs with h1 h2
      · have := h.lt i h1; omega
      · omega
      · omega
    · intro i i' hii hi'
      rw [List.length_append, List.length_singleton] at hi'
      rw [getD_snoc, getD_snoc, if_pos (by omega)]
      split_ifs with h1 h2
      · exact h.mono i i' hii h1
      · exact h.lt i (by omega)
      · omega
    · intro i hi
      rw [List.length_append, List.length_singleton] at hi
      rw [getD_snoc]
      split_ifs with h1 h2
      · exact hF2.one i h1
      · subst h2
        rw [hget, if_neg (fun h => by have := ((hrs1 _).mp h.1).1; omega)]
        exact hone
      · omega
    · intro i hi j hj
      rw [List.length_append, List.length_singleton] at hi
      rw [getD_snoc] at hj
      split_ifs at hj with h1 h2
      · exact hF2.left i h1 j hj
      · subst h2
        exact hF2.below _ le_rfl hrow j hj
      · omega
    · intro i hi hir j hj
      rw [List.length_append, List.length_singleton] at hi
      rcases Nat.lt_succ_iff_lt_or_eq.mp hj with hj | rfl
      · exact hF2.below i (by omega) hir j hj
      · rw [hget]
        by_cases hb : get s1.m i j = true
        · rw [if_pos ⟨(hrs1 i).mpr ⟨hi, hir⟩, hb⟩, hb, hone]; rfl
        · rw [if_neg (fun h => hb h.2)]; simpa using hb

theorem cols_fwd {r c : ℕ} {n p : ℕ} {piv : List ℕ} (h : Fwd r c p piv s.m) {t' : St X Y × ℕ × List ℕ}
    (ht : (List.range' p n).foldl (colStep ra ca r) (s, piv.length, piv) = t') :
    Fwd r c (p + n) t'.2.2 t'.1.m ∧ t'.2.1 = t'.2.2.length ∧ Run ra ca (Valid r) s t'.1 := by
  induction n generalizing p piv s with
  | zero =>
    subst ht
    exact ⟨h, rfl, Run.refl⟩
  | succ n ih =>
    rw [List.range'_succ, List.foldl_cons] at ht
    obtain ⟨h1, h2, h3⟩ := colStep_fwd (ra := ra) (ca := ca) h rfl
    set t := colStep ra ca r (s, piv.length, piv) p with htdef
    have e : t = (t.1, t.2.2.length, t.2.2) := by rw [← h2]
    rw [e] at ht
    obtain ⟨h4, h5, h6⟩ := ih h1 ht
    exact ⟨by rw [show p + (n + 1) = p + 1 + n by ring]; exact h4, h5, h3.trans h6⟩

theorem fwdSec_fwd {r c b sec : ℕ} {piv : List ℕ} (h : Fwd r c (min c (sec * b)) piv s.m) {t' : St X Y × ℕ × List ℕ}
    (ht : fwdSec ra ca r c b (s, piv.length, piv) sec = t') :
    Fwd r c (min c ((sec + 1) * b)) t'.2.2 t'.1.m ∧ t'.2.1 = t'.2.2.length ∧ Run ra ca (Valid r) s t'.1 := by
  unfold fwdSec at ht
  simp only at ht
  set s1 := dedupe ra ca (sec * b) (min c ((sec + 1) * b)) (List.range' piv.length (r - piv.length)) s with hs1
  have hrun : Run ra ca (Low r piv.length) s s1 := by
    refine (dedupe_run (R := (· < ·)) List.pairwise_lt_range').mono ?_
    rintro a b ⟨h1, h2, h3⟩
    rw [List.mem_range'_1] at h1 h2
    exact ⟨h1.1, by omega, h2.1, by omega, by omega⟩
  have hF : Fwd r c (min c (sec * b)) piv s1.m := hrun.induct (I := Fwd r c _ piv) h fun _ _ _ h1 h2 => h1.rowAdd h2
  rcases le_or_gt (sec * b) c with hle | hgt
  · rw [min_eq_right hle] at hF
    obtain ⟨h1, h2, h3⟩ := cols_fwd hF ht
    refine ⟨?_, h2, (hrun.mono fun _ _ h => h.valid).trans h3⟩
    have : sec * b ≤ min c ((sec + 1) * b) := le_min hle (Nat.mul_le_mul_right _ (Nat.le_succ _))
    rwa [show sec * b + (min c ((sec + 1) * b) - sec * b) = min c ((sec + 1) * b) by omega] at h1
  · have h1 : c ≤ (sec + 1) * b := le_trans hgt.le (Nat.mul_le_mul_right _ (Nat.le_succ _))
    rw [min_eq_left h1] at ht ⊢
    rw [show c - sec * b = 0 by omega] at ht
    subst ht
    rw [min_eq_left hgt.le] at hF
    exact ⟨hF, rfl, hrun.mono fun _ _ h => h.valid⟩

theorem secs_fwd {r c b : ℕ} (hs : Rect r c s.m) (n : ℕ) {t' : St X Y × ℕ × List ℕ}
    (ht : (List.range n).foldl (fwdSec ra ca r c b) (s, 0, []) = t') :
    Fwd r c (min c (n * b)) t'.2.2 t'.1.m ∧ t'.2.1 = t'.2.2.length ∧ Run ra ca (Valid r) s t'.1 := by
  induction n generalizing t' with
  | zero =>
    subst ht
    refine ⟨⟨hs, by simp, by simp, by simp, by simp, by simp, by simp⟩, rfl, Run.refl⟩
  | succ n ih =>
    rw [List.range_succ, List.foldl_append, List.foldl_cons, List.foldl_nil] at ht
    obtain ⟨h1, h2, h3⟩ := ih rfl
    set t := (List.range n).foldl (fwdSec ra ca r c b) (s, 0, []) with htdef
    have e : t = (t.1, t.2.2.length, t.2.2) := by rw [← h2]
    rw [e] at ht
    obtain ⟨h4, h5, h6⟩ := fwdSec_fwd h1 ht
    exact ⟨h4, h5, h3.trans h6⟩

theorem le_nsec_mul {c b : ℕ} (hb : 0 < b) : c ≤ nsec c b * b := by
  unfold nsec
  have h1 := Nat.div_add_mod (c + b - 1) b
  have h2 := Nat.mod_lt (c + b - 1) hb
  rw [Nat.mul_comm] at h1
  omega

/-- The forward pass. -/
theorem forward_spec {r b : ℕ} (hb : 0 < b) (hs : Rect r (cols s.m) s.m) :
    Fwd r (cols s.m) (cols s.m) (forward ra ca b s).2.2 (forward ra ca b s).1.m ∧
      (forward ra ca b s).2.1 = (forward ra ca b s).2.2.length ∧ Run ra ca (Valid r) s (forward ra ca b s).1 := by
  have h1 := secs_fwd (ra := ra) (ca := ca) (b := b) hs (nsec (cols s.m) b) rfl
  rw [min_eq_left (le_nsec_mul hb)] at h1
  unfold forward
  rw [hs.1]
  exact h1

/-! ### The backward pass -/

/-- The `while` loop of the backward pass without the stale part of the stack; `n` is the number of pivots left. -/
def popRef (ra : ℕ → ℕ → X → X) (ca : ℕ → ℕ → Y → Y) (piv : List ℕ) (i0 i1 : ℕ) : ℕ → St X Y → ℕ × St X Y
  | 0, s => (0, s)
  | n + 1, s =>
    if i0 ≤ piv.getD n 0 ∧ piv.getD n 0 < i1 then popRef ra ca piv i0 i1 n (clearRows ra ca n (piv.getD n 0) (List.range n) s)
    else (n + 1, s)

/-- The stack and `pivot_row` when `n` pivots are left. -/
def StkRel (piv stale : List ℕ) (n : ℕ) (stk : List ℕ) (q : ℤ) : Prop :=
  (stk = (piv.take n).reverse ++ stale ∧ q = n - 1) ∨ (n = 0 ∧ q < 0)

theorem StkRel.toNat {piv stale : List ℕ} {n : ℕ} {stk : List ℕ} {q : ℤ} (h : StkRel piv stale n stk q) : (q + 1).toNat = n := by
  rcases h with ⟨-, rfl⟩ | ⟨rfl, h⟩ <;> omega

theorem popLoop_neg {i0 i1 : ℕ} {stk : List ℕ} {q : ℤ} (hq : q < 0) :
    (popLoop ra ca i0 i1 stk q s).2.2 = s ∧ (popLoop ra ca i0 i1 stk q s).2.1 < 0 := by
  induction stk generalizing q with
  | nil => exact ⟨rfl, hq⟩
  | cons pc stk ih =>
    unfold popLoop
    split
    · have h0 : q.toNat = 0 := by omega
      have h1 : clearRows ra ca q.toNat pc (List.range q.toNat) s = s := by rw [h0]; rfl
      rw [h1]
      exact ih (by omega)
    · exact ⟨rfl, hq⟩

theorem popLoop_ref {i0 i1 : ℕ} {piv stale : List ℕ} {n : ℕ} (hn : n ≤ piv.length) {stk : List ℕ} {q : ℤ} (h : StkRel piv stale n stk q) :
    (popLoop ra ca i0 i1 stk q s).2.2 = (popRef ra ca piv i0 i1 n s).2 ∧
      StkRel piv stale (popRef ra ca piv i0 i1 n s).1 (popLoop ra ca i0 i1 stk q s).1 (popLoop ra ca i0 i1 stk q s).2.1 ∧
      (popRef ra ca piv i0 i1 n s).1 ≤ n := by
  induction n generalizing stk q s with
  | zero =>
    have hq : q < 0 := by rcases h with ⟨-, rfl⟩ | ⟨-, h⟩ <;> omega
    exact ⟨(popLoop_neg hq).1, Or.inr ⟨rfl, (popLoop_neg hq).2⟩, le_rfl⟩
  | succ n ih =>
    rcases h with ⟨rfl, rfl⟩ | ⟨h, -⟩
    · have e : (piv.take (n + 1)).reverse ++ stale = piv.getD n 0 :: ((piv.take n).reverse ++ stale) := by
        rw [List.getD_eq_getElem _ _ (by omega), List.take_add_one, List.getElem?_eq_getElem (by omega)]
        simp only [Option.toList_some, List.reverse_append, List.reverse_singleton, List.cons_append, List.nil_append]
      rw [e]
      unfold popLoop popRef
      by_cases hc : i0 ≤ piv.getD n 0 ∧ piv.getD n 0 < i1
      · simp only [if_pos hc]
        have e1 : ((n + 1 : ℕ) - 1 : ℤ).toNat = n := by omega
        rw [e1]
        obtain ⟨h1, h2, h3⟩ := ih (by omega) (s := clearRows ra ca n (piv.getD n 0) (List.range n) s)
          (stk := (piv.take n).reverse ++ stale) (q := ((n + 1 : ℕ) - 1 : ℤ) - 1) (Or.inl ⟨rfl, by omega⟩)
        exact ⟨h1, h2, by omega⟩
      · simp only [if_neg hc]
        refine ⟨trivial, Or.inl ⟨e.symm, rfl⟩, le_rfl⟩
    · omega

/-- One section of the backward pass without stale pivots. -/
def bwdRef (ra : ℕ → ℕ → X → X) (ca : ℕ → ℕ → Y → Y) (piv : List ℕ) (ncols b : ℕ) (t : ℕ × St X Y) (sec : ℕ) : ℕ × St X Y :=
  popRef ra ca piv (sec * b) (min ncols ((sec + 1) * b)) t.1
    (dedupe ra ca (sec * b) (min ncols ((sec + 1) * b)) (List.range t.1).reverse t.2)

theorem bwd_ref {piv stale : List ℕ} {ncols b : ℕ} (secs : List ℕ) {n : ℕ} (hn : n ≤ piv.length) {stk : List ℕ} {q : ℤ}
    (h : StkRel piv stale n stk q) :
    (secs.foldl (bwdSec ra ca ncols b) (stk, q, s)).2.2 = (secs.foldl (bwdRef ra ca piv ncols b) (n, s)).2 := by
  induction secs generalizing n stk q s with
  | nil => rfl
  | cons sec secs ih =>
    rw [List.foldl_cons, List.foldl_cons]
    have h1 := h.toNat
    have hd : bwdSec ra ca ncols b (stk, q, s) sec = popLoop ra ca (sec * b) (min ncols ((sec + 1) * b)) stk q
      (dedupe ra ca (sec * b) (min ncols ((sec + 1) * b)) (List.range n).reverse s) := by
      unfold bwdSec; simp only [h1]
    rw [hd]
    obtain ⟨h2, h3, h4⟩ := popLoop_ref (ra := ra) (ca := ca) (i0 := sec * b) (i1 := min ncols ((sec + 1) * b))
      (s := dedupe ra ca (sec * b) (min ncols ((sec + 1) * b)) (List.range n).reverse s) hn h
    have := ih (s := (popLoop ra ca (sec * b) (min ncols ((sec + 1) * b)) stk q
      (dedupe ra ca (sec * b) (min ncols ((sec + 1) * b)) (List.range n).reverse s)).2.2) (le_trans h4 hn) h3
    rw [show (popLoop ra ca (sec * b) (min ncols ((sec + 1) * b)) stk q
      (dedupe ra ca (sec * b) (min ncols ((sec + 1) * b)) (List.range n).reverse s)) = (_, _, _) from rfl]
    rw [this]
    congr 2
    unfold bwdRef
    exact Prod.ext rfl h2

theorem backward_ref {b ncols : ℕ} {piv stale : List ℕ} :
    backward ra ca b ncols piv.length (stale ++ piv) s =
      ((List.range (nsec ncols b)).reverse.foldl (bwdRef ra ca piv ncols b) (piv.length, s)).2 := by
  unfold backward
  refine bwd_ref (stale := stale.reverse) _ le_rfl (Or.inl ⟨by simp, rfl⟩)

/-- Reduced echelon form for the pivots with index at least `n`. -/
structure Bwd (r c : ℕ) (piv : List ℕ) (n : ℕ) (m : Data) : Prop where
  fwd : Fwd r c c piv m
  clr : ∀ k, n ≤ k → k < piv.length → ∀ i < k, get m i (piv.getD k 0) = false

/-- Adding a row with a pivot to a row above it. -/
def Up (n : ℕ) (a b : ℕ) : Prop := b < a ∧ a < n

theorem Bwd.rowAdd {r c n : ℕ} {piv : List ℕ} {m : Data} (h : Bwd r c piv n m) (hn : n ≤ piv.length) {a b : ℕ} (hab : Up n a b) :
    Bwd r c piv n (rowAdd a b m) := by
  obtain ⟨h1, h2⟩ := hab
  have hl := h.fwd.le
  have hg := fun i j => get_rowAdd h.fwd.rect (a := a) (b := b) (by omega) (by omega) i j
  have hm := h.fwd.mono b a h1 (by omega)
  refine ⟨⟨h.fwd.rect.rowAdd (by omega) (by omega), h.fwd.le, h.fwd.lt, h.fwd.mono, ?_, ?_, ?_⟩, ?_⟩
  · intro i hi
    rw [hg]
    split_ifs with hib
    · subst hib
      rw [h.fwd.one i hi, h.fwd.left a (by omega) _ hm]; rfl
    · exact h.fwd.one i hi
  · intro i hi j hj
    rw [hg]
    split_ifs with hib
    · subst hib
      rw [h.fwd.left i hi j hj, h.fwd.left a (by omega) j (by omega)]; rfl
    · exact h.fwd.left i hi j hj
  · intro i hi hir j hj
    rw [hg, if_neg (by omega)]
    exact h.fwd.below i hi hir j hj
  · intro k hk hkl i hik
    rw [hg]
    split_ifs with hib
    · subst hib
      rw [h.clr k hk hkl i hik, h.clr k hk hkl a (by omega)]; rfl
    · exact h.clr k hk hkl i hik

theorem popRef_spec {r c i0 i1 n : ℕ} {piv : List ℕ} (h : Bwd r c piv n s.m) (hn : n ≤ piv.length) (hi1 : ∀ k < n, piv.getD k 0 < i1) :
    Bwd r c piv (popRef ra ca piv i0 i1 n s).1 (popRef ra ca piv i0 i1 n s).2.m ∧ (popRef ra ca piv i0 i1 n s).1 ≤ n ∧
      (∀ k < (popRef ra ca piv i0 i1 n s).1, piv.getD k 0 < i0) ∧ Run ra ca (Valid r) s (popRef ra ca piv i0 i1 n s).2 := by
  induction n generalizing s with
  | zero => exact ⟨h, le_rfl, by simp [popRef], Run.refl⟩
  | succ n ih =>
    unfold popRef
    by_cases hc : i0 ≤ piv.getD n 0 ∧ piv.getD n 0 < i1
    · simp only [if_pos hc]
      have hl := h.fwd.le
      set s1 := clearRows ra ca n (piv.getD n 0) (List.range n) s with hs1
      have hrun : Run ra ca (Up (n + 1)) s s1 := by
        refine clearRows_run.mono ?_
        rintro a b ⟨rfl, h1, -⟩
        exact ⟨List.mem_range.mp h1, by omega⟩
      have hB : Bwd r c piv (n + 1) s1.m := hrun.induct (I := Bwd r c piv (n + 1)) h fun _ _ _ h1 h2 => h1.rowAdd hn h2
      have hget := clearRows_get (ra := ra) (ca := ca) (s := s) (a := n) (p := piv.getD n 0) (rs := List.range n) h.fwd.rect (by omega)
        (fun b hb => by have := List.mem_range.mp hb; omega) List.nodup_range (h.fwd.one n (by omega))
      have hB' : Bwd r c piv n s1.m := by
        refine ⟨hB.fwd, fun k hk hkl i hik => ?_⟩
        rcases Nat.eq_or_lt_of_le hk with rfl | hk
        · rw [hs1, hget]
          by_cases hb : get s.m i (piv.getD n 0) = true
          · rw [if_pos ⟨List.mem_range.mpr hik, hb⟩, hb, h.fwd.one n (by omega)]; rfl
          · rw [if_neg (fun h => hb h.2)]; simpa using hb
        · exact hB.clr k hk hkl i hik
      obtain ⟨h1, h2, h3, h4⟩ := ih hB' (by omega) fun k hk => hi1 k (by omega)
      refine ⟨h1, by omega, h3, (hrun.mono ?_).trans h4⟩
      rintro a b ⟨q1, q2⟩
      exact ⟨by omega, by omega, by omega⟩
    · simp only [if_neg hc]
      refine ⟨h, le_rfl, fun k hk => ?_, Run.refl⟩
      have h1 := hi1 n (by omega)
      have h2 : piv.getD n 0 < i0 := by by_contra h2; exact hc ⟨by omega, h1⟩
      rcases Nat.lt_succ_iff_lt_or_eq.mp hk with hk | rfl
      · exact lt_trans (h.fwd.mono k n hk (by omega)) h2
      · exact h2

theorem bwdRef_spec {r c b : ℕ} {piv : List ℕ} (N : ℕ) {n : ℕ} (h : Bwd r c piv n s.m) (hn : n ≤ piv.length)
    (hN : ∀ k < n, piv.getD k 0 < N * b) :
    Bwd r c piv 0 ((List.range N).reverse.foldl (bwdRef ra ca piv c b) (n, s)).2.m ∧
      Run ra ca (Valid r) s ((List.range N).reverse.foldl (bwdRef ra ca piv c b) (n, s)).2 := by
  induction N generalizing n s with
  | zero =>
    have hn0 : n = 0 := by
      by_contra h0
      have := hN 0 (by omega)
      omega
    subst hn0
    exact ⟨h, Run.refl⟩
  | succ N ih =>
    rw [List.range_succ, List.reverse_append, List.reverse_singleton, List.singleton_append, List.foldl_cons]
    set s1 := dedupe ra ca (N * b) (min c ((N + 1) * b)) (List.range n).reverse s with hs1
    have hl := h.fwd.le
    have hrun : Run ra ca (Up n) s s1 := by
      refine (dedupe_run (R := (· > ·)) (List.pairwise_reverse.mpr List.pairwise_lt_range)).mono ?_
      rintro a b ⟨h1, h2, h3⟩
      simp only [List.mem_reverse, List.mem_range] at h1 h2
      exact ⟨h3, h1⟩
    have hB : Bwd r c piv n s1.m := hrun.induct (I := Bwd r c piv n) h fun _ _ _ h1 h2 => h1.rowAdd hn h2
    obtain ⟨h1, h2, h3, h4⟩ := popRef_spec (ra := ra) (ca := ca) (i0 := N * b) (i1 := min c ((N + 1) * b)) hB hn
      fun k hk => lt_min (h.fwd.lt k (by omega)) (hN k hk)
    have hd : bwdRef ra ca piv c b (n, s) N = popRef ra ca piv (N * b) (min c ((N + 1) * b)) n s1 := rfl
    rw [hd]
    obtain ⟨h5, h6⟩ := ih (s := (popRef ra ca piv (N * b) (min c ((N + 1) * b)) n s1).2) h1 (by omega) h3
    refine ⟨h5, ((hrun.mono ?_).trans h4).trans h6⟩
    rintro a b ⟨q1, q2⟩
    exact ⟨by omega, by omega, by omega⟩

/-- Everything about `gauss`: the result is in (reduced) echelon form with the given pivots, and arises by row operations. -/
theorem gauss_core {r b : ℕ} (hb : 0 < b) (hs : Rect r (cols s.m) s.m) (full : Bool) (stale : List ℕ) :
    ∃ piv : List ℕ, Bwd r (cols s.m) piv (if full then 0 else piv.length) (gauss ra ca full b stale s).1.m ∧
      (gauss ra ca full b stale s).2.1 = piv.length ∧ (gauss ra ca full b stale s).2.2 = stale ++ piv ∧
      Run ra ca (Valid r) s (gauss ra ca full b stale s).1 := by
  obtain ⟨h1, h2, h3⟩ := forward_spec (ra := ra) (ca := ca) hb hs
  refine ⟨(forward ra ca b s).2.2, ?_⟩
  unfold gauss
  cases full with
  | false =>
    exact ⟨⟨h1, fun k hk hkl => absurd hk (by simp; omega)⟩, h2, rfl, h3⟩
  | true =>
    simp only [if_true]
    rw [h2, backward_ref]
    obtain ⟨h4, h5⟩ := bwdRef_spec (ra := ra) (ca := ca) (b := b) (nsec (cols s.m) b) (s := (forward ra ca b s).1) (n := (forward ra ca b s).2.2.length)
      ⟨h1, fun k hk hkl => absurd hk (by omega)⟩ le_rfl fun k hk => lt_of_lt_of_le (h1.lt k hk) (le_nsec_mul hb)
    exact ⟨h4, rfl, trivial, h3.trans h5⟩

/-- The stale part of the pivot list has no influence. -/
theorem gauss_stale {r b : ℕ} (hb : 0 < b) (hs : Rect r (cols s.m) s.m) (full : Bool) (stale : List ℕ) :
    (gauss ra ca full b stale s).1 = (gauss ra ca full b [] s).1 := by
  obtain ⟨h1, h2, h3⟩ := forward_spec (ra := ra) (ca := ca) hb hs
  unfold gauss
  cases full with
  | false => rfl
  | true =>
    simp only [if_true]
    rw [h2, backward_ref, backward_ref]

end

end Mat2
end PyZX
