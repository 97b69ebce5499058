import Verif.Model.ColSwap
import Mathlib.Data.List.Perm.Subperm
import Mathlib.Data.List.Nodup
import Mathlib.Data.List.GetD
import Mathlib.Data.Set.Insert

/-!
# `column_optimal_swap` returns a permutation

`_find_targets` does not remove the entry of a failed option before it tries the next one. A failed option leaves a certificate `Stuck`: rows
that have to share too few columns. The certificate stays valid when more columns are claimed, so all later options fail as well.
-/

namespace PyZX
namespace Extract
namespace ColSwap

variable {m : Mat2.Data} {c : ℕ} {order : Order}

/-- The claimed columns and rows. -/
def cset (t : Target) : Set ℕ := {j | j ∈ t.map Prod.fst}
def rset (t : Target) : Set ℕ := {i | i ∈ t.map Prod.snd}

theorem cset_snoc (t : Target) (j i : ℕ) : cset (t ++ [(j, i)]) = insert j (cset t) := by
  ext x; simp [cset, or_comm]

theorem rset_snoc (t : Target) (j i : ℕ) : rset (t ++ [(j, i)]) = insert i (rset t) := by
  ext x; simp [rset, or_comm]

/-- The columns of a row. -/
def Conn (m : Mat2.Data) (c i j : ℕ) : Prop := j < c ∧ ent m i j = true

theorem mem_freeCols {t : Target} {i j : ℕ} : j ∈ freeCols m c t i ↔ Conn m c i j ∧ j ∉ cset t := by
  simp [freeCols, Conn, cset, and_assoc]

theorem mem_freeRows {t : Target} {i j : ℕ} : i ∈ freeRows m t j ↔ i < m.length ∧ ent m i j = true ∧ i ∉ rset t := by
  simp [freeRows, rset]

/-- Some rows cannot be given different columns, by forced choices alone. -/
inductive Stuck (m : Mat2.Data) (c : ℕ) : Set ℕ → Set ℕ → Prop
  | row {C R : Set ℕ} (u : ℕ) (hu : u < m.length) (hR : u ∉ R) (h : ∀ j, Conn m c u j → j ∈ C) : Stuck m c C R
  | step {C R : Set ℕ} (i j : ℕ) (hi : i < m.length) (hR : i ∉ R) (h : ∀ j', Conn m c i j' → j' ∈ insert j C)
      (hs : Stuck m c (insert j C) (insert i R)) : Stuck m c C R

theorem Stuck.mono {C R : Set ℕ} (h : Stuck m c C R) : ∀ {C' R' : Set ℕ}, C ⊆ C' → R' ⊆ R → Stuck m c C' R' := by
  induction h with
  | row u hu hR h => intro C' R' hC hR'; exact .row u hu (fun x => hR (hR' x)) fun j hj => hC (h j hj)
  | step i j hi hR h _ ih =>
    intro C' R' hC hR'
    exact .step i j hi (fun x => hR (hR' x)) (fun j' hj' => Set.insert_subset_insert hC (h j' hj')) (ih (Set.insert_subset_insert hC) (Set.insert_subset_insert hR'))

/-- A column that no other row has does not matter. -/
theorem Stuck.drop {C' R : Set ℕ} (h : Stuck m c C' R) : ∀ {C : Set ℕ} {j : ℕ}, C' = insert j C → (∀ i < m.length, i ∉ R → ent m i j = false) → Stuck m c C R := by
  induction h with
  | row u hu hR h =>
    intro C j e hj
    subst e
    refine .row u hu hR fun j' hj' => ?_
    rcases h j' hj' with rfl | h
    · exact absurd hj'.2 (by rw [hj u hu hR]; simp)
    · exact h
  | @step C0 R i j0 hi hR h hs ih =>
    intro C j e hj
    subst e
    refine .step i j0 hi hR (fun j' hj' => ?_) (ih (Set.insert_comm _ _ _) fun i' hi' hR' => hj i' hi' fun x => hR' (Set.mem_insert_of_mem _ x))
    rcases h j' hj' with rfl | rfl | h
    · exact Set.mem_insert _ _
    · exact absurd hj'.2 (by rw [hj i hi hR]; simp)
    · exact Set.mem_insert_of_mem _ h

/-- A further choice does not help. -/
theorem Stuck.claim {C R : Set ℕ} (h : Stuck m c C R) : ∀ {i j : ℕ}, Conn m c i j → j ∉ C → Stuck m c (insert j C) (insert i R) := by
  induction h with
  | @row C R u hu hR h =>
    intro i j hc hj
    by_cases e : u = i
    · subst e; exact absurd (h j hc) hj
    · exact .row u hu (by simp [e, hR]) fun j' hj' => Set.mem_insert_of_mem _ (h j' hj')
  | @step C R i1 j1 hi hR h hs ih =>
    intro i j hc hj
    by_cases e : i = i1
    · subst e
      rcases h j hc with rfl | h'
      · exact hs
      · exact absurd h' hj
    · by_cases e2 : j = j1
      · subst e2
        exact .row i1 hi (by simp [hR, Ne.symm e]) h
      · have := ih hc (by simp [e2, hj])
        rw [Set.insert_comm, Set.insert_comm i] at this
        refine .step i1 j1 hi (by simp [hR, Ne.symm e]) (fun j' hj' => ?_) this
        rcases h j' hj' with rfl | h'
        · exact Set.mem_insert _ _
        · exact Set.mem_insert_of_mem _ (Set.mem_insert_of_mem _ h')

/-- What a scan finds. -/
theorem scan_spec (ho : ∀ t i l, (order t i l).Perm l) (t : Target) : ∀ (is : List ℕ) (mn : Option (ℕ × List ℕ)), (∀ i ∈ is, i < m.length) →
    match scan m c order t is mn with
    | .claim j i => i ∈ is ∧ i ∉ rset t ∧ Conn m c i j ∧ j ∉ cset t ∧
        ((∀ j', Conn m c i j' → j' ∈ insert j (cset t)) ∨ ∀ i' < m.length, i' ∉ insert i (rset t) → ent m i' j = false)
    | .contra => ∃ i ∈ is, i ∉ rset t ∧ ∀ j, Conn m c i j → j ∈ cset t
    | .idle mn' => (∀ i ∈ is, i ∉ rset t → ∃ j j', j ≠ j' ∧ (Conn m c i j ∧ j ∉ cset t) ∧ Conn m c i j' ∧ j' ∉ cset t) ∧
        (mn' = mn ∨ ∃ i s, mn' = some (i, s) ∧ i ∈ is ∧ i ∉ rset t ∧ s.Perm (freeCols m c t i)) ∧
        (c < 1000 → mn' = none → ∀ i ∈ is, i ∈ rset t) := by
  intro is
  induction is with
  | nil => intro mn _; simp [scan]
  | cons i is ih =>
    intro mn hlt
    have ih' := fun mn => ih mn fun i hi => hlt i (by simp [hi])
    by_cases hr : (t.map Prod.snd).contains i = true
    · have hr' : i ∈ rset t := by simpa [rset] using hr
      have e : scan m c order t (i :: is) mn = scan m c order t is mn := by rw [scan, if_pos hr]
      rw [e]
      have := ih' mn
      cases hsc : scan m c order t is mn with
      | claim j i' => rw [hsc] at this; exact ⟨by simp [this.1], this.2⟩
      | contra => rw [hsc] at this; obtain ⟨i', h1, h2⟩ := this; exact ⟨i', by simp [h1], h2⟩
      | idle mn' =>
        rw [hsc] at this
        obtain ⟨h1, h2, h3⟩ := this
        refine ⟨?_, ?_, ?_⟩
        · intro i' hi' hr''
          rcases List.mem_cons.mp hi' with rfl | hi'
          · exact absurd hr' hr''
          · exact h1 i' hi' hr''
        · rcases h2 with h2 | ⟨i', s, h2, h4, h5⟩
          · exact Or.inl h2
          · exact Or.inr ⟨i', s, h2, by simp [h4], h5⟩
        · intro hc hn i' hi'
          rcases List.mem_cons.mp hi' with rfl | hi'
          · exact hr'
          · exact h3 hc hn i' hi'
    · have hr' : i ∉ rset t := by simpa [rset] using hr
      have hil : i < m.length := hlt i (by simp)
      have hp := ho t i (freeCols m c t i)
      have hmem : ∀ j, j ∈ order t i (freeCols m c t i) ↔ Conn m c i j ∧ j ∉ cset t := fun j => hp.mem_iff.trans mem_freeCols
      have hnd : (order t i (freeCols m c t i)).Nodup := hp.nodup_iff.mpr (List.nodup_range.filter _)
      have hlen : (order t i (freeCols m c t i)).length ≤ c := by
        rw [hp.length_eq]
        exact (List.length_filter_le _ _).trans (by simp)
      rw [scan, if_neg hr]
      match hs : order t i (freeCols m c t i) with
      | [] =>
        rw [hs] at hmem
        refine ⟨i, by simp, hr', fun j hj => ?_⟩
        by_contra hj'
        exact absurd ((hmem j).mpr ⟨hj, hj'⟩) (by simp)
      | [j] =>
        rw [hs] at hmem
        obtain ⟨h1, h2⟩ := (hmem j).mp (by simp)
        refine ⟨by simp, hr', h1, h2, Or.inl fun j' hj' => ?_⟩
        by_cases hj'' : j' ∈ cset t
        · exact Set.mem_insert_of_mem _ hj''
        · have := (hmem j').mpr ⟨hj', hj''⟩
          rw [List.mem_singleton] at this
          rw [this]; exact Set.mem_insert _ _
      | a :: b :: l =>
        rw [hs] at hmem hnd hlen hp
        dsimp only
        cases hf : (a :: b :: l).find? (fun j => (freeRows m t j).length == 1) with
        | some j =>
          obtain ⟨h1, h2⟩ := (hmem j).mp (List.mem_of_find?_eq_some hf)
          refine ⟨by simp, hr', h1, h2, Or.inr fun i' hi' hn => ?_⟩
          have h3 := List.find?_some hf
          rw [beq_iff_eq] at h3
          obtain ⟨w, hw⟩ := List.length_eq_one_iff.mp h3
          have h4 : i ∈ freeRows m t j := mem_freeRows.mpr ⟨hil, h1.2, hr'⟩
          rw [hw, List.mem_singleton] at h4
          by_contra hne
          rw [Bool.not_eq_false] at hne
          have h5 : i' ∈ freeRows m t j := mem_freeRows.mpr ⟨hi', hne, fun h => hn (Set.mem_insert_of_mem _ h)⟩
          rw [hw, List.mem_singleton] at h5
          exact hn (by rw [h5, h4]; exact Set.mem_insert _ _)
        | none =>
          dsimp only
          have hfree : ∃ j j', j ≠ j' ∧ (Conn m c i j ∧ j ∉ cset t) ∧ Conn m c i j' ∧ j' ∉ cset t :=
            ⟨a, b, by intro e; subst e; simp at hnd, (hmem a).mp (by simp), (hmem b).mp (by simp)⟩
          have := ih' (if (a :: b :: l).length < minSize mn then some (i, a :: b :: l) else mn)
          cases hsc : scan m c order t is (if (a :: b :: l).length < minSize mn then some (i, a :: b :: l) else mn) with
          | claim j i' => rw [hsc] at this; exact ⟨by simp [this.1], this.2⟩
          | contra => rw [hsc] at this; obtain ⟨i', h1, h2⟩ := this; exact ⟨i', by simp [h1], h2⟩
          | idle mn' =>
            rw [hsc] at this
            obtain ⟨h1, h2, h3⟩ := this
            refine ⟨?_, ?_, ?_⟩
            · intro i' hi' hr''
              rcases List.mem_cons.mp hi' with rfl | hi'
              · exact hfree
              · exact h1 i' hi' hr''
            · rcases h2 with h2 | ⟨i', s, h2, h4, h5⟩
              · split at h2
                · exact Or.inr ⟨i, a :: b :: l, h2, by simp, hr', hp⟩
                · exact Or.inl h2
              · exact Or.inr ⟨i', s, h2, by simp [h4], h5⟩
            · intro hc hn
              exfalso
              rcases h2 with h2 | ⟨i', s, h2, -⟩
              · rw [hn] at h2
                split at h2
                · cases h2
                · rename_i hlt'
                  subst h2
                  simp only [minSize] at hlt'
                  omega
              · rw [hn] at h2; cases h2

theorem tryOptions_ne_none' {rec : Target → Option (Option Target)} {t : Target} {i : ℕ} : ∀ (js : List ℕ) (t' : Target), tryOptions rec t i js t' ≠ some none := by
  intro js
  induction js with
  | nil => intro t'; simp [tryOptions]
  | cons j js ih =>
    intro t'
    rw [tryOptions]
    split
    · simp
    · simp
    · exact ih _

/-- The result `None` leaves a certificate. -/
theorem stuck_of_none (ho : ∀ t i l, (order t i l).Perm l) : ∀ (n : ℕ) {t : Target}, findTargets m c order n t = some none → Stuck m c (cset t) (rset t) := by
  intro n
  induction n with
  | zero => intro t h; cases h
  | succ n ih =>
    intro t h
    have hs := scan_spec (m := m) (c := c) ho t (List.range m.length) none (by simp)
    rw [findTargets] at h
    cases hsc : scan m c order t (List.range m.length) none with
    | contra =>
      rw [hsc] at hs
      obtain ⟨i, h1, h2, h3⟩ := hs
      exact .row i (by simpa using h1) h2 h3
    | idle mn =>
      rw [hsc] at h
      dsimp only at h
      split at h
      · cases h
      · split at h
        · cases h
        · exact absurd h (tryOptions_ne_none' _ _)
    | claim j i =>
      rw [hsc] at h hs
      dsimp only at h
      obtain ⟨h1, h2, h3, h4, h5⟩ := hs
      have := ih h
      rw [cset_snoc, rset_snoc] at this
      rcases h5 with h5 | h5
      · exact .step i j (by simpa using h1) h2 h5 this
      · exact (this.drop rfl h5).mono (le_refl _) (Set.subset_insert _ _)

/-- The number of rows that are left. -/
def rest (m : Mat2.Data) (t : Target) : ℕ := ((List.range m.length).filter fun i => !(t.map Prod.snd).contains i).length

theorem rest_snoc {t : Target} {i : ℕ} (j : ℕ) (hi : i < m.length) (hr : i ∉ rset t) : rest m (t ++ [(j, i)]) < rest m t := by
  have h1 : (List.range m.length).filter (fun i' => !((t ++ [(j, i)]).map Prod.snd).contains i') =
      ((List.range m.length).filter fun i => !(t.map Prod.snd).contains i).filter fun i' => i' != i := by
    rw [List.filter_filter]
    refine List.filter_congr fun i' _ => ?_
    by_cases e : i' = i
    · simp [e]
    · have : (i' != i) = true := by simpa using e
      simp [List.mem_append, e, this]
  have hmem : i ∈ (List.range m.length).filter fun i => !(t.map Prod.snd).contains i := by
    simpa [hi, rset] using hr
  rw [rest, rest, h1]
  refine lt_of_le_of_ne (List.length_filter_le _ _) fun h => ?_
  rw [List.length_filter_eq_length_iff] at h
  simpa using h i hmem

theorem rest_snoc_le {t : Target} (p : ℕ × ℕ) : rest m (t ++ [p]) ≤ rest m t := by
  rw [rest, rest, ← List.countP_eq_length_filter, ← List.countP_eq_length_filter]
  refine List.countP_mono_left fun i _ h => ?_
  simp only [List.map_append, Bool.not_eq_true', List.contains_eq_mem, List.mem_append, decide_eq_false_iff_not, not_or] at h ⊢
  exact h.1

/-- If there is a certificate, the result is `None`. -/
theorem none_of_stuck (ho : ∀ t i l, (order t i l).Perm l) : ∀ (n : ℕ) {t : Target}, rest m t < n → Stuck m c (cset t) (rset t) →
    findTargets m c order n t = some none := by
  intro n
  induction n with
  | zero => intro t h; omega
  | succ n ih =>
    intro t hn h
    have hs := scan_spec (m := m) (c := c) ho t (List.range m.length) none (by simp)
    rw [findTargets]
    cases hsc : scan m c order t (List.range m.length) none with
    | contra => rfl
    | claim j i =>
      rw [hsc] at hs
      dsimp only
      obtain ⟨h1, h2, h3, h4, -⟩ := hs
      have := rest_snoc (m := m) j (by simpa using h1) h2
      exact ih (by omega) (by rw [cset_snoc, rset_snoc]; exact h.claim h3 h4)
    | idle mn =>
      exfalso
      rw [hsc] at hs
      obtain ⟨h1, -, -⟩ := hs
      cases h with
      | row u hu hR h =>
        obtain ⟨j, -, -, ⟨h2, h3⟩, -⟩ := h1 u (by simpa using hu) hR
        exact h3 (h j h2)
      | step i j hi hR h _ =>
        obtain ⟨j1, j2, hne, ⟨h2, h3⟩, h4, h5⟩ := h1 i (by simpa using hi) hR
        have e1 := (h j1 h2).resolve_right h3
        have e2 := (h j2 h4).resolve_right h5
        exact hne (e1.trans e2.symm)

/-- A target without conflicts: different columns, different rows, ones of the matrix. -/
structure Good (m : Mat2.Data) (c : ℕ) (t : Target) : Prop where
  cols : (t.map Prod.fst).Nodup
  rows : (t.map Prod.snd).Nodup
  conn : ∀ p ∈ t, p.2 < m.length ∧ Conn m c p.2 p.1

theorem Good.snoc {t : Target} (h : Good m c t) {i j : ℕ} (hi : i < m.length) (hr : i ∉ rset t) (hc : Conn m c i j) (hj : j ∉ cset t) : Good m c (t ++ [(j, i)]) := by
  refine ⟨?_, ?_, ?_⟩
  · rw [List.map_append, List.nodup_append]
    exact ⟨h.cols, by simp, fun a ha b hb e => hj (by simp at hb; subst hb; subst e; exact ha)⟩
  · rw [List.map_append, List.nodup_append]
    exact ⟨h.rows, by simp, fun a ha b hb e => hr (by simp at hb; subst hb; subst e; exact ha)⟩
  · intro p hp
    rcases List.mem_append.mp hp with hp | hp
    · exact h.conn p hp
    · rw [List.mem_singleton] at hp; subst hp; exact ⟨hi, hc⟩

theorem tryOptions_stuck {rec : Target → Option (Option Target)} {t : Target} {i : ℕ} : ∀ (js : List ℕ) (t' : Target),
    (∀ t'', t'.IsPrefix t'' → t''.length ≠ t'.length → (∀ p ∈ t''.drop t'.length, p.2 = i) → rec t'' = some none) → tryOptions rec t i js t' = some (some t) := by
  intro js
  induction js with
  | nil => intro t' _; rfl
  | cons j js ih =>
    intro t' h
    have h1 := h (t' ++ [(j, i)]) (List.prefix_append _ _) (by simp) (by simp)
    rw [tryOptions, h1]
    refine ih _ fun t'' hp hl hd => ?_
    obtain ⟨u, rfl⟩ := hp
    refine h _ ?_ (by simp) ?_
    · exact ⟨[(j, i)] ++ u, by simp⟩
    · intro p hp
      simp only [List.append_assoc, List.drop_left, List.mem_append, List.mem_singleton] at hp
      rcases hp with rfl | hp
      · rfl
      · exact hd p (by simpa using hp)

/-- `_find_targets` does not raise, and a dictionary that it returns has no conflicts. -/
theorem findTargets_good (ho : ∀ t i l, (order t i l).Perm l) (hc : c < 1000) : ∀ (n : ℕ) {t : Target}, rest m t < n → Good m c t →
    ∃ res, findTargets m c order n t = some res ∧ ∀ t', res = some t' → Good m c t' ∧ t.length ≤ t'.length := by
  intro n
  induction n with
  | zero => intro t h; omega
  | succ n ih =>
    intro t hn hg
    have hs := scan_spec (m := m) (c := c) ho t (List.range m.length) none (by simp)
    rw [findTargets]
    cases hsc : scan m c order t (List.range m.length) none with
    | contra => exact ⟨none, rfl, by simp⟩
    | claim j i =>
      rw [hsc] at hs
      obtain ⟨h1, h2, h3, h4, -⟩ := hs
      have h1 : i < m.length := by simpa using h1
      have := rest_snoc (m := m) j h1 h2
      obtain ⟨res, e1, e2⟩ := ih (t := t ++ [(j, i)]) (by omega) (hg.snoc h1 h2 h3 h4)
      exact ⟨res, e1, fun t' e => ⟨(e2 t' e).1, le_trans (by simp) (e2 t' e).2⟩⟩
    | idle mn =>
      rw [hsc] at hs
      dsimp only
      obtain ⟨h1, h2, h3⟩ := hs
      split
      · exact ⟨_, rfl, fun t' e => by cases e; exact ⟨hg, le_rfl⟩⟩
      · rename_i hall
        cases mn with
        | none =>
          refine absurd ?_ hall
          rw [List.all_eq_true]
          intro i hi
          simpa [rset] using h3 hc rfl i hi
        | some w =>
          obtain ⟨i, s⟩ := w
          dsimp only
          rcases h2 with h2 | ⟨i', s', h2, h4, h5, h6⟩
          · cases h2
          · cases h2
            have h4 : i < m.length := by simpa using h4
            cases s with
            | nil => exact ⟨_, rfl, fun t' e => by cases e; exact ⟨hg, le_rfl⟩⟩
            | cons j js =>
              obtain ⟨h7, h8⟩ := mem_freeCols.mp (h6.mem_iff.mp (List.mem_cons_self))
              have hlt := rest_snoc (m := m) j h4 h5
              obtain ⟨res, e1, e2⟩ := ih (t := t ++ [(j, i)]) (by omega) (hg.snoc h4 h5 h7 h8)
              have hstuck : res = none → tryOptions (findTargets m c order n) t i js (t ++ [(j, i)]) = some (some t) := by
                intro e
                subst e
                have hst := stuck_of_none ho n e1
                refine tryOptions_stuck js _ fun t'' hp hl hd => ?_
                obtain ⟨u, rfl⟩ := hp
                clear hl
                have hu : ∀ p ∈ u, p.2 = i := by simpa using hd
                refine none_of_stuck ho n ?_ (hst.mono ?_ ?_)
                · refine lt_of_le_of_lt (b := rest m (t ++ [(j, i)])) ?_ (by omega)
                  clear hd hu hst e1 e2
                  induction u using List.reverseRecOn with
                  | nil => simp
                  | append_singleton u p ihu => rw [← List.append_assoc]; exact (rest_snoc_le p).trans ihu
                · intro x hx
                  simp only [cset, List.map_append, List.mem_append, Set.mem_ofPred_eq] at hx ⊢
                  exact Or.inl hx
                · intro x hx
                  simp only [rset, List.map_append, List.mem_append, Set.mem_ofPred_eq] at hx ⊢
                  rcases hx with hx | hx
                  · exact hx
                  · obtain ⟨p, hp, rfl⟩ := List.mem_map.mp hx
                    exact Or.inr (by simp [hu p hp])
              rw [tryOptions, e1]
              match res, e2, hstuck with
              | none, _, hst => dsimp only; rw [hst rfl]; exact ⟨_, rfl, fun t' e => by cases e; exact ⟨hg, le_rfl⟩⟩
              | some (p :: t'), e2, _ => exact ⟨_, rfl, fun t'' e => ⟨(e2 t'' e).1, le_trans (by simp) (e2 t'' e).2⟩⟩
              | some [], e2, _ =>
                have := (e2 [] rfl).2
                simp at this

/-- A dictionary without conflicts is completed to a permutation. -/
theorem fillTarget_perm (ho : ∀ t i l, (order t i l).Perm l) {k : ℕ} {t : Target} (hc : (t.map Prod.fst).Nodup) (hr : (t.map Prod.snd).Nodup)
    (hc' : ∀ p ∈ t, p.1 < k) (hr' : ∀ p ∈ t, p.2 < k) :
    ∃ t', fillTarget k order t = some t' ∧ (t'.map Prod.fst).Perm (List.range k) ∧ (t'.map Prod.snd).Perm (List.range k) ∧ t <+: t' := by
  have key : ∀ (f : ℕ × ℕ → ℕ), (t.map f).Nodup → (∀ p ∈ t, f p < k) → ∀ i,
      (t.map f ++ order t i ((List.range k).filter fun x => !(t.map f).contains x)).Perm (List.range k) := by
    intro f h1 h2 i
    refine ((ho _ _ _).append_left _).trans ?_
    rw [List.perm_ext_iff_of_nodup ?_ List.nodup_range]
    · intro x
      simp only [List.mem_append, List.mem_filter, List.mem_range, List.contains_eq_mem, Bool.not_eq_true', decide_eq_false_iff_not]
      constructor
      · rintro (h | h)
        · obtain ⟨p, hp, rfl⟩ := List.mem_map.mp h
          exact h2 p hp
        · exact h.1
      · intro h
        by_cases hx : x ∈ t.map f
        · exact Or.inl hx
        · exact Or.inr ⟨h, hx⟩
    · rw [List.nodup_append]
      refine ⟨h1, List.nodup_range.filter _, fun a ha b hb e => ?_⟩
      subst e
      simp only [List.mem_filter, List.contains_eq_mem, Bool.not_eq_true', decide_eq_false_iff_not] at hb
      exact hb.2 ha
  have k1 := key Prod.fst hc hc' 1
  have k2 := key Prod.snd hr hr' 0
  have l1 := k1.length_eq
  have l2 := k2.length_eq
  simp only [List.length_append, List.length_map, List.length_range] at l1 l2
  rw [fillTarget, if_pos (by omega)]
  refine ⟨_, rfl, ?_, ?_, List.prefix_append _ _⟩
  · rw [List.map_append, List.map_fst_zip (by omega)]
    exact k1
  · rw [List.map_append, List.map_snd_zip (by omega)]
    exact k2

theorem mapM_lookup {t : Target} {k : ℕ} (h1 : (t.map Prod.fst).Perm (List.range k)) (h2 : (t.map Prod.snd).Perm (List.range k)) :
    ∃ p : List ℕ, ((List.range k).mapM fun i => (t.reverse.find? fun p => p.2 == i).map Prod.fst) = some p ∧ p.Perm (List.range k) ∧
      ∀ i < k, (p.getD i 0, i) ∈ t := by
  have hex : ∀ i < k, ∃ q ∈ t, q.2 = i ∧ (t.reverse.find? fun p => p.2 == i) = some q := by
    intro i hi
    have : i ∈ t.map Prod.snd := h2.mem_iff.mpr (List.mem_range.mpr hi)
    obtain ⟨q, hq, rfl⟩ := List.mem_map.mp this
    cases hf : t.reverse.find? (fun p => p.2 == q.2) with
    | none =>
      rw [List.find?_eq_none] at hf
      exact absurd (hf q (by simpa using hq)) (by simp)
    | some q' =>
      exact ⟨q', by simpa using List.mem_of_find?_eq_some hf, by simpa using List.find?_some hf, rfl⟩
  let f : ℕ → ℕ := fun i => ((t.reverse.find? fun p => p.2 == i).map Prod.fst).getD 0
  have hf : ∀ i < k, (f i, i) ∈ t ∧ (t.reverse.find? fun p => p.2 == i).map Prod.fst = some (f i) := by
    intro i hi
    obtain ⟨q, hq, rfl, e⟩ := hex i hi
    simp only [f, e]
    exact ⟨by simpa using hq, rfl⟩
  have hM : ∀ l : List ℕ, (∀ i ∈ l, i < k) → (l.mapM fun i => (t.reverse.find? fun p => p.2 == i).map Prod.fst) = some (l.map f) := by
    intro l
    induction l with
    | nil => intro _; rfl
    | cons i l ih =>
      intro h
      rw [List.mapM_cons, (hf i (h i (by simp))).2, ih fun i hi => h i (by simp [hi])]
      rfl
  refine ⟨(List.range k).map f, hM _ (by simp), ?_, ?_⟩
  · have hinj : ((List.range k).map f).Nodup := by
      rw [List.nodup_map_iff_inj_on List.nodup_range]
      intro a ha b hb e
      have e1 := (hf a (by simpa using ha)).1
      have e2 := (hf b (by simpa using hb)).1
      have hn : (t.map Prod.fst).Nodup := h1.nodup_iff.mpr List.nodup_range
      have := List.inj_on_of_nodup_map hn e1 e2 e
      exact (Prod.mk.inj this).2
    refine List.Subperm.perm_of_length_le (hinj.subperm fun x hx => ?_) (by simp)
    obtain ⟨i, hi, rfl⟩ := List.mem_map.mp hx
    exact h1.mem_iff.mp (List.mem_map.mpr ⟨_, (hf i (by simpa using hi)).1, rfl⟩)
  · intro i hi
    rw [List.getD_eq_getElem _ _ (by simpa using hi)]
    simpa using (hf i hi).1

/-- For square matrices with fewer than 1000 columns `column_optimal_swap` returns a permutation. -/
theorem columnOrder_perm (ho : ∀ t i l, (order t i l).Perm l) {k : ℕ} (hk : k < 1000) (hl : m.length = k) (hcol : Mat2.cols m = k) :
    ∃ p, columnOrder order m = some p ∧ p.Perm (List.range k) := by
  obtain ⟨res, e1, e2⟩ := findTargets_good (m := m) (c := k) (order := order) ho hk (m.length + 1) (t := [])
    (by rw [rest]; exact lt_of_le_of_lt (List.length_filter_le _ _) (by simp)) ⟨by simp, by simp, by simp⟩
  have hg : Good m k (res.getD []) := by
    cases res with
    | none => exact ⟨by simp, by simp, by simp⟩
    | some t => exact (e2 t rfl).1
  obtain ⟨t', h1, h2, h3, -⟩ := fillTarget_perm ho hg.cols hg.rows (fun p hp => (hg.conn p hp).2.1) fun p hp => hl ▸ (hg.conn p hp).1
  obtain ⟨p, h4, h5, -⟩ := mapM_lookup h2 h3
  refine ⟨p, ?_, h5⟩
  rw [columnOrder, columnOptimalSwap, hcol, e1]
  dsimp only
  rw [h1]
  exact h4

end ColSwap
end Extract
end PyZX
