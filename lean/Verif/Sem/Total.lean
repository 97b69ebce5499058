import Verif.Sem.Batch

/-!
# When rule application does not raise, and the adjacency it leaves
-/

namespace PyZX
namespace Graph

/-- The two pairs are the same unordered pair. -/
def SamePair (p q : ℕ × ℕ) : Prop := (p.1 = q.1 ∧ p.2 = q.2) ∨ (p.1 = q.2 ∧ p.2 = q.1)

theorem SamePair.symm {p q : ℕ × ℕ} (h : SamePair p q) : SamePair q p := by
  rcases h with ⟨h1, h2⟩ | ⟨h1, h2⟩
  · exact Or.inl ⟨h1.symm, h2.symm⟩
  · exact Or.inr ⟨h2.symm, h1.symm⟩

theorem SamePair.trans {p q r : ℕ × ℕ} (h : SamePair p q) (h' : SamePair q r) : SamePair p r := by
  unfold SamePair at *; omega

theorem addEdge_isSome {g : Graph} (hg : g.WF) {s t : ℕ} {e : EType} (hs : s ∈ g.verts) (ht : t ∈ g.verts) (hst : s ≠ t)
    (he : e ≠ .wio) (h : g.adj s t = none ∨ ((g.ty s).zxLike ∧ (g.ty t).zxLike)) : ∃ g', g.addEdge s t e = some g' := by
  unfold addEdge
  simp only [hs, not_true_eq_false, if_false]
  cases ha : g.adj s t with
  | none => simp [ht]
  | some e1 =>
    have hz : (g.ty s).zxLike ∧ (g.ty t).zxLike := by simpa [ha] using h
    have h1 : e1 ≠ .wio := fun hh => hg.noWio s t (by rw [ha, hh])
    simp only [hz.1, hz.2, and_self, if_true]
    have hr : ∃ g', g.removeEdge s t = some g' := by
      unfold removeEdge; simp [ha, hst]
    obtain ⟨g', hr⟩ := hr
    cases e <;> cases e1 <;> first | exact absurd rfl he | exact absurd rfl h1 |
      (by_cases hc : (g.ty s).zLike = (g.ty t).zLike <;> simp [hc, hr])

theorem addEdge_adj_other {g g' : Graph} {s t : ℕ} {e : EType} (h : g.addEdge s t e = some g') {a b : ℕ}
    (hab : ¬ SamePair (a, b) (s, t)) : g'.adj a b = g.adj a b := by
  have h1 : ¬ (a = s ∧ b = t) := fun hh => hab (Or.inl hh)
  have h2 : ¬ (a = t ∧ b = s) := fun hh => hab (Or.inr hh)
  obtain ⟨hs, ⟨hn, ht, rfl⟩ | ⟨e1, hn, -, -, ⟨-, -, rfl⟩ | ⟨-, f, -, -, rfl⟩ | ⟨-, -, -, rfl⟩⟩⟩ := addEdge_cases h
  · exact setAdj_adj_other g _ h1 h2
  · rfl
  · have := setAdj_adj_other g (some f) h1 h2
    split <;> exact this
  · exact setAdj_adj_other g _ h1 h2

theorem addEdgeN_isSome {g : Graph} (hg : g.WF) {s t n : ℕ} {e : EType} (hs : s ∈ g.verts) (ht : t ∈ g.verts) (hst : s ≠ t)
    (he : e ≠ .wio) (h : n = 0 ∨ (g.adj s t = none ∧ n ≤ 1) ∨ ((g.ty s).zxLike ∧ (g.ty t).zxLike)) :
    ∃ g', g.addEdgeN s t e n = some g' := by
  induction n generalizing g with
  | zero => exact ⟨g, rfl⟩
  | succ n ih =>
    have h : (g.adj s t = none ∧ n + 1 ≤ 1) ∨ ((g.ty s).zxLike ∧ (g.ty t).zxLike) := by simpa using h
    obtain ⟨g1, h1⟩ := addEdge_isSome hg hs ht hst he (h.imp And.left id)
    have hf := addEdge_frame h1
    obtain ⟨g', h'⟩ := ih (hg.addEdge h1 hst he) (by rw [hf.verts]; exact hs) (by rw [hf.verts]; exact ht) (by
      rcases h with ⟨_, h⟩ | h
      · left; omega
      · right; right; rw [hf.ty]; exact h)
    exact ⟨g', by simp only [addEdgeN, h1, Option.bind_some, h']⟩

theorem addEdgeN_adj_other {g g' : Graph} {s t n : ℕ} {e : EType} (h : g.addEdgeN s t e n = some g') {a b : ℕ}
    (hab : n = 0 ∨ ¬ SamePair (a, b) (s, t)) : g'.adj a b = g.adj a b := by
  induction n generalizing g with
  | zero => simp only [addEdgeN, Option.some.injEq] at h; rw [h]
  | succ n ih =>
    simp only [addEdgeN] at h
    obtain ⟨g1, h1, h2⟩ := Option.bind_eq_some_iff.mp h
    have hab : ¬ SamePair (a, b) (s, t) := by simpa using hab
    rw [ih h2 (Or.inr hab), addEdge_adj_other h1 hab]

/-- Conditions under which `add_edge_table` does not raise: non-zero entries are pairs of distinct vertices, and an
entry that is not between two spiders is a single edge between vertices that are not connected. -/
structure TabOK (g : Graph) (t : ETab) : Prop where
  each : ∀ e ∈ t, e.2 ≠ (0, 0) → e.1.1 ∈ g.verts ∧ e.1.2 ∈ g.verts ∧ e.1.1 ≠ e.1.2 ∧
    (((g.ty e.1.1).zxLike ∧ (g.ty e.1.2).zxLike) ∨ (g.adj e.1.1 e.1.2 = none ∧ e.2.1 + e.2.2 ≤ 1))
  distinct : t.Pairwise fun e f => e.2 ≠ (0, 0) → f.2 ≠ (0, 0) →
    ((g.ty e.1.1).zxLike ∧ (g.ty e.1.2).zxLike) ∨ ¬ SamePair e.1 f.1

theorem tab_ne {p : ℕ × ℕ} : p ≠ (0, 0) ↔ p.1 ≠ 0 ∨ p.2 ≠ 0 := by
  obtain ⟨a, b⟩ := p
  simp only [ne_eq, Prod.mk.injEq]
  omega

theorem addEdgeTable_cons {g g' : Graph} {e : (ℕ × ℕ) × (ℕ × ℕ)} {t : ETab} (h : g.addEdgeTable (e :: t) = some g') :
    ∃ g1 g2, g.addEdgeN e.1.1 e.1.2 .simple e.2.1 = some g1 ∧ g1.addEdgeN e.1.1 e.1.2 .had e.2.2 = some g2 ∧
      g2.addEdgeTable t = some g' := by
  simp only [addEdgeTable, List.foldlM_cons, Option.bind_eq_bind] at h
  obtain ⟨g2, h1, h3⟩ := Option.bind_eq_some_iff.mp h
  obtain ⟨g1, h1, h2⟩ := Option.bind_eq_some_iff.mp h1
  exact ⟨g1, g2, h1, h2, h3⟩

theorem addEdgeTable_adj_other {g g' : Graph} {t : ETab} (h : g.addEdgeTable t = some g') {a b : ℕ}
    (hab : ∀ e ∈ t, e.2 ≠ (0, 0) → ¬ SamePair (a, b) e.1) : g'.adj a b = g.adj a b := by
  induction t generalizing g with
  | nil => simp only [addEdgeTable, List.foldlM_nil, Option.pure_def, Option.some.injEq] at h; rw [h]
  | cons e t ih =>
    obtain ⟨g1, g2, h1, h2, h3⟩ := addEdgeTable_cons h
    have he := hab e (by simp)
    rw [ih h3 fun e he => hab e (by simp [he]), addEdgeN_adj_other h2, addEdgeN_adj_other h1]
    · by_cases hz : e.2.1 = 0
      · exact Or.inl hz
      · exact Or.inr (he (tab_ne.mpr (Or.inl hz)))
    · by_cases hz : e.2.2 = 0
      · exact Or.inl hz
      · exact Or.inr (he (tab_ne.mpr (Or.inr hz)))

theorem addEdgeTable_isSome {g : Graph} (hg : g.WF) {t : ETab} (h : TabOK g t) : ∃ g', g.addEdgeTable t = some g' := by
  induction t generalizing g with
  | nil => exact ⟨g, rfl⟩
  | cons e t ih =>
    by_cases hz : e.2 = (0, 0)
    · obtain ⟨g', h'⟩ := ih hg ⟨fun e he => h.each e (by simp [he]), (List.pairwise_cons.mp h.distinct).2⟩
      refine ⟨g', ?_⟩
      have h1 : e.2.1 = 0 := by rw [hz]
      have h2 : e.2.2 = 0 := by rw [hz]
      simp only [addEdgeTable, List.foldlM_cons, Option.bind_eq_bind, h1, h2, addEdgeN, Option.bind_some] at h' ⊢
      exact h'
    · obtain ⟨h1, h2, h3, h4⟩ := h.each e (by simp) hz
      obtain ⟨g1, e1⟩ := addEdgeN_isSome (n := e.2.1) hg h1 h2 h3 (e := .simple) (by simp) (by
        rcases h4 with h4 | h4
        · exact Or.inr (Or.inr h4)
        · exact Or.inr (Or.inl ⟨h4.1, by omega⟩))
      obtain ⟨hw1, hf1, -⟩ := addEdgeN_spec e1 hg (fun _ => h3) (by simp)
      obtain ⟨g2, e2⟩ := addEdgeN_isSome (n := e.2.2) hw1 (s := e.1.1) (t := e.1.2) (by rw [hf1.verts]; exact h1)
        (by rw [hf1.verts]; exact h2) h3 (e := .had) (by simp) (by
        rw [hf1.ty]
        rcases h4 with h4 | h4
        · exact Or.inr (Or.inr h4)
        · rcases Nat.eq_zero_or_pos e.2.2 with h0 | h0
          · exact Or.inl h0
          · right; left
            rw [addEdgeN_adj_other e1 (Or.inl (by omega))]
            exact ⟨h4.1, by omega⟩)
      obtain ⟨hw2, hf2, -⟩ := addEdgeN_spec e2 hw1 (fun _ => h3) (by simp)
      have hff := hf1.trans hf2
      have hd := List.pairwise_cons.mp h.distinct
      have hT : TabOK g2 t := by
        refine ⟨?_, ?_⟩
        · intro f hf hfz
          obtain ⟨q1, q2, q3, q4⟩ := h.each f (by simp [hf]) hfz
          rw [hff.verts, hff.ty]
          refine ⟨q1, q2, q3, ?_⟩
          rcases q4 with q4 | q4
          · exact Or.inl q4
          · by_cases hzz : (g.ty f.1.1).zxLike ∧ (g.ty f.1.2).zxLike
            · exact Or.inl hzz
            · right
              have hns : ¬ SamePair (f.1.1, f.1.2) (e.1.1, e.1.2) := by
                intro hsp
                rcases hd.1 f hf hz hfz with hh | hh
                · refine hzz ?_
                  rcases hsp with ⟨p1, p2⟩ | ⟨p1, p2⟩
                  · simp only at p1 p2; rw [p1, p2]; exact hh
                  · simp only at p1 p2; rw [p1, p2]; exact hh.symm
                · exact hh hsp.symm
              rw [addEdgeN_adj_other e2 (Or.inr hns), addEdgeN_adj_other e1 (Or.inr hns)]
              exact q4
        · rw [hff.ty]; exact hd.2
      obtain ⟨g', h'⟩ := ih hw2 hT
      refine ⟨g', ?_⟩
      simp only [addEdgeTable, List.foldlM_cons, Option.bind_eq_bind, e1, e2, Option.bind_some] at h' ⊢
      exact h'

theorem removeEdge_adj_other {g g' : Graph} {s t : ℕ} (h : g.removeEdge s t = some g') {a b : ℕ}
    (hab : ¬ SamePair (a, b) (s, t)) : g'.adj a b = g.adj a b := by
  obtain ⟨-, -, rfl⟩ := removeEdge_eq h
  exact setAdj_adj_other g _ (fun hh => hab (Or.inl hh)) (fun hh => hab (Or.inr hh))

theorem removeEdges_isSome {g : Graph} {es : List (ℕ × ℕ)} (h1 : ∀ e ∈ es, g.adj e.1 e.2 ≠ none ∧ e.1 ≠ e.2)
    (h2 : es.Pairwise fun e f => ¬ SamePair e f) : ∃ g', g.removeEdges es = some g' := by
  induction es generalizing g with
  | nil => exact ⟨g, rfl⟩
  | cons e es ih =>
    have hr : ∃ g', g.removeEdge e.1 e.2 = some g' := by
      unfold removeEdge; simp [h1 e (by simp)]
    obtain ⟨g1, hr⟩ := hr
    obtain ⟨q1, q2⟩ := List.pairwise_cons.mp h2
    obtain ⟨g', h'⟩ := ih (g := g1) (fun f hf => by
      rw [removeEdge_adj_other hr (a := f.1) (b := f.2) fun hh => q1 f hf hh.symm]
      exact h1 f (by simp [hf])) q2
    refine ⟨g', ?_⟩
    simp only [removeEdges, List.foldlM_cons, Option.bind_eq_bind, hr, Option.bind_some] at h' ⊢
    exact h'

theorem removeEdges_adj {g g' : Graph} {es : List (ℕ × ℕ)} (h : g.removeEdges es = some g') {a b : ℕ}
    (hab : g'.adj a b ≠ none) : g.adj a b ≠ none ∧ ∀ e ∈ es, ¬ SamePair (a, b) e := by
  induction es generalizing g with
  | nil =>
    simp only [removeEdges, List.foldlM_nil, Option.pure_def, Option.some.injEq] at h
    rw [h]; exact ⟨hab, by simp⟩
  | cons e es ih =>
    simp only [removeEdges, List.foldlM_cons, Option.bind_eq_bind] at h
    obtain ⟨g1, h1, h2⟩ := Option.bind_eq_some_iff.mp h
    obtain ⟨q1, q2⟩ := ih h2
    by_cases hs : SamePair (a, b) (e.1, e.2)
    · exfalso
      obtain ⟨-, -, rfl⟩ := removeEdge_eq h1
      refine q1 ?_
      show (if (a = e.1 ∧ b = e.2) ∨ (a = e.2 ∧ b = e.1) then none else g.adj a b) = none
      exact if_pos hs
    · rw [removeEdge_adj_other h1 hs] at q1
      refine ⟨q1, ?_⟩
      intro f hf
      rcases List.mem_cons.mp hf with rfl | hf
      · exact hs
      · exact q2 f hf

/-- `apply_rule` does not raise. -/
theorem finish_isSome {s : RewriteState} (hsg : s.g.WF) (ht : TabOK s.g s.etab)
    (he1 : ∀ e ∈ s.remEdges, s.g.adj e.1 e.2 ≠ none) (he2 : s.remEdges.Pairwise fun e f => ¬ SamePair e f)
    (he3 : ∀ e ∈ s.remEdges, ∀ f ∈ s.etab, f.2 ≠ (0, 0) → ¬ SamePair e f.1)
    (hn : s.remVerts.Nodup) (hv : ∀ v ∈ s.remVerts, v ∈ s.g.verts) : ∃ g', s.finish = some g' := by
  obtain ⟨g1, h1⟩ := addEdgeTable_isSome hsg ht
  have hk : KeysIn s.etab s.g.verts := fun e he hz => by
    obtain ⟨q1, q2, q3, -⟩ := ht.each e he hz; exact ⟨q1, q2, q3⟩
  obtain ⟨hw1, hf1, -⟩ := addEdgeTable_spec h1 hsg hk
  obtain ⟨g2, h2⟩ := removeEdges_isSome (g := g1) (es := s.remEdges) (fun e he => by
    rw [addEdgeTable_adj_other h1 fun f hf hz => he3 e he f hf hz]
    exact ⟨he1 e he, fun hh => he1 e he (by rw [hh]; exact hsg.loopless _)⟩) he2
  have hw2 : g2.WF ∧ SameFrame g1 g2 := by
    obtain ⟨q1, q2, -⟩ := removeEdges_spec h2 hw1 (S := ∅) (by simp)
    exact ⟨q1, q2⟩
  obtain ⟨g', h3⟩ := removeVertices_isSome (g := g2) hw2.1.toInv hn (by
    rw [hw2.2.verts, hf1.verts]; exact hv)
  exact ⟨g', by simp [RewriteState.finish, h1, h2, h3]⟩

/-- Every edge of the result is an old edge that was not removed or an edge of the table. -/
theorem finish_adj {s : RewriteState} {g' : Graph} (h : s.finish = some g') (hg' : g'.Inv) {a b : ℕ} (hab : g'.adj a b ≠ none) :
    a ∉ s.remVerts ∧ b ∉ s.remVerts ∧ (∀ e ∈ s.remEdges, ¬ SamePair (a, b) e) ∧
    (s.g.adj a b ≠ none ∨ ∃ e ∈ s.etab, e.2 ≠ (0, 0) ∧ SamePair (a, b) e.1) := by
  unfold RewriteState.finish at h
  obtain ⟨g1, h1, h⟩ := Option.bind_eq_some_iff.mp h
  obtain ⟨g2, h2, h3⟩ := Option.bind_eq_some_iff.mp h
  obtain ⟨hr, hm, hi, hw⟩ := removeVertices_spec h3
  have hadj : a ∉ s.remVerts ∧ b ∉ s.remVerts ∧ g2.adj a b ≠ none := by
    have ha := hg'.mem _ _ hab
    have hb := hg'.mem' hab
    rw [hr.verts, Finset.mem_sdiff] at ha hb
    rw [hr.adj a b ha.2 hb.2] at hab
    exact ⟨by simpa using ha.2, by simpa using hb.2, hab⟩
  obtain ⟨q1, q2⟩ := removeEdges_adj h2 hadj.2.2
  refine ⟨hadj.1, hadj.2.1, q2, ?_⟩
  by_contra hc
  push Not at hc
  rw [addEdgeTable_adj_other h1 hc.2] at q1
  exact q1 hc.1

/-! ### Counting the edges of a table at a boundary vertex -/

/-- `b` is an end of the pair. -/
abbrev touch (b : ℕ) (k : ℕ × ℕ) : Prop := b = k.1 ∨ b = k.2

/-- Number of edges of the table at `b`. -/
def tcount (t : ETab) (b : ℕ) : ℕ := (t.map fun e => if touch b e.1 then e.2.1 + e.2.2 else 0).sum

theorem tcount_cons (e) (t : ETab) (b : ℕ) :
    tcount (e :: t) b = (if touch b e.1 then e.2.1 + e.2.2 else 0) + tcount t b := by simp [tcount]

theorem tcount_upd_other (t : ETab) {k : ℕ × ℕ} (f : ℕ × ℕ → ℕ × ℕ) {b : ℕ} (h : ¬ touch b k) :
    tcount (ETab.upd t k f) b = tcount t b := by
  induction t with
  | nil => simp [ETab.upd, tcount, h]
  | cons e t ih =>
    obtain ⟨k', p⟩ := e
    simp only [ETab.upd]
    split
    · next hk => subst hk; simp [tcount_cons, h]
    · rw [tcount_cons, tcount_cons, ih]

theorem tcount_upd_le (t : ETab) (k : ℕ × ℕ) {f : ℕ × ℕ → ℕ × ℕ} {c : ℕ} (hf : ∀ p, (f p).1 + (f p).2 ≤ p.1 + p.2 + c) (b : ℕ) :
    tcount (ETab.upd t k f) b ≤ tcount t b + c := by
  induction t with
  | nil =>
    have := hf (0, 0)
    simp only [ETab.upd, tcount, List.map_cons, List.map_nil, List.sum_cons, List.sum_nil]
    split <;> omega
  | cons e t ih =>
    obtain ⟨k', p⟩ := e
    simp only [ETab.upd]
    split
    · have := hf p
      rw [tcount_cons, tcount_cons]
      simp only
      split <;> omega
    · rw [tcount_cons, tcount_cons]; omega

theorem tcount_pos {t : ETab} {b : ℕ} {e} (he : e ∈ t) (_hz : e.2 ≠ (0, 0)) (hb : touch b e.1) : e.2.1 + e.2.2 ≤ tcount t b := by
  induction t with
  | nil => simp at he
  | cons f t ih =>
    rw [tcount_cons]
    rcases List.mem_cons.mp he with rfl | he
    · rw [if_pos hb]; omega
    · have := ih he; omega

theorem tcount_pair {t : ETab} {b : ℕ} (hc : tcount t b ≤ 1) :
    t.Pairwise fun e f => e.2 ≠ (0, 0) → f.2 ≠ (0, 0) → touch b e.1 → touch b f.1 → False := by
  induction t with
  | nil => exact List.Pairwise.nil
  | cons e t ih =>
    rw [tcount_cons] at hc
    refine List.pairwise_cons.mpr ⟨fun f hf he hfz hb hbf => ?_, ih (by omega)⟩
    have h1 := tcount_pos hf hfz hbf
    rw [if_pos hb] at hc
    rw [tab_ne] at he hfz
    omega

theorem tcount_unique {t : ETab} {b : ℕ} (hc : tcount t b ≤ 1) {e f} (he : e ∈ t) (hf : f ∈ t) (hez : e.2 ≠ (0, 0))
    (hfz : f.2 ≠ (0, 0)) (hbe : touch b e.1) (hbf : touch b f.1) : e = f := by
  have hp := List.pairwise_iff_getElem.mp (tcount_pair hc)
  obtain ⟨i, hi, rfl⟩ := List.getElem_of_mem he
  obtain ⟨j, hj, rfl⟩ := List.getElem_of_mem hf
  rcases lt_trichotomy i j with hlt | rfl | hlt
  · exact (hp i j hi hj hlt hez hfz hbe hbf).elim
  · rfl
  · exact (hp j i hj hi hlt hfz hez hbf hbe).elim

theorem tcount_fold {ι : Type*} {step : RewriteState → ι → RewriteState} {c : ι → ℕ} {b : ℕ} (ms : List ι)
    (h : ∀ m ∈ ms, ∀ s, tcount (step s m).etab b ≤ tcount s.etab b + c m) (s : RewriteState) :
    tcount (ms.foldl step s).etab b ≤ tcount s.etab b + (ms.map c).sum := by
  induction ms generalizing s with
  | nil => simp
  | cons m ms ih =>
    have h1 := h m (by simp) s
    have h2 := ih (fun m hm => h m (by simp [hm])) (step s m)
    rw [List.foldl_cons, List.map_cons, List.sum_cons]
    omega

/-- At most one match touches the boundary `b`, if the vertices that touch `b` are all the same. -/
theorem sum_le_one {ι : Type*} {ms : List ι} {f : ι → ℕ} (hn : (ms.map f).Nodup) {c : ι → ℕ} (hc : ∀ m ∈ ms, c m ≤ 1) {z : ℕ}
    (hz : ∀ m ∈ ms, c m ≠ 0 → f m = z) : (ms.map c).sum ≤ 1 := by
  induction ms with
  | nil => simp
  | cons m ms ih =>
    rw [List.map_cons, List.nodup_cons] at hn
    have h1 := ih hn.2 (fun m hm => hc m (by simp [hm])) (fun m hm => hz m (by simp [hm]))
    rw [List.map_cons, List.sum_cons]
    by_cases h0 : c m = 0
    · omega
    · have hfm := hz m (by simp) h0
      have : (ms.map c).sum = 0 := by
        rw [List.sum_eq_zero_iff]
        intro n hn'
        obtain ⟨m', hm', rfl⟩ := List.mem_map.mp hn'
        by_contra hne
        have := hz m' (by simp [hm']) hne
        exact hn.1 (List.mem_map.mpr ⟨m', hm', by rw [this, hfm]⟩)
      have := hc m (by simp)
      omega

/-- A boundary vertex is touched by at most one match, and then its only neighbour is the vertex of that match. -/
theorem touch_bound {ι : Type*} {g : Graph} (hb : g.BDeg) {b : ℕ} (hbv : b ∈ g.verts) (hbt : g.ty b = .boundary)
    {ms : List ι} {f : ι → ℕ} (hn : (ms.map f).Nodup) {c : ι → ℕ} (hc : ∀ m ∈ ms, c m ≤ 1)
    (hz : ∀ m ∈ ms, c m ≠ 0 → g.adj b (f m) ≠ none) {n : ℕ} (hle : n ≤ (ms.map c).sum) :
    n ≤ 1 ∧ (n ≠ 0 → ∃ m ∈ ms, c m ≠ 0 ∧ ∀ z, g.adj b z ≠ none → z = f m) := by
  by_cases h : ∃ m ∈ ms, c m ≠ 0
  · obtain ⟨m, hm, hne⟩ := h
    have h1 := hz m hm hne
    refine ⟨hle.trans (sum_le_one hn hc (z := f m) fun m' hm' hne' => hb b hbv hbt _ _ (hz m' hm' hne') h1), fun _ => ?_⟩
    exact ⟨m, hm, hne, fun z hz' => hb b hbv hbt _ _ hz' h1⟩
  · push Not at h
    have : (ms.map c).sum = 0 := by
      rw [List.sum_eq_zero_iff]
      intro n hn'
      obtain ⟨m, hm, rfl⟩ := List.mem_map.mp hn'
      exact h m hm
    omega

theorem WF.zx {g : Graph} (hg : g.WF) {v : ℕ} (hv : v ∈ g.verts) (hb : g.ty v ≠ .boundary) : (g.ty v).zxLike = true := by
  rcases hg.types v hv with h | h | h | h
  · exact absurd h hb
  all_goals rw [h]; rfl

/-- A rewrite that accounts for the edges at the boundary vertices does not raise and leaves boundary vertices with at
most one neighbour. -/
theorem finish_total {g : Graph} {s : RewriteState} (hg : g.WF) (hb : g.BDeg) (hsg : s.g.WF)
    (hverts : s.g.verts = g.verts) (hadj : s.g.adj = g.adj) (hty : ∀ v ∈ g.verts, (s.g.ty v = .boundary ↔ g.ty v = .boundary))
    (hk : KeysIn s.etab (g.verts \ s.remVerts.toFinset))
    (hc : ∀ b ∈ g.verts, g.ty b = .boundary → tcount s.etab b ≤ 1 ∧ (tcount s.etab b ≠ 0 →
      ∀ z, g.adj b z ≠ none → z ∈ s.remVerts ∨ ∃ e ∈ s.remEdges, SamePair (b, z) e))
    (he1 : ∀ e ∈ s.remEdges, g.adj e.1 e.2 ≠ none) (he2 : s.remEdges.Pairwise fun e f => ¬ SamePair e f)
    (he3 : ∀ e ∈ s.remEdges, e.1 ∈ s.remVerts ∨ e.2 ∈ s.remVerts)
    (hn : s.remVerts.Nodup) (hv : ∀ v ∈ s.remVerts, v ∈ g.verts) :
    ∃ g', s.finish = some g' ∧ (Preserves g g' → g'.BDeg) := by
  have he3' : ∀ e ∈ s.remEdges, ∀ f ∈ s.etab, f.2 ≠ (0, 0) → ¬ SamePair e f.1 := by
    intro e he f hf hz hsp
    obtain ⟨q1, q2, -⟩ := hk f hf hz
    simp only [Finset.mem_sdiff, List.mem_toFinset] at q1 q2
    rcases hsp with ⟨p1, p2⟩ | ⟨p1, p2⟩ <;> rcases he3 e he with h | h <;> simp_all
  have hent : ∀ e ∈ s.etab, e.2 ≠ (0, 0) → ∀ b, touch b e.1 → g.ty b = .boundary →
      g.adj e.1.1 e.1.2 = none ∧ e.2.1 + e.2.2 ≤ 1 := by
    intro e he hz b htb hbt
    obtain ⟨q1, q2, q3⟩ := hk e he hz
    have q1' := Finset.mem_sdiff.mp q1
    have q2' := Finset.mem_sdiff.mp q2
    have hbv : b ∈ g.verts := by rcases htb with rfl | rfl; exacts [q1'.1, q2'.1]
    obtain ⟨c1, c2⟩ := hc b hbv hbt
    have hp := tcount_pos he hz htb
    refine ⟨?_, hp.trans c1⟩
    have hz' := tab_ne.mp hz
    have c2 := c2 (by omega)
    by_contra hne
    rcases htb with rfl | rfl
    · rcases c2 e.1.2 hne with h | ⟨f, hf, hsp⟩
      · exact q2'.2 (List.mem_toFinset.mpr h)
      · exact he3' f hf e he hz hsp.symm
    · rcases c2 e.1.1 (by rw [hg.symm]; exact hne) with h | ⟨f, hf, hsp⟩
      · exact q1'.2 (List.mem_toFinset.mpr h)
      · refine he3' f hf e he hz (SamePair.trans hsp.symm ?_)
        exact Or.inr ⟨rfl, rfl⟩
  have hnb : ∀ v ∈ g.verts, g.ty v ≠ .boundary → (s.g.ty v).zxLike = true := fun v hv hvb =>
    hsg.zx (by rw [hverts]; exact hv) fun h => hvb ((hty v hv).mp h)
  have hzx : ∀ e ∈ s.etab, e.2 ≠ (0, 0) → (((s.g.ty e.1.1).zxLike ∧ (s.g.ty e.1.2).zxLike) ∨
      ∃ b, touch b e.1 ∧ g.ty b = .boundary ∧ b ∈ g.verts) := by
    intro e he hz
    obtain ⟨q1, q2, q3⟩ := hk e he hz
    have q1' := (Finset.mem_sdiff.mp q1).1
    have q2' := (Finset.mem_sdiff.mp q2).1
    by_cases h1 : g.ty e.1.1 = .boundary
    · exact Or.inr ⟨_, Or.inl rfl, h1, q1'⟩
    · by_cases h2 : g.ty e.1.2 = .boundary
      · exact Or.inr ⟨_, Or.inr rfl, h2, q2'⟩
      · exact Or.inl ⟨hnb _ q1' h1, hnb _ q2' h2⟩
  have hT : TabOK s.g s.etab := by
    refine ⟨?_, ?_⟩
    · intro e he hz
      obtain ⟨q1, q2, q3⟩ := hk e he hz
      rw [hverts, hadj]
      refine ⟨(Finset.mem_sdiff.mp q1).1, (Finset.mem_sdiff.mp q2).1, q3, ?_⟩
      rcases hzx e he hz with h | ⟨b, h1, h2, -⟩
      · exact Or.inl h
      · exact Or.inr (hent e he hz b h1 h2)
    · rw [List.pairwise_iff_getElem]
      intro i j hi hj hij hez hfz
      rcases hzx _ (List.getElem_mem hi) hez with h | ⟨b, h1, h2, h3⟩
      · exact Or.inl h
      · right
        intro hsp
        have := List.pairwise_iff_getElem.mp (tcount_pair (hc b h3 h2).1) i j hi hj hij hez hfz h1
        refine this ?_
        rcases hsp with ⟨p1, p2⟩ | ⟨p1, p2⟩ <;> rcases h1 with h1 | h1
        · exact Or.inl (h1.trans p1)
        · exact Or.inr (h1.trans p2)
        · exact Or.inr (h1.trans p1)
        · exact Or.inl (h1.trans p2)
  obtain ⟨g', hfin⟩ := finish_isSome hsg hT (by rw [hadj]; exact he1) he2 he3' hn (by rw [hverts]; exact hv)
  refine ⟨g', hfin, fun hp => ?_⟩
  intro b hbv hbt u w hu hw
  obtain ⟨hbv', hbt'⟩ := (hp.boundary b).mp ⟨hbv, hbt⟩
  obtain ⟨-, u2, u3, u4⟩ := finish_adj hfin hp.wf.toInv hu
  obtain ⟨-, w2, w3, w4⟩ := finish_adj hfin hp.wf.toInv hw
  rw [hadj] at u4 w4
  obtain ⟨c1, c2⟩ := hc b hbv' hbt'
  have hold : ∀ z, z ∉ s.remVerts → (∀ e ∈ s.remEdges, ¬ SamePair (b, z) e) → tcount s.etab b ≠ 0 → g.adj b z = none := by
    intro z z1 z2 z3
    by_contra hne
    rcases c2 z3 z hne with h | ⟨e, he, hsp⟩
    · exact z1 h
    · exact z2 e he hsp
  have hnew : ∀ z, (∃ e ∈ s.etab, e.2 ≠ (0, 0) ∧ SamePair (b, z) e.1) → tcount s.etab b ≠ 0 := by
    rintro z ⟨e, he, hz, hsp⟩
    have := tcount_pos (b := b) he hz (by rcases hsp with ⟨p, -⟩ | ⟨p, -⟩; exacts [Or.inl p, Or.inr p])
    have := tab_ne.mp hz
    omega
  rcases u4 with u4 | u4
  · rcases w4 with w4 | w4
    · exact hb b hbv' hbt' u w u4 w4
    · exact absurd (hold u u2 u3 (hnew w w4)) u4
  · rcases w4 with w4 | w4
    · exact absurd (hold w w2 w3 (hnew u u4)) w4
    · obtain ⟨e, he, hz, hsp⟩ := u4
      obtain ⟨f, hf, hfz, hsp'⟩ := w4
      have hef : e = f := tcount_unique c1 he hf hz hfz
        (by rcases hsp with ⟨p, -⟩ | ⟨p, -⟩; exacts [Or.inl p, Or.inr p])
        (by rcases hsp' with ⟨p, -⟩ | ⟨p, -⟩; exacts [Or.inl p, Or.inr p])
      subst hef
      have hne := (hk e he hz).2.2
      rcases hsp with ⟨p1, p2⟩ | ⟨p1, p2⟩ <;> rcases hsp' with ⟨p3, p4⟩ | ⟨p3, p4⟩ <;> simp only at p1 p2 p3 p4
      · rw [p2, p4]
      · exact absurd (p1.symm.trans p3) hne
      · exact absurd (p3.symm.trans p1) hne
      · rw [p2, p4]

end Graph
end PyZX
