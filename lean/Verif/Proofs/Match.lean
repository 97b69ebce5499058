import Verif.Model.Match
import Verif.Proofs.Ids
import Verif.Proofs.Lcomp
import Verif.Proofs.Spider
import Verif.Proofs.Pivot

/-!
# The parallel matchers return lists of matches that can be applied together
-/

namespace PyZX

namespace Rules

variable {α β : Type*} {try_ : α → Option β} {disc : β → α → Bool} {inc num : ℤ}

theorem greedy_mem {cs : List α} {dead : α → Bool} {i : ℤ} {m : β} (h : m ∈ greedy try_ disc inc num dead i cs) :
    ∃ c ∈ cs, dead c = false ∧ try_ c = some m := by
  induction cs generalizing dead i with
  | nil => simp [greedy] at h
  | cons c cs ih =>
    simp only [greedy] at h
    by_cases hd : dead c = true
    · rw [if_pos hd] at h
      obtain ⟨c', h1, h2⟩ := ih h
      exact ⟨c', List.mem_cons_of_mem _ h1, h2⟩
    · rw [if_neg hd] at h
      by_cases hn : num = -1 ∨ i < num
      · rw [if_pos hn] at h
        cases ht : try_ c with
        | none =>
          rw [ht] at h
          obtain ⟨c', h1, h2⟩ := ih h
          exact ⟨c', List.mem_cons_of_mem _ h1, h2⟩
        | some m' =>
          rw [ht] at h
          rcases List.mem_cons.mp h with rfl | h
          · exact ⟨c, by simp, by simpa using hd, ht⟩
          · obtain ⟨c', h1, h2, h3⟩ := ih h
            simp only [Bool.or_eq_false_iff] at h2
            exact ⟨c', List.mem_cons_of_mem _ h1, h2.1, h3⟩
      · rw [if_neg hn] at h; simp at h

/-- Any relation that holds between a match and a later match at a candidate that was not discarded holds pairwise. -/
theorem greedy_pairwise {Q : β → β → Prop} {cs : List α} {dead : α → Bool} {i : ℤ} (hn : cs.Nodup)
    (H : ∀ c ∈ cs, ∀ c' ∈ cs, c ≠ c' → ∀ m m', try_ c = some m → try_ c' = some m' → disc m c' = false → Q m m') :
    (greedy try_ disc inc num dead i cs).Pairwise Q := by
  induction cs generalizing dead i with
  | nil => simp [greedy]
  | cons c cs ih =>
    have hn' := List.nodup_cons.mp hn
    have ih' : ∀ (dead : α → Bool) i, (greedy try_ disc inc num dead i cs).Pairwise Q := fun dead i => ih hn'.2
      fun c1 h1 c2 h2 => H c1 (List.mem_cons_of_mem _ h1) c2 (List.mem_cons_of_mem _ h2)
    simp only [greedy]
    by_cases hd : dead c = true
    · rw [if_pos hd]; exact ih' _ _
    · rw [if_neg hd]
      by_cases hn : num = -1 ∨ i < num
      · rw [if_pos hn]
        cases ht : try_ c with
        | none => exact ih' _ _
        | some m =>
          refine List.Pairwise.cons ?_ (ih' _ _)
          intro m' hm'
          obtain ⟨c', hc', hdead, ht'⟩ := greedy_mem hm'
          simp only [Bool.or_eq_false_iff] at hdead
          exact H c (by simp) c' (List.mem_cons_of_mem _ hc') (fun e => hn'.1 (e ▸ hc')) m m' ht ht' hdead.2
      · rw [if_neg hn]; simp

/-- An unlimited matcher that returns nothing has no match at any candidate. -/
theorem greedy_nil {cs : List α} {i : ℤ} (h : greedy try_ disc inc (-1) (fun _ => false) i cs = []) :
    ∀ c ∈ cs, try_ c = none := by
  induction cs generalizing i with
  | nil => simp
  | cons c cs ih =>
    simp only [greedy, Bool.false_eq_true, if_false, true_or, if_true] at h
    cases ht : try_ c with
    | none =>
      rw [ht] at h
      intro c' hc'
      rcases List.mem_cons.mp hc' with rfl | hc'
      · exact ht
      · exact ih h c' hc'
    | some m => rw [ht] at h; simp at h

end Rules

namespace Graph

theorem NbrOrder.mem {g : Graph} {ord : ℕ → List ℕ} (hg : g.WF) (h : Rules.NbrOrder g ord) {v w : ℕ} (hv : v ∈ g.verts) :
    w ∈ ord v ↔ g.adj v w ≠ none := by
  rw [← List.mem_toFinset, (h v hv).2, nbrs, Finset.mem_filter, Option.isSome_iff_ne_none]
  exact ⟨fun h => h.2, fun h => ⟨hg.mem w v (by rw [hg.symm]; exact h), h⟩⟩

theorem pairwise_both {α : Type*} {R : α → α → Prop} {l : List α} (h : l.Pairwise R) (hs : ∀ a b, R a b → R b a) :
    ∀ a ∈ l, ∀ b ∈ l, a ≠ b → R a b := by
  induction l with
  | nil => simp
  | cons c l ih =>
    rw [List.pairwise_cons] at h
    intro a ha b hb hne
    rcases List.mem_cons.mp ha with e | ha' <;> rcases List.mem_cons.mp hb with e' | hb'
    · exact absurd (e.trans e'.symm) hne
    · exact e ▸ h.1 b hb'
    · exact e' ▸ hs _ _ (h.1 a ha')
    · exact ih h.2 a ha' b hb' hne

theorem pairwise_adj {α : Type*} {g : Graph} (hg : g.WF) {f : α → ℕ} {l : List α}
    (h : l.Pairwise fun m m' => g.adj (f m) (f m') = none) : ∀ a ∈ l, ∀ b ∈ l, g.adj (f a) (f b) = none := by
  intro a ha b hb
  by_cases e : a = b
  · rw [e]; exact hg.loopless _
  · exact pairwise_both h (fun a b h => by rw [hg.symm]; exact h) a ha b hb e

theorem idTry_spec {g : Graph} {ord : ℕ → List ℕ} (h : Rules.NbrOrder g ord) {v : ℕ} (hv : v ∈ g.verts) {m : Rules.IdMatch}
    (hm : Rules.idTry g ord v = some m) :
    m.v = v ∧ (g.ty v = .Z ∨ g.ty v = .X) ∧ g.phase v = 0 ∧ g.nbrs v = {m.v0, m.v1} ∧ m.v0 ≠ m.v1 ∧
      m.et = if g.adj v m.v0 = g.adj v m.v1 then .simple else .had := by
  unfold Rules.idTry at hm
  split_ifs at hm with h1
  simp only [not_or, not_not] at h1
  obtain ⟨hp, ht, -⟩ := h1
  obtain ⟨hnd, hset⟩ := h v hv
  rcases hl : ord v with _ | ⟨a, _ | ⟨b, _ | ⟨c, l⟩⟩⟩ <;> rw [hl] at hm <;> simp only [reduceCtorEq] at hm
  simp only [Option.some.injEq] at hm
  subst hm
  rw [hl] at hnd hset
  refine ⟨rfl, by simpa [VType.isZX] using ht, by simpa using hp, ?_, by simpa using hnd, ?_⟩
  · rw [← hset]; simp
  · show (if g.adj v a ≠ g.adj v b then EType.had else .simple) = _
    split_ifs <;> simp_all

theorem matchIds_ok {g : Graph} (hg : g.WF) {ord : ℕ → List ℕ} (h : Rules.NbrOrder g ord) {cands : List ℕ} (hn : cands.Nodup)
    (hc : ∀ c ∈ cands, c ∈ g.verts) (num : ℤ) : IdsOK g (Rules.matchIds g ord num cands) := by
  have key : ∀ m ∈ Rules.matchIds g ord num cands, Rules.idTry g ord m.v = some m ∧ m.v ∈ g.verts := by
    intro m hm
    obtain ⟨c, hcm, -, ht⟩ := Rules.greedy_mem hm
    have := (idTry_spec h (hc c hcm) ht).1
    exact ⟨this ▸ ht, this ▸ hc c hcm⟩
  have hpw : (Rules.matchIds g ord num cands).Pairwise fun m m' => m.v ≠ m'.v ∧ m'.v ≠ m.v0 ∧ m'.v ≠ m.v1 := by
    refine Rules.greedy_pairwise hn fun c hcm c' hcm' hne m m' hm hm' hd => ?_
    have e := (idTry_spec h (hc c hcm) hm).1
    have e' := (idTry_spec h (hc c' hcm') hm').1
    simp only [Rules.idDisc, Bool.or_eq_false_iff, beq_eq_false_iff_ne] at hd
    rw [e, e']
    exact ⟨hne, hd⟩
  have hadj : ∀ m ∈ Rules.matchIds g ord num cands, ∀ w, (w = m.v0 ∨ w = m.v1) ↔ g.adj m.v w ≠ none := by
    intro m hm w
    obtain ⟨ht, hv⟩ := key m hm
    have := (idTry_spec h hv ht).2.2.2.1
    have h2 : w ∈ g.nbrs m.v ↔ w = m.v0 ∨ w = m.v1 := by rw [this]; simp
    rw [← h2, nbrs, Finset.mem_filter, Option.isSome_iff_ne_none]
    exact ⟨fun h => h.2, fun h => ⟨hg.mem w m.v (by rw [hg.symm]; exact h), h⟩⟩
  refine ⟨fun m hm => (key m hm).2, fun m hm => ?_, fun m hm => ?_, fun m hm => ?_, fun m hm => ?_, fun m hm => ?_, ?_, ?_⟩
  · exact (idTry_spec h (key m hm).2 (key m hm).1).2.1
  · exact (idTry_spec h (key m hm).2 (key m hm).1).2.2.1
  · exact (idTry_spec h (key m hm).2 (key m hm).1).2.2.2.1
  · exact (idTry_spec h (key m hm).2 (key m hm).1).2.2.2.2.1
  · exact (idTry_spec h (key m hm).2 (key m hm).1).2.2.2.2.2
  · rw [List.Nodup, List.pairwise_map]
    exact hpw.imp fun h => h.1
  · have hsym : (Rules.matchIds g ord num cands).Pairwise fun m m' => g.adj m.v m'.v = none := by
      refine List.Pairwise.imp_of_mem (fun hm hm' hR => ?_) hpw
      by_contra hne
      rcases (hadj _ hm _).mpr hne with e | e
      · exact hR.2.1 e
      · exact hR.2.2 e
    intro m hm m' hm'
    have : g.adj m.v m'.v = none := pairwise_adj hg (f := fun m => m.v) hsym m hm m' hm'
    constructor
    · exact fun e => (hadj m hm _).mp (Or.inl e) this
    · exact fun e => (hadj m hm _).mp (Or.inr e) this

theorem lcompTry_spec {g : Graph} {ord : ℕ → List ℕ} {v : ℕ} {m : Rules.LcompMatch}
    (hm : Rules.lcompTry g ord v = some m) :
    m.v = v ∧ m.vn = ord v ∧ g.ty v = .Z ∧ (g.phase v = 1 / 2 ∨ g.phase v = 3 / 2) ∧
      ∀ w ∈ ord v, g.ty w = .Z ∧ g.adj v w = some .had := by
  unfold Rules.lcompTry at hm
  split_ifs at hm with h1 h2 h3 h4
  simp only [Option.some.injEq] at hm
  subst hm
  exact ⟨rfl, rfl, not_not.mp h1, h2, fun w hw => ⟨h4 w hw, h3 w hw⟩⟩

theorem matchLcomp_ok {g : Graph} (hg : g.WF) {ord : ℕ → List ℕ} (h : Rules.NbrOrder g ord) {cands : List ℕ} (hn : cands.Nodup)
    (hc : ∀ c ∈ cands, c ∈ g.verts) (num : ℤ) : LcompOK g (Rules.matchLcomp g ord num cands) := by
  have key : ∀ m ∈ Rules.matchLcomp g ord num cands, Rules.lcompTry g ord m.v = some m ∧ m.v ∈ g.verts := by
    intro m hm
    obtain ⟨c, hcm, -, ht⟩ := Rules.greedy_mem hm
    have := (lcompTry_spec ht).1
    exact ⟨this ▸ ht, this ▸ hc c hcm⟩
  have hpw : (Rules.matchLcomp g ord num cands).Pairwise fun m m' => m.v ≠ m'.v ∧ m'.v ∉ m.vn := by
    refine Rules.greedy_pairwise hn fun c hcm c' hcm' hne m m' hm hm' hd => ?_
    have e := (lcompTry_spec hm).1
    have e' := (lcompTry_spec hm').1
    simp only [Rules.lcompDisc, List.contains_eq_mem, decide_eq_false_iff_not] at hd
    rw [e, e']
    exact ⟨hne, hd⟩
  have hadj : ∀ m ∈ Rules.matchLcomp g ord num cands, ∀ w, w ∈ m.vn ↔ g.adj m.v w ≠ none := by
    intro m hm w
    obtain ⟨ht, hv⟩ := key m hm
    rw [(lcompTry_spec ht).2.1]
    exact NbrOrder.mem hg h hv
  refine ⟨fun m hm => (key m hm).2, fun m hm => ?_, fun m hm => ?_, fun m hm => ?_, fun m hm => ?_, ?_, ?_⟩
  · exact (lcompTry_spec (key m hm).1).2.2.1
  · exact (lcompTry_spec (key m hm).1).2.2.2.1
  · rw [(lcompTry_spec (key m hm).1).2.1]; exact h _ (key m hm).2
  · rw [(lcompTry_spec (key m hm).1).2.1]; exact (lcompTry_spec (key m hm).1).2.2.2.2
  · rw [List.Nodup, List.pairwise_map]
    exact hpw.imp fun h => h.1
  · have hsym : (Rules.matchLcomp g ord num cands).Pairwise fun m m' => g.adj m.v m'.v = none := by
      refine List.Pairwise.imp_of_mem (fun hm hm' hR => ?_) hpw
      by_contra hne
      exact hR.2 ((hadj _ hm _).mpr hne)
    intro m hm m' hm' hmem
    exact (hadj m hm _).mp hmem (pairwise_adj hg (f := fun m => m.v) hsym m hm m' hm')

theorem edgeDisc_false {g : Graph} {v0 v1 : ℕ} {c : ℕ × ℕ} (h : Rules.edgeDisc g v0 v1 c = false) :
    g.adj v0 c.1 = none ∧ g.adj v0 c.2 = none ∧ g.adj v1 c.1 = none ∧ g.adj v1 c.2 = none := by
  simpa [Rules.edgeDisc, and_assoc] using h

/-- Two connected pairs without edges between them are disjoint. -/
theorem pair_disjoint {g : Graph} (hg : g.WF) {a b : ℕ × ℕ} (ha : g.adj a.1 a.2 ≠ none)
    (h : g.adj a.1 b.1 = none ∧ g.adj a.1 b.2 = none ∧ g.adj a.2 b.1 = none ∧ g.adj a.2 b.2 = none) :
    ∀ v, v = a.1 ∨ v = a.2 → ∀ w, w = b.1 ∨ w = b.2 → v ≠ w ∧ g.adj v w = none := by
  obtain ⟨h1, h2, h3, h4⟩ := h
  have ha' : g.adj a.2 a.1 ≠ none := by rw [hg.symm]; exact ha
  rintro v (rfl | rfl) w (rfl | rfl)
  · exact ⟨fun e => ha' (by rw [e]; exact h3), h1⟩
  · exact ⟨fun e => ha' (by rw [e]; exact h4), h2⟩
  · exact ⟨fun e => ha (by rw [e]; exact h1), h3⟩
  · exact ⟨fun e => ha (by rw [e]; exact h2), h4⟩

theorem spiderTry_spec {g : Graph} {c m : ℕ × ℕ} (hm : Rules.spiderTry g c = some m) :
    m = c ∧ g.adj c.1 c.2 = some .simple ∧
      ((g.ty c.1 = .X ∧ g.ty c.2 = .X) ∨ ((g.ty c.1).zLike ∧ (g.ty c.2).zLike)) := by
  unfold Rules.spiderTry at hm
  split_ifs at hm with h1 h2 h3
  simp only [Option.some.injEq] at hm
  simp only [ne_eq, not_not] at h1
  refine ⟨hm.symm, h1, ?_⟩
  rcases h3 with ⟨h3, h4⟩ | h3
  · simp only [VType.isZX, Bool.or_eq_true, decide_eq_true_eq] at h4
    rcases h4 with h4 | h4
    · exact Or.inr ⟨by rw [h4]; rfl, by rw [← h3, h4]; rfl⟩
    · exact Or.inl ⟨h4, by rw [← h3]; exact h4⟩
  · exact Or.inr h3

theorem matchSpider_ok {g : Graph} (hg : g.WF) {cands : List (ℕ × ℕ)} (hn : cands.Nodup) (num : ℤ) (row0 : ℕ → Bool) :
    SpiderOK g ((Rules.matchSpider g num cands).map (Rules.spiderPair row0)) := by
  set ms := Rules.matchSpider g num cands with hms
  have key : ∀ m ∈ ms, g.adj m.1 m.2 = some .simple ∧
      ((g.ty m.1 = .X ∧ g.ty m.2 = .X) ∨ ((g.ty m.1).zLike ∧ (g.ty m.2).zLike)) := by
    intro m hm
    obtain ⟨c, hcm, -, ht⟩ := Rules.greedy_mem hm
    obtain ⟨rfl, h1, h2⟩ := spiderTry_spec ht
    exact ⟨h1, h2⟩
  have hsw : ∀ m : ℕ × ℕ, (Rules.spiderPair row0 m).1 = m.1 ∧ (Rules.spiderPair row0 m).2 = m.2 ∨
      (Rules.spiderPair row0 m).1 = m.2 ∧ (Rules.spiderPair row0 m).2 = m.1 := by
    intro m; unfold Rules.spiderPair; split_ifs
    · exact Or.inr ⟨rfl, rfl⟩
    · exact Or.inl ⟨rfl, rfl⟩
  have hpw : (ms.map (Rules.spiderPair row0)).Pairwise fun p q =>
      ∀ v, v = p.1 ∨ v = p.2 → ∀ w, w = q.1 ∨ w = q.2 → v ≠ w ∧ g.adj v w = none := by
    rw [List.pairwise_map]
    refine Rules.greedy_pairwise hn fun c hcm c' hcm' hne m m' hm hm' hd => ?_
    obtain ⟨rfl, h1, -⟩ := spiderTry_spec hm
    obtain ⟨rfl, -⟩ := spiderTry_spec hm'
    have := pair_disjoint hg (by rw [h1]; simp) (edgeDisc_false hd)
    intro v hv w hw
    refine this v ?_ w ?_
    · rcases hsw m with ⟨e1, e2⟩ | ⟨e1, e2⟩ <;> rw [e1, e2] at hv <;> tauto
    · rcases hsw m' with ⟨e1, e2⟩ | ⟨e1, e2⟩ <;> rw [e1, e2] at hw <;> tauto
  refine ⟨?_, ?_, ?_, ?_⟩
  · intro p hp
    obtain ⟨m, hm, rfl⟩ := List.mem_map.mp hp
    rcases hsw m with ⟨e1, e2⟩ | ⟨e1, e2⟩ <;> rw [e1, e2]
    · exact (key m hm).1
    · rw [hg.symm]; exact (key m hm).1
  · intro p hp
    obtain ⟨m, hm, rfl⟩ := List.mem_map.mp hp
    have := (key m hm).2
    rcases hsw m with ⟨e1, e2⟩ | ⟨e1, e2⟩ <;> rw [e1, e2] <;> tauto
  · exact hpw.imp fun h e => (h _ (Or.inl rfl) _ (Or.inl rfl)).1 (by rw [e])
  · intro p hp q hq hne
    have := pairwise_both hpw
      (fun p q h v hv w hw => ⟨((h w hw v hv).1).symm, by rw [hg.symm]; exact (h w hw v hv).2⟩) p hp q hq hne
    exact ⟨(this _ (Or.inl rfl) _ (Or.inl rfl)).1, (this _ (Or.inl rfl) _ (Or.inr rfl)).1,
      this _ (Or.inr rfl) _ (Or.inr rfl)⟩

theorem pivotScan_spec {g : Graph} {v : ℕ} {ns b : List ℕ} (h : Rules.pivotScan g v ns = some b) :
    (∀ w ∈ ns, (g.ty w = .Z ∧ g.adj v w = some .had) ∨ w ∈ b) ∧ ∀ w ∈ b, w ∈ ns ∧ g.ty w = .boundary := by
  induction ns generalizing b with
  | nil =>
    simp only [Rules.pivotScan, Option.some.injEq] at h
    subst h; simp
  | cons n ns ih =>
    unfold Rules.pivotScan at h
    split_ifs at h with h1 h2
    · obtain ⟨i1, i2⟩ := ih h
      exact ⟨fun w hw => by rcases List.mem_cons.mp hw with rfl | hw; exacts [Or.inl h1, i1 w hw],
        fun w hw => ⟨List.mem_cons_of_mem _ (i2 w hw).1, (i2 w hw).2⟩⟩
    · obtain ⟨b', hb', rfl⟩ := Option.map_eq_some_iff.mp h
      obtain ⟨i1, i2⟩ := ih hb'
      refine ⟨fun w hw => ?_, fun w hw => ?_⟩
      · rcases List.mem_cons.mp hw with rfl | hw
        · exact Or.inr (by simp)
        · rcases i1 w hw with h | h
          · exact Or.inl h
          · exact Or.inr (List.mem_cons_of_mem _ h)
      · rcases List.mem_cons.mp hw with rfl | hw
        · exact ⟨by simp, h2⟩
        · exact ⟨List.mem_cons_of_mem _ (i2 w hw).1, (i2 w hw).2⟩

theorem pivotTry_spec {g : Graph} (hg : g.WF) {ord : ℕ → List ℕ} (h : Rules.NbrOrder g ord) {c : ℕ × ℕ} {m : Rules.PivotMatch}
    (hm : Rules.pivotTry g ord c = some m) : m.v0 = c.1 ∧ m.v1 = c.2 ∧ PivotOK1 g m := by
  unfold Rules.pivotTry at hm
  split_ifs at hm with h1 h2 h3
  simp only [ne_eq, not_not] at h1
  cases hb0 : Rules.pivotScan g c.1 (ord c.1) with
  | none => rw [hb0] at hm; simp at hm
  | some b0 =>
    rw [hb0] at hm
    cases hb1 : Rules.pivotScan g c.2 (ord c.2) with
    | none => rw [hb1] at hm; simp at hm
    | some b1 =>
      rw [hb1] at hm
      simp only at hm
      split_ifs at hm with hlen
      simp only [Option.some.injEq] at hm
      subst hm
      have hv0 : c.1 ∈ g.verts := hg.mem c.1 c.2 (by rw [h1]; simp)
      have hv1 : c.2 ∈ g.verts := hg.mem c.2 c.1 (by rw [hg.symm, h1]; simp)
      obtain ⟨p1, p2⟩ := pivotScan_spec hb0
      obtain ⟨q1, q2⟩ := pivotScan_spec hb1
      have hone : ∀ {b b' : List ℕ}, ¬ b.length + b'.length > 1 → ∀ w ∈ b, b.head? = some w ∧ b' = [] := by
        intro b b' hl w hw
        rcases b with _ | ⟨a, _ | ⟨a', b⟩⟩
        · simp at hw
        · simp only [List.mem_singleton] at hw
          subst hw
          refine ⟨rfl, ?_⟩
          cases b' with
          | nil => rfl
          | cons => simp at hl
        · simp at hl; omega
      have hlen' : ¬ b1.length + b0.length > 1 := by omega
      refine ⟨rfl, rfl, ⟨h1, h2.1, h2.2, h3.1, h3.2, ?_, ?_, ?_, ?_, ?_⟩⟩
      · intro w hw
        rcases p1 w ((NbrOrder.mem hg h hv0).mpr hw) with hz | hb
        · exact Or.inr hz
        · exact Or.inl (hone hlen w hb).1
      · intro w hw
        rcases q1 w ((NbrOrder.mem hg h hv1).mpr hw) with hz | hb
        · exact Or.inr hz
        · exact Or.inl (hone hlen' w hb).1
      · intro w hw
        have hw : w ∈ b0 := List.mem_of_mem_head? hw
        have ht := (p2 w hw).2
        refine ⟨(NbrOrder.mem hg h hv0).mp (p2 w hw).1, by rw [ht]; simp, fun e => ?_, ?_⟩
        · subst e; rw [show g.ty c.2 = _ from h2.2] at ht; simp at ht
        · by_contra hne
          rcases q1 w ((NbrOrder.mem hg h hv1).mpr hne) with hz | hb
          · rw [ht] at hz; simp at hz
          · rw [(hone hlen w hw).2] at hb; simp at hb
      · intro w hw
        have hw : w ∈ b1 := List.mem_of_mem_head? hw
        have ht := (q2 w hw).2
        refine ⟨(NbrOrder.mem hg h hv1).mp (q2 w hw).1, by rw [ht]; simp, fun e => ?_, ?_⟩
        · subst e; rw [show g.ty c.1 = _ from h2.1] at ht; simp at ht
        · by_contra hne
          rcases p1 w ((NbrOrder.mem hg h hv0).mpr hne) with hz | hb
          · rw [ht] at hz; simp at hz
          · rw [(hone hlen' w hw).2] at hb; simp at hb
      · show b0.head? = none ∨ b1.head? = none
        rcases b0 with _ | ⟨a, b0⟩
        · exact Or.inl rfl
        · exact Or.inr (by rw [(hone hlen a (by simp)).2]; rfl)

theorem matchPivot_ok {g : Graph} (hg : g.WF) {ord : ℕ → List ℕ} (h : Rules.NbrOrder g ord) {cands : List (ℕ × ℕ)} (hn : cands.Nodup)
    (num : ℤ) : PivotOK g (Rules.matchPivot g ord num cands) := by
  refine ⟨fun m hm => ?_, ?_⟩
  · obtain ⟨c, -, -, ht⟩ := Rules.greedy_mem hm
    exact (pivotTry_spec hg h ht).2.2
  · refine Rules.greedy_pairwise hn fun c hcm c' hcm' hne m m' hm hm' hd => ?_
    obtain ⟨e1, e2, h1⟩ := pivotTry_spec hg h hm
    obtain ⟨e3, e4, -⟩ := pivotTry_spec hg h hm'
    have := pair_disjoint hg (a := (m.v0, m.v1)) (b := c') (by show g.adj m.v0 m.v1 ≠ none; rw [h1.adj]; simp) (edgeDisc_false hd)
    rw [← e3, ← e4] at this
    exact this

end Graph
end PyZX
