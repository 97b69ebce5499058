import Verif.Proofs.Gadget

/-!
# `match_pivot_gadget` returns an equivalent graph and matches that can be pivoted together
-/

namespace PyZX
namespace Graph

theorem gadgetTry_spec {g : Graph} {c : ℕ × ℕ} {v0 v1 : ℕ} (h : Rules.gadgetTry g c = some (v0, v1)) :
    ((v0 = c.1 ∧ v1 = c.2) ∨ (v0 = c.2 ∧ v1 = c.1)) ∧ g.ty v0 = .Z ∧ g.ty v1 = .Z ∧ Rules.isPauli (g.phase v0) ∧
      ¬ Rules.isPauli (g.phase v1) ∧ g.degree v1 ≠ 1 ∧
      (∀ n ∈ g.nbrs v0, g.ty n = .Z ∧ ¬ (g.degree n = 1 ∧ n ≠ v1)) ∧ (∀ n ∈ g.nbrs v1, g.ty n = .Z) := by
  unfold Rules.gadgetTry at h
  cases he : Rules.gadgetEnds g c with
  | none => rw [he] at h; simp at h
  | some p =>
    obtain ⟨a, b⟩ := p
    rw [he] at h
    simp only at h
    split_ifs at h with h1 h2
    simp only [Option.some.injEq, Prod.mk.injEq] at h
    obtain ⟨rfl, rfl⟩ := h
    unfold Rules.gadgetEnds at he
    split_ifs at he with e1 e2 e3 e4
    · simp only [Option.some.injEq] at he
      subst he
      exact ⟨Or.inl ⟨rfl, rfl⟩, e1.1, e1.2, e2, e3, h1, h2.1, h2.2⟩
    · simp only [Option.some.injEq, Prod.mk.injEq] at he
      obtain ⟨rfl, rfl⟩ := he
      exact ⟨Or.inr ⟨rfl, rfl⟩, e1.2, e1.1, e4, e2, h1, h2.1, h2.2⟩

/-- What is known about one match: in the original graph `g` and in the live graph `G`. -/
structure GadOK1 (g G : Graph) (m : Rules.PivotMatch) (v : ℕ) : Prop where
  b0 : m.b0 = none
  b1 : m.b1 = some v
  fresh : v ∉ g.verts
  mem : v ∈ G.verts
  ty : G.ty v = .Z
  phase : G.phase v = mod2 (g.phase m.v1)
  adj : g.adj m.v0 m.v1 ≠ none
  ty0 : g.ty m.v0 = .Z
  ty1 : g.ty m.v1 = .Z
  ph0 : Rules.isPauli (g.phase m.v0)
  ph1 : ¬ Rules.isPauli (g.phase m.v1)
  ph1' : G.phase m.v1 = 0
  deg : g.degree m.v1 ≠ 1
  n0 : ∀ n, g.adj m.v0 n ≠ none → g.ty n = .Z ∧ ¬ (g.degree n = 1 ∧ n ≠ m.v1)
  n1 : ∀ n, g.adj m.v1 n ≠ none → g.ty n = .Z

/-- Invariant of the loop of `match_pivot_gadget`. -/
structure GadInv (g : Graph) (s : Rules.GState (ℕ × ℕ → Bool)) : Prop where
  wf : s.g.WF
  adj : s.g.adj = g.adj
  sub : g.verts ⊆ s.g.verts
  news : ∀ v ∈ s.g.verts, v ∉ g.verts → s.g.ty v = .Z ∧ ∃ m ∈ s.ms, m.b1 = some v
  ty : ∀ v ∈ g.verts, s.g.ty v = g.ty v
  phase : ∀ v ∈ g.verts, (∀ m ∈ s.ms, v ≠ m.v1) → s.g.phase v = g.phase v
  el : s.el = s.ms.map fun m => (m.b1.getD 0, m.v1)
  each : ∀ m ∈ s.ms, ∃ v, GadOK1 g s.g m v
  nodup : (s.ms.map (·.b1)).Nodup
  dead : ∀ m ∈ s.ms, ∀ c, s.dead c = false → Rules.edgeDisc g m.v0 m.v1 c = false
  indep : s.ms.Pairwise fun m m' => ∀ v, v = m.v0 ∨ v = m.v1 → ∀ w, w = m'.v0 ∨ w = m'.v1 → v ≠ w ∧ g.adj v w = none
  pres : Preserves g (s.g.plain s.el .simple)

theorem setPhase_wf {g : Graph} (hg : g.WF) (v : ℕ) (p : ℚ) : (g.setPhase v p).WF :=
  hg.congr (hg.toInv.congr rfl rfl rfl rfl rfl rfl) rfl rfl rfl rfl rfl

theorem gadInv_start {g : Graph} (hg : g.WF) : GadInv g ⟨g, [], [], fun _ => false⟩ where
  wf := hg
  adj := rfl
  sub := fun _ h => h
  news := fun v h1 h2 => absurd h1 h2
  ty := fun _ _ => rfl
  phase := fun _ _ _ => rfl
  el := rfl
  each := by simp
  nodup := by simp
  dead := by simp
  indep := by simp
  pres := by show Preserves g (g.plain [] .simple); rw [plain_nil]; exact Preserves.refl hg

theorem gadInv_step {g : Graph} (hg : g.WF) {s : Rules.GState (ℕ × ℕ → Bool)} (hs : GadInv g s) {c : ℕ × ℕ}
    (hc : g.adj c.1 c.2 ≠ none) : GadInv g (Rules.gadgetStep s c) := by
  unfold Rules.gadgetStep
  split
  · exact hs
  rename_i hdead
  have hdead : s.dead c = false := by simpa using hdead
  split
  · exact hs
  rename_i v0 v1 htry
  obtain ⟨hends, ht0, ht1, hp0, hp1, hdeg, hn0, hn1⟩ := gadgetTry_spec htry
  have hadj01 : g.adj v0 v1 ≠ none := by
    rcases hends with ⟨rfl, rfl⟩ | ⟨rfl, rfl⟩
    · exact hc
    · rw [hg.symm]; exact hc
  have hv0 : v0 ∈ g.verts := hg.mem _ _ hadj01
  have hv1 : v1 ∈ g.verts := hg.mem _ _ (by rw [hg.symm]; exact hadj01)
  have hnb : ∀ v n, n ∈ s.g.nbrs v ↔ g.adj v n ≠ none := fun v n => by rw [mem_nbrs hs.wf.toInv, hs.adj]
  have hnew : s.g.vindex ∉ s.g.verts := hs.wf.notMem_vindex
  have hnewg : s.g.vindex ∉ g.verts := fun h => hnew (hs.sub h)
  have hdeg' : ∀ v, s.g.degree v = g.degree v := by
    intro v; unfold degree; congr 1; ext n; rw [hnb, mem_nbrs hg.toInv]
  -- independence from earlier matches
  have hdis : ∀ m ∈ s.ms, ∀ v, v = m.v0 ∨ v = m.v1 → ∀ w, w = v0 ∨ w = v1 → v ≠ w ∧ g.adj v w = none := by
    intro m hm v hv w hw
    obtain ⟨v', hok⟩ := hs.each m hm
    refine pair_disjoint hg (a := (m.v0, m.v1)) (b := c) hok.adj (edgeDisc_false (hs.dead m hm c hdead)) v hv w ?_
    rcases hends with ⟨rfl, rfl⟩ | ⟨rfl, rfl⟩ <;> tauto
  have hphv0 : s.g.phase v0 = g.phase v0 := hs.phase v0 hv0 fun m hm e => (hdis m hm m.v1 (Or.inr rfl) v0 (Or.inl rfl)).1 e.symm
  have hphv1 : s.g.phase v1 = g.phase v1 := hs.phase v1 hv1 fun m hm e => (hdis m hm m.v1 (Or.inr rfl) v1 (Or.inr rfl)).1 e.symm
  obtain ⟨f1, f2, f3, f4, f5, f6, f7, f8, f9, f10⟩ := addVertex_fields s.g .Z (s.g.phase v1)
  set g1 := s.g.addVertex .Z (s.g.phase v1) with hg1
  have hg1wf : g1.WF := hs.wf.addVertex (Or.inr (Or.inl rfl)) _
  have hg1adj : g1.adj = g.adj := by rw [hg1, hs.wf.toInv.addVertex_adj, hs.adj]
  have hnv1 : s.g.vindex ≠ v1 := fun e => hnewg (e ▸ hv1)
  have hgadj : ∀ z, g.adj s.g.vindex z = none := fun z => by by_contra hne; exact hnewg (hg.mem _ _ hne)
  have hty' : ∀ u ∈ s.g.verts, g1.ty u = s.g.ty u := by
    intro u hu; rw [f3, Function.update_of_ne]; rintro rfl; exact hnew hu
  have hel : ∀ m ∈ s.ms, ∃ v, m.b1 = some v ∧ v ∉ g.verts ∧ v ∈ s.g.verts ∧ m.v1 ∈ g.verts := by
    intro m hm
    obtain ⟨v, hok⟩ := hs.each m hm
    exact ⟨v, hok.b1, hok.fresh, hok.mem, hg.mem m.v1 m.v0 (by rw [hg.symm]; exact hok.adj)⟩
  have hnodup : ((s.ms ++ [(⟨v0, v1, none, some s.g.vindex⟩ : Rules.PivotMatch)]).map (·.b1)).Nodup := by
    rw [List.map_append, List.nodup_append]
    refine ⟨hs.nodup, by simp, ?_⟩
    intro b hb b' hb' e
    simp only [List.map_cons, List.map_nil, List.mem_singleton] at hb'
    obtain ⟨m, hm, rfl⟩ := List.mem_map.mp hb
    obtain ⟨v, h1, h2, h3, -⟩ := hel m hm
    rw [hb', h1] at e
    exact hnew ((Option.some.inj e) ▸ h3)
  have hels : s.el ++ [(s.g.vindex, v1)] =
      (s.ms ++ [(⟨v0, v1, none, some s.g.vindex⟩ : Rules.PivotMatch)]).map fun m => (m.b1.getD 0, m.v1) := by
    rw [List.map_append, ← hs.el]; rfl
  set g2 := g1.setPhase v1 0 with hg2
  have hg2wf : g2.WF := setPhase_wf hg1wf _ _
  -- properties of all entries of the edge list
  have hmems : ∀ m ∈ s.ms ++ [(⟨v0, v1, none, some s.g.vindex⟩ : Rules.PivotMatch)],
      ∃ v, m.b1 = some v ∧ v ∉ g.verts ∧ v ∈ g2.verts ∧ m.v1 ∈ g.verts := by
    intro m hm
    rcases List.mem_append.mp hm with hm | hm
    · obtain ⟨v, h1, h2, h3, h4⟩ := hel m hm
      exact ⟨v, h1, h2, by show v ∈ g1.verts; rw [f1]; exact Finset.mem_insert_of_mem h3, h4⟩
    · simp only [List.mem_singleton] at hm
      subst hm
      exact ⟨_, rfl, hnewg, by show _ ∈ g1.verts; rw [f1]; exact Finset.mem_insert_self _ _, hv1⟩
  have hplain : (g2.plain (s.el ++ [(s.g.vindex, v1)]) .simple).WF := by
    rw [hels]
    refine plain_wf hg2wf (by simp) ?_ ?_
    · intro p hp
      obtain ⟨m, hm, rfl⟩ := List.mem_map.mp hp
      obtain ⟨v, h1, h2, h3, h4⟩ := hmems m hm
      simp only [h1, Option.getD_some]
      refine ⟨h3, ?_, fun e => h2 (e ▸ h4), ?_⟩
      · show m.v1 ∈ g1.verts; rw [f1]; exact Finset.mem_insert_of_mem (hs.sub h4)
      · show g1.adj v m.v1 = none
        rw [hg1adj]; by_contra hne; exact h2 (hg.mem _ _ hne)
    · rw [List.pairwise_map]
      refine List.Pairwise.imp_of_mem ?_ (List.pairwise_map.mp hnodup)
      intro m m' hm hm' hne hsp
      obtain ⟨v, h1, h2, -, h4⟩ := hmems m hm
      obtain ⟨v', h1', h2', -, h4'⟩ := hmems m' hm'
      simp only [h1, h1', Option.getD_some, SamePair] at hsp
      rcases hsp with ⟨e, -⟩ | ⟨e, -⟩
      · exact hne (by rw [h1, h1', e])
      · exact h2 (e ▸ h4')
  have hstep : Preserves (s.g.plain s.el .simple) (g2.plain (s.el ++ [(s.g.vindex, v1)]) .simple) := by
    refine hang_simple hs.pres.wf hplain (v := s.g.vindex) (w := v1) hnew (hs.sub hv1) ht1 f1 ?_ hty' ?_ ?_ ?_ ?_ ?_ f8 f9 f10
    · intro a b
      simp only [plain]
      rw [show g2.adj a b = s.g.adj a b by show g1.adj a b = _; rw [hg1adj, hs.adj]]
      simp only [List.mem_append, List.mem_singleton, or_and_right, exists_or, exists_eq_left]
      by_cases h1 : SamePair (a, b) (s.g.vindex, v1)
      · rw [if_pos (Or.inr h1), if_pos h1]
      · rw [if_neg h1]
        by_cases h2 : ∃ p ∈ s.el, SamePair (a, b) p
        · rw [if_pos (Or.inl h2), if_pos h2]
        · rw [if_neg (not_or.mpr ⟨h2, h1⟩), if_neg h2]
    · show g1.ty s.g.vindex = .Z; rw [f3]; simp
    · show ph ((Function.update g1.phase v1 (mod2 0)) s.g.vindex) = ph (s.g.phase v1)
      rw [Function.update_of_ne hnv1, f4, Function.update_self, ph_mod2]
    · show Function.update g1.phase v1 (mod2 0) v1 = 0
      rw [Function.update_self, mod2_zero]
    · intro u hu hne
      show Function.update g1.phase v1 (mod2 0) u = s.g.phase u
      rw [Function.update_of_ne hne, f4, Function.update_of_ne]
      rintro rfl; exact hnew hu
    · intro u hu
      show g1.label u = s.g.label u
      rw [f5, Function.update_of_ne]
      rintro rfl; exact hnew hu
  have hphase' : ∀ u, u ≠ v1 → u ≠ s.g.vindex → g2.phase u = s.g.phase u := by
    intro u h1 h2
    show Function.update g1.phase v1 (mod2 0) u = s.g.phase u
    rw [Function.update_of_ne h1, f4, Function.update_of_ne h2]
  refine
    { wf := hg2wf, adj := hg1adj, sub := ?_, news := ?_, ty := ?_, phase := ?_, el := hels, each := ?_, nodup := hnodup
      dead := ?_, indep := ?_, pres := hs.pres.trans hstep }
  · intro v hv
    show v ∈ g1.verts; rw [f1]; exact Finset.mem_insert_of_mem (hs.sub hv)
  · intro v hv hvg
    have hv : v ∈ g1.verts := hv
    rw [f1, Finset.mem_insert] at hv
    rcases hv with rfl | hv
    · refine ⟨?_, _, List.mem_append_right _ (List.mem_singleton.mpr rfl), rfl⟩
      show g1.ty _ = _
      rw [f3, Function.update_self]
    · obtain ⟨h1, m, hm, h2⟩ := hs.news v hv hvg
      exact ⟨by show g1.ty v = _; rw [hty' v hv]; exact h1, m, List.mem_append_left _ hm, h2⟩
  · intro v hv
    show g1.ty v = g.ty v
    rw [hty' v (hs.sub hv), hs.ty v hv]
  · intro v hv hne
    show g2.phase v = g.phase v
    rw [hphase' v (hne _ (List.mem_append_right _ (List.mem_singleton.mpr rfl))) (fun e => hnewg (e ▸ hv))]
    exact hs.phase v hv fun m hm => hne m (List.mem_append_left _ hm)
  · intro m hm
    rcases List.mem_append.mp hm with hm | hm
    · obtain ⟨v, hok⟩ := hs.each m hm
      have hvne : v ≠ s.g.vindex := fun e => hnew (e ▸ hok.mem)
      have hm1 : m.v1 ≠ v1 := (hdis m hm m.v1 (Or.inr rfl) v1 (Or.inr rfl)).1
      have hm1v : m.v1 ∈ g.verts := hg.mem m.v1 m.v0 (by rw [hg.symm]; exact hok.adj)
      refine ⟨v, { hok with mem := ?_, ty := ?_, phase := ?_, ph1' := ?_ }⟩
      · show v ∈ g1.verts; rw [f1]; exact Finset.mem_insert_of_mem hok.mem
      · show g1.ty v = .Z; rw [hty' v hok.mem]; exact hok.ty
      · show g2.phase v = _
        rw [hphase' v (fun e => hok.fresh (e ▸ hv1)) hvne]; exact hok.phase
      · show g2.phase m.v1 = 0
        rw [hphase' m.v1 hm1 (fun e => hnewg (e ▸ hm1v))]; exact hok.ph1'
    · simp only [List.mem_singleton] at hm
      subst hm
      refine ⟨s.g.vindex, { b0 := rfl, b1 := rfl, fresh := hnewg, mem := ?_, ty := ?_, phase := ?_, adj := hadj01, ty0 := ?_, ty1 := ?_,
                            ph0 := ?_, ph1 := ?_, ph1' := ?_, deg := ?_, n0 := ?_, n1 := ?_ }⟩
      · show _ ∈ g1.verts; rw [f1]; exact Finset.mem_insert_self _ _
      · show g1.ty _ = .Z; rw [f3, Function.update_self]
      · show Function.update g1.phase v1 (mod2 0) s.g.vindex = mod2 (g.phase v1)
        rw [Function.update_of_ne hnv1, f4, Function.update_self, hphv1]
      · show g.ty v0 = .Z; rw [← hs.ty v0 hv0]; exact ht0
      · show g.ty v1 = .Z; rw [← hs.ty v1 hv1]; exact ht1
      · show Rules.isPauli (g.phase v0); rw [← hphv0]; exact hp0
      · show ¬ Rules.isPauli (g.phase v1); rw [← hphv1]; exact hp1
      · show Function.update g1.phase v1 (mod2 0) v1 = 0
        rw [Function.update_self, mod2_zero]
      · show g.degree v1 ≠ 1; rw [← hdeg']; exact hdeg
      · intro n hn
        have hn : g.adj v0 n ≠ none := hn
        have hng : n ∈ g.verts := hg.mem n v0 (by rw [hg.symm]; exact hn)
        have := hn0 n ((hnb v0 n).mpr hn)
        rw [hs.ty n hng, hdeg'] at this
        exact this
      · intro n hn
        have hn : g.adj v1 n ≠ none := hn
        have hng : n ∈ g.verts := hg.mem n v1 (by rw [hg.symm]; exact hn)
        have := hn1 n ((hnb v1 n).mpr hn)
        rw [hs.ty n hng] at this
        exact this
  · intro m hm c' hc'
    simp only [Bool.or_eq_false_iff] at hc'
    rcases List.mem_append.mp hm with hm | hm
    · exact hs.dead m hm c' hc'.1
    · simp only [List.mem_singleton] at hm
      subst hm
      have := hc'.2
      unfold Rules.edgeDisc at this ⊢
      rw [hs.adj] at this
      exact this
  · rw [List.pairwise_append]
    refine ⟨hs.indep, by simp, ?_⟩
    intro m hm m' hm'
    simp only [List.mem_singleton] at hm'
    subst hm'
    exact hdis m hm

theorem gadInv_fold {g : Graph} (hg : g.WF) {cands : List (ℕ × ℕ)} (hc : ∀ c ∈ cands, g.adj c.1 c.2 ≠ none)
    {s : Rules.GState (ℕ × ℕ → Bool)} (hs : GadInv g s) : GadInv g (cands.foldl Rules.gadgetStep s) := by
  induction cands generalizing s with
  | nil => exact hs
  | cons c cs ih =>
    exact ih (fun c' h => hc c' (List.mem_cons_of_mem _ h)) (gadInv_step hg hs (hc c (by simp)))

/-- Result of `match_pivot_gadget`. -/
theorem matchPivotGadget_ok {g : Graph} (hg : g.WF) (hb : g.BDeg) (hz : g.ZHad) {cands : List (ℕ × ℕ)}
    (hc : ∀ c ∈ cands, g.adj c.1 c.2 ≠ none) :
    ∃ s, GadInv g s ∧ (cands.foldl Rules.gadgetStep ⟨g, [], [], fun _ => false⟩ = s) ∧
      Rules.matchPivotGadget g cands = some (s.g.plain s.el .simple, s.ms) ∧
      (s.g.plain s.el .simple).BDeg ∧ PivotOK (s.g.plain s.el .simple) s.ms := by
  have hs := gadInv_fold hg hc (gadInv_start hg)
  set s := cands.foldl Rules.gadgetStep ⟨g, [], [], fun _ => false⟩ with hsdef
  have hent : ∀ p ∈ s.el, ∃ m ∈ s.ms, ∃ v, GadOK1 g s.g m v ∧ p = (v, m.v1) := by
    intro p hp
    rw [hs.el] at hp
    obtain ⟨m, hm, rfl⟩ := List.mem_map.mp hp
    obtain ⟨v, hok⟩ := hs.each m hm
    exact ⟨m, hm, v, hok, by simp [hok.b1]⟩
  have hmv1 : ∀ m ∈ s.ms, m.v1 ∈ g.verts ∧ m.v0 ∈ g.verts := by
    intro m hm
    obtain ⟨v, hok⟩ := hs.each m hm
    exact ⟨hg.mem m.v1 m.v0 (by rw [hg.symm]; exact hok.adj), hg.mem _ _ hok.adj⟩
  have hadd : s.g.addEdges s.el .simple = some (s.g.plain s.el .simple) := by
    refine addEdges_eq _ fun p hp => ?_
    obtain ⟨m, hm, v, hok, rfl⟩ := hent p hp
    exact ⟨hok.mem, hs.sub (hmv1 m hm).1⟩
  -- adjacency of the final graph
  have hA : ∀ a b, a ∈ g.verts → b ∈ g.verts → (s.g.plain s.el .simple).adj a b = g.adj a b := by
    intro a b ha hb
    simp only [plain]
    rw [if_neg, hs.adj]
    rintro ⟨p, hp, hsp⟩
    obtain ⟨m, hm, v, hok, rfl⟩ := hent p hp
    rcases hsp with ⟨e, -⟩ | ⟨-, e⟩
    · exact hok.fresh ((show a = v from e) ▸ ha)
    · exact hok.fresh ((show b = v from e) ▸ hb)
  have hA' : ∀ a b, b ∉ g.verts → (s.g.plain s.el .simple).adj a b ≠ none → ∃ m ∈ s.ms, m.b1 = some b ∧ a = m.v1 := by
    intro a b hb hne
    simp only [plain] at hne
    by_cases h : ∃ p ∈ s.el, SamePair (a, b) p
    · obtain ⟨p, hp, hsp⟩ := h
      obtain ⟨m, hm, v, hok, rfl⟩ := hent p hp
      rcases hsp with ⟨-, e⟩ | ⟨e1, e⟩
      · exact absurd ((show b = m.v1 from e) ▸ (hmv1 m hm).1) hb
      · exact ⟨m, hm, by rw [hok.b1, show b = v from e], e1⟩
    · rw [if_neg h, hs.adj] at hne
      exact absurd (hg.mem b a (by rw [hg.symm]; exact hne)) hb
  have hty : ∀ v ∈ g.verts, (s.g.plain s.el .simple).ty v = g.ty v := hs.ty
  refine ⟨s, hs, rfl, ?_, ?_, ?_⟩
  · unfold Rules.matchPivotGadget
    simp only [← hsdef, hadd, Option.map_some]
  · intro b hbv hbt u w hu hw
    have hbg : b ∈ g.verts := by
      by_contra hbg
      rw [show (s.g.plain s.el .simple).ty b = .Z from (hs.news b hbv hbg).1] at hbt
      simp at hbt
    have hbt' : g.ty b = .boundary := by rw [← hty b hbg]; exact hbt
    have hnb : ∀ u, (s.g.plain s.el .simple).adj b u ≠ none → g.adj b u ≠ none := by
      intro u hu
      by_cases hug : u ∈ g.verts
      · rw [hA b u hbg hug] at hu; exact hu
      · obtain ⟨m, hm, -, e⟩ := hA' b u hug hu
        obtain ⟨v, hok⟩ := hs.each m hm
        have := hok.ty1
        rw [← e, hbt'] at this; simp at this
    exact hb b hbg hbt' u w (hnb u hu) (hnb w hw)
  · refine ⟨fun m hm => ?_, ?_⟩
    · obtain ⟨v, hok⟩ := hs.each m hm
      obtain ⟨h1v, h0v⟩ := hmv1 m hm
      have hvadj : ∀ a, (s.g.plain s.el .simple).adj a v ≠ none → a = m.v1 := by
        intro a ha
        obtain ⟨m', hm', e1, e2⟩ := hA' a v hok.fresh ha
        have : m' = m := by
          by_contra hne
          have := List.pairwise_map.mp hs.nodup
          exact pairwise_both this (fun _ _ h => Ne.symm h) m' hm' m hm hne (by rw [e1, hok.b1])
        rw [e2, this]
      have hnb : ∀ a, a = m.v0 ∨ a = m.v1 → ∀ w, w ∈ g.verts → (s.g.plain s.el .simple).adj a w ≠ none →
          g.adj a w ≠ none := by
        rintro a (rfl | rfl) w hw hne
        · rw [hA _ _ h0v hw] at hne; exact hne
        · rw [hA _ _ h1v hw] at hne; exact hne
      refine
        { adj := ?_, ty0 := ?_, ty1 := ?_, ph0 := ?_, ph1 := Or.inl hok.ph1', n0 := ?_, n1 := ?_, b0 := ?_, b1 := ?_
          one := Or.inl hok.b0 }
      · rw [hA _ _ h0v h1v]; exact hz _ _ hok.ty0 hok.ty1 hok.adj
      · rw [hty _ h0v]; exact hok.ty0
      · rw [hty _ h1v]; exact hok.ty1
      · have : (s.g.plain s.el .simple).phase m.v0 = g.phase m.v0 := by
          refine hs.phase _ h0v fun m' hm' e => ?_
          by_cases hmm : m = m'
          · subst hmm
            exact hok.adj (by rw [e]; exact hg.loopless _)
          · have := pairwise_both hs.indep (fun p q h v hv w hw => ⟨((h w hw v hv).1).symm, by rw [hg.symm]; exact (h w hw v hv).2⟩)
              m hm m' hm' hmm
            exact (this m.v0 (Or.inl rfl) m'.v1 (Or.inr rfl)).1 e
        rw [this]; exact hok.ph0
      · intro w hw
        by_cases hwg : w ∈ g.verts
        · have := hnb _ (Or.inl rfl) w hwg hw
          have ht := (hok.n0 w this).1
          exact Or.inr ⟨by rw [hty w hwg]; exact ht, by rw [hA _ _ h0v hwg]; exact hz _ _ hok.ty0 ht this⟩
        · obtain ⟨m', hm', e1, e2⟩ := hA' _ w hwg hw
          exfalso
          by_cases hmm : m = m'
          · subst hmm
            exact hok.adj (by rw [e2]; exact hg.loopless _)
          · have := pairwise_both hs.indep (fun p q h v hv w hw => ⟨((h w hw v hv).1).symm, by rw [hg.symm]; exact (h w hw v hv).2⟩)
              m hm m' hm' hmm
            exact (this m.v0 (Or.inl rfl) m'.v1 (Or.inr rfl)).1 e2
      · intro w hw
        by_cases hwg : w ∈ g.verts
        · have := hnb _ (Or.inr rfl) w hwg hw
          have ht := hok.n1 w this
          exact Or.inr ⟨by rw [hty w hwg]; exact ht, by rw [hA _ _ h1v hwg]; exact hz _ _ hok.ty1 ht this⟩
        · obtain ⟨m', hm', e1, e2⟩ := hA' _ w hwg hw
          by_cases hmm : m = m'
          · subst hmm; exact Or.inl e1
          · exfalso
            have := pairwise_both hs.indep (fun p q h v hv w hw => ⟨((h w hw v hv).1).symm, by rw [hg.symm]; exact (h w hw v hv).2⟩)
              m hm m' hm' hmm
            exact (this m.v1 (Or.inr rfl) m'.v1 (Or.inr rfl)).1 e2
      · intro w hw; rw [hok.b0] at hw; simp at hw
      · intro w hw
        rw [hok.b1] at hw
        have hw := (Option.some.inj hw).symm
        subst hw
        refine ⟨?_, ?_, fun e => hok.fresh (e ▸ h0v), ?_⟩
        · show (if _ then _ else _) ≠ none
          rw [if_pos]
          · simp
          · refine ⟨(w, m.v1), ?_, Or.inr ⟨rfl, rfl⟩⟩
            rw [hs.el]
            exact List.mem_map.mpr ⟨m, hm, by simp [hok.b1]⟩
        · rw [show (s.g.plain s.el .simple).ty w = .Z from hok.ty]; simp
        · by_contra hne
          have := hvadj _ hne
          exact hok.adj (by rw [this]; exact hg.loopless _)
    · refine List.Pairwise.imp_of_mem ?_ hs.indep
      intro m m' hm hm' h v hv w hw
      obtain ⟨h1, h2⟩ := h v hv w hw
      refine ⟨h1, ?_⟩
      rw [hA, h2]
      · rcases hv with rfl | rfl
        · exact (hmv1 m hm).2
        · exact (hmv1 m hm).1
      · rcases hw with rfl | rfl
        · exact (hmv1 m' hm').2
        · exact (hmv1 m' hm').1

end Graph
end PyZX
