import Verif.Proofs.SimpGadget

/-!
# Boundary pivots make the set of candidates smaller
-/

namespace PyZX
namespace Graph

variable {P : ℚ → Prop}

/-- The graph returned by `match_pivot_boundary`. -/
theorem boundary_ext (hP : PhaseSet P) {g : Graph} (hg : g.ZX P) {s : Rules.GState (ℕ → Bool)} {ns : List (Rules.PivotMatch × ℕ × ℕ)}
    (hs : BndInv g s ns) (hb : (s.g.plain s.el .had).BDeg) :
    PivExt g (s.g.plain s.el .had) s.ms ∧ (s.g.plain s.el .had).ZX P ∧
    (∀ n ∈ ns, (∀ z, (s.g.plain s.el .had).adj n.2.1 z ≠ none ↔ z = n.2.2)) ∧
    (∀ a b, (s.g.plain s.el .had).adj a b ≠ none → g.adj a b = none → (s.g.plain s.el .had).adj a b = some .had) := by
  have hent : ∀ p ∈ s.el, ∃ n ∈ ns, p = (n.1.v1, n.2.2) ∨ p = (n.2.1, n.2.2) := by
    intro p hp
    rw [hs.el] at hp
    obtain ⟨n, hn, hp⟩ := List.mem_flatMap.mp hp
    exact ⟨n, hn, by simpa using hp⟩
  have hmv : ∀ n ∈ ns, n.1.v0 ∈ g.verts ∧ n.1.v1 ∈ g.verts ∧ n.1.b0 = none := by
    intro n hn
    obtain ⟨b, hok⟩ := hs.each n hn
    exact ⟨hg.wf.mem _ _ hok.adj, hg.wf.toInv.mem' hok.adj, hok.b0⟩
  have hmv' : ∀ m ∈ s.ms, m.v0 ∈ g.verts ∧ m.v1 ∈ g.verts ∧ m.b0 = none := by
    intro m hm
    rw [hs.ms] at hm
    obtain ⟨n, hn, rfl⟩ := List.mem_map.mp hm
    exact hmv n hn
  have hA : ∀ a ∈ g.verts, ∀ b ∈ g.verts, (s.g.plain s.el .had).adj a b = g.adj a b := by
    intro a ha b hb
    simp only [plain]
    rw [if_neg, hs.adj]
    rintro ⟨p, hp, hsp⟩
    obtain ⟨n, hn, h⟩ := hent p hp
    obtain ⟨b', hok⟩ := hs.each n hn
    have hp2 : p.2 = n.2.2 := by rcases h with rfl | rfl <;> rfl
    rcases hsp with ⟨-, e⟩ | ⟨e, -⟩ <;> simp only at e
    · exact hok.fresh2 (hp2 ▸ e ▸ hb)
    · exact hok.fresh2 (hp2 ▸ e ▸ ha)
  have hold : ∀ a ∈ g.verts, (∀ m ∈ s.ms, a ≠ m.v1) → ∀ x, (s.g.plain s.el .had).adj a x = g.adj a x := by
    intro a ha hne x
    simp only [plain]
    rw [if_neg, hs.adj]
    rintro ⟨p, hp, hsp⟩
    obtain ⟨n, hn, h⟩ := hent p hp
    obtain ⟨b', hok⟩ := hs.each n hn
    have hp2 : p.2 = n.2.2 := by rcases h with rfl | rfl <;> rfl
    rcases hsp with ⟨e, -⟩ | ⟨e, -⟩ <;> simp only at e
    · rcases h with rfl | rfl <;> simp only at e
      · exact hne n.1 (by rw [hs.ms]; exact List.mem_map_of_mem hn) e
      · exact hok.fresh1 (e ▸ ha)
    · exact hok.fresh2 (hp2 ▸ e ▸ ha)
  have hmono : ∀ a b, g.adj a b ≠ none → (s.g.plain s.el .had).adj a b ≠ none := by
    intro a b hab
    rw [hA a (hg.wf.mem _ _ hab) b (hg.wf.toInv.mem' hab)]; exact hab
  have hred : ∀ p, P p → P (mod2 p) := fun p hp => by have := hP.add p 0 hp hP.zero; rwa [add_zero] at this
  have hdis : ∀ n ∈ ns, ∀ n' ∈ ns, n = n' ∨ (n.2.1 ≠ n'.2.1 ∧ n.2.1 ≠ n'.2.2 ∧ n.2.2 ≠ n'.2.1 ∧ n.2.2 ≠ n'.2.2) := by
    intro n hn n' hn'
    have hp := List.pairwise_iff_getElem.mp hs.nodup
    obtain ⟨i, hi, rfl⟩ := List.getElem_of_mem hn
    obtain ⟨j, hj, rfl⟩ := List.getElem_of_mem hn'
    rcases lt_trichotomy i j with hlt | rfl | hlt
    · exact Or.inr (hp i j hi hj hlt)
    · exact Or.inl rfl
    · obtain ⟨a, b, c, d⟩ := hp j i hj hi hlt
      exact Or.inr ⟨a.symm, c.symm, b.symm, d.symm⟩
  refine ⟨⟨hs.pres.wf, hs.sub, hs.ty, fun v h1 h2 => (hs.news v h1 h2).1, hold, hA, hs.phase, hmv'⟩, ⟨hs.pres.wf, hb, ?_, ?_, ?_⟩, ?_, ?_⟩
  · intro b hb' hbt
    have hbt : s.g.ty b = .boundary := hbt
    have hbg : b ∈ g.verts := by
      by_contra hc
      rw [(hs.news b hb' hc).1] at hbt; simp at hbt
    obtain ⟨z, hz⟩ := hg.badj b hbg (by rw [← hs.ty b hbg]; exact hbt)
    exact ⟨z, hmono b z hz⟩
  · intro v hv
    show s.g.ty v = _ ∨ s.g.ty v = _ ∨ s.g.ty v = _
    by_cases hvg : v ∈ g.verts
    · rw [hs.ty v hvg]; exact hg.types v hvg
    · exact Or.inr (Or.inl (hs.news v hv hvg).1)
  · intro v hv
    show P (s.g.phase v)
    by_cases hvg : v ∈ g.verts
    · by_cases hm : ∃ m ∈ s.ms, v = m.v1
      · obtain ⟨m, hm, rfl⟩ := hm
        rw [hs.ms] at hm
        obtain ⟨n, hn, rfl⟩ := List.mem_map.mp hm
        obtain ⟨b, hok⟩ := hs.each n hn
        rw [hok.ph1']; exact hP.zero
      · rw [hs.phase v hvg fun m hm' e => hm ⟨m, hm', e⟩]; exact hg.phases v hvg
    · obtain ⟨-, n, hn, e⟩ := hs.news v hv hvg
      obtain ⟨b, hok⟩ := hs.each n hn
      rcases e with rfl | rfl
      · rw [hok.phase1]; exact hred _ (hg.phases _ (hmv n hn).2.1)
      · rw [hok.phase2]; exact hP.zero
  · intro n hn z
    obtain ⟨b, hok⟩ := hs.each n hn
    constructor
    · intro hz
      simp only [plain] at hz
      by_cases hc : ∃ p ∈ s.el, SamePair (n.2.1, z) p
      · obtain ⟨p, hp, hsp⟩ := hc
        obtain ⟨n', hn', h⟩ := hent p hp
        obtain ⟨b', hok'⟩ := hs.each n' hn'
        have hp2 : p.2 = n'.2.2 := by rcases h with rfl | rfl <;> rfl
        rcases hsp with ⟨e1, e2⟩ | ⟨e1, e2⟩ <;> simp only at e1 e2
        · rw [e2, hp2]
          rcases hdis n hn n' hn' with rfl | hd
          · rfl
          · rcases h with rfl | rfl <;> simp only at e1
            · exact absurd (e1 ▸ (hmv n' hn').2.1) hok.fresh1
            · exact absurd e1 hd.1
        · rw [hp2] at e1
          rcases hdis n hn n' hn' with rfl | hd
          · exact absurd e1 hok.ne
          · exact absurd e1 hd.2.1
      · rw [if_neg hc, hs.adj] at hz
        exact absurd (hg.wf.mem _ _ hz) hok.fresh1
    · rintro rfl
      simp only [plain]
      rw [if_pos]
      · simp
      · refine ⟨(n.2.1, n.2.2), ?_, Or.inl ⟨rfl, rfl⟩⟩
        rw [hs.el]
        exact List.mem_flatMap.mpr ⟨n, hn, by simp⟩
  · intro a b hab hn
    simp only [plain] at hab ⊢
    by_cases hc : ∃ p ∈ s.el, SamePair (a, b) p
    · rw [if_pos hc]
    · rw [if_neg hc, hs.adj, hn] at hab
      simp at hab

/-- Boundary pivots make the set of candidates smaller. -/
theorem boundary_measure (hP : PhaseSet P) {g : Graph} (hg : g.ZX P) {s : Rules.GState (ℕ → Bool)} {ns : List (Rules.PivotMatch × ℕ × ℕ)}
    (hs : BndInv g s ns) (hb : (s.g.plain s.el .had).BDeg) {lst : Finset ℕ → List ℕ} (hlst : Rules.SetOrder lst)
    (hok : PivotOK (s.g.plain s.el .had) s.ms) {g' : Graph} (hf : (Rules.pivot lst (s.g.plain s.el .had) s.ms).finish = some g')
    (hz' : g'.ZX P) (hty : g'.ty = s.g.ty) (hv' : g'.verts = s.g.verts \ (s.ms.flatMap pivotRem).toFinset) {v : ℕ} (hc : g'.Cand v)
    (hnt : ¬ g'.Tip v) : g.Cand v ∧ ¬ g.Tip v ∧ ∀ m ∈ s.ms, v ≠ m.v0 := by
  obtain ⟨hext, hzx, hp1, -⟩ := boundary_ext hP hg hs hb
  have hsh : Shift (s.g.plain s.el .had) g' := (pivot_shift lst fun m hm => by
    have hk := hok.each m hm
    exact ⟨(isPauli_iff (hP.reduced _ (hzx.phases _ (hext.sub (hext.mem m hm).1)))).mp hk.ph0,
      (isPauli_iff (hP.reduced _ (hzx.phases _ (hext.sub (hext.mem m hm).2.1)))).mp hk.ph1⟩).trans (finish_shift hf)
  have heach : ∀ m ∈ s.ms, ∃ p b, (m, p) ∈ ns ∧ BndOK1 g s.g m p b := by
    intro m hm
    rw [hs.ms] at hm
    obtain ⟨n, hn, rfl⟩ := List.mem_map.mp hm
    obtain ⟨b, hb⟩ := hs.each n hn
    exact ⟨n.2, b, hn, hb⟩
  have hvs : v ∈ s.g.verts ∧ v ∉ s.ms.flatMap pivotRem := by
    have := hc.1
    rw [hv', Finset.mem_sdiff] at this
    exact ⟨this.1, by simpa using this.2⟩
  have hv1 : ∀ m ∈ s.ms, v ≠ m.v1 := fun m hm e => hvs.2 (List.mem_flatMap.mpr ⟨m, hm, by simp [pivotRem, (hext.mem m hm).2.2, e]⟩)
  -- the boundary of a match
  have hbnd : ∀ m ∈ s.ms, ∃ b, m.b1 = some b ∧ g.ty b = .boundary ∧ b ∈ g.verts ∧ g.adj m.v1 b ≠ none ∧
      (∀ n, g.adj m.v1 n ≠ none → n = b ∨ g.ty n = .Z) ∧ g'.adj m.v0 b ≠ none ∧ (∀ x, g'.adj b x ≠ none → x = m.v0) ∧
      ∀ x, g.adj b x ≠ none → x = m.v1 := by
    intro m hm
    obtain ⟨p, b, hn, hk⟩ := heach m hm
    have hbv := hg.wf.toInv.mem' hk.badj
    have hbu : ∀ x, g.adj b x ≠ none → x = m.v1 := fun x hx => hg.bdeg b hbv hk.bty x m.v1 hx (by rw [hg.wf.symm]; exact hk.badj)
    have hne : ∀ m' ∈ s.ms, b ≠ m'.v1 := by
      rintro m' hm' rfl
      obtain ⟨p', b', -, hk'⟩ := heach m' hm'
      have := hk.bty
      rw [hk'.ty1] at this; simp at this
    obtain ⟨t1, t2⟩ := pivot_transfer hext.wf hlst hok hf hz'.wf hm hk.b0 hk.b1 fun z hz => hbu z (by rw [← hext.old b hbv hne]; exact hz)
    exact ⟨b, hk.b1, hk.bty, hbv, hk.badj, hk.n1, t1, t2, hbu⟩
  -- other boundaries are untouched
  have hother : ∀ c ∈ g.verts, g.ty c = .boundary → (∃ m ∈ s.ms, ∀ x, g'.adj c x ≠ none → x = m.v0) ∨ ∀ x, g'.adj c x = g.adj c x := by
    intro c hcv hct
    by_cases hcb : ∃ m ∈ s.ms, m.b1 = some c
    · obtain ⟨m, hm, e⟩ := hcb
      obtain ⟨b, e', -, -, -, -, -, h, -⟩ := hbnd m hm
      rw [e, Option.some.injEq] at e'
      subst e'
      exact Or.inl ⟨m, hm, h⟩
    · right
      refine hext.untouched hg.wf hlst hok hf hz'.wf hcv fun m hm => ?_
      obtain ⟨p, b, -, hk⟩ := heach m hm
      refine ⟨fun e => ?_, fun e => ?_, ?_, ?_⟩
      · rw [e, hk.ty0] at hct; simp at hct
      · rw [e, hk.ty1] at hct; simp at hct
      · by_contra hne
        have := (hk.n0 c (by rw [hg.wf.symm]; exact hne)).1
        rw [this] at hct; simp at hct
      · by_contra hne
        rcases hk.n1 c (by rw [hg.wf.symm]; exact hne) with e | e
        · exact hcb ⟨m, hm, by rw [e]; exact hk.b1⟩
        · rw [e] at hct; simp at hct
  have hv0 : ∀ m ∈ s.ms, v ≠ m.v0 := by
    rintro m hm rfl
    obtain ⟨b, -, hbt, hbv, -, -, h1, -, -⟩ := hbnd m hm
    have := (hc.2.2.2 b h1).1
    rw [hty, hs.ty b hbv, hbt] at this
    simp at this
  -- the new vertices
  have hgad : ∀ n ∈ ns, ∀ z, g'.adj n.2.1 z ≠ none ↔ z = n.2.2 := by
    intro n hn z
    have hun : Untouched (s.g.plain s.el .had) s.ms n.2.1 := by
      intro m hm
      obtain ⟨b, hk⟩ := hs.each n hn
      obtain ⟨m1, m2, -⟩ := hext.mem m hm
      refine ⟨fun e => hk.fresh1 (e ▸ m1), fun e => hk.fresh1 (e ▸ m2), ?_, ?_⟩
      · rw [hext.wf.symm]
        by_contra hcc
        exact hk.fresh2 (((hp1 n hn _).mp hcc) ▸ m1)
      · rw [hext.wf.symm]
        by_contra hcc
        exact hk.fresh2 (((hp1 n hn _).mp hcc) ▸ m2)
    rw [pivot_untouched hext.wf hlst hok hf hz'.wf hun]
    exact hp1 n hn z
  have hvg : v ∈ g.verts := by
    by_contra hn
    obtain ⟨-, n, hn', e⟩ := hs.news v hvs.1 hn
    obtain ⟨b, hk⟩ := hs.each n hn'
    rcases e with rfl | rfl
    · refine hnt ⟨n.2.2, hgad n hn', fun c hcc hct => ?_⟩
      have hcc' : g'.adj c n.2.2 ≠ none := by rw [hz'.wf.symm]; exact hcc
      rw [hty] at hct
      have hcv : c ∈ s.g.verts := by
        have := hz'.wf.mem _ _ hcc'
        rw [hv', Finset.mem_sdiff] at this
        exact this.1
      have hcg : c ∈ g.verts := by
        by_contra hcn
        have := (hs.news c hcv hcn).1
        rw [hct] at this; simp at this
      rcases hother c hcg (by rw [← hs.ty c hcg]; exact hct) with ⟨m, hm, hx⟩ | hx
      · have := hx _ hcc'
        exact hk.fresh2 (this ▸ (hext.mem m hm).1)
      · rw [hx] at hcc'
        exact hk.fresh2 (hg.wf.toInv.mem' hcc')
    · have hadj : g'.adj n.2.2 n.2.1 ≠ none := by rw [hz'.wf.symm]; exact (hgad n hn' _).mpr rfl
      exact (hc.2.2.2 n.2.1 hadj).2 ((degree_one hz'.wf).mpr ⟨n.2.2, hgad n hn'⟩)
  refine ⟨hext.cand hg.wf hlst hok hf hz'.wf hty hsh (fun v hv => hP.reduced _ (hg.phases v hv)) (fun v hv => hP.reduced _ (hz'.phases v hv))
    ?_ ?_ ?_ hvg (fun m hm => ⟨hv0 m hm, hv1 m hm⟩) hc, ?_, hv0⟩
  · intro m hm n hn hadj x hx
    obtain ⟨b, -, -, -, -, h1, -, -, h2⟩ := hbnd m hm
    rcases h1 n (by rw [hg.wf.symm]; exact hadj) with rfl | e
    · exact h2 x hx
    · exact absurd e hn
  · intro m hm n hadj
    obtain ⟨p, b, -, hk⟩ := heach m hm
    exact (hk.n0 n hadj).1
  · intro m hm
    obtain ⟨p, b, -, hk⟩ := heach m hm
    refine ⟨b, fun e => ?_, hk.badj⟩
    have := hk.bty
    rw [e, hk.ty0] at this; simp at this
  · rintro ⟨x, x1, x2⟩
    apply hnt
    have hxv := (x1 x).mpr rfl
    have hxg : x ∈ g.verts := hg.wf.toInv.mem' hxv
    have hx0 : ∀ m ∈ s.ms, x ≠ m.v0 := by
      rintro m hm rfl
      obtain ⟨p, b, -, hk⟩ := heach m hm
      exact (hk.n0 v (by rw [hg.wf.symm]; exact hxv)).2 ((degree_one hg.wf).mpr ⟨m.v0, x1⟩)
    have hx1 : ∀ m ∈ s.ms, x ≠ m.v1 := by
      rintro m hm rfl
      obtain ⟨p, b, -, hk⟩ := heach m hm
      exact x2 b hk.badj hk.bty
    have hadjv := hext.untouched hg.wf hlst hok hf hz'.wf hvg fun m hm => by
      refine ⟨hv0 m hm, hv1 m hm, ?_, ?_⟩
      · by_contra hne
        exact hx0 m hm ((x1 _).mp hne).symm
      · by_contra hne
        exact hx1 m hm ((x1 _).mp hne).symm
    refine ⟨x, fun n => by rw [hadjv]; exact x1 n, fun c hcc hct => ?_⟩
    have hcc' : g'.adj c x ≠ none := by rw [hz'.wf.symm]; exact hcc
    rw [hty] at hct
    have hcv : c ∈ s.g.verts := by
      have := hz'.wf.mem _ _ hcc'
      rw [hv', Finset.mem_sdiff] at this
      exact this.1
    have hcg : c ∈ g.verts := by
      by_contra hcn
      have := (hs.news c hcv hcn).1
      rw [hct] at this; simp at this
    rcases hother c hcg (by rw [← hs.ty c hcg]; exact hct) with ⟨m, hm, hx⟩ | hx
    · exact hx0 m hm (hx _ hcc')
    · rw [hx] at hcc'
      exact x2 c (by rw [hg.wf.symm]; exact hcc') (by rw [← hs.ty c hcg]; exact hct)

theorem boundary_v0 {g : Graph} (hg : g.WF) {s : Rules.GState (ℕ → Bool)} {ns : List (Rules.PivotMatch × ℕ × ℕ)}
    (hs : BndInv g s ns) {m : Rules.PivotMatch} (hm : m ∈ s.ms) : g.Cand m.v0 ∧ ¬ g.Tip m.v0 := by
  rw [hs.ms] at hm
  obtain ⟨n, hn, rfl⟩ := List.mem_map.mp hm
  obtain ⟨b, hok⟩ := hs.each n hn
  refine ⟨⟨hg.mem _ _ hok.adj, hok.ty0, hok.ph0, hok.n0⟩, ?_⟩
  rintro ⟨x, x1, x2⟩
  have := (x1 _).mp hok.adj
  subst this
  exact x2 b hok.badj hok.bty

theorem boundary_zHad (hP : PhaseSet P) {g : Graph} (hg : g.ZX P) (hz : g.ZHad) {s : Rules.GState (ℕ → Bool)}
    {ns : List (Rules.PivotMatch × ℕ × ℕ)} (hs : BndInv g s ns) (hb : (s.g.plain s.el .had).BDeg) : (s.g.plain s.el .had).ZHad := by
  obtain ⟨hext, hzx, -, hnew⟩ := boundary_ext hP hg hs hb
  intro u v tu tv hne
  by_cases h : g.adj u v = none
  · exact hnew u v hne h
  · have hu := hg.wf.mem _ _ h
    have hv := hg.wf.toInv.mem' h
    rw [hext.oldadj u hu v hv]
    exact hz u v (by rw [← hext.ty u hu]; exact tu) (by rw [← hext.ty v hv]; exact tv) h

end Graph
end PyZX
