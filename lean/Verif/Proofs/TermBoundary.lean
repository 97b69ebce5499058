import Verif.Proofs.TermPivot

/-! # The potential and boundary pivots -/

namespace PyZX
namespace Graph

set_option linter.unusedSectionVars false

variable {P : ℚ → Prop} [Heavy]

/-- What boundary pivots do to the potential. -/
def BRel (g g' : Graph) : Prop := g'.pot < g.pot ∨ (g'.pot = g.pot ∧ (g.JJ → g'.JJ) ∧ (g.JJ → g.WW → g'.WW))

theorem BRel.refl (g : Graph) : BRel g g := Or.inr ⟨rfl, id, fun _ => id⟩

theorem BRel.le {g g' : Graph} (h : BRel g g') : g'.pot ≤ g.pot := by
  rcases h with h | h
  · exact h.le
  · exact h.1.le

theorem BRel.trans {a b c : Graph} (h : BRel a b) (h' : BRel b c) : BRel a c := by
  have h1 := h'.le
  rcases h with h | ⟨h2, h3, h4⟩
  · exact Or.inl (by omega)
  · rcases h' with h' | ⟨k2, k3, k4⟩
    · exact Or.inl (by omega)
    · exact Or.inr ⟨by omega, fun j => k3 (h3 j), fun j w => k4 (h3 j) (h4 j w)⟩

theorem Rel.brel {g g' : Graph} (h : Rel g g') : BRel g g' := by
  rcases h with h | ⟨h1, h2, h3, -⟩
  · exact Or.inl h
  · exact Or.inr ⟨h1, h2, h3⟩

/-- The vertices that are not vertices of pivots do not become heavier by the matchers that extend the diagram. -/
theorem PivExt.quiet {g G : Graph} {ms : List Rules.PivotMatch} (h : PivExt g G ms) (hg : g.WF) (hadj : ∀ m ∈ ms, g.adj m.v1 m.v0 ≠ none)
    {v : ℕ} (hv : v ∈ g.verts) (hn : ¬ Pvt ms v) : (G.Bd v ↔ g.Bd v) ∧ (G.Cl v ↔ g.Cl v) ∧ (G.Pl v ↔ g.Pl v) ∧ G.wt v ≤ g.wt v := by
  have hv1 : ∀ m ∈ ms, v ≠ m.v1 := fun m hm e => hn ⟨m, hm, Or.inr e⟩
  have hb : G.Bd v ↔ g.Bd v := by
    constructor
    · rintro ⟨b, hb, hbt⟩
      rw [h.old v hv hv1] at hb
      exact ⟨b, hb, by rw [← h.ty b (hg.toInv.mem' hb)]; exact hbt⟩
    · rintro ⟨b, hb, hbt⟩
      exact ⟨b, by rw [h.old v hv hv1]; exact hb, by rw [h.ty b (hg.toInv.mem' hb)]; exact hbt⟩
  have hc : G.Cl v ↔ g.Cl v := by unfold Cl; rw [h.phase v hv hv1]
  refine ⟨hb, hc, by unfold Pl; rw [h.phase v hv hv1], wt_le (h.ty v hv) hc.mpr hb.mpr hb.mp fun x hx => ?_⟩
  have hxv := (hx.mem hg).1
  have hx1 : ∀ m ∈ ms, x ≠ m.v1 := by
    rintro m hm rfl
    exact hn ⟨m, hm, Or.inl ((hx.2 _).mp (hadj m hm)).symm⟩
  refine ⟨⟨by rw [h.ty x hxv]; exact hx.1, fun w => by rw [h.old x hxv hx1]; exact hx.2 w⟩, fun hcl => ?_⟩
  unfold Cl at hcl ⊢
  rwa [h.phase x hxv hx1]

theorem cl_mod2 {g g' : Graph} {u v : ℕ} (h : g'.phase u = mod2 (g.phase v)) : (g'.Cl u ↔ g.Cl v) ∧ (g'.Pl u ↔ g.Pl v) := by
  obtain ⟨l, hl⟩ := mod2_int (g.phase v)
  rw [hl] at h
  refine ⟨⟨?_, ?_⟩, ⟨?_, ?_⟩⟩
  · rintro ⟨k, hk⟩
    exact ⟨k - 2 * l, by push_cast; rw [← hk, h]; ring⟩
  · rintro ⟨k, hk⟩
    exact ⟨k + 2 * l, by push_cast; rw [← hk, h]; ring⟩
  · rintro ⟨k, hk⟩
    exact ⟨k - l, by push_cast; rw [← hk, h]; ring⟩
  · rintro ⟨k, hk⟩
    exact ⟨k + l, by push_cast; rw [← hk, h]⟩

open Classical in
/-- Boundary pivots do not increase the potential. -/
theorem boundary_rel (hP : PhaseSet P) {g : Graph} (hg : g.ZX P) {s : Rules.GState (ℕ → Bool)} {ns : List (Rules.PivotMatch × ℕ × ℕ)}
    (hs : BndInv g s ns) (hb : (s.g.plain s.el .had).BDeg) {lst : Finset ℕ → List ℕ} (hlst : Rules.SetOrder lst)
    (hok : PivotOK (s.g.plain s.el .had) s.ms) {g' g'' : Graph} (hf : (Rules.pivot lst (s.g.plain s.el .had) s.ms).finish = some g')
    (hz' : g'.ZX P) (hty : g'.ty = s.g.ty) (hv' : g'.verts = s.g.verts \ (s.ms.flatMap pivotRem).toFinset) (hc : Cut g' g'') :
    BRel g g'' ∧ (ns ≠ [] → (∀ n ∈ ns, ¬ g.Pl n.1.v1) → g.JJ → g''.pot < g.pot ∨ (g''.JJ ∧ g''.WW)) := by
  obtain ⟨hext, hzx, hp1, -⟩ := boundary_ext hP hg hs hb
  set G := s.g.plain s.el .had with hG
  have hwf := hg.wf
  have hwfG := hext.wf
  have hwf' := hz'.wf
  have hsh := pivot_shift' lst hok hf
  have hms : ∀ n ∈ ns, n.1 ∈ s.ms := fun n hn => by rw [hs.ms]; exact List.mem_map_of_mem hn
  have hms' : ∀ m ∈ s.ms, ∃ n ∈ ns, n.1 = m := fun m hm => by rw [hs.ms] at hm; exact List.mem_map.mp hm
  have hq := fun v hv => pivot_quiet hwfG hb hlst hok hf hwf' hty (v := v) hv
  have hadj10 : ∀ m ∈ s.ms, g.adj m.v1 m.v0 ≠ none := by
    intro m hm
    obtain ⟨n, hn, rfl⟩ := hms' m hm
    obtain ⟨b, hk⟩ := hs.each n hn
    rw [hwf.symm]; exact hk.adj
  have hqg := fun v hv hn => hext.quiet hwf hadj10 (v := v) hv hn
  have mem0 : ∀ n ∈ ns, n.1.v0 ∈ g.verts ∧ n.1.v1 ∈ g.verts ∧ n.1.v0 ≠ n.1.v1 := by
    intro n hn
    refine ⟨(hext.mem _ (hms n hn)).1, (hext.mem _ (hms n hn)).2.1, fun e => ?_⟩
    have := hadj10 _ (hms n hn)
    rw [e, hwf.loopless] at this
    exact this rfl
  have pvt_old : ∀ v, Pvt s.ms v → v ∈ g.verts := by
    rintro v ⟨m, hm, e⟩
    rcases e with rfl | rfl
    · exact (hext.mem m hm).1
    · exact (hext.mem m hm).2.1
  have sep0 : ∀ n ∈ ns, ∀ n' ∈ ns, n.1.v0 = n'.1.v0 → n.1 = n'.1 := by
    intro n hn n' hn' e
    rcases hok.sep hwfG (hms n hn) (hms n' hn') with e' | e'
    · exact e'
    · exact absurd e (e' _ (Or.inl rfl) _ (Or.inl rfl)).1
  have sep1 : ∀ n ∈ ns, ∀ n' ∈ ns, n.1.v1 = n'.1.v1 → n.1 = n'.1 := by
    intro n hn n' hn' e
    rcases hok.sep hwfG (hms n hn) (hms n' hn') with e' | e'
    · exact e'
    · exact absurd e (e' _ (Or.inr rfl) _ (Or.inr rfl)).1
  have sep01 : ∀ n ∈ ns, ∀ n' ∈ ns, n.1.v0 ≠ n'.1.v1 := by
    intro n hn n' hn' e
    rcases hok.sep hwfG (hms n hn) (hms n' hn') with e' | e'
    · rw [← e'] at e; exact (mem0 n hn).2.2 e
    · exact absurd e (e' _ (Or.inl rfl) _ (Or.inr rfl)).1
  have sepn : ∀ n ∈ ns, ∀ n' ∈ ns, n.1 = n'.1 → n = n' := by
    have h1 : s.ms.Nodup := by
      refine List.Pairwise.imp_of_mem ?_ hok.indep
      intro a b ha hb' hab e
      exact (hab a.v0 (Or.inl rfl) b.v0 (Or.inl rfl)).1 (by rw [e])
    rw [hs.ms] at h1
    exact fun n hn n' hn' e => List.inj_on_of_nodup_map h1 hn hn' e
  have hdis : ∀ n ∈ ns, ∀ n' ∈ ns, n = n' ∨ (n.2.1 ≠ n'.2.1 ∧ n.2.1 ≠ n'.2.2 ∧ n.2.2 ≠ n'.2.1 ∧ n.2.2 ≠ n'.2.2) := by
    intro n hn n' hn'
    have hp := List.pairwise_iff_getElem.mp hs.nodup
    obtain ⟨i, hi, rfl⟩ := List.getElem_of_mem hn
    obtain ⟨j, hj, rfl⟩ := List.getElem_of_mem hn'
    rcases lt_trichotomy i j with hlt | rfl | hlt
    · exact Or.inr (hp i j hi hj hlt)
    · exact Or.inl rfl
    · obtain ⟨a, b, c, d⟩ := hp j i hj hi hlt
      exact Or.inr ⟨a.symm, c.symm, b.symm, d.symm⟩
  have hv1gone : ∀ n ∈ ns, n.1.v1 ∉ g'.verts := by
    intro n hn hh
    rw [hv', Finset.mem_sdiff] at hh
    exact hh.2 (List.mem_toFinset.mpr (List.mem_flatMap.mpr ⟨n.1, hms n hn, by simp [pivotRem, (hext.mem _ (hms n hn)).2.2]⟩))
  have hVs : ∀ v ∈ g'.verts, v ∈ s.g.verts := fun v hv => by
    rw [hv', Finset.mem_sdiff] at hv; exact hv.1
  -- classes of the vertices after the pass
  have new1 : ∀ n ∈ ns, ∀ w, Pvt s.ms w → n.2.1 ≠ w ∧ n.2.2 ≠ w := by
    intro n hn w hw
    obtain ⟨b, hk⟩ := hs.each n hn
    exact ⟨fun e => hk.fresh1 (e ▸ pvt_old w hw), fun e => hk.fresh2 (e ▸ pvt_old w hw)⟩
  have np1 : ∀ n ∈ ns, ¬ Pvt s.ms n.2.1 := fun n hn h => (new1 n hn _ h).1 rfl
  have np2 : ∀ n ∈ ns, ¬ Pvt s.ms n.2.2 := fun n hn h => (new1 n hn _ h).2 rfl
  have leafG : ∀ n ∈ ns, G.Lf n.2.1 n.2.2 := by
    intro n hn
    obtain ⟨b, hk⟩ := hs.each n hn
    exact ⟨hk.ty1', hp1 n hn⟩
  have leafCl : ∀ n ∈ ns, (g'.Cl n.2.1 ↔ g.Cl n.1.v1) ∧ (g'.Pl n.2.1 ↔ g.Pl n.1.v1) := by
    intro n hn
    obtain ⟨b, hk⟩ := hs.each n hn
    have h1 := cl_mod2 (g := g) (g' := G) (show G.phase n.2.1 = _ from hk.phase1)
    exact ⟨hsh.cl.trans h1.1, hsh.pl.trans h1.2⟩
  have axPl : ∀ n ∈ ns, g'.Pl n.2.2 := by
    intro n hn
    obtain ⟨b, hk⟩ := hs.each n hn
    exact hsh.pl.mpr ⟨0, by rw [show G.phase n.2.2 = _ from hk.phase2]; simp⟩
  have v0Pl : ∀ n ∈ ns, g'.Pl n.1.v0 := fun n hn => hsh.pl.mpr (pivotOK1_pl (hok.each _ (hms n hn)) (Or.inl rfl)).2
  -- edges of the axel in the extended diagram
  have axG : ∀ n ∈ ns, ¬ G.Bd n.2.2 := by
    rintro n hn ⟨c, hcadj, hct⟩
    obtain ⟨b, hk⟩ := hs.each n hn
    have hct : s.g.ty c = .boundary := hct
    have hcg : c ∈ g.verts := by
      by_contra hcn
      have := (hs.news c (hwfG.toInv.mem' hcadj) hcn).1
      rw [hct] at this; cases this
    have hc1 : ∀ m ∈ s.ms, c ≠ m.v1 := by
      rintro m hm rfl
      have := (hok.each m hm).ty1
      rw [show G.ty m.v1 = _ from hct] at this; cases this
    rw [hwfG.symm, hext.old c hcg hc1] at hcadj
    exact hk.fresh2 (hwf.toInv.mem' hcadj)
  have leafNB : ∀ n ∈ ns, ¬ g'.Bd n.2.1 := by
    intro n hn hh
    rw [(hq _ (np1 n hn)).1] at hh
    obtain ⟨c, hcadj, hct⟩ := hh
    obtain ⟨b, hk⟩ := hs.each n hn
    rw [(hp1 n hn c).mp hcadj, show G.ty n.2.2 = _ from hk.ty2'] at hct
    cases hct
  have axNB : ∀ n ∈ ns, ¬ g'.Bd n.2.2 := fun n hn hh => axG n hn ((hq _ (np2 n hn)).1.mp hh)
  have axLeaf : ∀ n ∈ ns, g'.Lf n.2.1 n.2.2 := fun n hn => (hq _ (np2 n hn)).2.1 _ (leafG n hn)
  have w_ax : ∀ n ∈ ns, g'.wt n.2.2 ≤ 1 ∧ (g.Cl n.1.v1 → g'.wt n.2.2 = 0) := by
    intro n hn
    obtain ⟨b, hk⟩ := hs.each n hn
    refine ⟨wt_le_1 (axPl n hn).cl (axNB n hn) ⟨_, axLeaf n hn⟩, fun hcl => wt_ctr ⟨by rw [hty]; exact hk.ty2', (axPl n hn).cl, axNB n hn, _,
      axLeaf n hn, (leafCl n hn).1.mpr hcl⟩⟩
  have w_leaf : ∀ n ∈ ns, g'.wt n.2.1 ≤ Heavy.N ∧ (g.Cl n.1.v1 → g'.wt n.2.1 ≤ 4) := fun n hn =>
    ⟨wt_le_N _ _, fun hcl => wt_le_4 ((leafCl n hn).1.mpr hcl)⟩
  have w_v0 : ∀ n ∈ ns, g'.wt n.1.v0 ≤ 2 := by
    intro n hn
    obtain ⟨b, hk⟩ := hs.each n hn
    refine wt_le_2 (v0Pl n hn).cl ⟨b, ?_, by rw [hty, hs.ty b (hwf.toInv.mem' hk.badj)]; exact hk.bty⟩
    have hbv := hwf.toInv.mem' hk.badj
    have hbn : ∀ m' ∈ s.ms, b ≠ m'.v1 := by
      rintro m' hm' rfl
      obtain ⟨n', hn', rfl⟩ := hms' m' hm'
      obtain ⟨b', hk'⟩ := hs.each n' hn'
      have := hk.bty
      rw [hk'.ty1] at this; cases this
    exact (pivot_transfer hwfG hlst hok hf hwf' (hms n hn) hk.b0 hk.b1 fun z hz =>
      hg.bdeg b hbv hk.bty z _ (by rw [← hext.old b hbv hbn]; exact hz) (by rw [hwf.symm]; exact hk.badj)).1
  have W_v0 : ∀ n ∈ ns, g.wt n.1.v0 = 4 := by
    intro n hn
    obtain ⟨b, hk⟩ := hs.each n hn
    have hpl : g.Pl n.1.v0 := by
      rcases hk.ph0 with e | e
      · exact ⟨0, by rw [e]; simp⟩
      · exact ⟨1, by rw [e]; simp⟩
    refine wt_lone hk.ty0 hpl.cl ?_ ?_
    · rintro ⟨c, hca, hct⟩
      have := (hk.n0 c hca).1
      rw [hct] at this; cases this
    · rintro ⟨x, hx⟩
      have hxa : g.adj n.1.v0 x ≠ none := by rw [hwf.symm]; exact (hx.2 _).mpr rfl
      exact (hk.n0 x hxa).2 ((degree_one hwf).mpr ⟨_, hx.2⟩)
  have W_v1 : ∀ n ∈ ns, (g.Cl n.1.v1 ∧ g.wt n.1.v1 = 2) ∨ (¬ g.Cl n.1.v1 ∧ g.wt n.1.v1 = Heavy.N) := by
    intro n hn
    obtain ⟨b, hk⟩ := hs.each n hn
    by_cases hcl : g.Cl n.1.v1
    · exact Or.inl ⟨hcl, wt_bd hk.ty1 hcl ⟨b, hk.badj, hk.bty⟩⟩
    · exact Or.inr ⟨hcl, wt_notCl hk.ty1 hcl⟩
  -- the two maps
  set φ : ℕ → ℕ := fun x => if hx : ∃ n ∈ ns, n.1.v1 = x then hx.choose.1.v0 else x with hφ
  set ψ : ℕ → ℕ := fun x => if hx : ∃ n ∈ ns, n.2.1 = x ∨ n.2.2 = x then hx.choose.1.v0 else x with hψ
  have φ1 : ∀ n ∈ ns, φ n.1.v1 = n.1.v0 := by
    intro n hn
    have hx : ∃ n' ∈ ns, n'.1.v1 = n.1.v1 := ⟨n, hn, rfl⟩
    simp only [hφ]
    rw [dif_pos hx, sep1 _ hx.choose_spec.1 n hn hx.choose_spec.2]
  have φid : ∀ v, (∀ n ∈ ns, n.1.v1 ≠ v) → φ v = v := by
    intro v hv
    simp only [hφ]
    rw [dif_neg]
    rintro ⟨n, hn, e⟩
    exact hv n hn e
  have φ0 : ∀ n ∈ ns, φ n.1.v0 = n.1.v0 := fun n hn => φid _ fun n' hn' e => sep01 n hn n' hn' e.symm
  have ψnew : ∀ n ∈ ns, ∀ x, n.2.1 = x ∨ n.2.2 = x → ψ x = n.1.v0 := by
    intro n hn x hx0
    have hx : ∃ n ∈ ns, n.2.1 = x ∨ n.2.2 = x := ⟨n, hn, hx0⟩
    have : hx.choose = n := by
      rcases hdis _ hx.choose_spec.1 n hn with e | ⟨e1, e2, e3, e4⟩
      · exact e
      · exfalso
        rcases hx.choose_spec.2 with a | a <;> rcases hx0 with b | b
        · exact e1 (a.trans b.symm)
        · exact e2 (a.trans b.symm)
        · exact e3 (a.trans b.symm)
        · exact e4 (a.trans b.symm)
    simp only [hψ]
    rw [dif_pos hx, this]
  have ψold : ∀ v ∈ g.verts, ψ v = v := by
    intro v hv
    simp only [hψ]
    rw [dif_neg]
    rintro ⟨n, hn, e⟩
    obtain ⟨b, hk⟩ := hs.each n hn
    rcases e with rfl | rfl
    · exact hk.fresh1 hv
    · exact hk.fresh2 hv
  have cls : ∀ v ∈ g''.verts, v ∈ g.verts ∨ ∃ n ∈ ns, n.2.1 = v ∨ n.2.2 = v := by
    intro v hv
    by_cases hvg : v ∈ g.verts
    · exact Or.inl hvg
    · obtain ⟨-, n, hn, e⟩ := hs.news v (hVs v (hc.sub hv)) hvg
      exact Or.inr ⟨n, hn, e.imp Eq.symm Eq.symm⟩
  -- fibre of the first vertex of a pivot
  have fibm : ∀ n ∈ ns, g''.verts.filter (fun v => ψ v = n.1.v0) ⊆ {n.1.v0, n.2.1, n.2.2} := by
    intro n hn v hv
    obtain ⟨hv1, hv2⟩ := Finset.mem_filter.mp hv
    simp only [Finset.mem_insert, Finset.mem_singleton]
    rcases cls v hv1 with hvg | ⟨n', hn', e⟩
    · rw [ψold v hvg] at hv2; exact Or.inl hv2
    · rw [ψnew n' hn' v e] at hv2
      have := sepn n' hn' n hn (sep0 n' hn' n hn hv2)
      subst this
      exact Or.inr (e.imp Eq.symm Eq.symm)
  have sum'' : ∀ i, ∑ v ∈ g''.verts.filter (fun v => ψ v = i), g''.wt v = ∑ v ∈ g''.verts.filter (fun v => ψ v = i), g'.wt v := fun i =>
    Finset.sum_congr rfl fun v hv => hc.wt (Finset.mem_filter.mp hv).1
  have ne3 : ∀ n ∈ ns, n.1.v0 ∉ ({n.2.1, n.2.2} : Finset ℕ) ∧ n.2.1 ∉ ({n.2.2} : Finset ℕ) := by
    intro n hn
    obtain ⟨b, hk⟩ := hs.each n hn
    have := new1 n hn n.1.v0 ⟨n.1, hms n hn, Or.inl rfl⟩
    refine ⟨by simpa using ⟨this.1.symm, this.2.symm⟩, by simpa using hk.ne⟩
  have sum3 : ∀ n ∈ ns, ∑ v ∈ ({n.1.v0, n.2.1, n.2.2} : Finset ℕ), g'.wt v = g'.wt n.1.v0 + (g'.wt n.2.1 + g'.wt n.2.2) := by
    intro n hn
    rw [Finset.sum_insert (ne3 n hn).1, Finset.sum_insert (ne3 n hn).2, Finset.sum_singleton]
  have lowm : ∀ n ∈ ns, 4 + g.wt n.1.v1 ≤ g.fib φ n.1.v0 := by
    intro n hn
    rw [← W_v0 n hn]
    exact le_fib2 (mem0 n hn).1 (φ0 n hn) (mem0 n hn).2.1 (φ1 n hn) (mem0 n hn).2.2
  -- fibres of other vertices
  have fibo : ∀ i, (∀ n ∈ ns, i ≠ n.1.v0) → g''.verts.filter (fun v => ψ v = i) = if i ∈ g''.verts ∧ i ∈ g.verts then {i} else ∅ := by
    intro i hi
    have h1 : ∀ v ∈ g''.verts, ψ v = i → v ∈ g.verts ∧ v = i := by
      intro v hv e
      rcases cls v hv with hvg | ⟨n, hn, e'⟩
      · rw [ψold v hvg] at e; exact ⟨hvg, e⟩
      · rw [ψnew n hn v e'] at e; exact absurd e.symm (hi n hn)
    split
    · next hh =>
      ext v
      simp only [Finset.mem_filter, Finset.mem_singleton]
      constructor
      · rintro ⟨a, b⟩; exact (h1 v a b).2
      · rintro rfl; exact ⟨hh.1, ψold v hh.2⟩
    · next hh =>
      refine Finset.filter_eq_empty_iff.mpr fun v hv e => ?_
      obtain ⟨a, rfl⟩ := h1 v hv e
      exact hh ⟨hv, a⟩
  have oldnp : ∀ v ∈ g''.verts, (∀ n ∈ ns, v ≠ n.1.v0) → ¬ Pvt s.ms v := by
    rintro v hv hne ⟨m, hm, e⟩
    obtain ⟨n, hn, rfl⟩ := hms' m hm
    rcases e with e | e
    · exact hne n hn e
    · exact hv1gone n hn (e ▸ hc.sub hv)
  have quiet : ∀ v ∈ g.verts, ¬ Pvt s.ms v → g'.wt v ≤ g.wt v := fun v hv hn => (hq v hn).2.2.trans (hqg v hv hn).2.2.2
  obtain ⟨p1, p2⟩ := sum_fib (V := g.verts) (V' := g''.verts) (w := g.wt) (w' := g''.wt) (f := φ) (f' := ψ) (fun i => by
    rw [sum'']
    show _ ≤ g.fib φ i
    by_cases hi : ∃ n ∈ ns, i = n.1.v0
    · obtain ⟨n, hn, rfl⟩ := hi
      refine (Finset.sum_le_sum_of_subset (fibm n hn)).trans ?_
      rw [sum3 n hn]
      have h1 := w_v0 n hn
      have h2 := lowm n hn
      rcases W_v1 n hn with ⟨hcl, e⟩ | ⟨-, e⟩
      · have h3 := (w_leaf n hn).2 hcl
        have h4 := (w_ax n hn).2 hcl
        omega
      · have h3 := (w_leaf n hn).1
        have h4 := (w_ax n hn).1
        omega
    · push Not at hi
      rw [fibo i hi]
      split
      · next hh =>
        rw [Finset.sum_singleton]
        exact (quiet i hh.2 (oldnp i hh.1 hi)).trans (le_fib hh.2 (φid i fun n hn e => oldnp i hh.1 hi ⟨n.1, hms n hn, Or.inr e.symm⟩))
      · simp)
  -- consequences of equality
  have heqm : g''.pot = g.pot → ∀ n ∈ ns, g.Cl n.1.v1 ∧ n.2.1 ∈ g''.verts ∧ g'.wt n.2.1 = 4 := by
    intro heq n hn
    have h0 := p2 heq n.1.v0
    rw [sum''] at h0
    have h2 := lowm n hn
    unfold fib at h2
    rw [← h0] at h2
    have h1 := w_v0 n hn
    rcases W_v1 n hn with ⟨hcl, e⟩ | ⟨-, e⟩
    · have h3 := (w_leaf n hn).2 hcl
      have h4 := (w_ax n hn).2 hcl
      have h5 := Finset.sum_le_sum_of_subset (f := g'.wt) (fibm n hn)
      rw [sum3 n hn] at h5
      refine ⟨hcl, ?_, by omega⟩
      by_contra hnl
      have h6 : g''.verts.filter (fun v => ψ v = n.1.v0) ⊆ {n.1.v0, n.2.2} := by
        intro v hv
        have := fibm n hn hv
        simp only [Finset.mem_insert, Finset.mem_singleton] at this ⊢
        rcases this with e | e | e
        · exact Or.inl e
        · exact absurd (e ▸ (Finset.mem_filter.mp hv).1) hnl
        · exact Or.inr e
      have h7 := Finset.sum_le_sum_of_subset (f := g'.wt) h6
      rw [Finset.sum_pair (new1 n hn n.1.v0 ⟨n.1, hms n hn, Or.inl rfl⟩).2.symm] at h7
      omega
    · exfalso
      have h3 := (w_leaf n hn).1
      have h4 := (w_ax n hn).1
      have h5 := Finset.sum_le_sum_of_subset (f := g'.wt) (fibm n hn)
      rw [sum3 n hn] at h5
      omega
  have heqo : g''.pot = g.pot → ∀ v ∈ g.verts, ¬ Pvt s.ms v → (v ∈ g''.verts → g.wt v ≤ g''.wt v) ∧ (v ∉ g''.verts → g.wt v = 0) := by
    intro heq v hv hn
    have hne : ∀ n ∈ ns, v ≠ n.1.v0 := fun n hn' e => hn ⟨n.1, hms n hn', Or.inl e⟩
    have h0 := p2 heq v
    rw [fibo v hne] at h0
    have h1 := le_fib (g := g) (f := φ) hv (φid v fun n hn' e => hn ⟨n.1, hms n hn', Or.inr e.symm⟩)
    unfold fib at h1
    constructor
    · intro hv''
      rw [if_pos ⟨hv'', hv⟩, Finset.sum_singleton] at h0
      omega
    · intro hv''
      rw [if_neg (fun h => hv'' h.1), Finset.sum_empty] at h0
      omega
  have hJJ : g''.pot = g.pot → g.JJ → g''.JJ := by
    intro heq hJ v hv hctr
    rw [hc.pl]
    rcases cls v hv with hvg | ⟨n, hn, e | e⟩
    · by_cases hp : ∃ n ∈ ns, v = n.1.v0
      · obtain ⟨n, hn, rfl⟩ := hp
        exact v0Pl n hn
      · push Not at hp
        have hnp := oldnp v hv hp
        have h1 := (heqo heq v hvg hnp).1 hv
        rw [wt_ctr hctr] at h1
        exact hsh.pl.mpr ((hqg v hvg hnp).2.2.1.mpr (hJ v hvg (wt_zero (by omega))))
    · obtain ⟨-, h2, h3⟩ := heqm heq n hn
      rw [← hc.wt h2, e, wt_ctr hctr] at h3
      cases h3
    · rw [← e]; exact axPl n hn
  refine ⟨?_, fun hne hnp hJ => ?_⟩
  · rcases (show g''.pot ≤ g.pot from p1).lt_or_eq with h | heq
    · exact Or.inl h
    · refine Or.inr ⟨heq, hJJ heq, fun hJ => ?_⟩
      rintro ⟨y, hy, hyh⟩
      have hyp : ¬ Pvt s.ms y := by
        rintro ⟨m, hm, e⟩
        obtain ⟨n, hn, rfl⟩ := hms' m hm
        obtain ⟨b, hk⟩ := hs.each n hn
        rcases e with rfl | rfl
        · refine hyh.2.2.1 ?_
          rcases hk.ph0 with e | e
          · exact ⟨0, by rw [e]; simp⟩
          · exact ⟨1, by rw [e]; simp⟩
        · exact hyh.2.2.2 ⟨b, hk.badj, hk.bty⟩
      have hyv : y ∈ g''.verts := by
        by_contra hn
        have h1 := (heqo heq y hy hyp).2 hn
        have h2 := wt_half_pos hJ hy hyh
        omega
      obtain ⟨k1, k2, k3, -⟩ := hqg y hy hyp
      refine ⟨y, hyv, (hc.half hyv).mpr ⟨by rw [hty, hs.ty y hy]; exact hyh.1, hsh.cl.mpr (k2.mpr hyh.2.1),
        fun hpl => hyh.2.2.1 (k3.mp (hsh.pl.mp hpl)), fun hb => hyh.2.2.2 (k1.mp ((hq y hyp).1.mp hb))⟩⟩
  · rcases (show g''.pot ≤ g.pot from p1).lt_or_eq with h | heq
    · exact Or.inl h
    · obtain ⟨n, hn⟩ := List.exists_mem_of_ne_nil ns hne
      obtain ⟨h1, h2, h3⟩ := heqm heq n hn
      obtain ⟨b, hk⟩ := hs.each n hn
      exact Or.inr ⟨hJJ heq hJ, n.2.1, h2, (hc.half h2).mpr ⟨by rw [hty]; exact hk.ty1', (leafCl n hn).1.mpr h1,
        fun hpl => hnp n hn ((leafCl n hn).2.mp hpl), leafNB n hn⟩⟩

end Graph
end PyZX
