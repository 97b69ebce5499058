import Verif.Proofs.TermBoundary

/-! # The potential and pivots with gadgets -/

namespace PyZX
namespace Graph

set_option linter.unusedSectionVars false

variable {P : ℚ → Prop} [Heavy]

open Classical in
/-- Pivots with gadgets decrease the potential if no inner spider has phase ±π/2. -/
theorem gadget_rel (hP : PhaseSet P) {g : Graph} (hg : g.ZX P) {s : Rules.GState (ℕ × ℕ → Bool)} (hs : GadInv g s)
    (hb : (s.g.plain s.el .simple).BDeg) {lst : Finset ℕ → List ℕ} (hlst : Rules.SetOrder lst)
    (hok : PivotOK (s.g.plain s.el .simple) s.ms) {g' g'' : Graph} (hf : (Rules.pivot lst (s.g.plain s.el .simple) s.ms).finish = some g')
    (hz' : g'.ZX P) (hty : g'.ty = s.g.ty) (hv' : g'.verts = s.g.verts \ (s.ms.flatMap pivotRem).toFinset) (hc : Cut g' g'')
    (hne : s.ms ≠ []) (hww : ¬ g.WW) : g''.pot < g.pot ∧ ¬ g''.WW ∧ g''.verts.card ≤ g.verts.card := by
  obtain ⟨hext, hzx, hnew, hleaf⟩ := gadget_ext hP hg hs hb
  set G := s.g.plain s.el .simple with hG
  have hwf := hg.wf
  have hwfG := hext.wf
  have hwf' := hz'.wf
  have hsh := pivot_shift' lst hok hf
  have hq := fun v hv => pivot_quiet hwfG hb hlst hok hf hwf' hty (v := v) hv
  have hadj10 : ∀ m ∈ s.ms, g.adj m.v1 m.v0 ≠ none := by
    intro m hm
    obtain ⟨v, hk⟩ := hs.each m hm
    rw [hwf.symm]; exact hk.adj
  have hqg := fun v hv hn => hext.quiet hwf hadj10 (v := v) hv hn
  have mem0 : ∀ m ∈ s.ms, m.v0 ∈ g.verts ∧ m.v1 ∈ g.verts ∧ m.v0 ≠ m.v1 := by
    intro m hm
    refine ⟨(hext.mem m hm).1, (hext.mem m hm).2.1, fun e => ?_⟩
    have := hadj10 m hm
    rw [e, hwf.loopless] at this
    exact this rfl
  have sep0 : ∀ m ∈ s.ms, ∀ m' ∈ s.ms, m.v0 = m'.v0 → m = m' := by
    intro n hn n' hn' e
    rcases hok.sep hwfG hn hn' with e' | e'
    · exact e'
    · exact absurd e (e' _ (Or.inl rfl) _ (Or.inl rfl)).1
  have sep1 : ∀ m ∈ s.ms, ∀ m' ∈ s.ms, m.v1 = m'.v1 → m = m' := by
    intro n hn n' hn' e
    rcases hok.sep hwfG hn hn' with e' | e'
    · exact e'
    · exact absurd e (e' _ (Or.inr rfl) _ (Or.inr rfl)).1
  have sep01 : ∀ m ∈ s.ms, ∀ m' ∈ s.ms, m.v0 ≠ m'.v1 := by
    intro n hn n' hn' e
    rcases hok.sep hwfG hn hn' with e' | e'
    · rw [← e'] at e; exact (mem0 n hn).2.2 e
    · exact absurd e (e' _ (Or.inl rfl) _ (Or.inr rfl)).1
  have hv1gone : ∀ m ∈ s.ms, m.v1 ∉ g'.verts := by
    intro m hm hh
    rw [hv', Finset.mem_sdiff] at hh
    exact hh.2 (List.mem_toFinset.mpr (List.mem_flatMap.mpr ⟨m, hm, by simp [pivotRem, (hext.mem m hm).2.2]⟩))
  have hVs : ∀ v ∈ g'.verts, v ∈ s.g.verts := fun v hv => by
    rw [hv', Finset.mem_sdiff] at hv; exact hv.1
  have cls : ∀ v ∈ g''.verts, v ∈ g.verts ∨ ∃ m ∈ s.ms, m.b1 = some v := by
    intro v hv
    by_cases hvg : v ∈ g.verts
    · exact Or.inl hvg
    · exact Or.inr (hnew v (hVs v (hc.sub hv)) hvg)
  have fresh : ∀ m ∈ s.ms, ∀ l, m.b1 = some l → GadOK1 g s.g m l ∧ l ∉ g.verts ∧ ∀ z, G.adj l z ≠ none → z = m.v1 := by
    intro m hm l hl
    obtain ⟨l', hk, -, h3⟩ := hleaf m hm
    have := hk.b1
    rw [hl, Option.some.injEq] at this
    subst this
    exact ⟨hk, hk.fresh, h3⟩
  have binj : ∀ m ∈ s.ms, ∀ m' ∈ s.ms, m.b1 = m'.b1 → m = m' := fun m hm m' hm' e => List.inj_on_of_nodup_map hs.nodup hm hm' e
  have ncl : ∀ m ∈ s.ms, ¬ g.Cl m.v1 := by
    intro m hm hcl
    obtain ⟨l, hk, -, -⟩ := hleaf m hm
    refine hww ⟨m.v1, (mem0 m hm).2.1, hk.ty1, hcl, fun hpl => hk.ph1 ?_, ?_⟩
    · exact (isPauli_iff (hP.reduced _ (hg.phases _ (mem0 m hm).2.1))).mpr hpl
    · rintro ⟨c, hca, hct⟩
      have := hk.n1 c hca
      rw [hct] at this; cases this
  have W0 : ∀ m ∈ s.ms, g.wt m.v0 = 4 ∧ g.wt m.v1 = Heavy.N := by
    intro m hm
    obtain ⟨l, hk, -, -⟩ := hleaf m hm
    refine ⟨wt_lone hk.ty0 (Pl.cl ?_) ?_ ?_, wt_notCl hk.ty1 (ncl m hm)⟩
    · rcases hk.ph0 with e | e
      · exact ⟨0, by rw [e]; simp⟩
      · exact ⟨1, by rw [e]; simp⟩
    · rintro ⟨c, hca, hct⟩
      have := (hk.n0 c hca).1
      rw [hct] at this; cases this
    · rintro ⟨x, hx⟩
      have hxa : g.adj m.v0 x ≠ none := by rw [hwf.symm]; exact (hx.2 _).mpr rfl
      have hd : g.degree x = 1 := (degree_one hwf).mpr ⟨_, hx.2⟩
      by_cases e : x = m.v1
      · exact hk.deg (e ▸ hd)
      · exact (hk.n0 x hxa).2 ⟨hd, e⟩
  have v0Pl : ∀ m ∈ s.ms, g'.Pl m.v0 := fun m hm => hsh.pl.mpr (pivotOK1_pl (hok.each m hm) (Or.inl rfl)).2
  have notbd : ∀ m ∈ s.ms, ¬ g'.Bd m.v0 := by
    rintro m hm ⟨b, hba, hbt⟩
    obtain ⟨f1, -, -, -, -⟩ := pivot_fold hwfG hlst s.ms hok rfl
    rw [hty] at hbt
    obtain ⟨-, -, -, hcase⟩ := finish_adj hf hwf'.toInv hba
    have hbn : b ∉ g.verts → False := by
      intro h
      rcases cls' : (hs.news b (hVs b (hwf'.toInv.mem' hba)) h) with ⟨h1, -⟩
      rw [hbt] at h1; cases h1
    rcases hcase with hcase | ⟨e, he, -, hsp⟩
    · rw [f1.adj] at hcase
      obtain ⟨l, hk, -, -⟩ := hleaf m hm
      rw [hext.old m.v0 (mem0 m hm).1 (fun m' hm' => sep01 m hm m' hm')] at hcase
      have := (hk.n0 b hcase).1
      rw [← hs.ty b (hwf.toInv.mem' hcase), hbt] at this; cases this
    · obtain ⟨m', hm', hcs⟩ := pivot_keys hwfG hlst hok.each e he
      have hk' := hok.each m' hm'
      have hbA : b ∉ pivotA G m' := fun hh => by
        have := pivotA_Z hwfG hk' hh
        rw [show G.ty b = _ from hbt] at this; cases this
      rcases hcs with ⟨c1, c2⟩ | ⟨w, hw, c⟩ | ⟨w, hw, c⟩
      · rcases hsp with ⟨-, p⟩ | ⟨-, p⟩
        · exact hbA (by rw [show b = e.1.2 from p]; exact c2)
        · exact hbA (by rw [show b = e.1.1 from p]; exact c1)
      · rw [(hext.mem m' hm').2.2] at hw; cases hw
      · rw [c] at hsp
        rcases hsp with ⟨-, p⟩ | ⟨-, p⟩
        · exact (fresh m' hm' w hw).2.1 (by
            rw [← show b = w from p]; by_contra hh; exact hbn hh)
        · have := hk'.ty0
          rw [← show b = m'.v0 from p, show G.ty b = _ from hbt] at this; cases this
  have w_v0 : ∀ m ∈ s.ms, g'.wt m.v0 ≤ 1 := by
    intro m hm
    obtain ⟨l, hk, h2, h3⟩ := hleaf m hm
    obtain ⟨t1, t2⟩ := pivot_transfer hwfG hlst hok hf hwf' hm hk.b0 hk.b1 h3
    refine wt_le_1 (v0Pl m hm).cl (notbd m hm) ⟨l, by rw [hty]; exact hk.ty, fun w => ⟨t2 w, ?_⟩⟩
    rintro rfl
    rw [hwf'.symm]; exact t1
  -- the two maps
  set φ : ℕ → ℕ := fun x => if hx : ∃ m ∈ s.ms, m.v1 = x then hx.choose.v0 else x with hφ
  set ψ : ℕ → ℕ := fun x => if hx : ∃ m ∈ s.ms, m.b1 = some x then hx.choose.v0 else x with hψ
  set χ : ℕ → ℕ := fun x => if hx : ∃ m ∈ s.ms, m.b1 = some x then hx.choose.v1 else x with hχ
  have φ1 : ∀ m ∈ s.ms, φ m.v1 = m.v0 := by
    intro n hn
    have hx : ∃ n' ∈ s.ms, n'.v1 = n.v1 := ⟨n, hn, rfl⟩
    simp only [hφ]
    rw [dif_pos hx, sep1 _ hx.choose_spec.1 n hn hx.choose_spec.2]
  have φid : ∀ v, (∀ m ∈ s.ms, m.v1 ≠ v) → φ v = v := by
    intro v hv
    simp only [hφ]
    rw [dif_neg]
    rintro ⟨n, hn, e⟩
    exact hv n hn e
  have ψnew : ∀ m ∈ s.ms, ∀ x, m.b1 = some x → ψ x = m.v0 ∧ χ x = m.v1 := by
    intro m hm x hx0
    have hx : ∃ n ∈ s.ms, n.b1 = some x := ⟨m, hm, hx0⟩
    have : hx.choose = m := binj _ hx.choose_spec.1 m hm (hx.choose_spec.2.trans hx0.symm)
    simp only [hψ, hχ]
    rw [dif_pos hx, dif_pos hx, this]
    exact ⟨rfl, rfl⟩
  have ψold : ∀ v ∈ g.verts, ψ v = v ∧ χ v = v := by
    intro v hv
    have : ¬ ∃ m ∈ s.ms, m.b1 = some v := by
      rintro ⟨n, hn, e⟩
      exact (fresh n hn v e).2.1 hv
    simp only [hψ, hχ]
    rw [dif_neg this, dif_neg this]
    exact ⟨rfl, rfl⟩
  have fibm : ∀ m ∈ s.ms, ∀ l, m.b1 = some l → g''.verts.filter (fun v => ψ v = m.v0) ⊆ {m.v0, l} := by
    intro m hm l hl v hv
    obtain ⟨hv1, hv2⟩ := Finset.mem_filter.mp hv
    simp only [Finset.mem_insert, Finset.mem_singleton]
    rcases cls v hv1 with hvg | ⟨m', hm', e⟩
    · rw [(ψold v hvg).1] at hv2; exact Or.inl hv2
    · rw [(ψnew m' hm' v e).1] at hv2
      have := sep0 m' hm' m hm hv2
      subst this
      rw [hl, Option.some.injEq] at e
      exact Or.inr e.symm
  have sum'' : ∀ i, ∑ v ∈ g''.verts.filter (fun v => ψ v = i), g''.wt v = ∑ v ∈ g''.verts.filter (fun v => ψ v = i), g'.wt v := fun i =>
    Finset.sum_congr rfl fun v hv => hc.wt (Finset.mem_filter.mp hv).1
  have lowm : ∀ m ∈ s.ms, 4 + Heavy.N ≤ g.fib φ m.v0 := by
    intro m hm
    have := le_fib2 (g := g) (f := φ) (mem0 m hm).1 (φid _ fun m' hm' e => sep01 m hm m' hm' e.symm) (mem0 m hm).2.1 (φ1 m hm) (mem0 m hm).2.2
    rw [(W0 m hm).1, (W0 m hm).2] at this
    exact this
  have upm : ∀ m ∈ s.ms, ∑ v ∈ g''.verts.filter (fun v => ψ v = m.v0), g''.wt v ≤ 1 + Heavy.N := by
    intro m hm
    obtain ⟨l, hk, -, -⟩ := hleaf m hm
    rw [sum'']
    refine (Finset.sum_le_sum_of_subset (fibm m hm l hk.b1)).trans ?_
    rw [Finset.sum_pair (show m.v0 ≠ l from fun e => hk.fresh (by rw [← e]; exact (mem0 m hm).1))]
    have h1 := w_v0 m hm
    have h2 := wt_le_N g' l
    omega
  have oldnp : ∀ v ∈ g''.verts, (∀ m ∈ s.ms, v ≠ m.v0) → ¬ Pvt s.ms v := by
    rintro v hv hne ⟨m, hm, e | e⟩
    · exact hne m hm e
    · exact hv1gone m hm (e ▸ hc.sub hv)
  obtain ⟨p1, p2⟩ := sum_fib (V := g.verts) (V' := g''.verts) (w := g.wt) (w' := g''.wt) (f := φ) (f' := ψ) (fun i => by
    show _ ≤ g.fib φ i
    by_cases hi : ∃ m ∈ s.ms, i = m.v0
    · obtain ⟨m, hm, rfl⟩ := hi
      have h1 := upm m hm
      have h2 := lowm m hm
      omega
    · push Not at hi
      by_cases hh : i ∈ g''.verts ∧ i ∈ g.verts
      · have : g''.verts.filter (fun v => ψ v = i) ⊆ {i} := by
          intro v hv
          obtain ⟨hv1, hv2⟩ := Finset.mem_filter.mp hv
          rcases cls v hv1 with hvg | ⟨n, hn, e'⟩
          · rw [(ψold v hvg).1] at hv2; simp [hv2]
          · rw [(ψnew n hn v e').1] at hv2; exact absurd hv2.symm (hi n hn)
        refine (Finset.sum_le_sum_of_subset this).trans ?_
        rw [Finset.sum_singleton, hc.wt hh.1]
        have hnp := oldnp i hh.1 hi
        exact ((hq i hnp).2.2.trans (hqg i hh.2 hnp).2.2.2).trans (le_fib hh.2 (φid i fun n hn e => hnp ⟨n, hn, Or.inr e.symm⟩))
      · have : g''.verts.filter (fun v => ψ v = i) = ∅ := by
          refine Finset.filter_eq_empty_iff.mpr fun v hv e => ?_
          rcases cls v hv with hvg | ⟨n, hn, e'⟩
          · rw [(ψold v hvg).1] at e
            exact hh ⟨e ▸ hv, e ▸ hvg⟩
          · rw [(ψnew n hn v e').1] at e; exact absurd e.symm (hi n hn)
        rw [this]; simp)
  refine ⟨?_, ?_, ?_⟩
  · refine lt_of_le_of_ne p1 fun heq => ?_
    obtain ⟨m, hm⟩ := List.exists_mem_of_ne_nil _ hne
    have h0 := p2 heq m.v0
    have h1 := upm m hm
    have h2 := lowm m hm
    unfold fib at h2
    omega
  · rintro ⟨y, hy, hyh⟩
    rw [hc.half hy] at hyh
    obtain ⟨y1, y2, y3, y4⟩ := hyh
    rcases cls y hy with hyg | ⟨m, hm, e⟩
    · by_cases hp : ∃ m ∈ s.ms, y = m.v0
      · obtain ⟨m, hm, rfl⟩ := hp
        exact y3 (v0Pl m hm)
      · push Not at hp
        have hnp := oldnp y hy hp
        obtain ⟨k1, k2, k3, -⟩ := hqg y hyg hnp
        exact hww ⟨y, hyg, by rw [← hs.ty y hyg, ← hty]; exact y1, k2.mp (hsh.cl.mp y2), fun hpl => y3 (hsh.pl.mpr (k3.mpr hpl)),
          fun hb => y4 ((hq y hnp).1.mpr (k1.mpr hb))⟩
    · have hk := (fresh m hm y e).1
      exact ncl m hm ((cl_mod2 (g := g) (g' := G) (show G.phase y = _ from hk.phase)).1.mp (hsh.cl.mp y2))
  · refine Finset.card_le_card_of_injOn χ (fun v hv => ?_) (fun v hv w hw e => ?_)
    · rcases cls v hv with hvg | ⟨m, hm, e⟩
      · rw [(ψold v hvg).2]; exact hvg
      · rw [(ψnew m hm v e).2]; exact (mem0 m hm).2.1
    · have hv := Finset.mem_coe.mp hv
      have hw := Finset.mem_coe.mp hw
      rcases cls v hv with hvg | ⟨m, hm, e1⟩ <;> rcases cls w hw with hwg | ⟨m', hm', e2⟩
      · rwa [(ψold v hvg).2, (ψold w hwg).2] at e
      · rw [(ψold v hvg).2, (ψnew m' hm' w e2).2] at e
        exact absurd (e ▸ hc.sub hv) (hv1gone m' hm')
      · rw [(ψold w hwg).2, (ψnew m hm v e1).2] at e
        exact absurd (e ▸ hc.sub hw) (hv1gone m hm)
      · rw [(ψnew m hm v e1).2, (ψnew m' hm' w e2).2] at e
        have := sep1 m hm m' hm' e
        subst this
        rw [e1, Option.some.injEq] at e2
        exact e2

end Graph
end PyZX
