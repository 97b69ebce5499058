import Verif.Proofs.TermWeight

/-! # The potential and pivots -/

namespace PyZX
namespace Graph

set_option linter.unusedSectionVars false

variable {P : ℚ → Prop} [Heavy]

/-- `v` is a vertex of a pivot. -/
def Pvt (ms : List Rules.PivotMatch) (v : ℕ) : Prop := ∃ m ∈ ms, v = m.v0 ∨ v = m.v1

/-- The extra vertices of the matches are boundaries. -/
theorem matchPivot_bnd {g : Graph} {ord : ℕ → List ℕ} {cands : List (ℕ × ℕ)} {num : ℤ} {m : Rules.PivotMatch}
    (hm : m ∈ Rules.matchPivot g ord num cands) {w : ℕ} (hw : m.b0 = some w ∨ m.b1 = some w) : g.ty w = .boundary := by
  obtain ⟨c, -, -, ht⟩ := Rules.greedy_mem hm
  unfold Rules.pivotTry at ht
  split_ifs at ht with h1 h2 h3
  cases hb0 : Rules.pivotScan g c.1 (ord c.1) with
  | none => rw [hb0] at ht; simp at ht
  | some b0 =>
    rw [hb0] at ht
    cases hb1 : Rules.pivotScan g c.2 (ord c.2) with
    | none => rw [hb1] at ht; simp at ht
    | some b1 =>
      rw [hb1] at ht
      simp only at ht
      split_ifs at ht with hlen
      simp only [Option.some.injEq] at ht
      subst ht
      rcases hw with hw | hw
      · exact ((pivotScan_spec hb0).2 w (List.mem_of_mem_head? hw)).2
      · exact ((pivotScan_spec hb1).2 w (List.mem_of_mem_head? hw)).2

theorem pivotA_Z {g : Graph} (hg : g.WF) {m : Rules.PivotMatch} (h : PivotOK1 g m) {a : ℕ} (ha : a ∈ pivotA g m) : g.ty a = .Z := by
  rcases mem_pivotA hg ha with q | q
  · exact ((h.n0 a q.1).resolve_left q.2.2).1
  · exact ((h.n1 a q.1).resolve_left q.2.2).1

theorem pivotOK1_pl {g : Graph} {m : Rules.PivotMatch} (h : PivotOK1 g m) {v : ℕ} (hv : v = m.v0 ∨ v = m.v1) : g.ty v = .Z ∧ g.Pl v := by
  rcases hv with rfl | rfl
  · exact ⟨h.ty0, by rcases h.ph0 with e | e; exacts [⟨0, by rw [e]; simp⟩, ⟨1, by rw [e]; simp⟩]⟩
  · exact ⟨h.ty1, by rcases h.ph1 with e | e; exacts [⟨0, by rw [e]; simp⟩, ⟨1, by rw [e]; simp⟩]⟩

theorem pivot_shift' {g g' : Graph} (lst : Finset ℕ → List ℕ) {ms : List Rules.PivotMatch} (h : PivotOK g ms)
    (hf : (Rules.pivot lst g ms).finish = some g') : Shift g g' :=
  (pivot_shift lst fun m hm => ⟨(pivotOK1_pl (h.each m hm) (Or.inl rfl)).2, (pivotOK1_pl (h.each m hm) (Or.inr rfl)).2⟩).trans (finish_shift hf)

/-- The vertices that are not vertices of pivots keep their boundaries and their leaves. -/
theorem pivot_quiet {g g' : Graph} (hg : g.WF) (hbd : g.BDeg) {lst : Finset ℕ → List ℕ} (hlst : Rules.SetOrder lst)
    {ms : List Rules.PivotMatch} (h : PivotOK g ms) (hf : (Rules.pivot lst g ms).finish = some g') (hw : g'.WF) (hty : g'.ty = g.ty)
    {v : ℕ} (hv : ¬ Pvt ms v) : (g'.Bd v ↔ g.Bd v) ∧ (∀ x, g.Lf x v → g'.Lf x v) ∧ g'.wt v ≤ g.wt v := by
  have hsh := pivot_shift' lst h hf
  obtain ⟨f1, -, f3, f4, -⟩ := pivot_fold hg hlst ms h rfl
  have hkeys := pivot_keys hg hlst h.each
  -- a vertex whose only neighbour is `v` is untouched
  have hun : ∀ x, (∀ w, g.adj x w ≠ none → w = v) → Untouched g ms x := by
    intro x hx m hm
    have hk := h.each m hm
    have n0 : v ≠ m.v0 := fun e => hv ⟨m, hm, Or.inl e⟩
    have n1 : v ≠ m.v1 := fun e => hv ⟨m, hm, Or.inr e⟩
    refine ⟨?_, ?_, ?_, ?_⟩
    · rintro rfl
      exact n1 (hx m.v1 (by rw [hk.adj]; simp)).symm
    · rintro rfl
      exact n0 (hx m.v0 (by rw [hg.symm, hk.adj]; simp)).symm
    · by_contra hne
      rw [hg.symm] at hne
      exact n0 (hx _ hne).symm
    · by_contra hne
      rw [hg.symm] at hne
      exact n1 (hx _ hne).symm
  have hb1 : g.Bd v → g'.Bd v := by
    rintro ⟨b, hb, hbt⟩
    refine ⟨b, ?_, by rw [hty]; exact hbt⟩
    have hb' : g.adj b v ≠ none := by rw [hg.symm]; exact hb
    rw [hw.symm, pivot_untouched hg hlst h hf hw (hun b fun w hw' => hbd b (hg.mem _ _ hb') hbt _ _ hw' hb')]
    exact hb'
  have hb2 : g'.Bd v → g.Bd v := by
    rintro ⟨b, hb, hbt⟩
    rw [hty] at hbt
    obtain ⟨-, -, -, hcase⟩ := finish_adj hf hw.toInv hb
    rcases hcase with hcase | ⟨e, he, -, hsp⟩
    · rw [f1.adj] at hcase; exact ⟨b, hcase, hbt⟩
    · exfalso
      obtain ⟨m, hm, hc⟩ := hkeys e he
      have hk := h.each m hm
      have hbA : b ∉ pivotA g m := fun hh => by
        have := pivotA_Z hg hk hh
        rw [hbt] at this; cases this
      rcases hc with ⟨c1, c2⟩ | ⟨w, -, c⟩ | ⟨w, -, c⟩
      · rcases hsp with ⟨-, p⟩ | ⟨-, p⟩
        · exact hbA (by rw [show b = e.1.2 from p]; exact c2)
        · exact hbA (by rw [show b = e.1.1 from p]; exact c1)
      · rw [c] at hsp
        rcases hsp with ⟨p, -⟩ | ⟨-, p⟩
        · exact hv ⟨m, hm, Or.inr p⟩
        · rw [show b = m.v1 from p, hk.ty1] at hbt; cases hbt
      · rw [c] at hsp
        rcases hsp with ⟨p, -⟩ | ⟨-, p⟩
        · exact hv ⟨m, hm, Or.inl p⟩
        · rw [show b = m.v0 from p, hk.ty0] at hbt; cases hbt
  have hl : ∀ x, g.Lf x v → g'.Lf x v := by
    intro x hx
    refine ⟨by rw [hty]; exact hx.1, fun w => ?_⟩
    rw [pivot_untouched hg hlst h hf hw (hun x fun w hw' => (hx.2 w).mp hw')]
    exact hx.2 w
  exact ⟨⟨hb2, hb1⟩, hl, wt_le (by rw [hty]) hsh.cl.mpr hb1 hb2 fun x hx => ⟨hl x hx, hsh.cl.mpr⟩⟩

theorem mem_pivotRem {g : Graph} {ms : List Rules.PivotMatch} (hg : g.WF) (h : PivotOK g ms) {m : Rules.PivotMatch} (hm : m ∈ ms) :
    (m.v0 ∈ ms.flatMap pivotRem ↔ m.b1 = none) ∧ (m.v1 ∈ ms.flatMap pivotRem ↔ m.b0 = none) := by
  have h01 : m.v0 ≠ m.v1 := fun e => by
    have := (h.each m hm).adj
    rw [← e, hg.loopless] at this; cases this
  have key : ∀ v, v = m.v0 ∨ v = m.v1 → (v ∈ ms.flatMap pivotRem ↔ v ∈ pivotRem m) := by
    intro v hv
    refine ⟨fun hh => ?_, fun hh => List.mem_flatMap.mpr ⟨m, hm, hh⟩⟩
    obtain ⟨m', hm', hh⟩ := List.mem_flatMap.mp hh
    have hv' : v = m'.v0 ∨ v = m'.v1 := by
      simp only [pivotRem, List.mem_append] at hh
      rcases hh with hh | hh <;> split at hh <;> simp at hh
      · exact Or.inr hh
      · exact Or.inl hh
    rcases h.sep hg hm hm' with rfl | hsep
    · exact hh
    · exact absurd rfl (hsep v hv v hv').1
  rw [key _ (Or.inl rfl), key _ (Or.inr rfl)]
  simp only [pivotRem, List.mem_append]
  constructor
  · constructor
    · rintro (hh | hh) <;> split at hh
      · simp at hh; exact absurd hh h01
      · simp at hh
      · assumption
      · simp at hh
    · intro e; right; rw [if_pos e]; simp
  · constructor
    · rintro (hh | hh) <;> split at hh
      · assumption
      · simp at hh
      · simp at hh; exact absurd hh.symm h01
      · simp at hh
    · intro e; left; rw [if_pos e]; simp

/-- The vertex of a pivot that stays, and the one that goes. -/
def pvKept (m : Rules.PivotMatch) : ℕ := if m.b0 = none then m.v0 else m.v1

def pvGone (m : Rules.PivotMatch) : ℕ := if m.b0 = none then m.v1 else m.v0

theorem pvKept_mem (m : Rules.PivotMatch) : pvKept m = m.v0 ∨ pvKept m = m.v1 := by unfold pvKept; split <;> simp
theorem pvGone_mem (m : Rules.PivotMatch) : pvGone m = m.v0 ∨ pvGone m = m.v1 := by unfold pvGone; split <;> simp

theorem pv_either {m : Rules.PivotMatch} {v : ℕ} (h : v = m.v0 ∨ v = m.v1) : v = pvKept m ∨ v = pvGone m := by
  unfold pvKept pvGone; split
  · exact h
  · exact h.symm

open Classical in
/-- Pivoting does not increase the potential. -/
theorem pivot_rel (hP : PhaseSet P) {g g' g'' : Graph} (hg : g.ZX P) {lst : Finset ℕ → List ℕ} (hlst : Rules.SetOrder lst)
    {ms : List Rules.PivotMatch} (h : PivotOK g ms) (hb : ∀ m ∈ ms, ∀ w, m.b0 = some w ∨ m.b1 = some w → g.ty w = .boundary) (hne : ms ≠ [])
    (hfin : (Rules.pivot lst g ms).finish = some g') (hc : Cut g' g'') : Rel g g'' := by
  obtain ⟨g1, hfin1, hpr, hzx, hty, hverts⟩ := pivot_zx hP hg hlst h
  rw [hfin] at hfin1
  cases hfin1
  have hwf := hg.wf
  have hwf' := hzx.wf
  obtain ⟨f1, -, f3, f4, -⟩ := pivot_fold hwf hlst ms h rfl
  have hkeys := pivot_keys hwf hlst h.each
  have hsh := pivot_shift' lst h hfin
  have hq := fun v hv => pivot_quiet hwf hg.bdeg hlst h hfin hwf' hty (v := v) hv
  have inV' : ∀ v, v ∈ g'.verts ↔ v ∈ g.verts ∧ v ∉ ms.flatMap pivotRem := fun v => by
    rw [hverts, Finset.mem_sdiff, List.mem_toFinset]
  have mv : ∀ m ∈ ms, ∀ v, v = m.v0 ∨ v = m.v1 → v ∈ g.verts := by
    intro m hm v hv
    rcases hv with rfl | rfl
    · exact hwf.mem _ m.v1 (by rw [(h.each m hm).adj]; simp)
    · exact hwf.toInv.mem' (u := m.v0) (by rw [(h.each m hm).adj]; simp)
  have h01 : ∀ m ∈ ms, m.v0 ≠ m.v1 := fun m hm e => by
    have := (h.each m hm).adj
    rw [← e, hwf.loopless] at this; cases this
  have hkg : ∀ m ∈ ms, pvKept m ≠ pvGone m := by
    intro m hm
    unfold pvKept pvGone
    split
    · exact h01 m hm
    · exact (h01 m hm).symm
  have hgone : ∀ m ∈ ms, pvGone m ∉ g'.verts := by
    intro m hm hh
    refine ((inV' _).mp hh).2 ?_
    unfold pvGone
    split
    · next e => exact (mem_pivotRem hwf h hm).2.mpr e
    · next e => exact (mem_pivotRem hwf h hm).1.mpr ((h.each m hm).one.resolve_left e)
  -- the kept vertex stays only if the other one has a boundary
  have hkept : ∀ m ∈ ms, pvKept m ∈ g'.verts → ∃ b, g.ty b = .boundary ∧ g.adj (pvGone m) b ≠ none ∧ (m.b0 = some b ∨ m.b1 = some b) := by
    intro m hm hh
    have hh := ((inV' _).mp hh).2
    have hk := h.each m hm
    unfold pvKept at hh
    unfold pvGone
    split at hh
    · next e =>
      rw [if_pos e]
      rw [(mem_pivotRem hwf h hm).1] at hh
      obtain ⟨b, e1⟩ := Option.ne_none_iff_exists'.mp hh
      exact ⟨b, hb m hm b (Or.inr e1), (hk.b1 b e1).1, Or.inr e1⟩
    · next e =>
      rw [if_neg e]
      obtain ⟨b, e1⟩ := Option.ne_none_iff_exists'.mp e
      exact ⟨b, hb m hm b (Or.inl e1), (hk.b0 b e1).1, Or.inl e1⟩
  have hkbd : ∀ m ∈ ms, pvKept m ∈ g'.verts → g'.Bd (pvKept m) ∧ g.wt (pvGone m) = 2 := by
    intro m hm hh
    obtain ⟨b, hbt, hba, hbm⟩ := hkept m hm hh
    have hg0 := pivotOK1_pl (h.each m hm) (pvGone_mem m)
    refine ⟨⟨b, ?_, by rw [hty]; exact hbt⟩, wt_bd hg0.1 hg0.2.cl ⟨b, hba, hbt⟩⟩
    have hbV : b ∈ g.verts := hwf.toInv.mem' hba
    have hbV' : b ∈ g'.verts := by
      refine (inV' b).mpr ⟨hbV, fun hr => ?_⟩
      obtain ⟨m', hm', hr⟩ := List.mem_flatMap.mp hr
      have hv' : b = m'.v0 ∨ b = m'.v1 := by
        simp only [pivotRem, List.mem_append] at hr
        rcases hr with hr | hr <;> split at hr <;> simp at hr
        · exact Or.inr hr
        · exact Or.inl hr
      have := (pivotOK1_pl (h.each m' hm') hv').1
      rw [hbt] at this; cases this
    obtain ⟨z, hz⟩ := hzx.badj b hbV' (by rw [hty]; exact hbt)
    obtain ⟨-, -, -, hcase⟩ := finish_adj hfin hwf'.toInv hz
    have hzk : z = pvKept m := by
      rcases hcase with hcase | ⟨e, he, -, hsp⟩
      · exfalso
        rw [f1.adj] at hcase
        have : z = pvGone m := hg.bdeg b hbV hbt _ _ hcase (by rw [hwf.symm]; exact hba)
        exact hgone m hm (by rw [← this]; exact hwf'.toInv.mem' hz)
      · obtain ⟨m', hm', hcs⟩ := hkeys e he
        have hk' := h.each m' hm'
        have hbA : b ∉ pivotA g m' := fun hh => by
          have := pivotA_Z hwf hk' hh
          rw [hbt] at this; cases this
        have fin : ∀ v, (v = m'.v0 ∨ v = m'.v1) → g.adj v b ≠ none → m' = m ∧ v = pvGone m := by
          intro v hv hva
          have e1 : v = pvGone m := hg.bdeg b hbV hbt _ _ (by rw [hwf.symm]; exact hva) (by rw [hwf.symm]; exact hba)
          refine ⟨?_, e1⟩
          rcases h.sep hwf hm' hm with e2 | e2
          · exact e2
          · exact absurd e1 (e2 v hv _ (pvGone_mem m)).1
        rcases hcs with ⟨c1, c2⟩ | ⟨w, hw, c⟩ | ⟨w, hw, c⟩
        · rcases hsp with ⟨p, -⟩ | ⟨p, -⟩
          · exact absurd (by rw [show b = e.1.1 from p]; exact c1) hbA
          · exact absurd (by rw [show b = e.1.2 from p]; exact c2) hbA
        · rw [c] at hsp
          rcases hsp with ⟨p, -⟩ | ⟨p, p'⟩
          · rw [show b = m'.v1 from p, hk'.ty1] at hbt; cases hbt
          · have hbw : b = w := p
            subst hbw
            obtain ⟨rfl, e2⟩ := fin m'.v0 (Or.inl rfl) (hk'.b0 b hw).1
            have : z = m'.v1 := p'
            rw [this]
            unfold pvKept
            rw [if_neg (by rw [hw]; simp)]
        · rw [c] at hsp
          rcases hsp with ⟨p, -⟩ | ⟨p, p'⟩
          · rw [show b = m'.v0 from p, hk'.ty0] at hbt; cases hbt
          · have hbw : b = w := p
            subst hbw
            obtain ⟨rfl, e2⟩ := fin m'.v1 (Or.inr rfl) (hk'.b1 b hw).1
            have : z = m'.v0 := p'
            rw [this]
            unfold pvKept
            rw [if_pos (hk'.one.resolve_right (by rw [hw]; simp))]
    rw [hwf'.symm, ← hzk]
    exact hz
  -- the map
  set φ : ℕ → ℕ := fun x => if hx : ∃ m ∈ ms, pvGone m = x ∧ pvKept m ∈ g'.verts then pvKept hx.choose else x with hφ
  have φ_m : ∀ m ∈ ms, pvKept m ∈ g'.verts → φ (pvGone m) = pvKept m := by
    intro m hm hk
    have hx : ∃ m' ∈ ms, pvGone m' = pvGone m ∧ pvKept m' ∈ g'.verts := ⟨m, hm, rfl, hk⟩
    have hch : hx.choose = m := by
      rcases h.sep hwf hx.choose_spec.1 hm with e2 | e2
      · exact e2
      · exact absurd hx.choose_spec.2.1 (e2 _ (pvGone_mem _) _ (pvGone_mem m)).1
    simp only [hφ]
    rw [dif_pos hx, hch]
  have φ_id : ∀ v, v ∈ g'.verts → φ v = v := by
    intro v hv
    simp only [hφ]
    rw [dif_neg]
    rintro ⟨m, hm, rfl, -⟩
    exact hgone m hm hv
  have φ_id' : ∀ m ∈ ms, pvKept m ∉ g'.verts → φ (pvGone m) = pvGone m := by
    intro m hm hk
    simp only [hφ]
    rw [dif_neg]
    rintro ⟨m', hm', e1, e2⟩
    rcases h.sep hwf hm' hm with e3 | e3
    · exact hk (e3 ▸ e2)
    · exact absurd e1 (e3 _ (pvGone_mem _) _ (pvGone_mem m)).1
  have hself : ∀ v ∈ g''.verts, v ∈ g.verts ∧ φ v = v ∧ v ∈ g'.verts := fun v hv =>
    ⟨((inV' v).mp (hc.sub hv)).1, φ_id v (hc.sub hv), hc.sub hv⟩
  have hgrow : ∀ m ∈ ms, pvKept m ∈ g''.verts → g.wt (pvKept m) + 2 ≤ g.fib φ (pvKept m) ∧ g''.wt (pvKept m) ≤ 2 := by
    intro m hm hk
    obtain ⟨s1, s2, s3⟩ := hself _ hk
    obtain ⟨k1, k2⟩ := hkbd m hm s3
    have h2 := le_fib2 (g := g) (f := φ) s1 s2 (mv m hm _ (pvGone_mem m)) (φ_m m hm s3) (hkg m hm)
    rw [k2] at h2
    refine ⟨h2, ?_⟩
    rw [hc.wt hk]
    exact wt_le_2 (hsh.cl.mpr (pivotOK1_pl (h.each m hm) (pvKept_mem m)).2.cl) k1
  have hpk : ∀ v ∈ g''.verts, Pvt ms v → ∃ m ∈ ms, v = pvKept m := by
    rintro v hv ⟨m, hm, hvm⟩
    rcases pv_either hvm with e | e
    · exact ⟨m, hm, e⟩
    · exact absurd (e ▸ hc.sub hv) (hgone m hm)
  obtain ⟨p1, p2⟩ := pot_le (g := g) (g' := g'') φ (fun v hv => by
    obtain ⟨s1, s2, s3⟩ := hself v hv
    by_cases hp : Pvt ms v
    · obtain ⟨m, hm, rfl⟩ := hpk v hv hp
      have := hgrow m hm hv
      omega
    · rw [hc.wt hv]
      exact (hq v hp).2.2.trans (le_fib s1 s2))
  refine Rel.of p1 fun heq hJ => ?_
  obtain ⟨q1, q2⟩ := p2 heq
  refine ⟨fun v hv hcv => ?_, ?_, fun hall => ?_⟩
  · obtain ⟨s1, s2, s3⟩ := hself v hv
    have hz := q1 v hv
    rw [wt_ctr hcv] at hz
    have := le_fib (g := g) (f := φ) s1 s2
    exact hc.pl.mpr (hsh.pl.mpr (hJ v s1 (wt_zero (by omega))))
  · rintro ⟨y, hy, hyh⟩
    have hyp : ¬ Pvt ms y := by
      rintro ⟨m, hm, hym⟩
      exact hyh.2.2.1 (pivotOK1_pl (h.each m hm) hym).2
    have hyφ : φ y = y := by
      simp only [hφ]
      rw [dif_neg]
      rintro ⟨m, hm, rfl, -⟩
      exact hyp ⟨m, hm, pvGone_mem m⟩
    have hyv : y ∈ g''.verts := by
      by_contra hn
      have := q2 y hy (by rw [hyφ]; exact hn)
      have := wt_half_pos hJ hy hyh
      omega
    refine ⟨y, hyv, (hc.half hyv).mpr ⟨by rw [hty]; exact hyh.1, hsh.cl.mpr hyh.2.1, fun hpl => hyh.2.2.1 (hsh.pl.mp hpl), fun hb => ?_⟩⟩
    exact hyh.2.2.2 ((hq y hyp).1.mp hb)
  · obtain ⟨m, hm⟩ := List.exists_mem_of_ne_nil ms hne
    by_cases hk : pvKept m ∈ g'.verts
    · by_cases hk2 : pvKept m ∈ g''.verts
      · have h1 := hgrow m hm hk2
        rw [← q1 _ hk2] at h1
        exact hall _ (mv m hm _ (pvKept_mem m)) (wt_zero (by omega))
      · exact hall _ (mv m hm _ (pvKept_mem m)) (wt_zero (q2 _ (mv m hm _ (pvKept_mem m)) (by rw [φ_id _ hk]; exact hk2)))
    · exact hall _ (mv m hm _ (pvGone_mem m)) (wt_zero (q2 _ (mv m hm _ (pvGone_mem m)) (by
        rw [φ_id' m hm hk]; exact fun hh => hgone m hm (hc.sub hh))))

end Graph
end PyZX
