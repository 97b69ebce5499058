import Verif.Model.HSimp
import Verif.Proofs.HParMatch

/-! # H-boxes with one leg -/

namespace PyZX
open Finset

namespace HRules
open Graph

/-- An H-box with one leg, an ordinary edge to a Z-spider, is a phase of the spider. -/
theorem absorb_sound {g g' : Graph} (hg : g.HWF) {h n : ℕ} (hm : h ∈ g.verts) (hh : g.ty h = .hbox) (hn : g.nbrs h = {n}) (hz : g.ty n = .Z)
    (he : g.adj h n = some .simple) (h3 : (g.setPhase n (g.phase n + g.phase h)).removeVertices [h] = some g') :
    HPreserves g g' ∧ g'.verts = g.verts.erase h ∧ g'.ty = g.ty ∧ (∀ v, v ≠ n → g'.phase v = g.phase v) ∧
      ∀ u w, u ≠ h → w ≠ h → g'.adj u w = g.adj u w := by
  have hne : n ≠ h := by rintro rfl; rw [hh] at hz; exact absurd hz (by decide)
  set g1 := g.setPhase n (g.phase n + g.phase h) with hg1
  have hi1 : g1.Inv := hg.toInv.congr rfl rfl rfl rfl rfl rfl
  obtain ⟨hr, -, hi, -⟩ := removeVertices_spec h3
  have hinv' : g'.Inv := hi hi1
  have hv' : g'.verts = g.verts.erase h := by
    rw [hr.verts]
    ext v; simp [hg1, setPhase]; tauto
  have hty : g'.ty = g.ty := hr.ty
  have hin : g'.inputs = g.inputs := by
    rw [hr.inputs]
    refine List.filter_eq_self.mpr fun v hv => ?_
    have : v ≠ h := by rintro rfl; have := hg.io v (Or.inl hv); rw [hh] at this; exact absurd this (by decide)
    simpa using this
  have hout : g'.outputs = g.outputs := by
    rw [hr.outputs]
    refine List.filter_eq_self.mpr fun v hv => ?_
    have : v ≠ h := by rintro rfl; have := hg.io v (Or.inr hv); rw [hh] at this; exact absurd this (by decide)
    simpa using this
  have hnw : ∀ v ∈ g'.verts, g'.ty v ≠ .winput ∧ g'.ty v ≠ .woutput := by
    intro v hv
    rw [hty]
    rw [hv'] at hv
    exact hg.noW v (Finset.mem_of_mem_erase hv)
  have hadj : ∀ u w, u ≠ h → w ≠ h → g'.adj u w = g.adj u w := fun u w hu hw => hr.adj u w (by simpa using hu) (by simpa using hw)
  have hwf : g'.HWF := by
    refine { hinv' with noWio := ?_, noW := hnw, io := ?_ }
    · intro u w huw
      have hu : u ∈ g'.verts := hinv'.mem u w (by rw [huw]; simp)
      have hw : w ∈ g'.verts := hinv'.mem' (u := u) (by rw [huw]; simp)
      rw [hv'] at hu hw
      rw [hadj u w (Finset.ne_of_mem_erase hu) (Finset.ne_of_mem_erase hw)] at huw
      exact hg.noWio u w huw
    · rw [hin, hout, hty]; exact hg.io
  have hph : ∀ v, v ≠ n → g'.phase v = g.phase v := by
    intro v hv
    rw [hr.phase]
    exact Function.update_of_ne hv _ _
  have hnm : n ∈ g.verts := by
    have : n ∈ g.nbrs h := by rw [hn]; simp
    exact (Finset.mem_filter.mp this).1
  refine ⟨⟨hwf, hin, hout, ?_, ?_⟩, hv', hty, hph, hadj⟩
  · intro v
    rw [hty, hv', Finset.mem_erase]
    constructor
    · rintro ⟨⟨-, a⟩, b⟩; exact ⟨a, b⟩
    · rintro ⟨a, b⟩
      exact ⟨⟨by rintro rfl; rw [hh] at b; exact absurd b (by decide), a⟩, b⟩
  · intro b
    rw [sem_eq_wH hinv' hnw, sem_eq_wH hg.toInv hg.noW]
    have hfam : BoxFam g [h] (fun _ => {n}) (fun _ => ∅) id := by
      refine ⟨by simp, by simpa using hm, ?_, by simp⟩
      intro a ha
      simp only [List.mem_singleton] at ha
      subst ha
      refine ⟨hh, by rw [hn]; simp, by simp, ?_, by simp⟩
      intro r hr'
      simp only [Finset.mem_singleton] at hr'
      subst hr'
      exact Or.inl ⟨he, by rw [hz]; decide, by rw [hz]; decide⟩
    have hU : ([h] : List ℕ).toFinset ∪ nots [h] (fun _ => (∅ : Finset ℕ)) = {h} := by
      ext v; simp [mem_nots]
    have hfs := fam_sum hg hfam
    rw [hU] at hfs
    have hI : g.interior = g'.interior ∪ {h} := by
      ext v
      simp only [Graph.interior, Finset.mem_union, Finset.mem_filter, Finset.mem_singleton, hv', hty, Finset.mem_erase]
      constructor
      · rintro ⟨a, c⟩
        by_cases e : v = h
        · exact Or.inr e
        · exact Or.inl ⟨⟨e, a⟩, c⟩
      · rintro (⟨⟨-, a⟩, c⟩ | rfl)
        · exact ⟨a, c⟩
        · exact ⟨hm, by rw [hh]; decide⟩
    have hd : Disjoint g'.interior {h} := by
      rw [Finset.disjoint_singleton_right]
      intro hc
      have := (Finset.mem_filter.mp hc).1
      rw [hv'] at this
      exact Finset.ne_of_mem_erase this rfl
    rw [hI, psum_union hd]
    refine psum_congr fun x _ => ?_
    rw [hfs, hv', Finset.sdiff_singleton_eq_erase]
    have hS : g.verts.erase h = insert n ((g.verts.erase h).erase n) := (Finset.insert_erase (Finset.mem_erase.mpr ⟨hne, hnm⟩)).symm
    have hnS : n ∉ (g.verts.erase h).erase n := Finset.notMem_erase _ _
    have hhS : ∀ v ∈ (g.verts.erase h).erase n, v ≠ h ∧ v ≠ n := fun v hv =>
      ⟨Finset.ne_of_mem_erase (Finset.mem_of_mem_erase hv), Finset.ne_of_mem_erase hv⟩
    have hed : ∀ u w, u ≠ h → w ≠ h → g'.edgeH x u w = g.edgeH x u w := by
      intro u w hu hw
      unfold edgeH
      rw [hadj u w hu hw, hty]
    have hlb : g'.label = g.label := hr.label
    have hsc : g'.scalar = g.scalar := by rw [removeVertices_scalar h3]; rfl
    rw [hS, wH_insert hinv'.symm hnS, wH_insert hg.toInv.symm hnS]
    have e1 : g'.wH ((g.verts.erase h).erase n) x = g.wH ((g.verts.erase h).erase n) x :=
      wH_congr (by rw [hsc]) (fun v hv => by unfold wtH; rw [hty, hlb, hph v (hhS v hv).2]) fun u hu w hw _ => hed u w (hhS u hu).1 (hhS w hw).1
    have e2 : ∏ w ∈ (g.verts.erase h).erase n, g'.edgeH x n w = ∏ w ∈ (g.verts.erase h).erase n, g.edgeH x n w :=
      Finset.prod_congr rfl fun w hw => hed n w hne (hhS w hw).1
    have e3 : g'.wtH n (x n) = g.wtH n (x n) * boxF (g.phase h) {n} ∅ id x := by
      have : g'.phase n = mod2 (g.phase n + g.phase h) := by
        rw [hr.phase]
        exact Function.update_self ..
      unfold wtH wtT boxF
      rw [hty, hz, this, ph_mod2, ph_add]
      cases hx : x n <;> simp [hx]
    rw [e1, e2, e3]
    simp only [List.map_cons, List.map_nil, List.prod_cons, List.prod_nil, mul_one]
    ring

theorem absorbStep_sound {g : Graph} (hg : g.HWF) {ord : Graph → ℕ → List ℕ} (ho : ∀ g, Rules.NbrOrder g (ord g)) {h : ℕ} (hm : h ∈ g.verts)
    (hh : g.ty h = .hbox) (he : ∀ n, g.nbrs h = {n} → g.ty n = .Z → g.adj h n = some .simple) :
    ∃ g', absorbStep ord g h = some g' ∧ HPreserves g g' ∧ g'.ty = g.ty ∧ (∀ u w, u ≠ h → w ≠ h → g'.adj u w = g.adj u w) ∧
      (∀ u, g.ty u = .hbox → u ≠ h → g'.nbrs u = g.nbrs u) ∧
      ∀ v, v ∈ g'.verts ↔ v ∈ g.verts ∧ ¬ (v = h ∧ ∃ n, g.nbrs h = {n} ∧ g.ty n = .Z) := by
  have refl' : HPreserves g g := ⟨hg, rfl, rfl, fun _ => Iff.rfl, fun _ => rfl⟩
  unfold absorbStep
  by_cases hd : g.degree h = 1
  · rw [if_pos hd]
    obtain ⟨n, hn⟩ := Finset.card_eq_one.mp hd
    obtain ⟨o1, o2⟩ := ho g h hm
    have hl : ord g h = [n] := by
      have e2 : (ord g h).length = 1 := by rw [← List.toFinset_card_of_nodup o1, o2]; exact hd
      obtain ⟨y, hy⟩ := List.length_eq_one_iff.mp e2
      rw [hy, hn] at o2
      rw [hy]; simpa using o2
    rw [hl]
    simp only
    by_cases hz : g.ty n = .Z
    · rw [if_pos hz]
      have hi1 : (g.setPhase n (g.phase n + g.phase h)).Inv := hg.toInv.congr rfl rfl rfl rfl rfl rfl
      obtain ⟨g', h3⟩ := removeVertices_isSome hi1 (vs := [h]) (by simp) (by intro v hv; rw [List.mem_singleton.mp hv]; exact hm)
      obtain ⟨a, b, c, -, d⟩ := absorb_sound hg hm hh hn hz (he n hn hz) h3
      refine ⟨g', h3, a, c, d, ?_, ?_⟩
      · intro u hu hne
        ext w
        rw [mem_nbrs a.wf.toInv, mem_nbrs hg.toInv]
        by_cases hw : w = h
        · subst hw
          have e1 : g'.adj u w = none := by
            by_contra hc
            have := a.wf.toInv.mem' hc
            rw [b] at this
            exact Finset.ne_of_mem_erase this rfl
          have e2 : g.adj u w = none := by
            by_contra hc
            rw [hg.symm] at hc
            have := (mem_nbrs hg.toInv).mpr hc
            rw [hn, Finset.mem_singleton] at this
            rw [this, hz] at hu
            exact absurd hu (by decide)
          rw [e1, e2]
        · rw [d u w hne hw]
      · intro v
        rw [b, Finset.mem_erase]
        constructor
        · rintro ⟨h1, h2⟩; exact ⟨h2, fun hc => h1 hc.1⟩
        · rintro ⟨h1, h2⟩; exact ⟨fun hc => h2 ⟨hc, n, hn, hz⟩, h1⟩
    · rw [if_neg hz]
      refine ⟨g, rfl, refl', rfl, fun _ _ _ _ => rfl, fun _ _ _ => rfl, fun v => ⟨fun hv => ⟨hv, ?_⟩, fun hv => hv.1⟩⟩
      rintro ⟨-, n', h1, h2⟩
      rw [hn, Finset.singleton_inj] at h1
      exact hz (h1 ▸ h2)
  · rw [if_neg hd]
    refine ⟨g, rfl, refl', rfl, fun _ _ _ _ => rfl, fun _ _ _ => rfl, fun v => ⟨fun hv => ⟨hv, ?_⟩, fun hv => hv.1⟩⟩
    rintro ⟨-, n, h1, -⟩
    exact hd (by unfold Graph.degree; rw [h1]; simp)

theorem absorb_fold {ord : Graph → ℕ → List ℕ} (ho : ∀ g, Rules.NbrOrder g (ord g)) : ∀ (l : List ℕ) (g : Graph), g.HWF → l.Nodup →
    (∀ h ∈ l, h ∈ g.verts ∧ g.ty h = .hbox) → (∀ h ∈ l, ∀ n, g.nbrs h = {n} → g.ty n = .Z → g.adj h n = some .simple) →
    ∃ g', l.foldlM (absorbStep ord) g = some g' ∧ HPreserves g g' ∧ ∀ v, v ∈ g'.verts ↔ v ∈ g.verts ∧ ¬ (v ∈ l ∧ ∃ n, g.nbrs v = {n} ∧ g.ty n = .Z) := by
  intro l
  induction l with
  | nil => intro g hg _ _ _; exact ⟨g, rfl, ⟨hg, rfl, rfl, fun _ => Iff.rfl, fun _ => rfl⟩, by simp⟩
  | cons h l ih =>
    intro g hg hn hb he
    rw [List.nodup_cons] at hn
    obtain ⟨hm, hh⟩ := hb h List.mem_cons_self
    obtain ⟨g1, h1, h2, h3, h4, h5, h6⟩ := absorbStep_sound hg ho hm hh (he h List.mem_cons_self)
    have hne : ∀ a ∈ l, a ≠ h := fun a ha e => hn.1 (e ▸ ha)
    obtain ⟨g', i1, i2, i3⟩ := ih g1 h2.wf hn.2 (fun a ha => ⟨(h6 a).mpr ⟨(hb a (List.mem_cons_of_mem _ ha)).1, fun hc => hne a ha hc.1⟩,
        by rw [h3]; exact (hb a (List.mem_cons_of_mem _ ha)).2⟩) (by
      intro a ha n e1 e2
      rw [h5 a (hb a (List.mem_cons_of_mem _ ha)).2 (hne a ha)] at e1
      rw [h3] at e2
      rw [h4 a n (hne a ha) (by rintro rfl; rw [hh] at e2; exact absurd e2 (by decide))]
      exact he a (List.mem_cons_of_mem _ ha) n e1 e2)
    refine ⟨g', by rw [List.foldlM_cons, h1]; exact i1, ⟨i2.wf, i2.inputs.trans h2.inputs, i2.outputs.trans h2.outputs,
      fun v => (i2.boundary v).trans (h2.boundary v), fun b => (i2.sem b).trans (h2.sem b)⟩, fun v => ?_⟩
    rw [i3, h6, h3]
    constructor
    · rintro ⟨⟨a, b⟩, c⟩
      refine ⟨a, ?_⟩
      rintro ⟨d, e⟩
      rcases List.mem_cons.mp d with rfl | d
      · exact b ⟨rfl, e⟩
      · refine c ⟨d, ?_⟩
        rw [h5 v (hb v (List.mem_cons_of_mem _ d)).2 (hne v d)]
        exact e
    · rintro ⟨a, b⟩
      refine ⟨⟨a, ?_⟩, ?_⟩
      · rintro ⟨rfl, e⟩
        exact b ⟨List.mem_cons_self, e⟩
      · rintro ⟨d, e⟩
        rw [h5 v (hb v (List.mem_cons_of_mem _ d)).2 (hne v d)] at e
        exact b ⟨List.mem_cons_of_mem _ d, e⟩

end HRules
end PyZX
