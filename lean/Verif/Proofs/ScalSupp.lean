import Verif.Model.Simulate
import Verif.Props.Supp
import Verif.Props.Magic
import Verif.Proofs.ScalSep

/-!
# A pass of `supplementarity_simp`
-/

namespace PyZX
namespace Simplify
open Graph Rules Props

variable {P : ℚ → Prop}

theorem foldlM_removeVertex1_nodup {vs : List ℕ} : ∀ {g g' : Graph}, vs.foldlM Graph.removeVertex1 g = some g' → vs.Nodup := by
  induction vs with
  | nil => intros; exact List.nodup_nil
  | cons v vs ih =>
    intro g g' h
    simp only [List.foldlM_cons, Option.bind_eq_bind] at h
    obtain ⟨g1, h1, h2⟩ := Option.bind_eq_some_iff.mp h
    refine List.nodup_cons.mpr ⟨fun hv => ?_, ih h2⟩
    have := (foldlM_removeVertex1 h2).2.1 v hv
    rw [(removeVertex1_eq h1).2] at this
    simp at this

theorem removeVertices_nodup {g g' : Graph} {vs : List ℕ} (h : g.removeVertices vs = some g') : vs.Nodup := by
  unfold removeVertices at h
  obtain ⟨g1, h1, -⟩ := Option.map_eq_some_iff.mp h
  exact foldlM_removeVertex1_nodup h1

/-- The graph after the phases have been changed. -/
structure SuppFrame (P : ℚ → Prop) (g g' : Graph) : Prop where
  same : SameBut g g'
  phase : ∀ u, P (g.phase u) → P (g'.phase u)
  den : ∀ u, (g'.phase u).den = (g.phase u).den

theorem SuppFrame.refl (g : Graph) : SuppFrame P g g := ⟨SameBut.refl g, fun _ h => h, fun _ => rfl⟩

theorem SuppFrame.trans {a b c : Graph} (h : SuppFrame P a b) (h' : SuppFrame P b c) : SuppFrame P a c :=
  ⟨h.same.trans h'.same, fun u hu => h'.phase u (h.phase u hu), fun u => (h'.den u).trans (h.den u)⟩

theorem frame_addToPhases (hP : PhaseSet P) (vs : List ℕ) : ∀ g : Graph, SuppFrame P g (addToPhases g vs 1) := by
  induction vs with
  | nil => exact fun g => SuppFrame.refl g
  | cons v vs ih =>
    intro g
    refine SuppFrame.trans (b := g.addToPhase v 1) ⟨sameBut_addToPhase g v 1, fun u hu => ?_, fun u => ?_⟩ (ih _)
    · unfold addToPhase
      by_cases e : u = v
      · rw [e] at hu ⊢
        simp only [Function.update_self]
        exact hP.add _ _ hu hP.one
      · simp only [Function.update_of_ne e]
        exact hu
    · unfold addToPhase
      by_cases e : u = v
      · rw [e]
        simp only [Function.update_self]
        rw [mod2_den, show g.phase v + 1 = g.phase v + ((1 : ℤ) : ℚ) by norm_num, Rat.add_intCast_den]
      · simp only [Function.update_of_ne e]

theorem suppApply_frame (hP : PhaseSet P) {lst : Finset ℕ → List ℕ} {h h' : Graph} {rem rem' : List ℕ} {m : SuppMatch}
    (e : suppApply lst (h, rem) m = some (h', rem')) : SuppFrame P h h' ∧ rem' = rem ++ [m.v, m.w] ∧ ∀ u, u ∉ lst m.neigh → h'.phase u = h.phase u := by
  have hnode : ∀ (k : Graph) p, SuppFrame P k (addNode k p) := fun k p => ⟨⟨⟨rfl, rfl, rfl, rfl, rfl⟩, rfl, rfl, rfl⟩, fun _ h => h, fun _ => rfl⟩
  have hpow : ∀ (k : Graph) p, SuppFrame P k (k.addPower p) := fun k p => ⟨⟨⟨rfl, rfl, rfl, rfl, rfl⟩, rfl, rfl, rfl⟩, fun _ h => h, fun _ => rfl⟩
  have hsph : ∀ (k : Graph) p, SuppFrame P k (k.addScalarPhase p) := fun k p =>
    ⟨⟨⟨rfl, rfl, rfl, rfl, rfl⟩, rfl, rfl, rfl⟩, fun _ h => h, fun _ => rfl⟩
  unfold suppApply at e
  simp only at e
  split_ifs at e <;> simp only [Option.some.injEq, Prod.mk.injEq] at e <;> obtain ⟨rfl, rfl⟩ := e <;> refine ⟨?_, rfl, fun u hu => ?_⟩
  · exact (((hpow _ _).trans (hnode _ _)).trans (hsph _ _)).trans (frame_addToPhases hP _ _)
  · exact (addToPhases_spec _ _ _).2.1 u hu
  · exact (hpow _ _).trans (hnode _ _)
  · rfl
  · exact ((((hpow _ _).trans (hpow _ _)).trans (hnode _ _)).trans (hsph _ _)).trans (frame_addToPhases hP _ _)
  · exact (addToPhases_spec _ _ _).2.1 u hu
  · exact ((hpow _ _).trans (hpow _ _)).trans (hnode _ _)
  · rfl

theorem suppFold_frame (hP : PhaseSet P) {lst : Finset ℕ → List ℕ} (ms : List SuppMatch) : ∀ {h h' : Graph} {rem rem' : List ℕ},
    ms.foldlM (suppApply lst) (h, rem) = some (h', rem') → SuppFrame P h h' ∧ rem' = rem ++ (ms.flatMap fun m => [m.v, m.w]) ∧
      ∀ u, (∀ m ∈ ms, u ∉ lst m.neigh) → h'.phase u = h.phase u := by
  induction ms with
  | nil =>
    intro h h' rem rem' e
    simp only [List.foldlM_nil, Option.pure_def, Option.some.injEq, Prod.mk.injEq] at e
    obtain ⟨rfl, rfl⟩ := e
    exact ⟨SuppFrame.refl _, by simp, fun _ _ => rfl⟩
  | cons m ms ih =>
    intro h h' rem rem' e
    rw [List.foldlM_cons, Option.bind_eq_bind] at e
    obtain ⟨⟨h1, r1⟩, e1, e2⟩ := Option.bind_eq_some_iff.mp e
    obtain ⟨f1, rfl, p1⟩ := suppApply_frame hP e1
    obtain ⟨f2, rfl, p2⟩ := ih e2
    exact ⟨f1.trans f2, by simp, fun u hu => (p2 u fun m' hm' => hu m' (by simp [hm'])).trans (p1 u (hu m (by simp)))⟩

/-- `apply_supplementarity`, if it returns. -/
theorem applySupp_returns (hP : PhaseSet P) {lst : Finset ℕ → List ℕ} (hl : SetOrder lst) {g g' : Graph} (hg : SuppBase g) {cands : List ℕ}
    (hn : cands.Nodup) (hc : ∀ c ∈ cands, c ∈ g.verts) (h : applySupp g lst (matchSupp g lst cands) = some g') :
    Preserves g g' ∧ g'.verts.card + 2 * (matchSupp g lst cands).length = g.verts.card ∧
      ∃ g1, SuppFrame P g g1 ∧ (∀ u, (∀ m ∈ matchSupp g lst cands, u ∉ m.neigh) → g1.phase u = g.phase u) ∧
        Removed g1 g' ((matchSupp g lst cands).flatMap fun m => [m.v, m.w]).toFinset := by
  obtain ⟨h1, h2, h3⟩ := matchSupp_weak hg hl hn hc
  set ms := matchSupp g lst cands with hms
  have h0 := h
  unfold applySupp at h
  obtain ⟨⟨g1, rem⟩, e1, e2⟩ := Option.bind_eq_some_iff.mp h
  obtain ⟨f1, rfl, p1⟩ := suppFold_frame hP ms e1
  simp only [List.nil_append] at e2
  have hnd := removeVertices_nodup e2
  rw [List.nodup_flatMap] at hnd
  have hpw := hnd.2.and h3
  obtain ⟨g'', k1, k2, k3⟩ := applySupp_preserves hl hg.wf h1 (hpw.imp fun {a b} hab => ⟨by
    obtain ⟨d, -⟩ := hab
    rw [Function.onFun, List.disjoint_iff_ne] at d
    ext u
    simp only [Finset.mem_inter, Finset.mem_insert, Finset.mem_singleton, Finset.notMem_empty, iff_false, not_and]
    intro hu hu'
    exact d u (by simpa using hu) u (by simpa using hu') rfl, hab.2.2⟩)
  rw [h0, Option.some.injEq] at k1
  rw [← k1] at k2 k3
  refine ⟨k2, k3, g1, f1, fun u hu => p1 u fun m hm hul => hu m hm ?_, (removeVertices_spec e2).1⟩
  rwa [← List.mem_toFinset, (hl _).2] at hul

theorem suppBase_of {g : Graph} (hg : g.ZX P) (hh : g.ZHad) (hz : g.ZOnly) (hb : g.PlainBnd) : SuppBase g :=
  ⟨hg.wf, hg.bdeg, hz, hh, hb.phase⟩

theorem suppRound_spec (hP : PhaseSet P) {o : Orders} (ho : o.OK) {g g' : Graph} {c : Bool} (hg : g.ZX P) (hh : g.ZHad) (hz : g.ZOnly)
    (hb : g.PlainBnd) (h : suppRound o g = some (c, g')) :
    (g'.ZX P ∧ g'.ZHad ∧ g'.ZOnly) ∧ Keeps P g g' ∧ g'.verts ⊆ g.verts ∧ (c = false → g' = g) ∧
      (c = true → Simplify.tcount g' < Simplify.tcount g) := by
  unfold suppRound at h
  simp only at h
  by_cases hm : matchSupp g o.lst (o.vcand g) = []
  · rw [if_pos hm, Option.some.injEq, Prod.mk.injEq] at h
    obtain ⟨rfl, rfl⟩ := h
    exact ⟨⟨hg, hh, hz⟩, Keeps.refl hg.wf, Finset.Subset.refl _, fun _ => rfl, by simp⟩
  rw [if_neg hm] at h
  obtain ⟨g2, e1, e2⟩ := Option.bind_eq_some_iff.mp h
  obtain ⟨g3, e3, e4⟩ := Option.map_eq_some_iff.mp e2
  rw [Prod.mk.injEq] at e4
  obtain ⟨rfl, rfl⟩ := e4
  have hsb := suppBase_of hg hh hz hb
  obtain ⟨h1, h2, -⟩ := matchSupp_weak hsb ho.lst (ho.vcand g).1 (ho.vcand g).2
  obtain ⟨k1, k2, g1, fr, po, rm⟩ := applySupp_returns hP ho.lst hsb (ho.vcand g).1 (ho.vcand g).2 e1
  set ms := matchSupp g o.lst (o.vcand g) with hms
  set R := (ms.flatMap fun m => [m.v, m.w]).toFinset with hR
  have hRm : ∀ v, v ∈ R ↔ ∃ m ∈ ms, v = m.v ∨ v = m.w := by
    intro v; rw [hR, List.mem_toFinset, List.mem_flatMap]; simp
  have hv : g2.verts = g.verts \ R := by rw [rm.verts, fr.same.verts]
  have hty : g2.ty = g.ty := by rw [rm.ty, fr.same.ty]
  have hadj : ∀ a b, a ∉ R → b ∉ R → g2.adj a b = g.adj a b := fun a b ha hb => by rw [rm.adj a b ha hb, fr.same.adj]
  have hsub : g2.verts ⊆ g.verts := by rw [hv]; exact Finset.sdiff_subset
  have hadj' : ∀ a b, g2.adj a b ≠ none → g2.adj a b = g.adj a b := by
    intro a b hab
    have ha := k1.wf.mem _ _ hab
    have hb' := k1.wf.mem _ _ (by rw [k1.wf.symm]; exact hab)
    rw [hv] at ha hb'
    exact hadj a b (Finset.mem_sdiff.mp ha).2 (Finset.mem_sdiff.mp hb').2
  have hph : g2.phase = g1.phase := rm.phase
  have hzx2 : g2.ZX P := by
    refine ⟨k1.wf, fun b hb1 hb2 u w hu hw => ?_, fun b hb1 hb2 => ?_, fun v hv' => ?_, fun v hv' => ?_⟩
    · rw [hty] at hb2
      exact hg.bdeg b (hsub hb1) hb2 u w (by rw [← hadj' _ _ hu]; exact hu) (by rw [← hadj' _ _ hw]; exact hw)
    · rw [hty] at hb2
      obtain ⟨z, hz'⟩ := hg.badj b (hsub hb1) hb2
      refine ⟨z, ?_⟩
      rw [hadj b z ?_ ?_]
      · exact hz'
      · rw [hv] at hb1; exact (Finset.mem_sdiff.mp hb1).2
      · intro hzR
        obtain ⟨m, hm', hzm⟩ := (hRm z).mp hzR
        have ok := h1 m hm'
        have hne : ∀ u, g.ty u = .Z → b ≠ u := fun u hu e => by rw [e, hu] at hb2; exact absurd hb2 (by decide)
        have : b ∈ m.neigh := by
          rcases hzm with e | e
          · exact (ok.nv b).mpr ⟨hne _ ok.tw, by rw [hg.wf.symm, ← e]; exact hz'⟩
          · exact (ok.nw b).mpr ⟨hne _ ok.tv, by rw [hg.wf.symm, ← e]; exact hz'⟩
        rw [(ok.nty b this).1] at hb2
        exact absurd hb2 (by decide)
    · rw [hty]; exact hg.types v (hsub hv')
    · rw [hph]; exact fr.phase v (hg.phases v (hsub hv'))
  have hbp : BPh g g2 := by
    intro v hv' ht
    rw [hph]
    exact po v fun m hm' hvn => by rw [((h1 m hm').nty v hvn).1] at ht; exact absurd ht (by decide)
  have hk2 : Keeps P g g2 := k1.keeps hbp
  obtain ⟨g4, r1, r2, r3, r4, r5⟩ := removeIsolated_zx hP hzx2 (ho.nbr g2) (ho.all g2).1 (ho.all g2).2
  rw [e3, Option.some.injEq] at r1
  subst r1
  obtain ⟨-, -, q3, q4, -⟩ := Props.removeIsolated_removes hzx2.wf (hzx2.isoOK hP) (ho.nbr g2) (ho.all g2).1 (ho.all g2).2 e3
  refine ⟨⟨r3, fun a b ha hb' hab => ?_, fun v hv' => ?_⟩, hk2.trans r2, r5.trans hsub, by simp, fun _ => ?_⟩
  · have i1 := r3.wf.mem _ _ hab
    have i2 := r3.wf.mem _ _ (by rw [r3.wf.symm]; exact hab)
    have e := q4 a i1 b i2
    rw [e] at hab ⊢
    rw [hadj' _ _ hab]
    rw [r4, hty] at ha hb'
    exact hh a b ha hb' (by rw [← hadj' _ _ hab]; exact hab)
  · rw [r4, hty]; exact hz v (hsub (r5 hv'))
  · obtain ⟨m, hm'⟩ := List.exists_mem_of_ne_nil _ hm
    unfold Simplify.tcount
    refine Finset.card_lt_card (Finset.ssubset_iff_of_subset (fun v hv' => ?_) |>.mpr ⟨m.v, ?_, fun hc' => ?_⟩)
    · rw [Finset.mem_filter] at hv' ⊢
      obtain ⟨a1, a2, a3⟩ := hv'
      rw [q3, hph, fr.den] at a3
      refine ⟨hsub (r5 a1), fun h0 => ?_, a3⟩
      rw [h0] at a3
      exact absurd a3 (by decide)
    · have a3 := (h2 m hm').1
      refine Finset.mem_filter.mpr ⟨(h1 m hm').v, fun h0 => ?_, a3⟩
      rw [h0] at a3
      exact absurd a3 (by decide)
    · have := r5 (Finset.mem_filter.mp hc').1
      rw [hv] at this
      exact (Finset.mem_sdiff.mp this).2 ((hRm _).mpr ⟨m, hm', Or.inl rfl⟩)

end Simplify
end PyZX
