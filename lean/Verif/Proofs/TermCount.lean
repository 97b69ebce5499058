import Verif.Model.TCount
import Verif.Proofs.TermLoop

/-!
# The T-count in `interior_clifford_simp`, `clifford_simp` and `full_reduce`
-/

namespace PyZX
namespace Simplify

open Graph Rules

variable {P : ℚ → Prop}

theorem den_iff {g : Graph} {v : ℕ} : (g.phase v ≠ 0 ∧ 2 < (g.phase v).den) ↔ ¬ g.Cl v := by
  constructor
  · exact fun h => den_cl h.2
  · intro h
    have h0 : g.phase v ≠ 0 := fun e => h ⟨0, by rw [e]; simp⟩
    refine ⟨h0, ?_⟩
    by_contra hd
    have hpos := (g.phase v).den_pos
    have e := Rat.num_div_den (g.phase v)
    have : (g.phase v).den = 1 ∨ (g.phase v).den = 2 := by omega
    rcases this with q | q <;> rw [q] at e
    · exact h ⟨2 * (g.phase v).num, by push_cast at e ⊢; linarith⟩
    · exact h ⟨(g.phase v).num, by push_cast at e ⊢; linarith⟩

theorem tcount_eq (g : Graph) [DecidablePred g.Cl] : tcount g = (g.verts.filter fun v => ¬ g.Cl v).card := by
  unfold tcount
  congr 1
  ext v
  simp only [Finset.mem_filter, den_iff]

/-- The potential lies between the T-count times the weight of a spider that is not Clifford, and that plus 4 for every vertex. -/
theorem pot_tcount [Heavy] {g : Graph} (hz : g.ZOnly) (hb : g.PlainBnd) :
    Heavy.N * tcount g ≤ g.pot ∧ g.pot ≤ Heavy.N * tcount g + 4 * g.verts.card := by
  classical
  have hw : ∀ v ∈ g.verts, (if ¬ g.Cl v then Heavy.N else 0) ≤ g.wt v ∧ g.wt v ≤ (if ¬ g.Cl v then Heavy.N else 0) + 4 := by
    intro v hv
    unfold wt
    by_cases hc : g.Cl v
    · rw [if_neg (not_not.mpr hc)]
      refine ⟨Nat.zero_le _, ?_⟩
      split_ifs <;> omega
    · rw [if_pos hc]
      have : g.ty v = .Z := by
        rcases hz v hv with e | e
        · exact absurd ⟨0, by rw [hb.phase v hv e]; simp⟩ hc
        · exact e
      rw [if_neg (by rw [this]; simp)]
      simp [hc]
  have hs : ∑ v ∈ g.verts, (if ¬ g.Cl v then Heavy.N else 0) = Heavy.N * tcount g := by
    rw [← Finset.sum_filter, Finset.sum_const, tcount_eq, smul_eq_mul, mul_comm]
  unfold pot
  constructor
  · rw [← hs]
    exact Finset.sum_le_sum fun v hv => (hw v hv).1
  · have := Finset.sum_le_sum fun v hv => (hw v hv).2
    rw [Finset.sum_add_distrib, hs, Finset.sum_const, smul_eq_mul] at this
    omega

theorem PotLe.tcount {g g' : Graph} (h : PotLe g g') (hz : g.ZOnly) (hb : g.PlainBnd) (hz' : g'.ZOnly) (hb' : g'.PlainBnd) :
    tcount g' ≤ tcount g := by
  let H : Heavy := ⟨16 + 4 * g.verts.card, by omega⟩
  have h1 := (@pot_tcount H g hz hb).2
  have h2 := (@pot_tcount H g' hz' hb').1
  have h3 := h H
  have h4 : (16 + 4 * g.verts.card) * Simplify.tcount g' ≤ (16 + 4 * g.verts.card) * Simplify.tcount g + 4 * g.verts.card :=
    (h2.trans h3).trans h1
  by_contra hc
  have h5 : Simplify.tcount g + 1 ≤ Simplify.tcount g' := by omega
  have h6 := Nat.mul_le_mul_left (16 + 4 * g.verts.card) h5
  rw [mul_add] at h6
  omega

theorem Cut.tcount {g g' : Graph} (h : Cut g g') : tcount g' ≤ tcount g := by
  unfold Simplify.tcount
  rw [h.phase]
  exact Finset.card_le_card (Finset.filter_subset_filter _ h.sub)

/-- Spider fusion does not increase the T-count. -/
theorem spider_tcount (hP : PhaseSet P) {g g' : Graph} (hg : g.ZX P) {ord : ℕ → List ℕ} (hord : Rules.NbrOrder g ord)
    {row0 : ℕ → Bool} {ms : List (ℕ × ℕ)} (h : SpiderOK g (ms.map (Rules.spiderPair row0)))
    (hfin : (Rules.spider row0 ord g ms).finish = some g') : tcount g' ≤ tcount g := by
  classical
  obtain ⟨g1, hfin1, hpr, hzx, hty, hverts⟩ := spider_zx hP hg hord h
  rw [hfin] at hfin1
  cases hfin1
  have hmap : (ms.map fun m => (Rules.spiderPair row0 m).2) = (ms.map (Rules.spiderPair row0)).map (·.2) := by rw [List.map_map]; rfl
  rw [hmap] at hverts
  unfold Rules.spider at hfin
  generalize ms.map (Rules.spiderPair row0) = ps at h hfin hverts
  clear hmap
  have hwf := hg.wf
  have hmv : ∀ p ∈ ps, p.2 ∈ g.verts ∧ p.1 ∈ g.verts := fun p hp =>
    ⟨hwf.toInv.mem' (u := p.1) (by rw [h.adj p hp]; simp), hwf.mem _ p.2 (by rw [h.adj p hp]; simp)⟩
  have hcross : ∀ p ∈ ps, ∀ q ∈ ps, p.1 ≠ q.2 := by
    intro p hp q hq
    by_cases hpq : p = q
    · subst hpq
      intro e
      have := h.adj p hp
      rw [e, hwf.loopless] at this; simp at this
    · exact (h.indep p hp q hq hpq).2.1
  have hnz : ∀ v ∈ g.verts, g.ty v ≠ .zbox := by
    intro v hv
    rcases hg.types v hv with e | e | e <;> rw [e] <;> simp
  obtain ⟨hph1, hph2⟩ := spider_phase ord h (fun p hp => ⟨hnz _ (hmv p hp).2, hnz _ (hmv p hp).1⟩) hcross
  have huniq2 : ∀ p ∈ ps, ∀ q ∈ ps, p.2 = q.2 → p = q := fun p hp q hq e => by
    by_contra hpq
    exact (h.indep p hp q hq hpq).2.2.1 e
  have inV' : ∀ v, v ∈ g'.verts ↔ v ∈ g.verts ∧ ¬ ∃ p ∈ ps, p.2 = v := fun v => by
    rw [hverts, Finset.mem_sdiff, List.mem_toFinset, List.mem_map]
  have hshift := finish_shift hfin
  have key : ∀ v, v ∈ g'.verts → ¬ g'.Cl v → ¬ g.Cl v ∨ ∃ p ∈ ps, p.1 = v ∧ ¬ g.Cl p.2 := by
    intro v hv hn
    by_contra hc
    push Not at hc
    obtain ⟨c1, c2⟩ := hc
    by_cases hk : ∃ p ∈ ps, p.1 = v
    · obtain ⟨p, hp, rfl⟩ := hk
      obtain ⟨k, hk⟩ := hph1 p hp
      obtain ⟨l, hl⟩ := hshift p.1
      exact hn (cl_add (k := k + l) (a := p.1) (b := p.2) (by rw [hl, hk]; push_cast; ring) c1 (c2 p hp rfl))
    · push Not at hk
      have e := hph2 v fun p hp q => hk p hp q.symm
      have q := hshift.cl (v := v)
      unfold Cl at q hn c1
      rw [e] at q
      exact hn (q.mpr c1)
  rw [tcount_eq, tcount_eq]
  refine Finset.card_le_card_of_injOn (fun v => if h : ¬ g.Cl v then v else if k : ∃ p ∈ ps, p.1 = v ∧ ¬ g.Cl p.2 then k.choose.2 else v) ?_ ?_
  · intro v hv
    rw [Finset.mem_coe, Finset.mem_filter] at hv ⊢
    dsimp only
    by_cases hc : ¬ g.Cl v
    · rw [dif_pos hc]; exact ⟨((inV' v).mp hv.1).1, hc⟩
    · rw [dif_neg hc]
      have hk := (key v hv.1 hv.2).resolve_left hc
      rw [dif_pos hk]
      exact ⟨(hmv _ hk.choose_spec.1).1, hk.choose_spec.2.2⟩
  · intro v hv w hw e
    rw [Finset.mem_coe, Finset.mem_filter] at hv hw
    dsimp only at e
    have nv := ((inV' v).mp hv.1).2
    have nw := ((inV' w).mp hw.1).2
    by_cases hc : ¬ g.Cl v <;> by_cases hd : ¬ g.Cl w
    · rwa [dif_pos hc, dif_pos hd] at e
    · have hk := (key w hw.1 hw.2).resolve_left hd
      rw [dif_pos hc, dif_neg hd, dif_pos hk] at e
      exact absurd ⟨_, hk.choose_spec.1, e.symm⟩ nv
    · have hk := (key v hv.1 hv.2).resolve_left hc
      rw [dif_neg hc, dif_pos hk, dif_pos hd] at e
      exact absurd ⟨_, hk.choose_spec.1, e⟩ nw
    · have hk := (key v hv.1 hv.2).resolve_left hc
      have hl := (key w hw.1 hw.2).resolve_left hd
      rw [dif_neg hc, dif_pos hk, dif_neg hd, dif_pos hl] at e
      have := huniq2 _ hk.choose_spec.1 _ hl.choose_spec.1 e
      rw [← hk.choose_spec.2.1, ← hl.choose_spec.2.1, this]

theorem spiderRound_tcount (hP : PhaseSet P) {o : Orders} (ho : o.OK) {g g' : Graph} {c : Bool} (hg : g.ZX P)
    (h : spiderRound o g = some (c, g')) : g'.ZX P ∧ tcount g' ≤ tcount g := by
  obtain ⟨c', g0, e, hz, -⟩ := spiderRound_ok hP ho g hg
  rw [h, Option.some.injEq, Prod.mk.injEq] at e
  obtain ⟨-, rfl⟩ := e
  refine ⟨hz, ?_⟩
  have hok := matchSpider_ok hg.wf (ho.ecand g).1 (-1) (o.row0 g)
  unfold spiderRound at h
  simp only at h
  by_cases hm : matchSpider g (-1) (o.ecand g) = []
  · rw [if_pos hm, Option.some.injEq, Prod.mk.injEq] at h
    rw [← h.2]
  · rw [if_neg hm] at h
    obtain ⟨g1, h1, -, h3, -⟩ := spider_zx hP hg (ho.nbr g) hok
    obtain ⟨-, k2, -⟩ := afterRewrite_cut hP ho h1 h3 h
    exact (Cut.tcount k2).trans (spider_tcount hP hg (ho.nbr g) hok h1)

/-- `interior_clifford_simp` does not increase the T-count. -/
theorem interior_tcount (hP : PhaseSet P) {ω : ℕ → Orders} (ho : ∀ t, (ω t).OK) {fuel t : ℕ} {g : Graph} (hg : g.ZX P) (hb : g.PlainBnd)
    (hf : g.verts.card < fuel) {g' : Graph} {t' i : ℕ} (h : interiorCliffordSimp ω fuel t g = .done g' t' i) : tcount g' ≤ tcount g := by
  obtain ⟨g1, t1, i1, a1, a2, a3, a4, -, -⟩ := simp_ok (fun t => spiderRound_ok hP (ho t)) fuel t g hg hf
  obtain ⟨b1, b2, b3, b4⟩ := toGH_zx a2 ((ho t1).nbr g1) ((ho t1).all g1).2
  obtain ⟨g2, t2, i2, c1, c2, c3, -, -, -⟩ := interiorLoop_ok hP ho fuel fuel (t1 + 1) _ b2 (by rw [b3]; omega) (by rw [b3]; omega)
  have e : interiorCliffordSimp ω fuel t g = .done g2 t2 i2 := by simp only [interiorCliffordSimp, spiderSimp, a1, Run.bind, c1]
  rw [h, Run.done.injEq] at e
  obtain ⟨rfl, -, -⟩ := e
  have k1 : tcount g1 ≤ tcount g := (simp_inv (I := fun g => g.ZX P) (R := fun g g' => tcount g' ≤ tcount g)
    (fun t g c g' hg h => spiderRound_tcount hP (ho t) hg h) (fun _ _ _ h1 h2 => h2.trans h1) _ _ _ _ _ _ hg a1).2
  have hb2 : (toGH g1 ((ω t1).nbr g1) ((ω t1).all g1)).PlainBnd :=
    Keeps.plainBnd (a3.keeps.trans (b1.keeps (toGH_bph a2.wf ((ho t1).nbr g1) ((ho t1).all g1).2))) hb
  have hz2 : (toGH g1 ((ω t1).nbr g1) ((ω t1).all g1)).ZOnly := fun v hv => b4 v (by rw [← b3]; exact hv)
  have hz3 : g'.ZOnly := by
    intro v hv
    rw [c3.ty]
    exact hz2 v (c3.verts hv)
  have k2 : tcount (toGH g1 ((ω t1).nbr g1) ((ω t1).all g1)) = tcount g1 := by
    have hr : Recolored g1 (toGH g1 ((ω t1).nbr g1) ((ω t1).all g1)) := by
      rw [toGH_eq]
      exact toRG_sound _ _ _ g1 a2.wf ((ho t1).nbr g1) fun v hv => by rw [← ((ho t1).all g1).2]; simpa using hv
    unfold tcount
    rw [hr.phase, b3]
  have k3 : PotLe (toGH g1 ((ω t1).nbr g1) ((ω t1).all g1)) g' := fun H =>
    (@interiorLoop_rel _ H hP _ ho fuel _ _ _ _ _ _ ⟨b2, hz2⟩ c1).2.le
  have := k3.tcount hz2 hb2 hz3 (Keeps.plainBnd c3.keeps hb2)
  omega

/-- `clifford_simp` does not increase the T-count. -/
theorem clifford_tcount (hP : PhaseSet P) {ω : ℕ → Orders} (ho : ∀ t, (ω t).OK) (hfu : ∀ t, (ω t).Full) {fuel n t : ℕ} {g : Graph}
    (hg : g.ZX P) (hb : g.PlainBnd) (hf : 32 * g.verts.card < fuel) (hn : 16 * g.verts.card + 1 < n) {g' : Graph} {t' i : ℕ}
    (h : cliffordSimp ω fuel n t g = .done g' t' i) : tcount g' ≤ tcount g := by
  obtain ⟨n, rfl⟩ : ∃ m, n = m + 1 := ⟨n - 1, by omega⟩
  obtain ⟨g1, t1, i1, a1, a2, a3, a4, a5, a6, -⟩ := interior16 hP ho hfu hg (show g.verts.card < fuel by omega) (t := t)
  have k1 := interior_tcount hP ho hg hb (by omega) a1
  have hb1 := Keeps.plainBnd a3 hb
  have hz1 : g1.ZOnly := a5.types
  have hc1 := Finset.card_le_card a4
  unfold cliffordSimp at h
  rw [a1] at h
  simp only [Run.bind] at h
  rcases simp_end (fun t => pivotBoundaryRound_ok hP (ho t)) (fun _ _ _ => Keeps.trans) fuel t1 g1 ⟨a2, InteriorNF.zHad a5⟩ with
    ⟨-, hr⟩ | ⟨g2, t2, i2, b1, b2, b3, b4, b5, b6⟩
  · have := bndM_card_le g1
    simp only at hr; omega
  have e : pivotBoundarySimp ω fuel t1 g1 = .done g2 t2 i2 := b1
  rw [e] at h
  simp only at h
  obtain ⟨d1, d2⟩ := pivotBoundarySimp_rel hP ho (fuel := fuel) (t := t1) (g := g1) (g' := g2) (t' := t2) (i := i2)
    ⟨⟨a2, InteriorNF.zHad a5⟩, hz1⟩ b1
  have k2 : tcount g2 ≤ tcount g1 := by
    refine PotLe.tcount (fun H => ?_) hz1 hb1 d1.2 (Keeps.plainBnd b3 hb1)
    exact (@pivotBoundarySimp_rel _ H hP _ ho _ _ _ _ _ _ ⟨⟨a2, InteriorNF.zHad a5⟩, hz1⟩ b1).2.brel.le
  by_cases hi : i2 = 0
  · rw [if_pos hi, Run.done.injEq] at h
    rw [← h.1]; omega
  · rw [if_neg hi] at h
    obtain ⟨g3, t3, i3, f1, f2⟩ := Run.bind_done h
    rw [Run.done.injEq] at f2
    obtain ⟨rfl, -, -⟩ := f2
    have hb2 := Keeps.plainBnd b3 hb1
    have hp := d2.brel.le
    have hcd := d2.card
    have hbn := bndM_card_le g1
    obtain ⟨g4, t4, i4, j1, j2, j3, j4, -, -, -, j8⟩ := cliffordSimp_end hP ho hfu (fuel := fuel) (K := 16 * g.verts.card) (by omega) n t2 g2 d1.1.1
      (by omega) (Or.inl ⟨d1.2, by omega, Or.inl (by omega)⟩)
    rw [f1, Run.done.injEq] at j1
    obtain ⟨rfl, -, -⟩ := j1
    have := (j8 d1.2).tcount d1.2 hb2 j4.types (Keeps.plainBnd j3 hb2)
    omega

/-- `full_reduce` does not increase the T-count. -/
theorem full_tcount (hP : PhaseSet P) {ω : ℕ → Orders} (ho : ∀ t, (ω t).OK) (hfu : ∀ t, (ω t).Full) {fuel t : ℕ} {g : Graph}
    (hg : g.ZX P) (hb : g.PlainBnd) (hf : 32 * g.verts.card + 1 < fuel) :
    ∃ g' t', fullReduce ω fuel t g = .done g' t' 0 ∧ g'.FullNF ∧ tcount g' ≤ tcount g := by
  obtain ⟨g1, t1, g', t', ⟨i, h0⟩, h1, h2, h3, h4, h5, -, h7, h8, h9⟩ := fullReduce_run hP ho hfu (t := t) hg hb hf
  have k := interior_tcount hP ho hg hb (by omega) h0
  have hb1 := Keeps.plainBnd h2 hb
  exact ⟨g', t', h5, h8, (h9.tcount h3 hb1 h8.interior.types (Keeps.plainBnd h4 hb1)).trans k⟩

end Simplify
end PyZX
