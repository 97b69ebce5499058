import Verif.Proofs.TermPasses

/-!
# The potential during `gadget_simp`
-/

namespace PyZX
namespace Simplify

open Graph Rules Props

set_option linter.unusedSectionVars false

variable {P : ℚ → Prop} [Heavy]

/-- Two diagrams that differ only in phases, of the same classes. -/
structure Same (g g' : Graph) : Prop where
  verts : g'.verts = g.verts
  adj : g'.adj = g.adj
  ty : g'.ty = g.ty
  cl : ∀ v, g'.Cl v ↔ g.Cl v
  pl : ∀ v, g'.Pl v ↔ g.Pl v

theorem Same.refl (g : Graph) : Same g g := ⟨rfl, rfl, rfl, fun _ => Iff.rfl, fun _ => Iff.rfl⟩

theorem Same.symm {a b : Graph} (h : Same a b) : Same b a :=
  ⟨h.verts.symm, h.adj.symm, h.ty.symm, fun v => (h.cl v).symm, fun v => (h.pl v).symm⟩

theorem Same.trans {a b c : Graph} (h : Same a b) (h' : Same b c) : Same a c :=
  ⟨h'.verts.trans h.verts, h'.adj.trans h.adj, h'.ty.trans h.ty, fun v => (h'.cl v).trans (h.cl v), fun v => (h'.pl v).trans (h.pl v)⟩

theorem Same.wt_le {g g' : Graph} (h : Same g g') (v : ℕ) : g'.wt v ≤ g.wt v := by
  refine Graph.wt_le (by rw [h.ty]) (h.cl v).mpr ?_ ?_ fun x hx => ⟨?_, (h.cl x).mpr⟩
  · unfold Bd; rw [h.adj, h.ty]; exact id
  · unfold Bd; rw [h.adj, h.ty]; exact id
  · unfold Lf at hx ⊢; rw [h.adj, h.ty]; exact hx

theorem Same.wt {g g' : Graph} (h : Same g g') (v : ℕ) : g'.wt v = g.wt v := le_antisymm (h.wt_le v) (h.symm.wt_le v)

theorem Same.pot {g g' : Graph} (h : Same g g') : g'.pot = g.pot := by
  unfold Graph.pot
  rw [h.verts]
  exact Finset.sum_congr rfl fun v _ => h.wt v

theorem Same.allPos {g g' : Graph} (h : Same g g') (ha : g.AllPos) : g'.AllPos := by
  intro v hv hc
  have h1 := wt_ctr hc
  rw [h.wt] at h1
  exact ha v (by rw [← h.verts]; exact hv) (wt_zero h1)

theorem Same.boundary (hP : PhaseSet P) {g g' : Graph} (h : Same g g') (hg : g.ZX P) (hg' : g'.ZX P) (hb : g.NoBoundaryPivot) :
    g'.NoBoundaryPivot := by
  have hn : ∀ v, g'.nbrs v = g.nbrs v := by
    intro v
    ext w
    rw [mem_nbrs hg'.wf.toInv, mem_nbrs hg.wf.toInv, h.adj]
  intro v hv hty hph hnb w hw hbn
  have hv' : v ∈ g.verts := by rw [← h.verts]; exact hv
  rw [h.adj] at hw
  obtain ⟨u, u1, u2, u3⟩ := hb v hv' (by rw [← h.ty]; exact hty) (pl_cases hP hg hv' ((h.pl v).mp (pl_of hph)))
    (fun n hne => by
      have := hnb n (by rw [h.adj]; exact hne)
      rw [h.ty, hn] at this
      exact this) w hw (by
      unfold bnds at hbn ⊢
      rw [hn, h.ty] at hbn
      exact hbn)
  exact ⟨u, by rw [h.adj]; exact u1, by rw [h.ty]; exact u2, by rw [h.ty]; exact u3⟩

/-- What fusing gadgets does. -/
def FRel (g g' : Graph) : Prop := g'.pot ≤ g.pot ∧ g'.verts ⊆ g.verts ∧ (g.AllPos → g'.pot < g.pot ∨ Same g g')

theorem FRel.refl (g : Graph) : FRel g g := ⟨le_rfl, Finset.Subset.refl _, fun _ => Or.inr (Same.refl g)⟩

theorem FRel.trans {a b c : Graph} (h : FRel a b) (h' : FRel b c) : FRel a c := by
  refine ⟨h'.1.trans h.1, h'.2.1.trans h.2.1, fun ha => ?_⟩
  rcases h.2.2 ha with k | k
  · left; have := h'.1; omega
  · rcases h'.2.2 (k.allPos ha) with l | l
    · left; have := h.1; omega
    · exact Or.inr (k.trans l)

theorem den_cl {g : Graph} {v : ℕ} (h : 2 < (g.phase v).den) : ¬ g.Cl v := by
  rintro ⟨k, hk⟩
  have e : g.phase v = Rat.divInt k 2 := by
    rw [Rat.divInt_eq_div]
    push_cast
    linarith
  have h1 : ((g.phase v).den : ℤ) ∣ 2 := by rw [e]; exact Rat.den_dvd k 2
  have h2 := Int.le_of_dvd (by norm_num) h1
  omega

theorem gMatch_rem {g : Graph} {d : GadGroup} {m : GadMatch} (h : m ∈ gMatch g d) {r : ℕ} (hr : r ∈ mRem m) :
    ∃ q ∈ d.mem, (r = q.1 ∨ r = q.2) ∧ q.1 ∈ mRem m ∧ q.2 ∈ mRem m := by
  obtain ⟨P, mem⟩ := d
  match mem with
  | [] => simp [gMatch] at h
  | [q] =>
    simp only [gMatch] at h
    by_cases c : g.phase q.1 ≠ 0
    · rw [if_pos c, List.mem_singleton] at h
      rw [h] at hr
      simp [mRem] at hr
    · rw [if_neg c] at h; simp at h
  | q :: q' :: L =>
    simp only [gMatch, List.mem_singleton] at h
    have hd : ∀ r ∈ (q :: q' :: L).dropLast, r ∈ q :: q' :: L := fun r hr => List.dropLast_subset _ hr
    have key : ∀ p ∈ (q :: q' :: L).dropLast, p.1 ∈ mRem m ∧ p.2 ∈ mRem m := by
      intro p hp
      rw [h]
      unfold mRem
      exact ⟨List.mem_append_left _ (List.mem_map_of_mem hp), List.mem_append_right _ (List.mem_map_of_mem hp)⟩
    have hr' := hr
    rw [h] at hr'
    unfold mRem at hr'
    rcases List.mem_append.mp hr' with hr' | hr'
    · obtain ⟨p, hp, rfl⟩ := List.mem_map.mp hr'
      exact ⟨p, hd p hp, Or.inl rfl, key p hp⟩
    · obtain ⟨p, hp, rfl⟩ := List.mem_map.mp hr'
      exact ⟨p, hd p hp, Or.inr rfl, key p hp⟩

/-- Fusing gadgets does not increase the potential. -/
theorem fused_rel {g g' : Graph} {ds : List GadGroup} {R : Finset ℕ} (h : Fused P g g' ds R)
    (hG : ∀ d ∈ ds, ∀ q ∈ d.mem, IsGadget g q.1 q.2) (hR : ∀ m ∈ ds.flatMap (gMatch g), ∀ a ∈ m.axels, a ∈ R)
    (hRR : ∀ r ∈ R, ∃ d ∈ ds, ∃ q ∈ d.mem, (r = q.1 ∨ r = q.2) ∧ q.1 ∈ R ∧ q.2 ∈ R) : FRel g g' := by
  have hwf := h.gf.zx.wf
  have ncl : ∀ d ∈ ds, ∀ q ∈ d.mem, ¬ g.Cl q.2 := fun d hd q hq => den_cl (hG d hd q hq).2.1
  have hsub : ∀ v ∈ g'.verts, v ∈ g.verts ∧ v ∉ R := fun v hv => by rw [h.verts, Finset.mem_sdiff] at hv; exact hv
  have cls : ∀ v, g.Cl v → g'.Cl v := by
    intro v hv
    by_cases hk : v ∈ (ds.flatMap (gMatch g)).flatMap mKeys
    · obtain ⟨d, hdd, m, hm, hmm, e | e, m1, m2, m3, m4⟩ := h.keys hk
      · rw [e] at hv; exact absurd hv (ncl d hdd _ hmm)
      · exact ⟨0, by rw [e, m4]; simp⟩
    · obtain ⟨k, hk'⟩ := hv
      exact ⟨k, by rw [h.other v hk]; exact hk'⟩
  have hremV : ∀ r ∈ R, r ∈ g.verts := by
    intro r hr
    obtain ⟨d, hd, q, hq, e, -⟩ := hRR r hr
    have k := (h.ok d hd).mem _ hq
    rcases e with rfl | rfl
    · exact k.nm
    · exact k.vm
  have adj01 : ∀ d ∈ ds, ∀ q ∈ d.mem, g.adj q.2 q.1 ≠ none := by
    intro d hd q hq
    exact (mem_nbrs hwf.toInv).mp (by rw [(hG d hd q hq).1]; simp)
  have wts : ∀ v ∈ g'.verts, g'.wt v ≤ g.wt v := by
    intro v hv
    obtain ⟨v1, v2⟩ := hsub v hv
    refine wt_le (by rw [h.after.ty]) (cls v) ?_ ?_ ?_
    · rintro ⟨b, hb, hbt⟩
      refine ⟨b, ?_, by rw [h.after.ty]; exact hbt⟩
      rw [h.after.adj v b v2 fun hr => by rw [h.remTy hr] at hbt; cases hbt]
      exact hb
    · rintro ⟨b, hb, hbt⟩
      exact ⟨b, h.after.adj' _ _ hb, by rw [← h.after.ty]; exact hbt⟩
    · intro x hx
      have hxR : x ∉ R := by
        intro hr
        obtain ⟨d, hd, q, hq, e, q1, q2⟩ := hRR x hr
        have ha := adj01 d hd q hq
        rcases e with rfl | rfl
        · rw [hwf.symm] at ha
          exact v2 ((hx.2 _).mp ha ▸ q2)
        · exact v2 ((hx.2 _).mp ha ▸ q1)
      refine ⟨⟨by rw [h.after.ty]; exact hx.1, fun w => ⟨fun hw => (hx.2 w).mp (h.after.adj' _ _ hw), ?_⟩⟩, cls x⟩
      rintro rfl
      rw [h.after.adj x w hxR v2]
      exact (hx.2 w).mpr rfl
  have hp1 : g'.pot ≤ ∑ v ∈ g.verts \ R, g.wt v := by
    unfold pot
    rw [← h.verts]
    exact Finset.sum_le_sum wts
  have hp2 : ∑ v ∈ g.verts \ R, g.wt v ≤ g.pot := Finset.sum_le_sum_of_subset Finset.sdiff_subset
  refine ⟨hp1.trans hp2, fun v hv => (hsub v hv).1, fun ha => ?_⟩
  by_cases hRe : R = ∅
  · right
    subst hRe
    have hcp : ∀ v, (g'.Cl v ↔ g.Cl v) ∧ (g'.Pl v ↔ g.Pl v) := by
      intro v
      by_cases hk : v ∈ (ds.flatMap (gMatch g)).flatMap mKeys
      · obtain ⟨d, hdd, m, hm, hmm, e, m1, m2, m3, m4⟩ := h.keys hk
        have hax : m.axels = [] := List.eq_nil_iff_forall_not_mem.mpr fun a ha' => by
          have := hR m (List.mem_flatMap.mpr ⟨d, hdd, hm⟩) a ha'
          simp at this
        have hph : m.phase = -g.phase m.leaf := by
          obtain ⟨-, ⟨-, -, -, -, q⟩ | ⟨-, q, -⟩⟩ := gMatch_mem hm
          · exact q
          · exact absurd hax q
        rcases e with rfl | rfl
        · have e1 : g'.phase m.leaf = -g.phase m.leaf - 2 * (⌊-g.phase m.leaf / 2⌋ : ℤ) := by
            rw [m3, hph]; unfold mod2; ring
          set z := ⌊-g.phase m.leaf / 2⌋
          constructor
          · constructor
            · rintro ⟨k, hk⟩; exact ⟨-k - 4 * z, by push_cast; rw [← hk, e1]; ring⟩
            · rintro ⟨k, hk⟩; exact ⟨-k - 4 * z, by push_cast; rw [← hk, e1]; ring⟩
          · constructor
            · rintro ⟨k, hk⟩; exact ⟨-k - 2 * z, by push_cast; rw [← hk, e1]; ring⟩
            · rintro ⟨k, hk⟩; exact ⟨-k - 2 * z, by push_cast; rw [← hk, e1]⟩
        · have a1 : g'.Pl m.axel := ⟨0, by rw [m4]; simp⟩
          have a2 : g.Pl m.axel := pl_of (((h.ok d hdd).mem _ hmm).phase)
          exact ⟨⟨fun _ => a2.cl, fun _ => a1.cl⟩, ⟨fun _ => a2, fun _ => a1⟩⟩
      · unfold Cl Pl
        rw [h.other v hk]
        exact ⟨Iff.rfl, Iff.rfl⟩
    refine ⟨by rw [h.verts]; simp, ?_, h.after.ty, fun v => (hcp v).1, fun v => (hcp v).2⟩
    funext a b
    exact h.after.adj a b (by simp) (by simp)
  · left
    obtain ⟨r, hr⟩ := Finset.nonempty_iff_ne_empty.mpr hRe
    refine lt_of_le_of_lt hp1 (Finset.sum_lt_sum_of_subset Finset.sdiff_subset (hremV r hr) (by simp [hr]) ?_ fun _ _ _ => Nat.zero_le _)
    exact wt_pos (ha r (hremV r hr))

theorem gadgetFuseRound_rel (hP : PhaseSet P) {o : Orders} (ho : o.OK) {g g' : Graph} {c : Bool} (hgf : GF P g)
    (h : gadgetFuseRound o g = some (c, g')) : GF P g' ∧ FRel g g' := by
  have hgg := hgf.gg
  have hc := (ho.vcand g).2
  obtain ⟨h1, h2, h3⟩ := gadgetGroups_spec hgg (ho.nbr g) hc
  have h4 := gadgetGroups_isGadget (ho.nbr g) hc
  set ds := gadgetGroups g (o.nbr g) (o.vcand g) with hds
  have hmg : matchGadgets g (o.nbr g) (o.vcand g) = ds.foldl gadgetEmit (g, []) := rfl
  have hms : (matchGadgets g (o.nbr g) (o.vcand g)).2 = ds.flatMap (gMatch g) := by
    have := (gadgetEmit_fold (g := g) ds g [] ⟨SameBut.refl g, rfl⟩).2.1
    rw [List.nil_append] at this
    rw [hmg, this]
  obtain ⟨c1, q1, q2, q3, -, -, q6⟩ := gadgetFuseRound_ok hP ho g hgf
  rw [h, Option.some.injEq, Prod.mk.injEq] at q2
  obtain ⟨rfl, rfl⟩ := q2
  refine ⟨q3, ?_⟩
  unfold gadgetFuseRound at h
  simp only at h
  by_cases hn : (matchGadgets g (o.nbr g) (o.vcand g)).2 = []
  · rw [if_pos hn, Option.some.injEq, Prod.mk.injEq] at h
    rw [(q6 h.1.symm).1]; exact FRel.refl g
  · rw [if_neg hn] at h
    have hs : GroupSep g ds := by
      refine ⟨h2, ?_⟩
      rw [List.pairwise_iff_forall_sublist]
      intro a b hab la lb q hq q' hq'
      have ha : a ∈ ds := hab.subset (by simp)
      have hb : b ∈ ds := hab.subset (by simp)
      by_contra hne
      obtain ⟨c, hc1, hc2⟩ := hgf.sep _ _ (h3 a ha q hq) (h3 b hb q' hq') hne
      have key : ∀ d ∈ ds, 2 ≤ d.mem.length → ∀ q ∈ d.mem, g.adj q.1 c = none := by
        intro d hd hl q hq
        by_contra hne
        have k := (h1 d hd).mem q hq
        have : g.ty c = .Z := by
          by_cases e : c = q.2
          · rw [e]; exact k.tv
          · exact ((h1 d hd).multi hl c ((k.par c).mpr ⟨e, hne⟩)).1
        rw [hc2] at this; simp at this
      rcases hc1 with e | e
      · exact e (key a ha la q hq)
      · exact e (key b hb lb q' hq')
    obtain ⟨g1, e1, e2, e3, -, -, e6, e7, e8⟩ := gadget_sound hgf.zx.wf h1 hs
    have eg : g1 = g' := by
      rw [hmg, e1] at h
      simp only [Option.map_some, Option.some.injEq, Prod.mk.injEq] at h
      exact h.2
    subst eg
    have hF : Fused P g g1 ds ((ds.flatMap (gMatch g)).flatMap mRem).toFinset := by
      refine ⟨hgf, h1, h3, e2, e3, e6, e7, e8, fun r hr => ?_, fun d hd hl => ?_⟩
      · rw [List.mem_toFinset] at hr
        obtain ⟨m, hm, hr⟩ := List.mem_flatMap.mp hr
        obtain ⟨d, hd, hmd⟩ := List.mem_flatMap.mp hm
        unfold mRem at hr
        obtain ⟨-, ⟨-, -, x1, x2, -⟩ | ⟨x1, x2, x3, x4, -⟩⟩ := gMatch_mem hmd
        · rw [x1, x2] at hr; simp at hr
        · refine ⟨d, hd, x1, ?_⟩
          rcases List.mem_append.mp hr with hr | hr
          · exact Or.inl (x3 r hr)
          · exact Or.inr (x4 r hr)
      · obtain ⟨P', mem⟩ := d
        match mem with
        | [] => simp at hl
        | [q] => simp at hl
        | q :: q' :: L =>
          have : gMatch g ⟨P', q :: q' :: L⟩ ≠ [] := by simp [gMatch]
          obtain ⟨m, hm⟩ := List.exists_mem_of_ne_nil _ this
          exact ⟨m, hm, (gMatch_mem hm).1⟩
    refine fused_rel hF h4 (fun m hm a ha => ?_) fun r hr => ?_
    · rw [List.mem_toFinset]
      exact List.mem_flatMap.mpr ⟨m, hm, by unfold mRem; simp [ha]⟩
    · rw [List.mem_toFinset] at hr
      obtain ⟨m, hm, hr⟩ := List.mem_flatMap.mp hr
      obtain ⟨d, hd, hmd⟩ := List.mem_flatMap.mp hm
      obtain ⟨q, k1, k2, k3, k4⟩ := gMatch_rem hmd hr
      exact ⟨d, hd, q, k1, k2, List.mem_toFinset.mpr (List.mem_flatMap.mpr ⟨m, hm, k3⟩), List.mem_toFinset.mpr (List.mem_flatMap.mpr ⟨m, hm, k4⟩)⟩

/-- The loop that fuses gadgets. -/
theorem gadgetSimp_rel (hP : PhaseSet P) {ω : ℕ → Orders} (ho : ∀ t, (ω t).OK) {fuel t : ℕ} {g g' : Graph} {t' i : ℕ} (hg : GF P g)
    (h : gadgetSimp ω fuel t g = .done g' t' i) : GF P g' ∧ FRel g g' :=
  simp_inv (I := GF P) (fun t _ _ _ hg h => gadgetFuseRound_rel hP (ho t) hg h) (fun _ _ _ => FRel.trans) _ _ _ _ _ _ hg h

open Classical in
theorem axM_card_le (g : Graph) : (axM g).card + (axM1 g).card ≤ 2 * g.verts.card := by
  have h1 : (axM g).card ≤ g.verts.card := by unfold axM; exact Finset.card_le_card (Finset.filter_subset _ _)
  have h2 : (axM1 g).card ≤ g.verts.card := by unfold axM1; exact Finset.card_le_card (Finset.filter_subset _ _)
  omega

end Simplify
end PyZX
