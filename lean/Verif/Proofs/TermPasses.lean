import Verif.Proofs.TermBoundary
import Verif.Proofs.TermGadget
import Verif.Proofs.TermRounds

/-!
# The potential during `pivot_boundary_simp` and `pivot_gadget_simp`
-/

namespace PyZX
namespace Simplify

open Graph Rules

set_option linter.unusedSectionVars false

variable {P : ℚ → Prop} [Heavy]

/-! ### Boundary pivots -/

/-- A pass of boundary pivots adds at most as many vertices as it matches. -/
theorem boundary_card {g : Graph} {s : GState (ℕ → Bool)} {ns : List (PivotMatch × ℕ × ℕ)} (hs : BndInv g s ns)
    (hmem : ∀ m ∈ s.ms, m.v1 ∈ g.verts ∧ m.b0 = none) {g' g'' : Graph} (hv' : g'.verts = s.g.verts \ (s.ms.flatMap pivotRem).toFinset)
    (hsub : g''.verts ⊆ g'.verts) : g''.verts.card ≤ g.verts.card + s.ms.length := by
  have hnd : (s.ms.map (·.v1)).Nodup := by
    rw [List.Nodup, List.pairwise_map]
    exact hs.indep.imp fun h => (h _ (Or.inr rfl) _ (Or.inr rfl)).1
  set V1 := (s.ms.map (·.v1)).toFinset with hV1
  set L := (ns.map (·.2.1)).toFinset
  set A := (ns.map (·.2.2)).toFinset
  have hlen : s.ms.length = ns.length := by rw [hs.ms]; simp
  have c1 : V1.card = s.ms.length := by rw [hV1, List.toFinset_card_of_nodup hnd]; simp
  have c2 : L.card ≤ ns.length := (List.toFinset_card_le _).trans (by simp)
  have c3 : A.card ≤ ns.length := (List.toFinset_card_le _).trans (by simp)
  have s1 : V1 ⊆ g.verts := by
    intro v hv
    obtain ⟨m, hm, rfl⟩ := List.mem_map.mp (List.mem_toFinset.mp hv)
    exact (hmem m hm).1
  have s2 : g''.verts ⊆ (g.verts \ V1) ∪ L ∪ A := by
    intro v hv
    have h1 := hsub hv
    rw [hv', Finset.mem_sdiff] at h1
    by_cases hg : v ∈ g.verts
    · refine Finset.mem_union_left _ (Finset.mem_union_left _ (Finset.mem_sdiff.mpr ⟨hg, fun hh => h1.2 ?_⟩))
      obtain ⟨m, hm, rfl⟩ := List.mem_map.mp (List.mem_toFinset.mp hh)
      exact List.mem_toFinset.mpr (List.mem_flatMap.mpr ⟨m, hm, by simp [pivotRem, (hmem m hm).2]⟩)
    · obtain ⟨-, n, hn, e | e⟩ := hs.news v h1.1 hg
      · exact Finset.mem_union_left _ (Finset.mem_union_right _ (List.mem_toFinset.mpr (List.mem_map.mpr ⟨n, hn, e.symm⟩)))
      · exact Finset.mem_union_right _ (List.mem_toFinset.mpr (List.mem_map.mpr ⟨n, hn, e.symm⟩))
  have e1 := Finset.card_le_card s2
  have e2 := Finset.card_union_le ((g.verts \ V1) ∪ L) A
  have e3 := Finset.card_union_le (g.verts \ V1) L
  have e4 := Finset.card_sdiff_of_subset s1
  have e5 := Finset.card_le_card s1
  omega

/-- What the loop of boundary pivots does. -/
structure BPass (g g' : Graph) : Prop where
  brel : BRel g g'
  card : g'.verts.card + g'.bndM.card ≤ g.verts.card + g.bndM.card
  nf : g' = g ∨ (g.InteriorNF → g'.pot < g.pot ∨ (g'.JJ ∧ g'.WW))

theorem BPass.trans {a b c : Graph} (h : BPass a b) (h' : BPass b c) : BPass a c := by
  refine ⟨h.brel.trans h'.brel, h'.card.trans h.card, ?_⟩
  rcases h.nf with e | h1
  · rw [← e]; exact h'.nf
  · right
    intro hn
    have hle := h'.brel.le
    rcases h1 hn with h2 | ⟨h2, h3⟩
    · left; omega
    · rcases h'.brel with k | ⟨k1, k2, k3⟩
      · left; have := h.brel.le; omega
      · exact Or.inr ⟨k2 h2, k3 h2 h3⟩

/-- The diagrams on which gadgets are made. -/
def ZXHZ (P : ℚ → Prop) (g : Graph) : Prop := ZXH P g ∧ g.ZOnly

theorem ext_zonly {g G g' g'' : Graph} {ms : List PivotMatch} (hext : PivExt g G ms) (hz : g.ZOnly) (hty : g'.ty = G.ty)
    (hv : g'.verts ⊆ G.verts) (hc : Cut g' g'') : g''.ZOnly := by
  intro v h
  rw [hc.ty, hty]
  by_cases hg : v ∈ g.verts
  · rw [hext.ty v hg]; exact hz v hg
  · exact Or.inr (hext.newZ v (hv (hc.sub h)) hg)

theorem pivotBoundaryRound_rel (hP : PhaseSet P) {o : Orders} (ho : o.OK) {g g2 : Graph} {c : Bool} (hg : ZXHZ P g)
    (h : pivotBoundaryRound o g = some (c, g2)) : ZXHZ P g2 ∧ BPass g g2 := by
  obtain ⟨⟨hg, hz⟩, hzo⟩ := hg
  obtain ⟨c1, q1, q2, q3, q4, q5, q6⟩ := pivotBoundaryRound_ok hP ho g ⟨hg, hz⟩
  rw [h, Option.some.injEq, Prod.mk.injEq] at q2
  obtain ⟨rfl, rfl⟩ := q2
  obtain ⟨s, ns, hs, hfold, hm, hb, hok⟩ := matchPivotBoundary_ok hg.wf hg.bdeg hz (ho.nbr g) (ho.vcand g).2
  have hrun : pivotBoundaryRound o g = if s.ms = [] then some (false, s.g.plain s.el .had)
      else afterRewrite o true (Rules.pivot o.lst (s.g.plain s.el .had) s.ms) := by
    unfold pivotBoundaryRound
    rw [hm]; rfl
  by_cases hn : s.ms = []
  · rw [hrun, if_pos hn, Option.some.injEq, Prod.mk.injEq] at h
    have e := (q6 h.1.symm).1
    subst e
    exact ⟨⟨q3, hzo⟩, BRel.refl _, le_rfl, Or.inl rfl⟩
  · rw [hrun, if_neg hn] at h
    obtain ⟨hext, hzx, -, -⟩ := boundary_ext hP hg hs hb
    obtain ⟨g', f1, f2, f3, f4, f5⟩ := pivot_zx hP hzx ho.lst hok
    obtain ⟨-, hc, -, -⟩ := afterRewrite_cut hP ho f1 f3 h
    have hzh : g'.ZHad := pivot_zHad hext.wf ho.lst hok f1 f3.wf (fun u v _ _ => boundary_zHad hP hg hz hs hb u v)
      (fun m hm w hw => by rw [(hext.mem m hm).2.2] at hw; simp at hw)
      (fun m hm w hw hz => by
        rw [hs.ms] at hm
        obtain ⟨n, hn, rfl⟩ := List.mem_map.mp hm
        obtain ⟨b, hk⟩ := hs.each n hn
        rw [hk.b1, Option.some.injEq] at hw
        subst hw
        rw [hext.ty _ (hg.wf.toInv.mem' hk.badj), hk.bty] at hz
        simp at hz)
    obtain ⟨g3, e1, -, -, e4⟩ := afterRewrite_zxh hP ho f1 (hs.pres.trans f2) f3 hzh (hext.bph hok (pivot_bph hext.wf ho.lst hok f1))
    rw [h, Option.some.injEq, Prod.mk.injEq] at e1
    obtain ⟨-, e1⟩ := e1
    subst e1
    obtain ⟨r1, r2⟩ := boundary_rel hP hg hs hb ho.lst hok f1 f3 f4 f5 hc
    have hsubv : g'.verts ⊆ (s.g.plain s.el .had).verts := by rw [f5]; exact Finset.sdiff_subset
    refine ⟨⟨q3, ext_zonly hext hzo f4 hsubv hc⟩, r1, ?_, Or.inr fun hnf => ?_⟩
    · have h1 := boundary_card hs (fun m hm => (hext.mem m hm).2) f5 hc.sub
      have hnd : (s.ms.map (·.v0)).Nodup := by
        rw [List.Nodup, List.pairwise_map]
        exact hs.indep.imp fun h => (h _ (Or.inl rfl) _ (Or.inl rfl)).1
      have c1 : (s.ms.map (·.v0)).toFinset.card = s.ms.length := by rw [List.toFinset_card_of_nodup hnd]; simp
      have s1 : (s.ms.map (·.v0)).toFinset ⊆ g.bndM := by
        intro v hv
        obtain ⟨m, hm, rfl⟩ := List.mem_map.mp (List.mem_toFinset.mp hv)
        exact mem_bndM.mpr (boundary_v0 hg.wf hs hm)
      have s2 : g2.bndM ⊆ g.bndM \ (s.ms.map (·.v0)).toFinset := by
        intro v hv
        obtain ⟨c1, c2⟩ := mem_bndM.mp hv
        obtain ⟨d1, d2⟩ := e4 v c1
        obtain ⟨k1, k2, k3⟩ := boundary_measure hP hg hs hb ho.lst hok f1 f3 f4 f5 d1 fun ht => c2 (d2 ht)
        refine Finset.mem_sdiff.mpr ⟨mem_bndM.mpr ⟨k1, k2⟩, fun hh => ?_⟩
        obtain ⟨m, hm, e⟩ := List.mem_map.mp (List.mem_toFinset.mp hh)
        exact k3 m hm e.symm
      have h2 := Finset.card_le_card s2
      have h3 := Finset.card_sdiff_of_subset s1
      have h4 := Finset.card_le_card s1
      omega
    · have hne : ns ≠ [] := fun e => hn (by rw [hs.ms, e]; rfl)
      refine r2 hne (fun n hn hpl => ?_) (InteriorNF.allPos hP hg hnf).jj
      obtain ⟨b, k⟩ := hs.each n hn
      have hbn : g.bnds n.1.v1 ⊆ {b} := by
        intro w hw
        unfold bnds at hw
        rw [Finset.mem_filter, mem_nbrs hg.wf.toInv] at hw
        rcases k.n1 w hw.1 with e | e
        · simp [e]
        · rw [hw.2] at e; simp at e
      have hv1 := hg.wf.toInv.mem' k.adj
      have := hnf.pauli n.1.v0 n.1.v1 k.adj k.ty0 k.ty1 k.ph0 (pl_cases hP hg hv1 hpl)
      have c1 := Finset.card_le_card hbn
      have c0 : (g.bnds n.1.v0).card = 0 := bnds_bd hg.wf fun ⟨w, w1, w2⟩ => by
        have := (k.n0 w w1).1
        rw [w2] at this; cases this
      rw [Finset.card_singleton] at c1
      omega

/-! ### Gadget pivots -/

theorem pivotGadgetRound_rel (hP : PhaseSet P) {o : Orders} (ho : o.OK) {g g2 : Graph} {c : Bool} (hg : ZXHZ P g) (hww : ¬ g.WW)
    (h : pivotGadgetRound o g = some (c, g2)) :
    ZXHZ P g2 ∧ ¬ g2.WW ∧ (g2 = g ∨ g2.pot < g.pot) ∧ g2.verts.card ≤ g.verts.card := by
  obtain ⟨⟨hg, hz⟩, hzo⟩ := hg
  obtain ⟨c1, q1, q2, q3, q4, q5, q6⟩ := pivotGadgetRound_ok hP ho g ⟨hg, hz⟩
  rw [h, Option.some.injEq, Prod.mk.injEq] at q2
  obtain ⟨rfl, rfl⟩ := q2
  obtain ⟨s, hs, hfold, hm, hb, hok⟩ := matchPivotGadget_ok hg.wf hg.bdeg hz (ho.ecand g).2
  have hrun : pivotGadgetRound o g = if s.ms = [] then some (false, s.g.plain s.el .simple)
      else afterRewrite o true (Rules.pivot o.lst (s.g.plain s.el .simple) s.ms) := by
    unfold pivotGadgetRound
    rw [hm]; rfl
  by_cases hn : s.ms = []
  · rw [hrun, if_pos hn, Option.some.injEq, Prod.mk.injEq] at h
    have e := (q6 h.1.symm).1
    subst e
    exact ⟨⟨q3, hzo⟩, hww, Or.inl rfl, le_rfl⟩
  · rw [hrun, if_neg hn] at h
    obtain ⟨hext, hzx, -, -⟩ := gadget_ext hP hg hs hb
    obtain ⟨g', f1, f2, f3, f4, f5⟩ := pivot_zx hP hzx ho.lst hok
    obtain ⟨-, hc, -, -⟩ := afterRewrite_cut hP ho f1 f3 h
    obtain ⟨r1, r2, r3⟩ := gadget_rel hP hg hs hb ho.lst hok f1 f3 f4 f5 hc hn hww
    have hsubv : g'.verts ⊆ (s.g.plain s.el .simple).verts := by rw [f5]; exact Finset.sdiff_subset
    exact ⟨⟨q3, ext_zonly hext hzo f4 hsubv hc⟩, r2, Or.inr r1, r3⟩

/-- The loop of gadget pivots. -/
theorem pivotGadgetSimp_rel (hP : PhaseSet P) {ω : ℕ → Orders} (ho : ∀ t, (ω t).OK) {fuel t : ℕ} {g g' : Graph} {t' i : ℕ} (hg : ZXHZ P g)
    (hww : ¬ g.WW) (h : pivotGadgetSimp ω fuel t g = .done g' t' i) :
    ZXHZ P g' ∧ (g' = g ∨ g'.pot < g.pot) ∧ g'.verts.card ≤ g.verts.card := by
  obtain ⟨h1, h2⟩ := simp_inv (I := fun g => ZXHZ P g ∧ ¬ g.WW) (R := fun g g' => (g' = g ∨ g'.pot < g.pot) ∧ g'.verts.card ≤ g.verts.card)
    (fun t g c g' hg h => by
      obtain ⟨k1, k2, k3⟩ := pivotGadgetRound_rel hP (ho t) hg.1 hg.2 h
      exact ⟨⟨k1, k2⟩, k3⟩)
    (fun a b c h h' => by
      refine ⟨?_, h'.2.trans h.2⟩
      rcases h.1 with e | e <;> rcases h'.1 with e' | e'
      · left; rw [e', e]
      · right; rw [← e]; exact e'
      · right; rw [e']; exact e
      · right; omega) _ _ _ _ _ _ ⟨hg, hww⟩ h
  exact ⟨h1.1, h2⟩

/-- The loop of boundary pivots. -/
theorem pivotBoundarySimp_rel (hP : PhaseSet P) {ω : ℕ → Orders} (ho : ∀ t, (ω t).OK) {fuel t : ℕ} {g g' : Graph} {t' i : ℕ} (hg : ZXHZ P g)
    (h : pivotBoundarySimp ω fuel t g = .done g' t' i) : ZXHZ P g' ∧ BPass g g' := by
  exact simp_inv (I := ZXHZ P) (fun t g c g' hg h => pivotBoundaryRound_rel hP (ho t) hg h) (fun _ _ _ => BPass.trans) _ _ _ _ _ _ hg h

open Classical in
theorem bndM_card_le (g : Graph) : g.bndM.card ≤ g.verts.card := by
  unfold bndM
  exact Finset.card_le_card (Finset.filter_subset _ _)

open Classical in
theorem gadM_card_le (g : Graph) : g.gadM.card ≤ g.verts.card := by
  unfold gadM
  exact Finset.card_le_card (Finset.filter_subset _ _)

end Simplify
end PyZX
