import Verif.Proofs.TermPasses
import Verif.Proofs.FullReduce

/-!
# `pivot_gadget_simp` keeps the spiders that carry phase gadgets apart

`reduce_scalar` calls `gadget_simp` directly after `pivot_gadget_simp`.
-/

namespace PyZX
namespace Graph

open Props (IsAxel)

set_option linter.unusedSectionVars false

variable {P : ℚ → Prop}

/-- Of two connected Z-spiders with phases 0 or π at least one is next to a boundary. -/
def PSep (g : Graph) : Prop :=
  ∀ a b, g.adj a b ≠ none → g.ty a = .Z → g.ty b = .Z → g.Pl a → g.Pl b → g.Bd a ∨ g.Bd b

theorem InteriorNF.psep (hP : PhaseSet P) {g : Graph} (hg : g.ZX P) (h : g.InteriorNF) : g.PSep := by
  intro a b hab ta tb pa pb
  by_contra hn
  push Not at hn
  have := h.pauli a b hab ta tb (Simplify.pl_cases hP hg (hg.wf.mem _ _ hab) pa) (Simplify.pl_cases hP hg (hg.wf.toInv.mem' hab) pb)
  rw [Simplify.bnds_bd hg.wf hn.1, Simplify.bnds_bd hg.wf hn.2] at this
  omega

theorem PSep.axelSep {g : Graph} (hg : g.ZX P) (hz : g.ZOnly) (h : g.PSep) : g.AxelSep := by
  have hz : ∀ n n', IsAxel g n → IsAxel g n' → g.adj n n' ≠ none → g.ty n = .Z := by
    rintro n n' ⟨hp, v, hv, hd⟩ ⟨hp', -⟩ hne
    have hnv := hg.wf.mem _ _ hne
    rcases hz n hnv with e | e
    · have hvn : g.adj n v ≠ none := by
        rw [hg.wf.symm]; exact (mem_nbrs hg.wf.toInv).mp (by rw [hv]; simp)
      have := hg.bdeg n hnv e v n' hvn hne
      rw [this, Simplify.den_pauli hp'] at hd
      omega
    · exact e
  intro n n' hn hn' hne
  rcases h n n' hne (hz n n' hn hn' hne) (hz n' n hn' hn (by rw [hg.wf.symm]; exact hne)) (Simplify.pl_of hn.1) (Simplify.pl_of hn'.1) with
    ⟨b, h1, h2⟩ | ⟨b, h1, h2⟩
  · exact ⟨b, Or.inl h1, h2⟩
  · exact ⟨b, Or.inr h1, h2⟩

/-- The pairs of neighbours of a pivot that are in the table contain a neighbour of the first vertex. -/
theorem pivotStep_first {g : Graph} {lst : Finset ℕ → List ℕ} (hlst : Rules.SetOrder lst) {m : Rules.PivotMatch}
    {s : RewriteState} (hs : SameBut g s.g) {Q : ℕ × ℕ → ℕ × ℕ → Prop} (ht : ∀ e ∈ s.etab, Q e.1 e.2)
    (hp : ∀ a b, a ∈ Rules.pivotNbrs g m.v0 m.v1 m.b0 ∨ b ∈ Rules.pivotNbrs g m.v0 m.v1 m.b0 → ∀ p, Q (a, b) p)
    (hb0 : ∀ w, m.b0 = some w → ∀ p, Q (m.v1, w) p) (hb1 : ∀ w, m.b1 = some w → ∀ p, Q (m.v0, w) p) :
    ∀ e ∈ (Rules.pivotStep lst s m).etab, Q e.1 e.2 := by
  have hn0 : Rules.pivotNbrs s.g m.v0 m.v1 m.b0 = Rules.pivotNbrs g m.v0 m.v1 m.b0 := by unfold Rules.pivotNbrs; rw [hs.nbrs]
  have hn1 : Rules.pivotNbrs s.g m.v1 m.v0 m.b1 = Rules.pivotNbrs g m.v1 m.v0 m.b1 := by unfold Rules.pivotNbrs; rw [hs.nbrs]
  have ml : ∀ N w, w ∈ lst N → w ∈ N := by intro N w hw; rw [← (hlst N).2]; simpa using hw
  unfold Rules.pivotStep
  simp only [hn0, hn1]
  have z2 : ∀ w ∈ lst (Rules.pivotNbrs g m.v0 m.v1 m.b0 ∩ Rules.pivotNbrs g m.v1 m.v0 m.b1), w ∈ Rules.pivotNbrs g m.v0 m.v1 m.b0 :=
    fun w hw => (Finset.mem_inter.mp (ml _ w hw)).1
  have z0 : ∀ w ∈ lst (Rules.pivotNbrs g m.v0 m.v1 m.b0 \ (Rules.pivotNbrs g m.v0 m.v1 m.b0 ∩ Rules.pivotNbrs g m.v1 m.v0 m.b1)),
      w ∈ Rules.pivotNbrs g m.v0 m.v1 m.b0 := fun w hw => (Finset.mem_sdiff.mp (ml _ w hw)).1
  revert z0 z2
  generalize lst (Rules.pivotNbrs g m.v0 m.v1 m.b0 ∩ Rules.pivotNbrs g m.v1 m.v0 m.b1) = l2
  generalize lst (Rules.pivotNbrs g m.v0 m.v1 m.b0 \ (Rules.pivotNbrs g m.v0 m.v1 m.b0 ∩ Rules.pivotNbrs g m.v1 m.v0 m.b1)) = l0
  generalize lst (Rules.pivotNbrs g m.v1 m.v0 m.b1 \ (Rules.pivotNbrs g m.v0 m.v1 m.b0 ∩ Rules.pivotNbrs g m.v1 m.v0 m.b1)) = l1
  intro z2 z0
  set g1 := s.g.addPower ((l0.length : ℤ) * l2.length + l1.length * l2.length + l0.length * l1.length) with hg1
  set g2 := Rules.addToPhases g1 l2 1 with hg2
  set g3 := (if g2.phase m.v0 ≠ 0 ∧ g2.phase m.v1 ≠ 0 then g2.addScalarPhase 1 else g2) with hg3
  generalize (if m.b0 = none ∧ m.b1 = none then -((l0.length : ℤ) + l1.length + 2 * l2.length - 1)
    else if m.b0 = none then -((l1.length : ℤ) + l2.length) else -((l0.length : ℤ) + l2.length)) = n
  have sb2 : SameBut g g2 := (hs.trans (sameBut_addPower _ _)).trans (addToPhases_spec l2 1 g1).1
  have sb3 : SameBut g g3 := by
    rw [hg3]; split
    · exact sb2.trans (sameBut_addScalarPhase _ _)
    · exact sb2
  have sbp : ∀ (g0 : Graph) v l, SameBut g g0 → SameBut g (Rules.pivotPhases g0 v l l2) := by
    intro g0 v l h0
    unfold Rules.pivotPhases
    simp only
    split
    · exact h0
    · exact (h0.trans (addToPhases_spec _ _ _).1).trans (addToPhases_spec _ _ _).1
  have sb5 := sbp (g3.addPower n) m.v0 l1 (sb3.trans (sameBut_addPower _ _))
  set g5 := Rules.pivotPhases (g3.addPower n) m.v0 l1 l2 with hg5
  have e1 := pivotBoundary_forall (g := g) (s := { s with g := g5 }) (v := m.v0) (o := m.v1) (b := m.b0) sb5.adj ht
    fun w hw => ⟨hb0 w hw _, fun _ _ => hb0 w hw _⟩
  set s5 := Rules.pivotBoundary { s with g := g5 } m.v0 m.v1 m.b0 with hs5
  have hs5g : s5.g = g5 := pivotBoundary_g _ _ _ _
  have sb6 := sbp s5.g m.v1 l0 (by rw [hs5g]; exact sb5)
  have e2 := pivotBoundary_forall (g := g) (s := { s5 with g := Rules.pivotPhases s5.g m.v1 l0 l2 }) (v := m.v1) (o := m.v0) (b := m.b1)
    sb6.adj e1 fun w hw => ⟨hb1 w hw _, fun _ _ => hb1 w hw _⟩
  refine setHads_forall _ e2 ?_
  rintro ⟨x, y⟩ he
  simp only [Rules.pivotPairs, List.mem_append] at he
  have : ∀ p, Q (x, y) p := by
    rcases he with (q | q) | q <;> obtain ⟨q1, q2⟩ := List.pair_mem_product.mp q
    · exact hp x y (Or.inl (z0 _ q1))
    · exact hp x y (Or.inr (z2 _ q2))
    · exact hp x y (Or.inl (z0 _ q1))
  exact ⟨this _, fun _ _ => this _⟩

theorem pivotStep_same (lst : Finset ℕ → List ℕ) {g : Graph} (m : Rules.PivotMatch) {s : RewriteState} (hs : SameBut g s.g) :
    SameBut g (Rules.pivotStep lst s m).g := by
  unfold Rules.pivotStep
  simp only [pivotBoundary_g]
  generalize lst (Rules.pivotNbrs s.g m.v0 m.v1 m.b0 ∩ Rules.pivotNbrs s.g m.v1 m.v0 m.b1) = l2
  have sbp : ∀ (g0 : Graph) v l, SameBut g g0 → SameBut g (Rules.pivotPhases g0 v l l2) := by
    intro g0 v l h0
    unfold Rules.pivotPhases
    simp only
    split
    · exact h0
    · exact (h0.trans (addToPhases_spec _ _ _).1).trans (addToPhases_spec _ _ _).1
  refine sbp _ _ _ (sbp _ _ _ (SameBut.trans ?_ (sameBut_addPower _ _)))
  split
  · exact ((hs.trans (sameBut_addPower _ _)).trans (addToPhases_spec _ _ _).1).trans (sameBut_addScalarPhase _ _)
  · exact (hs.trans (sameBut_addPower _ _)).trans (addToPhases_spec _ _ _).1

theorem pivot_first {g : Graph} {lst : Finset ℕ → List ℕ} (hlst : Rules.SetOrder lst) {ms : List Rules.PivotMatch}
    : ∀ e ∈ (Rules.pivot lst g ms).etab, ∃ m ∈ ms,
      (e.1.1 ∈ Rules.pivotNbrs g m.v0 m.v1 m.b0 ∨ e.1.2 ∈ Rules.pivotNbrs g m.v0 m.v1 m.b0) ∨
      (∃ w, m.b0 = some w ∧ e.1 = (m.v1, w)) ∨ ∃ w, m.b1 = some w ∧ e.1 = (m.v0, w) := by
  have key : ∀ (l : List Rules.PivotMatch) (s : RewriteState), (∀ m ∈ l, m ∈ ms) → SameBut g s.g →
      (∀ e ∈ s.etab, ∃ m ∈ ms, (e.1.1 ∈ Rules.pivotNbrs g m.v0 m.v1 m.b0 ∨ e.1.2 ∈ Rules.pivotNbrs g m.v0 m.v1 m.b0) ∨
        (∃ w, m.b0 = some w ∧ e.1 = (m.v1, w)) ∨ ∃ w, m.b1 = some w ∧ e.1 = (m.v0, w)) →
      ∀ e ∈ (l.foldl (Rules.pivotStep lst) s).etab, ∃ m ∈ ms,
        (e.1.1 ∈ Rules.pivotNbrs g m.v0 m.v1 m.b0 ∨ e.1.2 ∈ Rules.pivotNbrs g m.v0 m.v1 m.b0) ∨
        (∃ w, m.b0 = some w ∧ e.1 = (m.v1, w)) ∨ ∃ w, m.b1 = some w ∧ e.1 = (m.v0, w) := by
    intro l
    induction l with
    | nil => intro s _ _ hs; exact hs
    | cons m l ih =>
      intro s hl hs ht
      have hm := hl m (by simp)
      rw [List.foldl_cons]
      refine ih _ (fun m hm => hl m (by simp [hm])) (pivotStep_same lst m hs) ?_
      exact pivotStep_first hlst hs (Q := fun k _ => ∃ m ∈ ms, (k.1 ∈ Rules.pivotNbrs g m.v0 m.v1 m.b0 ∨ k.2 ∈ Rules.pivotNbrs g m.v0 m.v1 m.b0) ∨
        (∃ w, m.b0 = some w ∧ k = (m.v1, w)) ∨ ∃ w, m.b1 = some w ∧ k = (m.v0, w)) ht (fun a b hab _ => ⟨m, hm, Or.inl hab⟩)
        (fun w hw _ => ⟨m, hm, Or.inr (Or.inl ⟨w, hw, rfl⟩)⟩) (fun w hw _ => ⟨m, hm, Or.inr (Or.inr ⟨w, hw, rfl⟩)⟩)
  exact key ms _ (fun _ h => h) (SameBut.refl g) (by simp [RewriteState.start])

variable [Heavy]

/-- Pivots with gadgets keep the spiders with phases 0 or π inside of the diagram apart. -/
theorem gadget_psep (hP : PhaseSet P) {g : Graph} (hg : g.ZX P) {s : Rules.GState (ℕ × ℕ → Bool)} (hs : GadInv g s)
    (hb : (s.g.plain s.el .simple).BDeg) {lst : Finset ℕ → List ℕ} (hlst : Rules.SetOrder lst)
    (hok : PivotOK (s.g.plain s.el .simple) s.ms) {g' g'' : Graph} (hf : (Rules.pivot lst (s.g.plain s.el .simple) s.ms).finish = some g')
    (hz' : g'.ZX P) (hty : g'.ty = s.g.ty) (hv' : g'.verts = s.g.verts \ (s.ms.flatMap pivotRem).toFinset) (hc : Cut g' g'')
    (hsep : g.PSep) : g''.PSep := by
  obtain ⟨hext, hzx, hnew, hleaf⟩ := gadget_ext hP hg hs hb
  set G := s.g.plain s.el .simple with hG
  have hwf := hg.wf
  have hwfG := hext.wf
  have hwf' := hz'.wf
  have hsh := pivot_shift' lst hok hf
  have hq := fun v hv => pivot_quiet hwfG hb hlst hok hf hwf' hty (v := v) hv
  have hadj10 : ∀ m ∈ s.ms, g.adj m.v1 m.v0 ≠ none := by
    intro m hm
    obtain ⟨v, hk⟩ := hs.each m hm
    rw [hwf.symm]; exact hk.adj
  have hqg := fun v hv hn => hext.quiet hwf hadj10 (v := v) hv hn
  have hv1gone : ∀ m ∈ s.ms, m.v1 ∉ g'.verts := by
    intro m hm hh
    rw [hv', Finset.mem_sdiff] at hh
    exact hh.2 (List.mem_toFinset.mpr (List.mem_flatMap.mpr ⟨m, hm, by simp [pivotRem, (hext.mem m hm).2.2]⟩))
  have hVs : ∀ v ∈ g'.verts, v ∈ s.g.verts := fun v hv => by
    rw [hv', Finset.mem_sdiff] at hv; exact hv.1
  have hnb : ∀ m ∈ s.ms, g.Pl m.v0 ∧ ¬ g.Bd m.v0 ∧ g.ty m.v0 = .Z := by
    intro m hm
    obtain ⟨l, hk, -, -⟩ := hleaf m hm
    refine ⟨Simplify.pl_of hk.ph0, ?_, hk.ty0⟩
    rintro ⟨c, hca, hct⟩
    have := (hk.n0 c hca).1
    rw [hct] at this; cases this
  -- the spiders with phases 0 or π of the result
  have cls : ∀ v ∈ g'.verts, g'.ty v = .Z → g'.Pl v → v ∈ g.verts ∧ g.ty v = .Z ∧ g.Pl v ∧ (g.Bd v → g'.Bd v) := by
    intro v hv tv hpl
    by_cases hvg : v ∈ g.verts
    · refine ⟨hvg, by rw [← hs.ty v hvg, ← hty]; exact tv, ?_⟩
      by_cases hp : ∃ m ∈ s.ms, v = m.v0
      · obtain ⟨m, hm, rfl⟩ := hp
        exact ⟨(hnb m hm).1, fun h => absurd h (hnb m hm).2.1⟩
      · have hnp : ¬ Pvt s.ms v := by
          rintro ⟨m, hm, e | e⟩
          · exact hp ⟨m, hm, e⟩
          · exact hv1gone m hm (e ▸ hv)
        obtain ⟨k1, -, k3, -⟩ := hqg v hvg hnp
        exact ⟨k3.mp (hsh.pl.mp hpl), fun h => (hq v hnp).1.mpr (k1.mpr h)⟩
    · exfalso
      obtain ⟨m, hm, e⟩ := hnew v (hVs v hv) hvg
      obtain ⟨l, hk, -, -⟩ := hleaf m hm
      have e' := hk.b1
      rw [e, Option.some.injEq] at e'
      subst e'
      refine hk.ph1 ((isPauli_iff (hP.reduced _ (hg.phases _ (hext.mem m hm).2.1))).mpr ?_)
      exact (cl_mod2 (g := g) (g' := G) (show G.phase v = _ from hk.phase)).2.mp (hsh.pl.mp hpl)
  have first : ∀ m ∈ s.ms, ∀ v, v ∈ Rules.pivotNbrs G m.v0 m.v1 m.b0 → v ∈ g'.verts → g'.ty v = .Z → g'.Pl v → g'.Bd v := by
    intro m hm v hvn hv tv hpl
    obtain ⟨c1, c2, c3, c4⟩ := cls v hv tv hpl
    simp only [Rules.pivotNbrs, Finset.mem_filter, Finset.mem_erase, mem_nbrs hwfG.toInv] at hvn
    have hadj := hvn.1.2
    rw [hext.oldadj _ (hext.mem m hm).1 _ c1] at hadj
    obtain ⟨n1, n2, n3⟩ := hnb m hm
    exact c4 ((hsep m.v0 v hadj n3 c2 n1 c3).resolve_left n2)
  intro a b hab ta tb pa pb
  have ha := hc.wf'.mem _ _ hab
  have hb' := hc.wf'.toInv.mem' hab
  rw [hc.adj a ha] at hab
  rw [hc.ty] at ta tb
  rw [hc.pl] at pa pb
  rw [hc.bd ha, hc.bd hb']
  have ha' := hc.sub ha
  have hb'' := hc.sub hb'
  obtain ⟨a1, a2, a3, a4⟩ := cls a ha' ta pa
  obtain ⟨b1, b2, b3, b4⟩ := cls b hb'' tb pb
  obtain ⟨f1, -, -, -, -⟩ := pivot_fold hwfG hlst s.ms hok rfl
  obtain ⟨-, -, -, hcase⟩ := finish_adj hf hwf'.toInv hab
  rcases hcase with hcase | ⟨e, he, -, hsp⟩
  · rw [f1.adj, hext.oldadj a a1 b b1] at hcase
    rcases hsep a b hcase a2 b2 a3 b3 with h | h
    · exact Or.inl (a4 h)
    · exact Or.inr (b4 h)
  · obtain ⟨m, hm, hcs⟩ := pivot_first hlst e he
    rcases hcs with hcs | ⟨w, hw, c⟩ | ⟨w, hw, c⟩
    · rcases hsp with ⟨p, q⟩ | ⟨p, q⟩ <;> simp only at p q <;> rw [← p, ← q] at hcs <;> rcases hcs with hcs | hcs
      · exact Or.inl (first m hm a hcs ha' ta pa)
      · exact Or.inr (first m hm b hcs hb'' tb pb)
      · exact Or.inr (first m hm b hcs hb'' tb pb)
      · exact Or.inl (first m hm a hcs ha' ta pa)
    · rw [(hext.mem m hm).2.2] at hw; cases hw
    · exfalso
      obtain ⟨l, hk, -, -⟩ := hleaf m hm
      have e' := hk.b1
      rw [hw, Option.some.injEq] at e'
      subst e'
      rw [c] at hsp
      rcases hsp with ⟨p, q⟩ | ⟨p, q⟩ <;> simp only at p q
      · exact hk.fresh (q ▸ b1)
      · exact hk.fresh (p ▸ a1)

end Graph

namespace Simplify

open Graph Rules

set_option linter.unusedSectionVars false

variable {P : ℚ → Prop} [Heavy]

theorem pivotGadgetRound_psep (hP : PhaseSet P) {o : Orders} (ho : o.OK) {g g2 : Graph} {c : Bool} (hg : ZXH P g) (hsep : g.PSep)
    (h : pivotGadgetRound o g = some (c, g2)) : g2.PSep := by
  obtain ⟨hg, hz⟩ := hg
  obtain ⟨c1, q1, q2, q3, q4, q5, q6⟩ := pivotGadgetRound_ok hP ho g ⟨hg, hz⟩
  rw [h, Option.some.injEq, Prod.mk.injEq] at q2
  obtain ⟨rfl, rfl⟩ := q2
  obtain ⟨s, hs, hfold, hm, hb, hok⟩ := matchPivotGadget_ok hg.wf hg.bdeg hz (ho.ecand g).2
  have hrun : pivotGadgetRound o g = if s.ms = [] then some (false, s.g.plain s.el .simple)
      else afterRewrite o true (Rules.pivot o.lst (s.g.plain s.el .simple) s.ms) := by
    unfold pivotGadgetRound
    rw [hm]; rfl
  by_cases hn : s.ms = []
  · rw [hrun, if_pos hn, Option.some.injEq, Prod.mk.injEq] at h
    have e := (q6 h.1.symm).1
    subst e
    exact hsep
  · rw [hrun, if_neg hn] at h
    obtain ⟨hext, hzx, -, -⟩ := gadget_ext hP hg hs hb
    obtain ⟨g', f1, f2, f3, f4, f5⟩ := pivot_zx hP hzx ho.lst hok
    obtain ⟨-, hc, -, -⟩ := afterRewrite_cut hP ho f1 f3 h
    exact gadget_psep hP hg hs hb ho.lst hok f1 f3 f4 f5 hc hsep

/-- `pivot_gadget_simp` keeps the spiders with phases 0 or π inside of the diagram apart. -/
theorem pivotGadgetSimp_psep (hP : PhaseSet P) {ω : ℕ → Orders} (ho : ∀ t, (ω t).OK) {fuel t : ℕ} {g g' : Graph} {t' i : ℕ} (hg : ZXH P g)
    (hsep : g.PSep) (h : pivotGadgetSimp ω fuel t g = .done g' t' i) : g'.PSep :=
  (simp_inv (I := fun g => ZXH P g ∧ g.PSep) (R := fun _ _ => True) (fun t g c g' hg h => by
    obtain ⟨c1, g1, q2, q3, -⟩ := pivotGadgetRound_ok hP (ho t) g hg.1
    rw [h, Option.some.injEq, Prod.mk.injEq] at q2
    exact ⟨⟨q2.2 ▸ q3, pivotGadgetRound_psep hP (ho t) hg.1 hg.2 h⟩, trivial⟩) (fun _ _ _ _ _ => trivial) _ _ _ _ _ _ ⟨hg, hsep⟩ h).1.2

end Simplify
end PyZX
