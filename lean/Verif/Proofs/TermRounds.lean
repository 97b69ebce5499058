import Verif.Proofs.TermLcomp
import Verif.Proofs.TermSpider
import Verif.Proofs.TermIds
import Verif.Proofs.TermPivot
import Verif.Proofs.FullReduce

/-!
# The potential during `interior_clifford_simp`
-/

namespace PyZX
namespace Simplify

open Graph Rules

set_option linter.unusedSectionVars false

variable {P : ℚ → Prop} [Heavy]

/-! ### Outcomes of loops -/

theorem Run.bind_done {r : Run} {f : Graph → ℕ → ℕ → Run} {g : Graph} {t i : ℕ} (h : r.bind f = .done g t i) :
    ∃ g1 t1 i1, r = .done g1 t1 i1 ∧ f g1 t1 i1 = .done g t i := by
  cases r with
  | raised => simp [Run.bind] at h
  | running => simp [Run.bind] at h
  | done g1 t1 i1 => exact ⟨g1, t1, i1, rfl, h⟩

/-- A property and a transitive relation that are kept by every pass are kept by the loop. -/
theorem simp_inv {I : Graph → Prop} {R : Graph → Graph → Prop} {ω : ℕ → Orders} {r : Orders → Graph → Option (Bool × Graph)}
    (h : ∀ t g c g', I g → r (ω t) g = some (c, g') → I g' ∧ R g g') (htr : ∀ a b c, R a b → R b c → R a c) :
    ∀ (fuel t : ℕ) (g g' : Graph) (t' i : ℕ), I g → simp r ω fuel t g = .done g' t' i → I g' ∧ R g g' := by
  intro fuel
  induction fuel with
  | zero => intro t g g' t' i _ e; simp [simp] at e
  | succ fuel ih =>
    intro t g g' t' i hI e
    unfold simp at e
    rcases hr : r (ω t) g with _ | ⟨c, g1⟩
    · rw [hr] at e; simp at e
    · rw [hr] at e
      obtain ⟨k1, k2⟩ := h t g c g1 hI hr
      cases c with
      | false =>
        simp only [Run.done.injEq] at e
        rw [← e.1]; exact ⟨k1, k2⟩
      | true =>
        obtain ⟨g2, t2, i2, e1, e2⟩ := Run.bind_done e
        simp only [Run.done.injEq] at e2
        obtain ⟨l1, l2⟩ := ih _ _ _ _ _ k1 e1
        rw [← e2.1]; exact ⟨l1, htr _ _ _ k2 l2⟩

/-! ### One pass -/

/-- The graph after the removal of the isolated vertices. -/
theorem afterRewrite_cut (hP : PhaseSet P) {o : Orders} (ho : o.OK) {s : RewriteState} {g' g'' : Graph} {c : Bool} (hf : s.finish = some g')
    (hz : g'.ZX P) (h : afterRewrite o true s = some (c, g'')) :
    c = true ∧ Cut g' g'' ∧ (∀ v ∈ g''.verts, ¬ g'.Isolated v) ∧ g''.ZX P := by
  obtain ⟨g1, h1, h2, h3, h4, h5⟩ := removeIsolated_zx hP hz (ho.nbr g') (ho.all g').1 (ho.all g').2
  obtain ⟨r1, r2, r3, r4, -⟩ := Props.removeIsolated_removes hz.wf (hz.isoOK hP) (ho.nbr g') (ho.all g').1 (ho.all g').2 h1
  have e : afterRewrite o true s = some (true, g1) := by simp [afterRewrite, hf, h1]
  rw [e, Option.some.injEq, Prod.mk.injEq] at h
  obtain ⟨e1, e2⟩ := h
  subst e2
  exact ⟨e1.symm, ⟨hz.wf, h3.wf, h5, r2, r3, fun v hv n => removeIsolated_adj hz.wf h3.wf r1 r2 r4 hv n⟩, fun v hv => ((r1 v).mp hv).2, h3⟩

/-- The diagrams for which the potential is used. -/
def ZXZ (P : ℚ → Prop) (g : Graph) : Prop := g.ZX P ∧ g.ZOnly

theorem RoundOK.zxz {N : Graph → Prop} {o : Orders} {r : Orders → Graph → Option (Bool × Graph)} (h : RoundOK P N o r) {g g' : Graph}
    {c : Bool} (hg : ZXZ P g) (e : r o g = some (c, g')) : ZXZ P g' := by
  obtain ⟨c1, g1, h1, h2, h3, -⟩ := h g hg.1
  rw [e, Option.some.injEq, Prod.mk.injEq] at h1
  rw [h1.2]
  exact ⟨h2, fun v hv => by rw [h3.ty]; exact hg.2 v (h3.verts hv)⟩

theorem idRound_rel (hP : PhaseSet P) {o : Orders} (ho : o.OK) {g g' : Graph} {c : Bool} (hg : ZXZ P g) (h : idRound o g = some (c, g')) :
    ZXZ P g' ∧ Rel g g' := by
  refine ⟨RoundOK.zxz (idRound_ok hP ho) hg h, ?_⟩
  have hok := matchIds_ok hg.1.wf (ho.nbr g) (ho.vcand g).1 (ho.vcand g).2 (-1)
  unfold idRound at h
  simp only at h
  by_cases hm : matchIds g (o.nbr g) (-1) (o.vcand g) = []
  · rw [if_pos hm, Option.some.injEq, Prod.mk.injEq] at h
    rw [← h.2]; exact Rel.refl _
  · rw [if_neg hm] at h
    obtain ⟨g1, h1, -⟩ := removeIds_zx hP hg.1 hok
    have e : afterRewrite o false (removeIds g (matchIds g (o.nbr g) (-1) (o.vcand g))) = some (true, g1) := by simp [afterRewrite, h1]
    rw [e, Option.some.injEq, Prod.mk.injEq] at h
    rw [← h.2]
    exact ids_rel hP hg.1 hg.2 hok hm h1

theorem spiderRound_rel (hP : PhaseSet P) {o : Orders} (ho : o.OK) {g g' : Graph} {c : Bool} (hg : ZXZ P g)
    (h : spiderRound o g = some (c, g')) : ZXZ P g' ∧ Rel g g' := by
  refine ⟨RoundOK.zxz (spiderRound_ok hP ho) hg h, ?_⟩
  have hok := matchSpider_ok hg.1.wf (ho.ecand g).1 (-1) (o.row0 g)
  unfold spiderRound at h
  simp only at h
  by_cases hm : matchSpider g (-1) (o.ecand g) = []
  · rw [if_pos hm, Option.some.injEq, Prod.mk.injEq] at h
    rw [← h.2]; exact Rel.refl _
  · rw [if_neg hm] at h
    obtain ⟨g1, h1, -, h3, -⟩ := spider_zx hP hg.1 (ho.nbr g) hok
    obtain ⟨-, k2, k3, -⟩ := afterRewrite_cut hP ho h1 h3 h
    exact spider_rel hP hg.1 hg.2 (ho.nbr g) hok hm h1 k2 k3

theorem pivotRound_rel (hP : PhaseSet P) {o : Orders} (ho : o.OK) {g g' : Graph} {c : Bool} (hg : ZXZ P g)
    (h : pivotRound o g = some (c, g')) : ZXZ P g' ∧ Rel g g' := by
  refine ⟨RoundOK.zxz (pivotRound_ok hP ho) hg h, ?_⟩
  have hok := matchPivot_ok hg.1.wf (ho.nbr g) (ho.ecand g).1 (-1)
  unfold pivotRound at h
  simp only at h
  by_cases hm : matchPivot g (o.nbr g) (-1) (o.ecand g) = []
  · rw [if_pos hm, Option.some.injEq, Prod.mk.injEq] at h
    rw [← h.2]; exact Rel.refl _
  · rw [if_neg hm] at h
    obtain ⟨g1, h1, -, h3, -⟩ := pivot_zx hP hg.1 ho.lst hok
    obtain ⟨-, k2, k3, -⟩ := afterRewrite_cut hP ho h1 h3 h
    exact pivot_rel hP hg.1 ho.lst hok (fun m hm w hw => matchPivot_bnd hm hw) hm h1 k2

theorem lcompRound_rel (hP : PhaseSet P) {o : Orders} (ho : o.OK) {g g' : Graph} {c : Bool} (hg : ZXZ P g)
    (h : lcompRound o g = some (c, g')) : ZXZ P g' ∧ Rel g g' := by
  refine ⟨RoundOK.zxz (lcompRound_ok hP ho) hg h, ?_⟩
  have hok := matchLcomp_ok hg.1.wf (ho.nbr g) (ho.vcand g).1 (ho.vcand g).2 (-1)
  unfold lcompRound at h
  simp only at h
  by_cases hm : matchLcomp g (o.nbr g) (-1) (o.vcand g) = []
  · rw [if_pos hm, Option.some.injEq, Prod.mk.injEq] at h
    rw [← h.2]; exact Rel.refl _
  · rw [if_neg hm] at h
    obtain ⟨g1, h1, -, h3, -⟩ := lcomp_zx hP hg.1 hok
    obtain ⟨-, k2, k3, -⟩ := afterRewrite_cut hP ho h1 h3 h
    exact lcomp_rel hP hg.1 hok hm h1 k2 k3

/-! ### The loops -/

theorem rel_trans (a b c : Graph) : Rel a b → Rel b c → Rel a c := Rel.trans

theorem interiorLoop_rel (hP : PhaseSet P) {ω : ℕ → Orders} (ho : ∀ t, (ω t).OK) (fuel : ℕ) : ∀ (n t : ℕ) (g g' : Graph) (t' i : ℕ), ZXZ P g →
    interiorLoop ω fuel n t g = .done g' t' i → ZXZ P g' ∧ Rel g g' := by
  intro n
  induction n with
  | zero => intro t g g' t' i _ e; simp [interiorLoop] at e
  | succ n ih =>
    intro t g g' t' i hg e
    unfold interiorLoop at e
    obtain ⟨g1, t1, i1, a1, e⟩ := Run.bind_done e
    obtain ⟨g2, t2, i2, a2, e⟩ := Run.bind_done e
    obtain ⟨g3, t3, i3, a3, e⟩ := Run.bind_done e
    obtain ⟨g4, t4, i4, a4, e⟩ := Run.bind_done e
    obtain ⟨b1, c1⟩ := simp_inv (I := ZXZ P) (fun t g c g' hg h => idRound_rel hP (ho t) hg h) rel_trans _ _ _ _ _ _ hg a1
    obtain ⟨b2, c2⟩ := simp_inv (I := ZXZ P) (fun t g c g' hg h => spiderRound_rel hP (ho t) hg h) rel_trans _ _ _ _ _ _ b1 a2
    obtain ⟨b3, c3⟩ := simp_inv (I := ZXZ P) (fun t g c g' hg h => pivotRound_rel hP (ho t) hg h) rel_trans _ _ _ _ _ _ b2 a3
    obtain ⟨b4, c4⟩ := simp_inv (I := ZXZ P) (fun t g c g' hg h => lcompRound_rel hP (ho t) hg h) rel_trans _ _ _ _ _ _ b3 a4
    have hr := ((c1.trans c2).trans c3).trans c4
    by_cases hi : i1 + i2 + i3 + i4 = 0
    · rw [if_pos hi] at e
      simp only [Run.done.injEq] at e
      rw [← e.1]; exact ⟨b4, hr⟩
    · rw [if_neg hi] at e
      obtain ⟨g5, t5, i5, a5, e⟩ := Run.bind_done e
      simp only [Run.done.injEq] at e
      obtain ⟨b5, c5⟩ := ih _ _ _ _ _ b4 a5
      rw [← e.1]; exact ⟨b5, hr.trans c5⟩

theorem pot_le_N (g : Graph) : g.pot ≤ Heavy.N * g.verts.card := by
  unfold pot
  rw [mul_comm]
  exact Finset.sum_le_card_nsmul _ _ _ fun v _ => wt_le_N g v

theorem interiorCliffordSimp_rel (hP : PhaseSet P) {ω : ℕ → Orders} (ho : ∀ t, (ω t).OK) {fuel t : ℕ} {g g' : Graph} {t' i : ℕ}
    (hg : g.ZX P) (hz : g.ZOnly) (h1 : interiorCliffordSimp ω fuel t g = .done g' t' i) : Rel g g' := by
  unfold interiorCliffordSimp at h1
  obtain ⟨g1, t1, i1, a1, e⟩ := Run.bind_done h1
  obtain ⟨b1, c1⟩ := simp_inv (I := ZXZ P) (fun t g c g' hg h => spiderRound_rel hP (ho t) hg h) rel_trans _ _ _ _ _ _ ⟨hg, hz⟩ a1
  rw [toGH_nf] at e
  · exact c1.trans (interiorLoop_rel hP ho fuel _ _ _ _ _ _ b1 e).2
  · intro v hv
    have : v ∈ g1.verts := by rw [← ((ho t1).all g1).2]; simpa using hv
    rcases b1.2 v this with e | e <;> rw [e] <;> simp

/-- `interior_clifford_simp` on any diagram, with the potential of the result. -/
theorem interiorCliffordSimp_pot (hP : PhaseSet P) {ω : ℕ → Orders} (ho : ∀ t, (ω t).OK) (hfu : ∀ t, (ω t).Full) {fuel t : ℕ} {g : Graph}
    (hg : g.ZX P) (hf : g.verts.card < fuel) : ∃ g' t' i, interiorCliffordSimp ω fuel t g = .done g' t' i ∧ g'.ZX P ∧ Keeps P g g' ∧
      g'.verts ⊆ g.verts ∧ g'.InteriorNF ∧ g'.pot ≤ Heavy.N * g.verts.card ∧ (g.ZOnly → Rel g g') := by
  obtain ⟨g', t', i, h1, h2, h3, h4, h5, h6, h7⟩ := interiorCliffordSimp_ok hP ho hg hf (t := t)
  refine ⟨g', t', i, h1, h2, h3, h4, h7 hfu, ?_, fun hz => interiorCliffordSimp_rel hP ho hg hz h1⟩
  exact (pot_le_N g').trans (Nat.mul_le_mul_left _ (Finset.card_le_card h4))

/-! ### Normal forms -/

theorem pl_cases (hP : PhaseSet P) {g : Graph} (hg : g.ZX P) {v : ℕ} (hv : v ∈ g.verts) (h : g.Pl v) : g.phase v = 0 ∨ g.phase v = 1 := by
  obtain ⟨k, hk⟩ := h
  obtain ⟨h1, h2⟩ := hP.reduced _ (hg.phases v hv)
  rw [hk] at h1 h2 ⊢
  have h1' : (0 : ℤ) ≤ k := by exact_mod_cast h1
  have h2' : k < 2 := by exact_mod_cast h2
  have : k = 0 ∨ k = 1 := by omega
  rcases this with rfl | rfl
  · left; simp
  · right; simp

theorem pl_of {g : Graph} {v : ℕ} (h : g.phase v = 0 ∨ g.phase v = 1) : g.Pl v := by
  rcases h with h | h
  · exact ⟨0, by rw [h]; simp⟩
  · exact ⟨1, by rw [h]; simp⟩

theorem half_cases (hP : PhaseSet P) {g : Graph} (hg : g.ZX P) {v : ℕ} (hv : v ∈ g.verts) (h : g.Cl v) (hn : ¬ g.Pl v) :
    g.phase v = 1 / 2 ∨ g.phase v = 3 / 2 := by
  obtain ⟨k, hk⟩ := h
  obtain ⟨h1, h2⟩ := hP.reduced _ (hg.phases v hv)
  have h1' : (0 : ℤ) ≤ k := by
    have : (0 : ℚ) ≤ k := by rw [← hk]; linarith
    exact_mod_cast this
  have h2' : k < 4 := by
    have : (k : ℚ) < 4 := by rw [← hk]; linarith
    exact_mod_cast this
  have : k = 0 ∨ k = 1 ∨ k = 2 ∨ k = 3 := by omega
  rcases this with rfl | rfl | rfl | rfl
  · exact absurd ⟨0, by push_cast at hk ⊢; linarith⟩ hn
  · left; push_cast at hk; linarith
  · exact absurd ⟨1, by push_cast at hk ⊢; linarith⟩ hn
  · right; push_cast at hk; linarith

theorem bnds_bd {g : Graph} (hg : g.WF) {v : ℕ} (h : ¬ g.Bd v) : (g.bnds v).card = 0 := by
  rw [Finset.card_eq_zero]
  unfold bnds
  refine Finset.filter_eq_empty_iff.mpr fun w hw e => h ⟨w, (mem_nbrs hg.toInv).mp hw, e⟩

theorem InteriorNF.noWW (hP : PhaseSet P) {g : Graph} (hg : g.ZX P) (h : g.InteriorNF) : ¬ g.WW := by
  rintro ⟨v, hv, h1, h2, h3, h4⟩
  exact h4 (h.half v hv h1 (half_cases hP hg hv h2 h3))

theorem InteriorNF.allPos (hP : PhaseSet P) {g : Graph} (hg : g.ZX P) (h : g.InteriorNF) : g.AllPos := by
  rintro v hv ⟨h1, h2, h3, x, hl, hx⟩
  have hadj : g.adj x v ≠ none := (hl.2 v).mpr rfl
  have hxv := hg.wf.mem _ _ hadj
  have hvp : g.Pl v := by
    by_contra hn
    exact h3 (h.half v hv h1 (half_cases hP hg hv h2 hn))
  have hxb : ¬ g.Bd x := by
    rintro ⟨b, hb, hbt⟩
    rw [(hl.2 b).mp hb, h1] at hbt
    simp at hbt
  have hxp : g.Pl x := by
    by_contra hn
    exact hxb (h.half x hxv hl.1 (half_cases hP hg hxv hx hn))
  have := h.pauli x v hadj hl.1 h1 (pl_cases hP hg hxv hxp) (pl_cases hP hg hv hvp)
  rw [bnds_bd hg.wf hxb, bnds_bd hg.wf h3] at this
  omega

theorem card_le_pot {g : Graph} (h : g.AllPos) : g.verts.card ≤ g.pot := by
  unfold pot
  rw [Finset.card_eq_sum_ones]
  exact Finset.sum_le_sum fun v hv => wt_pos (h v hv)

end Simplify
end PyZX
