import Verif.Proofs.ScalSupp
import Verif.Proofs.TermLoop
import Verif.Proofs.TermCount

/-!
# The loop of `reduce_scalar`
-/

namespace PyZX
namespace Graph

/-- No two spiders with the same neighbours and phases that are no multiples of π/2 have phases that differ by π or add up to π. -/
def NoSupp (g : Graph) : Prop :=
  ∀ v ∈ g.verts, ∀ w ∈ g.verts, v ≠ w → 2 < (g.phase v).den → 2 < (g.phase w).den → g.nbrs v = g.nbrs w →
    mod2 (g.phase v - g.phase w) ≠ 1 ∧ mod2 (g.phase v + g.phase w) ≠ 1

end Graph

namespace Simplify
open Graph Rules

variable {P : ℚ → Prop}

/-- The diagrams on which `supplementarity_simp` is used. -/
structure SZ (P : ℚ → Prop) (g : Graph) : Prop where
  zx : g.ZX P
  had : g.ZHad
  zonly : g.ZOnly
  bnd : g.PlainBnd

theorem suppRound_false {o : Orders} (hf : o.Full) {g g' : Graph} (hg : g.WF) (h : suppRound o g = some (false, g')) : g.NoSupp := by
  unfold suppRound at h
  simp only at h
  by_cases hm : matchSupp g o.lst (o.vcand g) = []
  · intro v hv w hw
    exact Props.matchSupp_complete hm v (hf.vcand g hg v hv) w (hf.vcand g hg w hw)
  · rw [if_neg hm] at h
    obtain ⟨g2, e1, e2⟩ := Option.bind_eq_some_iff.mp h
    obtain ⟨g3, e3, e4⟩ := Option.map_eq_some_iff.mp e2
    simp at e4

/-- `supplementarity_simp` raises or ends. -/
theorem suppSimp_end (hP : PhaseSet P) {ω : ℕ → Orders} (ho : ∀ t, (ω t).OK) (hfu : ∀ t, (ω t).Full) : ∀ (fuel t : ℕ) (g : Graph), SZ P g →
    Simplify.tcount g < fuel → suppSimp ω fuel t g = .raised ∨ ∃ g' t' i, suppSimp ω fuel t g = .done g' t' i ∧ SZ P g' ∧ Keeps P g g' ∧
      g'.verts ⊆ g.verts ∧ (i = 0 → g' = g) ∧ i + Simplify.tcount g' ≤ Simplify.tcount g ∧ g'.NoSupp := by
  intro fuel
  induction fuel with
  | zero => intro t g _ h; omega
  | succ fuel ih =>
    intro t g hg hf
    unfold suppSimp simp
    rcases hr : suppRound (ω t) g with _ | ⟨c, g1⟩
    · exact Or.inl rfl
    · obtain ⟨⟨k1, k2, k3⟩, k4, k5, k6, k7⟩ := suppRound_spec hP (ho t) hg.zx hg.had hg.zonly hg.bnd hr
      have hs1 : SZ P g1 := ⟨k1, k2, k3, Keeps.plainBnd k4 hg.bnd⟩
      cases c with
      | false =>
        have := k6 rfl
        subst this
        exact Or.inr ⟨g1, t + 1, 0, rfl, hs1, k4, k5, fun _ => rfl, by omega, suppRound_false (hfu t) k1.wf hr⟩
      | true =>
        have h7 := k7 rfl
        rcases ih (t + 1) g1 hs1 (by omega) with e | ⟨g2, t2, i2, e, l1, l2, l3, -, l4, l5⟩ <;> unfold suppSimp at e
        · left; simp only [e, Run.bind]
        · right
          exact ⟨g2, t2, i2 + 1, by simp only [e, Run.bind], l1, k4.trans l2, l3.trans k5, by omega, by omega, l5⟩

/-- The first four loops of an iteration. -/
theorem scalarInterior_end (hP : PhaseSet P) {ω : ℕ → Orders} (ho : ∀ t, (ω t).OK) (hfu : ∀ t, (ω t).Full) {fuel t : ℕ} {g : Graph}
    (hg : ZXZ P g) (hf : g.verts.card < fuel) : ∃ g' t' i, scalarInterior ω fuel t g = .done g' t' i ∧ ZXZ P g' ∧ Keeps P g g' ∧
      i + g'.verts.card ≤ g.verts.card ∧ (i = 0 → g' = g ∧ g.InteriorNF) ∧ Rel g g' ∧ PotLe g g' := by
  obtain ⟨g1, t1, i1, a1, a2, a3, a4, a5, a6⟩ := simp_ok (fun t => idRound_ok hP (ho t)) fuel t g hg.1 hf
  obtain ⟨g2, t2, i2, b1, b2, b3, b4, b5, b6⟩ := simp_ok (fun t => spiderRound_ok hP (ho t)) fuel t1 g1 a2 (by omega)
  obtain ⟨g3, t3, i3, c1, c2, c3, c4, c5, c6⟩ := simp_ok (fun t => pivotRound_ok hP (ho t)) fuel t2 g2 b2 (by omega)
  obtain ⟨g4, t4, i4, d1, d2, d3, d4, d5, d6⟩ := simp_ok (fun t => lcompRound_ok hP (ho t)) fuel t3 g3 c2 (by omega)
  have hs : Shrinks P g g4 := ((a3.trans b3).trans c3).trans d3
  have key : ∀ [Heavy], ZXZ P g4 ∧ Rel g g4 := by
    intro H
    obtain ⟨y1, z1⟩ := simp_inv (I := ZXZ P) (fun t g c g' hg h => idRound_rel hP (ho t) hg h) rel_trans _ _ _ _ _ _ hg a1
    obtain ⟨y2, z2⟩ := simp_inv (I := ZXZ P) (fun t g c g' hg h => spiderRound_rel hP (ho t) hg h) rel_trans _ _ _ _ _ _ y1 b1
    obtain ⟨y3, z3⟩ := simp_inv (I := ZXZ P) (fun t g c g' hg h => pivotRound_rel hP (ho t) hg h) rel_trans _ _ _ _ _ _ y2 c1
    obtain ⟨y4, z4⟩ := simp_inv (I := ZXZ P) (fun t g c g' hg h => lcompRound_rel hP (ho t) hg h) rel_trans _ _ _ _ _ _ y3 d1
    exact ⟨y4, ((z1.trans z2).trans z3).trans z4⟩
  refine ⟨g4, t4, i1 + i2 + i3 + i4, ?_, key.1, hs.keeps, by omega, fun hi => ?_, key.2, fun H => (@key H).2.le⟩
  · simp only [scalarInterior, idSimp, spiderSimp, pivotSimp, lcompSimp, a1, b1, c1, d1, Run.bind]
  · have q1 := a5 (by omega)
    have q2 := b5 (by omega)
    have q3 := c5 (by omega)
    have q4 := d5 (by omega)
    have r1 := a6 hfu
    have r2 := b6 hfu
    have r3 := c6 hfu
    have r4 := d6 hfu
    rw [q4] at r4 ⊢
    rw [q3] at r3 r4 ⊢
    rw [q2] at r2 r3 r4 ⊢
    rw [q1] at r1 r2 r3 r4 ⊢
    exact ⟨rfl, interiorNF_of hg.1 hg.2 ⟨r1, r2, r3, r4⟩⟩

/-- The next two loops of an iteration. -/
theorem scalarGadgets_end (hP : PhaseSet P) {ω : ℕ → Orders} (ho : ∀ t, (ω t).OK) (hfu : ∀ t, (ω t).Full) {fuel t : ℕ} {g : Graph}
    (hg : ZXZ P g) (hb : g.PlainBnd) (hnf : g.InteriorNF) (hf : 2 * g.verts.card < fuel) :
    ∃ g' t' i, scalarGadgets ω fuel t g = .done g' t' i ∧ ZXZ P g' ∧ Keeps P g g' ∧ g'.verts.card ≤ g.verts.card ∧ PotLe g g' ∧
      (i = 0 → g' = g ∧ g.NoGadgetPivot ∧ g.NoGadgetFuse) ∧
      (i ≠ 0 → g'.pot < g.pot ∨ (g'.AllPos ∧ g'.NoGadgetFuse ∧ ¬ g.NoGadgetFuse)) := by
  have hzh : ZXH P g := ⟨hg.1, InteriorNF.zHad hnf⟩
  have hww := InteriorNF.noWW hP hg.1 hnf
  rcases simp_end (fun t => pivotGadgetRound_ok hP (ho t)) (fun _ _ _ => Keeps.trans) fuel t g hzh with
    ⟨-, hr⟩ | ⟨g1, t1, i1, a1, a2, a3, a4, a5, a6⟩
  · have := gadM_card_le g
    simp only at hr; omega
  obtain ⟨s1, s2, s3⟩ := pivotGadgetSimp_rel hP ho (fuel := fuel) (t := t) (g := g) (g' := g1) (t' := t1) (i := i1) ⟨hzh, hg.2⟩ hww a1
  have hps := pivotGadgetSimp_psep hP ho (fuel := fuel) (t := t) (t' := t1) (i := i1) hzh (InteriorNF.psep hP hg.1 hnf) a1
  have hgf : GF P g1 := ⟨a2.1, a2.2, s1.2, Keeps.plainBnd a3 hb, PSep.axelSep a2.1 s1.2 hps⟩
  have hgf0 : GF P g := ⟨hg.1, hzh.2, hg.2, hb, InteriorNF.axelSep hg.1 hnf⟩
  rcases simp_end (fun t => gadgetFuseRound_ok hP (ho t)) presB_trans fuel t1 g1 hgf with ⟨-, hr⟩ | ⟨g2, t2, i2, b1, b2, b3', b4, b5, b6⟩
  · have := axM_card_le g1
    simp only at hr; omega
  have b3 : Keeps P g1 g2 := b3'.1.keeps b3'.2
  obtain ⟨-, r1, r2, r3⟩ := gadgetSimp_rel hP ho (fuel := fuel) (t := t1) (g := g1) (g' := g2) (t' := t2) (i := i2) hgf b1
  have hc2 := Finset.card_le_card r2
  refine ⟨g2, t2, i1 + i2, by simp only [scalarGadgets, pivotGadgetSimp, gadgetSimp, a1, b1, Run.bind], ⟨b2.zx, b2.types⟩, a3.trans b3, by omega,
    PotLe.trans (b := g1) (fun H => ?_) fun H => ?_, fun hi => ?_, fun hi => ?_⟩
  · rcases (@pivotGadgetSimp_rel _ H hP _ ho _ _ _ _ _ _ ⟨hzh, hg.2⟩ (@InteriorNF.noWW _ H hP _ hg.1 hnf) a1).2.1 with e | e
    · rw [e]
    · omega
  · exact (@gadgetSimp_rel _ H hP _ ho _ _ _ _ _ _ hgf b1).2.1
  · have e1 := a5 (by omega)
    have e2 := b5 (by omega)
    have h1 := a6 hfu
    have h2 := b6 hfu
    rw [e2] at h2
    rw [e1] at h1 h2 e2
    exact ⟨e2, h1, h2⟩
  · rcases s2 with e | e
    · have hi1 : i1 = 0 := by
        rw [e] at a4
        omega
      rcases r3 (by rw [e]; exact InteriorNF.allPos hP hg.1 hnf) with h | h
      · left; rw [e] at h; exact h
      · right
        refine ⟨h.allPos (by rw [e]; exact InteriorNF.allPos hP hg.1 hnf), b6 hfu, fun hno => ?_⟩
        obtain ⟨f, rfl⟩ : ∃ f, fuel = f + 1 := ⟨fuel - 1, by omega⟩
        have := simp_false (fun t => gadgetFuseRound_nf (ho t) hgf0 hno) f t1
        rw [e, this] at b1
        simp only [Run.done.injEq] at b1
        omega
    · left; omega

/-- What is left when `reduce_scalar` has ended. -/
structure ScalarNF (g : Graph) : Prop where
  interior : g.InteriorNF
  gadget : g.NoGadgetPivot
  fuse : g.NoGadgetFuse
  supp : g.NoSupp

open Classical in
/-- The measure of the loop. -/
noncomputable def scalM (C : ℕ) (g : Graph) : ℕ :=
  (Simplify.tcount g * (32 * C + 2) + (2 * g.pot + if g.AllPos ∧ g.NoGadgetFuse then 0 else 1)) * (C + 1) + g.verts.card

theorem lex_lt {a b c a' b' c' C : ℕ} (hc : c' ≤ C) (h : a' < a ∧ b' < 32 * C + 2 ∨ a' ≤ a ∧ b' < b ∨ a' ≤ a ∧ b' ≤ b ∧ c' < c) :
    (a' * (32 * C + 2) + b') * (C + 1) + c' < (a * (32 * C + 2) + b) * (C + 1) + c := by
  rcases h with ⟨h1, h2⟩ | ⟨h1, h2⟩ | ⟨h1, h2, h3⟩
  · have : a' * (32 * C + 2) + b' + 1 ≤ a * (32 * C + 2) + b := by nlinarith
    nlinarith
  · have : a' * (32 * C + 2) + b' + 1 ≤ a * (32 * C + 2) + b := by nlinarith
    nlinarith
  · have : a' * (32 * C + 2) + b' ≤ a * (32 * C + 2) + b := by nlinarith
    nlinarith

theorem tcount_le_card (g : Graph) : Simplify.tcount g ≤ g.verts.card := Finset.card_le_card (Finset.filter_subset _ _)

theorem reduceScalar_loop (hP : PhaseSet P) {ω : ℕ → Orders} (ho : ∀ t, (ω t).OK) (hfu : ∀ t, (ω t).Full) {fuel C : ℕ} (hf : 2 * C < fuel) :
    ∀ (n i t : ℕ) (g : Graph), ZXZ P g → g.PlainBnd → g.verts.card ≤ C → scalM C g < n →
      reduceScalar ω fuel n i t g = .raised ∨ ∃ g' t' j, reduceScalar ω fuel n i t g = .done g' t' j ∧ ZXZ P g' ∧ Keeps P g g' ∧ ScalarNF g' ∧
        Simplify.tcount g' ≤ Simplify.tcount g ∧ g'.verts.card ≤ g.verts.card := by
  intro n
  induction n with
  | zero => intro i t g _ _ _ h; omega
  | succ n ih =>
    intro i t g hg hb hc hn
    obtain ⟨g1, t1, i1, a1, a2, a3, a4, a5, a6, a7⟩ := scalarInterior_end hP ho hfu (fuel := fuel) (t := t) hg (by omega)
    have hb1 := Keeps.plainBnd a3 hb
    have ht1 := PotLe.tcount a7 hg.2 hb a2.2 hb1
    by_cases hi1 : i1 = 0
    · obtain ⟨rfl, hnf⟩ := a5 hi1
      obtain ⟨g2, t2, i2, b1, b2, b3, b4, b5, b6, b7⟩ := scalarGadgets_end hP ho hfu (fuel := fuel) (t := t1) hg hb hnf (by omega)
      have hb2 := Keeps.plainBnd b3 hb
      have ht2 := PotLe.tcount b5 hg.2 hb b2.2 hb2
      by_cases hi2 : i2 = 0
      · obtain ⟨rfl, n1, n2⟩ := b6 hi2
        have ht := tcount_le_card g2
        rcases suppSimp_end hP ho hfu fuel t2 g2 ⟨hg.1, InteriorNF.zHad hnf, hg.2, hb⟩ (by omega) with
          e | ⟨g3, t3, i3, c1, c2, c3, c4, c5, c6, c7⟩
        · left
          simp only [reduceScalar, a1, b1, e, Run.bind, hi1, hi2, ne_eq, not_true, if_false]
        · by_cases hi3 : i3 = 0
          · have := c5 hi3
            subst this
            exact Or.inr ⟨g3, t3, i, by simp only [reduceScalar, a1, b1, c1, Run.bind, hi1, hi2, hi3, ne_eq, not_true, if_false, if_true], hg, c3,
              ⟨hnf, n1, n2, c7⟩, le_rfl, le_rfl⟩
          · have hc3 := Finset.card_le_card c4
            have hp3 := pot_le_N g3
            have hm : scalM C g3 < scalM C g2 := by
              unfold scalM
              refine lex_lt (by omega) (Or.inl ⟨by omega, ?_⟩)
              have : g3.pot ≤ 16 * g3.verts.card := hp3
              split_ifs <;> omega
            have hrun : reduceScalar ω fuel (n + 1) i t g2 = reduceScalar ω fuel n (i + 1) t3 g3 := by
              simp only [reduceScalar, a1, b1, c1, Run.bind, hi1, hi2, hi3, ne_eq, not_true, if_false]
            rw [hrun]
            rcases ih (i + 1) t3 g3 ⟨c2.zx, c2.zonly⟩ c2.bnd (by omega) (by omega) with e | ⟨g4, t4, j, d1, d2, d3, d4, d5, d6⟩
            · exact Or.inl e
            · exact Or.inr ⟨g4, t4, j, d1, d2, c3.trans d3, d4, by omega, by omega⟩
      · have hm : scalM C g2 < scalM C g1 := by
          unfold scalM
          refine lex_lt (by omega) (Or.inr (Or.inl ⟨ht2, ?_⟩))
          have hle : g2.pot ≤ g1.pot := b5 heavy16
          rcases b7 hi2 with h | ⟨h1, h2, h3⟩
          · split_ifs <;> omega
          · rw [if_pos ⟨h1, h2⟩, if_neg fun h => h3 h.2]
            omega
        have hrun : reduceScalar ω fuel (n + 1) i t g1 = reduceScalar ω fuel n (i + 1) t2 g2 := by
          simp only [reduceScalar, a1, b1, Run.bind, hi1, hi2, ne_eq, not_true, not_false_iff, if_false, if_true]
        rw [hrun]
        rcases ih (i + 1) t2 g2 b2 hb2 (by omega) (by omega) with e | ⟨g4, t4, j, d1, d2, d3, d4, d5, d6⟩
        · exact Or.inl e
        · exact Or.inr ⟨g4, t4, j, d1, d2, b3.trans d3, d4, by omega, by omega⟩
    · have hm : scalM C g1 < scalM C g := by
        unfold scalM
        have hle : g1.pot ≤ g.pot := a6.le
        rcases a6 with h | ⟨h, -, -, k⟩
        · refine lex_lt (by omega) (Or.inr (Or.inl ⟨ht1, ?_⟩))
          split_ifs <;> omega
        · have hna : ¬ g.AllPos := fun ha => by
            rw [k ha] at a4; omega
          refine lex_lt (by omega) (Or.inr (Or.inr ⟨ht1, ?_, by omega⟩))
          rw [if_neg (c := g.AllPos ∧ _) fun hh => hna hh.1]
          split_ifs <;> omega
      have hrun : reduceScalar ω fuel (n + 1) i t g = reduceScalar ω fuel n (i + 1) t1 g1 := by
        simp only [reduceScalar, a1, Run.bind, hi1, ne_eq, not_false_iff, if_true]
      rw [hrun]
      rcases ih (i + 1) t1 g1 a2 hb1 (by omega) (by omega) with e | ⟨g4, t4, j, d1, d2, d3, d4, d5, d6⟩
      · exact Or.inl e
      · exact Or.inr ⟨g4, t4, j, d1, d2, a3.trans d3, d4, by omega, by omega⟩

/-- Enough fuel for diagrams with at most `C` vertices. -/
def scalarFuel (C : ℕ) : ℕ := (C * (32 * C + 2) + (32 * C + 2)) * (C + 1) + 1

theorem reduceScalar_end (hP : PhaseSet P) {ω : ℕ → Orders} (ho : ∀ t, (ω t).OK) (hfu : ∀ t, (ω t).Full) {fuel C i t : ℕ} {g : Graph}
    (hg : ZXZ P g) (hb : g.PlainBnd) (hc : g.verts.card ≤ C) (hf : scalarFuel C ≤ fuel) :
    reduceScalar ω fuel fuel i t g = .raised ∨ ∃ g' t' j, reduceScalar ω fuel fuel i t g = .done g' t' j ∧ ZXZ P g' ∧ Keeps P g g' ∧ ScalarNF g' ∧
      Simplify.tcount g' ≤ Simplify.tcount g ∧ g'.verts.card ≤ g.verts.card := by
  have h1 : 2 * C < scalarFuel C := by
    unfold scalarFuel
    have : 32 * C + 2 ≤ (C * (32 * C + 2) + (32 * C + 2)) * (C + 1) := by
      calc 32 * C + 2 ≤ (C * (32 * C + 2) + (32 * C + 2)) * 1 := by omega
        _ ≤ _ := Nat.mul_le_mul_left _ (by omega)
    omega
  have h2 : scalM C g < scalarFuel C := by
    have ht := tcount_le_card g
    have hp : g.pot ≤ 16 * g.verts.card := pot_le_N g
    have : ∀ x, x ≤ 1 → 2 * g.pot + x ≤ 32 * C + 1 := by intro x hx; omega
    have h3 : Simplify.tcount g * (32 * C + 2) ≤ C * (32 * C + 2) := Nat.mul_le_mul_right _ (by omega)
    have h4 : ∀ x, x ≤ 1 → (Simplify.tcount g * (32 * C + 2) + (2 * g.pot + x)) * (C + 1) + g.verts.card <
        (C * (32 * C + 2) + (32 * C + 2)) * (C + 1) + 1 := by
      intro x hx
      have h5 : Simplify.tcount g * (32 * C + 2) + (2 * g.pot + x) + 1 ≤ C * (32 * C + 2) + (32 * C + 2) := by
        have := this x hx
        omega
      have h6 := Nat.mul_le_mul_right (C + 1) h5
      have h7 : (Simplify.tcount g * (32 * C + 2) + (2 * g.pot + x) + 1) * (C + 1) =
        (Simplify.tcount g * (32 * C + 2) + (2 * g.pot + x)) * (C + 1) + (C + 1) := by ring
      omega
    unfold scalM scalarFuel
    exact h4 _ (by split_ifs <;> omega)
  exact reduceScalar_loop hP ho hfu (C := C) (by omega) fuel i t g hg hb hc (by omega)

end Simplify
end PyZX
