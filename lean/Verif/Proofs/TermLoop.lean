import Verif.Proofs.TermFuse

/-!
# `clifford_simp` and `full_reduce` end
-/

namespace PyZX
namespace Simplify

open Graph Rules

variable {P : ℚ → Prop}

/-- What is needed to bound the number of iterations of `clifford_simp` by `n`: the diagram has the potential less than `n`, or `n` and is
such that it will decrease in the next call of `interior_clifford_simp`. -/
def Bounded (K n : ℕ) (g : Graph) : Prop :=
  (g.ZOnly ∧ g.pot ≤ K ∧ (g.pot < n ∨ (g.pot ≤ n ∧ g.JJ ∧ g.WW))) ∨ (16 * g.verts.card ≤ K ∧ 16 * g.verts.card < n)

/-- The number of spiders with a phase that is no multiple of π/2, as a limit of potentials, does not increase. -/
def PotLe (g g' : Graph) : Prop := ∀ H : Heavy, @pot H g' ≤ @pot H g

theorem PotLe.refl (g : Graph) : PotLe g g := fun _ => le_rfl

theorem PotLe.trans {a b c : Graph} (h : PotLe a b) (h' : PotLe b c) : PotLe a c := fun H => (h' H).trans (h H)

theorem interior16 (hP : PhaseSet P) {ω : ℕ → Orders} (ho : ∀ t, (ω t).OK) (hfu : ∀ t, (ω t).Full) {fuel t : ℕ} {g : Graph}
    (hg : g.ZX P) (hf : g.verts.card < fuel) : ∃ g' t' i, interiorCliffordSimp ω fuel t g = .done g' t' i ∧ g'.ZX P ∧ Keeps P g g' ∧
      g'.verts ⊆ g.verts ∧ g'.InteriorNF ∧ g'.pot ≤ 16 * g.verts.card ∧ (g.ZOnly → Rel g g') := interiorCliffordSimp_pot hP ho hfu hg hf

theorem InteriorNF.card_le (hP : PhaseSet P) {g : Graph} (hg : g.ZX P) (h : g.InteriorNF) : g.verts.card ≤ g.pot :=
  card_le_pot (InteriorNF.allPos hP hg h)

theorem cliffordSimp_end (hP : PhaseSet P) {ω : ℕ → Orders} (ho : ∀ t, (ω t).OK) (hfu : ∀ t, (ω t).Full) {fuel K : ℕ} (hf : 2 * K < fuel) :
    ∀ (n t : ℕ) (g : Graph), g.ZX P → g.verts.card ≤ 2 * K → Bounded K n g →
      ∃ g' t' i, cliffordSimp ω fuel n t g = .done g' t' i ∧ g'.ZX P ∧ Keeps P g g' ∧ g'.InteriorNF ∧ g'.NoBoundaryPivot ∧ g'.pot ≤ K ∧
        (g.ZOnly → g'.pot ≤ g.pot) ∧ (g.ZOnly → PotLe g g') := by
  intro n
  induction n with
  | zero =>
    rintro t g hg hc (⟨-, -, h | ⟨h, j, v, hv, hh⟩⟩ | ⟨-, h⟩)
    · omega
    · exfalso
      have h1 := wt_half_pos j hv hh
      have h2 : g.wt v ≤ g.pot := Finset.single_le_sum (f := g.wt) (fun _ _ => Nat.zero_le _) hv
      omega
    · omega
  | succ n ih =>
    intro t g hg hc hB
    obtain ⟨g1, t1, i1, a1, a2, a3, a4, a5, a6, a7⟩ := interior16 hP ho hfu hg (show g.verts.card < fuel by omega) (t := t)
    have hp : g1.pot ≤ K ∧ g1.pot < n + 1 := by
      rcases hB with ⟨z, b1, b2⟩ | ⟨b1, b2⟩
      · have hr := a7 z
        have := hr.le
        refine ⟨by omega, ?_⟩
        rcases b2 with b2 | ⟨b2, j, w⟩
        · omega
        · rcases hr with h | ⟨-, -, h, -⟩
          · omega
          · exact absurd (h j w) (InteriorNF.noWW hP a2 a5)
      · omega
    have hz1 : g1.ZOnly := a5.types
    have hle1 : g.ZOnly → g1.pot ≤ g.pot := fun z => (a7 z).le
    have hpl1 : g.ZOnly → PotLe g g1 := fun z H => (@interiorCliffordSimp_rel _ H hP _ ho _ _ _ _ _ _ hg z a1).le
    have hcard := InteriorNF.card_le hP a2 a5
    have hbn := bndM_card_le g1
    rcases simp_end (fun t => pivotBoundaryRound_ok hP (ho t)) (fun _ _ _ => Keeps.trans) fuel t1 g1 ⟨a2, InteriorNF.zHad a5⟩ with
      ⟨-, hr⟩ | ⟨g2, t2, i2, b1, b2, b3, b4, b5, b6⟩
    · simp only at hr; omega
    have hrun : cliffordSimp ω fuel (n + 1) t g = if i2 = 0 then .done g2 t2 i1
        else (cliffordSimp ω fuel n t2 g2).bind fun g3 t3 i => .done g3 t3 (i1 + i) := by
      simp only [cliffordSimp, pivotBoundarySimp, a1, b1, Run.bind]
    rw [hrun]
    by_cases hi : i2 = 0
    · rw [if_pos hi]
      have e := b5 hi
      have h6 := b6 hfu
      rw [e] at h6 ⊢
      exact ⟨g1, t2, i1, rfl, a2, a3, a5, h6, hp.1, hle1, hpl1⟩
    · rw [if_neg hi]
      obtain ⟨d1, d2⟩ := pivotBoundarySimp_rel hP ho (fuel := fuel) (t := t1) (g := g1) (g' := g2) (t' := t2) (i := i2)
        ⟨⟨a2, InteriorNF.zHad a5⟩, hz1⟩ b1
      have hle := d2.brel.le
      have hcd := d2.card
      have hne : g2 ≠ g1 := fun e => by rw [e] at b4; omega
      have hB2 : Bounded K n g2 := by
        refine Or.inl ⟨d1.2, by omega, ?_⟩
        rcases d2.nf with e | h
        · exact absurd e hne
        · rcases h a5 with h | h
          · left; omega
          · right; exact ⟨by omega, h⟩
      obtain ⟨g3, t3, i, e1, e2, e3, e4, e5, e6, e7, e8⟩ := ih t2 g2 d1.1.1 (by omega) hB2
      refine ⟨g3, t3, i1 + i, by simp only [e1, Run.bind], e2, (a3.trans b3).trans e3, e4, e5, e6, fun z => ?_, fun z => ?_⟩
      · have h1 := e7 d1.2
        have h2 := hle1 z
        omega
      · refine ((hpl1 z).trans (c := g2) fun H => ?_).trans (e8 d1.2)
        exact (@pivotBoundarySimp_rel _ H hP _ ho _ _ _ _ _ _ ⟨⟨a2, InteriorNF.zHad a5⟩, hz1⟩ b1).2.brel.le

/-- An iteration of the loop of `full_reduce` on its normal form is the last one. -/
theorem fullLoop_nf (hP : PhaseSet P) {ω : ℕ → Orders} (ho : ∀ t, (ω t).OK) (fuel n t : ℕ) {g : Graph} (hg : g.ZX P) (hpb : g.PlainBnd)
    (h : g.FullNF) : ∃ t', fullLoop ω (fuel + 1) (n + 1) t g = .done g t' 0 := by
  have gp : ∀ t, pivotGadgetSimp ω (fuel + 1) t g = .done g (t + 1) 0 := fun t =>
    simp_false (fun t => pivotGadgetRound_nf hP (ho t) hg (InteriorNF.zHad h.interior) h.gadget) fuel t
  have gf : ∀ t, gadgetSimp ω (fuel + 1) t g = .done g (t + 1) 0 := fun t =>
    simp_false (fun t => gadgetFuseRound_nf (ho t) ⟨hg, InteriorNF.zHad h.interior, h.interior.types, hpb, InteriorNF.axelSep hg h.interior⟩
      h.fuse) fuel t
  obtain ⟨t2, h2⟩ := cliffordSimp_nf hP ho fuel fuel t hg h.interior h.boundary
  obtain ⟨t3, h3⟩ := interior_nf' ho fuel (t2 + 1) hg h.interior
  exact ⟨t3 + 1, by simp only [gp, fullLoop, h2, gf, h3, Run.bind, add_zero, if_true]⟩

theorem fullLoop_end (hP : PhaseSet P) {ω : ℕ → Orders} (ho : ∀ t, (ω t).OK) (hfu : ∀ t, (ω t).Full) {fuel K : ℕ} (hf : 2 * K + 1 < fuel) :
    ∀ (n t : ℕ) (g : Graph), g.ZX P → g.PlainBnd → g.ZOnly → g.verts.card ≤ K → g.pot ≤ K → g.pot + 1 < n →
      ∃ g' t', fullLoop ω fuel n t g = .done g' t' 0 ∧ g'.ZX P ∧ Keeps P g g' ∧ g'.FullNF ∧ PotLe g g' := by
  intro n
  induction n with
  | zero => intro t g _ _ _ _ _ h; omega
  | succ n ih =>
    intro t g hg hb hzo hc hpK hpn
    obtain ⟨g1, t1, i1, a1, a2, a3, a4, a5, a6, a7, a8⟩ := cliffordSimp_end hP ho hfu (fuel := fuel) (K := K) (by omega) fuel t g hg (by omega)
      (Or.inl ⟨hzo, hpK, Or.inl (by omega)⟩)
    have hp1 := a7 hzo
    have hc1 := InteriorNF.card_le hP a2 a4
    have hb1 := Keeps.plainBnd a3 hb
    have hgf : GF P g1 := ⟨a2, InteriorNF.zHad a4, a4.types, hb1, InteriorNF.axelSep a2 a4⟩
    rcases simp_end (fun t => gadgetFuseRound_ok hP (ho t)) presB_trans fuel t1 g1 hgf with ⟨-, hr⟩ | ⟨g2, t2, i2, b1, b2, b3', -, b5, b6⟩
    · have := axM_card_le g1
      simp only at hr; omega
    have b3 : Keeps P g1 g2 := b3'.1.keeps b3'.2
    obtain ⟨-, r1, r2, r3⟩ := gadgetSimp_rel hP ho (fuel := fuel) (t := t1) (g := g1) (g' := g2) (t' := t2) (i := i2) hgf b1
    have hc2 := Finset.card_le_card r2
    obtain ⟨g3, t3, i3, c1, c2, c3, c4, c5, -, c7⟩ := interior16 hP ho hfu b2.zx (show g2.verts.card < fuel by omega) (t := t2)
    have hr3 := c7 b2.types
    have hp3 := hr3.le
    have hc3 := InteriorNF.card_le hP c2 c5
    rcases simp_end (fun t => pivotGadgetRound_ok hP (ho t)) (fun _ _ _ => Keeps.trans) fuel t3 g3 ⟨c2, InteriorNF.zHad c5⟩ with
      ⟨-, hr⟩ | ⟨g4, t4, i4, d1, d2, d3, d4, d5, d6⟩
    · have := gadM_card_le g3
      simp only at hr; omega
    obtain ⟨s1, s2, s3⟩ := pivotGadgetSimp_rel hP ho (fuel := fuel) (t := t3) (g := g3) (g' := g4) (t' := t4) (i := i4)
      ⟨⟨c2, InteriorNF.zHad c5⟩, c5.types⟩ (InteriorNF.noWW hP c2 c5) d1
    have hp4 : g4.pot ≤ g3.pot := by
      rcases s2 with e | e
      · rw [e]
      · omega
    have hpl : PotLe g g4 := by
      refine (((a8 hzo).trans (b := g1) (c := g2) fun H => ?_).trans (c := g3) fun H => ?_).trans fun H => ?_
      · exact (@gadgetSimp_rel _ H hP _ ho _ _ _ _ _ _ hgf b1).2.1
      · exact (@interiorCliffordSimp_rel _ H hP _ ho _ _ _ _ _ _ b2.zx b2.types c1).le
      · rcases (@pivotGadgetSimp_rel _ H hP _ ho _ _ _ _ _ _ ⟨⟨c2, InteriorNF.zHad c5⟩, c5.types⟩ (InteriorNF.noWW hP c2 c5) d1).2.1 with e | e
        · rw [e]
        · omega
    have hrun : fullLoop ω fuel (n + 1) t g = if i2 + i4 = 0 then .done g4 t4 0 else fullLoop ω fuel n t4 g4 := by
      simp only [fullLoop, gadgetSimp, pivotGadgetSimp, a1, b1, c1, d1, Run.bind]
    have hk := ((a3.trans b3).trans c3).trans d3
    by_cases hi : i2 + i4 = 0
    · have e2 := b5 (by omega)
      have e4 := d5 (by omega)
      have e3 : g3 = g1 := by
        rw [e2] at c1
        rcases interior_nf ho fuel t2 a2 a4 with hr | ⟨t', hr⟩ <;> rw [hr] at c1
        · simp at c1
        · simp only [Run.done.injEq] at c1; exact c1.1.symm
      have h2 := b6 hfu
      have h4 := d6 hfu
      rw [hrun, if_pos hi]
      rw [e2] at h2
      rw [e4, e3] at h4 ⊢
      exact ⟨g1, t4, rfl, a2, a3, ⟨a4, a5, h4, h2⟩, a8 hzo⟩
    · rw [hrun, if_neg hi]
      have key : g4.pot < g1.pot ∨ g4.FullNF := by
        rcases s2 with e4 | e4
        · rcases r3 (InteriorNF.allPos hP a2 a4) with h | h
          · left; omega
          · rcases hr3 with k | ⟨-, -, -, k⟩
            · left; omega
            · have e3 := k (h.allPos (InteriorNF.allPos hP a2 a4))
              right
              have h4 := d6 hfu
              have h2 := b6 hfu
              rw [e4] at h4 ⊢
              rw [e3] at c5 h4 ⊢
              exact ⟨c5, h.boundary hP a2 b2.zx a5, h4, h2⟩
        · left; omega
      have hb4 := Keeps.plainBnd hk hb
      rcases key with h | h
      · obtain ⟨g5, t5, e1, e2, e3, e4, e5⟩ := ih t4 g4 d2.1 hb4 s1.2 (by omega) (by omega) (by omega)
        exact ⟨g5, t5, e1, e2, hk.trans e3, e4, hpl.trans e5⟩
      · obtain ⟨f, rfl⟩ : ∃ f, fuel = f + 1 := ⟨fuel - 1, by omega⟩
        obtain ⟨m, rfl⟩ : ∃ m, n = m + 1 := ⟨n - 1, by omega⟩
        obtain ⟨t5, e⟩ := fullLoop_nf hP ho f m t4 d2.1 hb4 h
        exact ⟨g4, t5, e, d2.1, hk, h, hpl⟩

/-- A run of `full_reduce`: after `interior_clifford_simp` the number of spiders with a phase that is no multiple of π/2 does not increase. -/
theorem fullReduce_run (hP : PhaseSet P) {ω : ℕ → Orders} (ho : ∀ t, (ω t).OK) (hfu : ∀ t, (ω t).Full) {fuel t : ℕ} {g : Graph}
    (hg : g.ZX P) (hb : g.PlainBnd) (hf : 32 * g.verts.card + 1 < fuel) :
    ∃ g1 t1 g' t', (∃ i, interiorCliffordSimp ω fuel t g = .done g1 t1 i) ∧ g1.ZX P ∧ Keeps P g g1 ∧ g1.ZOnly ∧ Keeps P g1 g' ∧
      fullReduce ω fuel t g = .done g' t' 0 ∧ g'.ZX P ∧ Keeps P g g' ∧ g'.FullNF ∧ PotLe g1 g' := by
  have hh : ¬ ∃ v ∈ g.verts, g.ty v = .hbox := by
    rintro ⟨v, hv, e⟩
    rcases hg.types v hv with h | h | h <;> rw [h] at e <;> simp at e
  obtain ⟨g1, t1, i1, a1, a2, a3, a4, a5, a6, -⟩ := interior16 hP ho hfu hg (show g.verts.card < fuel by omega) (t := t)
  have hc1 := Finset.card_le_card a4
  rcases simp_end (fun t => pivotGadgetRound_ok hP (ho t)) (fun _ _ _ => Keeps.trans) fuel t1 g1 ⟨a2, InteriorNF.zHad a5⟩ with
    ⟨-, hr⟩ | ⟨g2, t2, i2, b1, b2, b3, -, b5, b6⟩
  · have := gadM_card_le g1
    simp only at hr; omega
  obtain ⟨s1, s2, s3⟩ := pivotGadgetSimp_rel hP ho (fuel := fuel) (t := t1) (g := g1) (g' := g2) (t' := t2) (i := i2)
    ⟨⟨a2, InteriorNF.zHad a5⟩, a5.types⟩ (InteriorNF.noWW hP a2 a5) b1
  have hp2 : g2.pot ≤ g1.pot := by
    rcases s2 with e | e
    · rw [e]
    · omega
  have hk := a3.trans b3
  have hsm : g2.pot + 1 < fuel := by omega
  obtain ⟨g5, t5, e1, e2, e3, e4, e5⟩ := fullLoop_end hP ho hfu (fuel := fuel) (K := 16 * g.verts.card) (by omega) fuel t2 g2 b2.1 (Keeps.plainBnd hk hb) s1.2
    (by omega) (by omega) hsm
  unfold fullReduce
  rw [if_neg hh]
  refine ⟨g1, t1, g5, t5, ⟨i1, a1⟩, a2, a3, a5.types, b3.trans e3, by simp only [pivotGadgetSimp, a1, b1, e1, Run.bind], e2, hk.trans e3, e4, PotLe.trans (fun H => ?_) e5⟩
  rcases (@pivotGadgetSimp_rel _ H hP _ ho _ _ _ _ _ _ ⟨⟨a2, InteriorNF.zHad a5⟩, a5.types⟩ (InteriorNF.noWW hP a2 a5) b1).2.1 with e | e
  · rw [e]
  · omega

theorem fullReduce_end (hP : PhaseSet P) {ω : ℕ → Orders} (ho : ∀ t, (ω t).OK) (hfu : ∀ t, (ω t).Full) {fuel t : ℕ} {g : Graph}
    (hg : g.ZX P) (hb : g.PlainBnd) (hf : 32 * g.verts.card + 1 < fuel) :
    ∃ g' t', fullReduce ω fuel t g = .done g' t' 0 ∧ g'.ZX P ∧ Keeps P g g' ∧ g'.FullNF := by
  obtain ⟨g1, t1, g', t', -, -, -, -, -, h1, h2, h3, h4, -⟩ := fullReduce_run hP ho hfu (t := t) hg hb hf
  exact ⟨g', t', h1, h2, h3, h4⟩

theorem cliffordSimp_ends (hP : PhaseSet P) {ω : ℕ → Orders} (ho : ∀ t, (ω t).OK) (hfu : ∀ t, (ω t).Full) {fuel n t : ℕ} {g : Graph}
    (hg : g.ZX P) (hf : 32 * g.verts.card < fuel) (hn : 16 * g.verts.card < n) :
    ∃ g' t' i, cliffordSimp ω fuel n t g = .done g' t' i ∧ g'.ZX P ∧ Keeps P g g' ∧ g'.InteriorNF ∧ g'.NoBoundaryPivot := by
  obtain ⟨g', t', i, h1, h2, h3, h4, h5, -⟩ := cliffordSimp_end hP ho hfu (fuel := fuel) (K := 16 * g.verts.card) (by omega) n t g hg (by omega)
    (Or.inr ⟨le_rfl, hn⟩)
  exact ⟨g', t', i, h1, h2, h3, h4, h5⟩

end Simplify
end PyZX
