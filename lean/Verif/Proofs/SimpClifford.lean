import Verif.Proofs.SimpMeasure

/-!
# `interior_clifford_simp` and `clifford_simp` with any fuel
-/

namespace PyZX
namespace Simplify

open Graph Rules

variable {P : ℚ → Prop}

theorem simp_any {N : Graph → Prop} {ω : ℕ → Orders} {r : Orders → Graph → Option (Bool × Graph)} (h : ∀ t, RoundOK P N (ω t) r)
    (fuel t : ℕ) (g : Graph) (hg : g.ZX P) : simp r ω fuel t g = .running ∨ LoopOK P N ω g (simp r ω fuel t g) := by
  rcases simp_end (I := fun g => g.ZX P) (R := Shrinks P) (μ := fun g => g.verts.card) (N := N) (ω := ω) (r := r) h
    (fun _ _ _ => Shrinks.trans) fuel t g hg with h | h
  · exact Or.inl h.1
  · exact Or.inr h

theorem interiorLoop_any (hP : PhaseSet P) {ω : ℕ → Orders} (ho : ∀ t, (ω t).OK) (fuel : ℕ) :
    ∀ (n t : ℕ) (g : Graph), g.ZX P → interiorLoop ω fuel n t g = .running ∨
      LoopOK P (fun g => g.NoIds ∧ g.NoFuse ∧ g.NoPivot ∧ g.NoLcomp) ω g (interiorLoop ω fuel n t g) := by
  intro n
  induction n with
  | zero => intro t g _; exact Or.inl rfl
  | succ n ih =>
    intro t g hg
    rcases simp_any (fun t => idRound_ok hP (ho t)) fuel t g hg with hr | ⟨g1, t1, i1, a1, a2, a3, a4, a5, a6⟩
    · exact Or.inl (by simp only [interiorLoop, idSimp, hr, Run.bind])
    rcases simp_any (fun t => spiderRound_ok hP (ho t)) fuel t1 g1 a2 with hr | ⟨g2, t2, i2, b1, b2, b3, b4, b5, b6⟩
    · exact Or.inl (by simp only [interiorLoop, idSimp, spiderSimp, a1, hr, Run.bind])
    rcases simp_any (fun t => pivotRound_ok hP (ho t)) fuel t2 g2 b2 with hr | ⟨g3, t3, i3, c1, c2, c3, c4, c5, c6⟩
    · exact Or.inl (by simp only [interiorLoop, idSimp, spiderSimp, pivotSimp, a1, b1, hr, Run.bind])
    rcases simp_any (fun t => lcompRound_ok hP (ho t)) fuel t3 g3 c2 with hr | ⟨g4, t4, i4, d1, d2, d3, d4, d5, d6⟩
    · exact Or.inl (by simp only [interiorLoop, idSimp, spiderSimp, pivotSimp, lcompSimp, a1, b1, c1, hr, Run.bind])
    have hs : Shrinks P g g4 := ((a3.trans b3).trans c3).trans d3
    have hrun : interiorLoop ω fuel (n + 1) t g = if i1 + i2 + i3 + i4 = 0 then .done g4 t4 0
        else (interiorLoop ω fuel n t4 g4).bind fun g5 t5 i => .done g5 t5 (i + 1) := by
      simp only [interiorLoop, idSimp, spiderSimp, pivotSimp, lcompSimp, a1, b1, c1, d1, Run.bind]
    rw [hrun]
    by_cases hi : i1 + i2 + i3 + i4 = 0
    · rw [if_pos hi]
      right
      have q1 := a5 (by omega)
      have q2 := b5 (by omega)
      have q3 := c5 (by omega)
      have q4 := d5 (by omega)
      refine ⟨g4, t4, 0, rfl, d2, hs, by omega, fun _ => by rw [q4, q3, q2, q1], fun hfu => ?_⟩
      have r1 := a6 hfu
      have r2 := b6 hfu
      have r3 := c6 hfu
      have r4 := d6 hfu
      rw [q4] at r4 ⊢
      rw [q3] at r3 r4 ⊢
      rw [q2] at r2 r3 r4 ⊢
      exact ⟨r1, r2, r3, r4⟩
    · rw [if_neg hi]
      rcases ih t4 g4 d2 with hr | ⟨g5, t5, i, e1, e2, e3, e4, -, e6⟩
      · exact Or.inl (by simp only [hr, Run.bind])
      · exact Or.inr ⟨g5, t5, i + 1, by simp only [e1, Run.bind], e2, hs.trans e3, by omega, by omega, e6⟩

theorem interiorCliffordSimp_any (hP : PhaseSet P) {ω : ℕ → Orders} (ho : ∀ t, (ω t).OK) (fuel t : ℕ) (g : Graph) (hg : g.ZX P) :
    interiorCliffordSimp ω fuel t g = .running ∨ ∃ g' t' i, interiorCliffordSimp ω fuel t g = .done g' t' i ∧ g'.ZX P ∧ Keeps P g g' ∧
      (∀ v ∈ g'.verts, g'.ty v = .boundary ∨ g'.ty v = .Z) ∧ ((∀ t, (ω t).Full) → g'.InteriorNF) := by
  rcases simp_any (fun t => spiderRound_ok hP (ho t)) fuel t g hg with hr | ⟨g1, t1, i1, a1, a2, a3, a4, -, -⟩
  · exact Or.inl (by simp only [interiorCliffordSimp, spiderSimp, hr, Run.bind])
  obtain ⟨b1, b2, b3, b4⟩ := toGH_zx a2 ((ho t1).nbr g1) ((ho t1).all g1).2
  rcases interiorLoop_any hP ho fuel fuel (t1 + 1) _ b2 with hr | ⟨g2, t2, i, c1, c2, c3, c4, -, c6⟩
  · exact Or.inl (by simp only [interiorCliffordSimp, spiderSimp, a1, Run.bind, hr])
  have hty : ∀ v ∈ g2.verts, g2.ty v = .boundary ∨ g2.ty v = .Z := by
    intro v hv
    rw [c3.ty]
    exact b4 v (by rw [← b3]; exact c3.verts hv)
  exact Or.inr ⟨g2, t2, i, by simp only [interiorCliffordSimp, spiderSimp, a1, Run.bind, c1], c2,
    (a3.keeps.trans (b1.keeps (toGH_bph a2.wf ((ho t1).nbr g1) ((ho t1).all g1).2))).trans c3.keeps, hty, fun hfu => interiorNF_of c2 hty (c6 hfu)⟩

theorem InteriorNF.zHad {g : Graph} (h : g.InteriorNF) : g.ZHad := fun u v hu hv hne => h.had u v hne hu hv

theorem cliffordSimp_any (hP : PhaseSet P) {ω : ℕ → Orders} (ho : ∀ t, (ω t).OK) (hfu : ∀ t, (ω t).Full) (fuel : ℕ) :
    ∀ (n t : ℕ) (g : Graph), g.ZX P → cliffordSimp ω fuel n t g = .running ∨
      ∃ g' t' i, cliffordSimp ω fuel n t g = .done g' t' i ∧ g'.ZX P ∧ Keeps P g g' ∧ g'.InteriorNF ∧ g'.NoBoundaryPivot := by
  intro n
  induction n with
  | zero => intro t g _; exact Or.inl rfl
  | succ n ih =>
    intro t g hg
    rcases interiorCliffordSimp_any hP ho fuel t g hg with hr | ⟨g1, t1, i1, a1, a2, a3, a4, a5⟩
    · exact Or.inl (by simp only [cliffordSimp, hr, Run.bind])
    have hnf := a5 hfu
    rcases simp_end (fun t => pivotBoundaryRound_ok hP (ho t)) (fun _ _ _ => Keeps.trans) fuel t1 g1 ⟨a2, InteriorNF.zHad hnf⟩ with
      ⟨hr, -⟩ | ⟨g2, t2, i2, b1, b2, b3, b4, b5, b6⟩
    · exact Or.inl (by simp only [cliffordSimp, pivotBoundarySimp, a1, hr, Run.bind])
    have hrun : cliffordSimp ω fuel (n + 1) t g = if i2 = 0 then .done g2 t2 i1
        else (cliffordSimp ω fuel n t2 g2).bind fun g3 t3 i => .done g3 t3 (i1 + i) := by
      simp only [cliffordSimp, pivotBoundarySimp, a1, b1, Run.bind]
    rw [hrun]
    by_cases hi : i2 = 0
    · rw [if_pos hi]
      have e := b5 hi
      have h6 := b6 hfu
      rw [e] at h6 ⊢
      exact Or.inr ⟨g1, t2, i1, rfl, a2, a3, hnf, h6⟩
    · rw [if_neg hi]
      rcases ih t2 g2 b2.1 with hr | ⟨g3, t3, i, e1, e2, e3, e4, e5⟩
      · exact Or.inl (by simp only [hr, Run.bind])
      · exact Or.inr ⟨g3, t3, i1 + i, by simp only [e1, Run.bind], e2, (a3.trans b3).trans e3, e4, e5⟩

end Simplify
end PyZX
