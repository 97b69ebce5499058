import Verif.Model.HSimp
import Verif.Spec.Simp
import Verif.Props.HPar
import Verif.Props.Simp

/-!
# C67: the loop `par_hbox_simp`
-/

namespace PyZX
namespace Props

open Graph HRules Simplify

theorem HPreserves.refl {g : Graph} (hg : g.HWF) : HPreserves g g := ⟨hg, rfl, rfl, fun _ => Iff.rfl, fun _ => rfl⟩

theorem HPreserves.trans {g g' g'' : Graph} (h : HPreserves g g') (h' : HPreserves g' g'') : HPreserves g g'' :=
  ⟨h'.wf, h'.inputs.trans h.inputs, h'.outputs.trans h.outputs, fun v => (h'.boundary v).trans (h.boundary v), fun b => (h'.sem b).trans (h.sem b)⟩

/-- **C67.** `par_hbox_simp` ends without an exception, for all iteration orders and filters, after at most as many rewrites as vertices disappear. It keeps the
tensor exactly, and its last pass found no match. -/
theorem parHboxSimp_sound {ω : ℕ → Orders} (hω : ∀ t, (ω t).OK) {g : Graph} (hg : g.HWF) (t₀ : ℕ) {fuel : ℕ} (hf : g.verts.card < fuel) :
    ∃ g' t i, parHboxSimp ω fuel t₀ g = .done g' (t + 1) i ∧ HPreserves g g' ∧ i + g'.verts.card ≤ g.verts.card ∧
      matchPar g' ((ω t).nbr g') ((ω t).vcand g') = [] := by
  induction fuel generalizing g t₀ with
  | zero => omega
  | succ fuel ih =>
    unfold parHboxSimp simp
    by_cases hm : matchPar g ((ω t₀).nbr g) ((ω t₀).vcand g) = []
    · refine ⟨g, t₀, 0, ?_, HPreserves.refl hg, by omega, hm⟩
      simp [parRound, hm]
    · obtain ⟨g1, h1, h2, -, h4⟩ := par_round hg ((hω t₀).nbr g) ((hω t₀).vcand g).1 ((hω t₀).vcand g).2
      have h4 := h4 hm
      obtain ⟨g', t, i, i1, i2, i3, i4⟩ := ih h2.wf (t₀ + 1) (by omega)
      refine ⟨g', t, i + 1, ?_, HPreserves.trans h2 i2, by omega, i4⟩
      have hr : parRound (ω t₀) g = some (true, g1) := by
        simp [parRound, hm, afterRewrite, h1]
      rw [hr]
      unfold parHboxSimp at i1
      simp only [i1, Run.bind]

/-- **C67.** Without a filter, `par_hbox_simp` ends with a diagram in which no two H-boxes have the same white spiders as neighbours and are connected by NOT gates
to the same spiders. -/
theorem parHboxSimp_complete {ω : ℕ → Orders} (hω : ∀ t, (ω t).OK) (hfull : ∀ t (g : Graph), ∀ v ∈ g.verts, v ∈ (ω t).vcand g) {g : Graph} (hg : g.HWF)
    {t₀ fuel : ℕ} (hf : g.verts.card < fuel) : ∃ g' t i, parHboxSimp ω fuel t₀ g = .done g' t i ∧ HPreserves g g' ∧
      ∀ h ∈ g'.verts, ∀ h' ∈ g'.verts, h ≠ h' → ∀ R N N' p p', HLegs g' h R N p → HLegs g' h' R N' p' → (∀ r ∈ R, g'.ty r = .Z ∨ g'.ty r = .X) →
        N.image p ≠ N'.image p' := by
  obtain ⟨g', t, i, h1, h2, -, h4⟩ := parHboxSimp_sound hω hg t₀ hf
  refine ⟨g', t + 1, i, h1, h2, ?_⟩
  intro a ha b hb hne R N N' p p' l1 l2 hR hN
  obtain ⟨m, hm, -⟩ := matchPar_complete h2.wf ((hω t).nbr g') ((hω t).vcand g').2 (hfull t g' a ha) (hfull t g' b hb) hne l1 l2 hR hN
  rw [h4] at hm
  simp at hm

example : exPar.HWF ∧ (∀ _ : ℕ, incOrders.OK) ∧ ∀ (_ : ℕ) (g : Graph), ∀ v ∈ g.verts, v ∈ incOrders.vcand g :=
  ⟨exPar_match.1, fun _ => incOrders_ok, fun _ g v hv => by
    show v ∈ incSet g.verts
    rw [← List.mem_toFinset, (incSet_ok g.verts).2]; exact hv⟩

/-- The loop rewrites `exPar` when its vertices and neighbours are listed in increasing order. -/
example (o : Orders) (h1 : o.nbr exPar = exParOrd) (h2 : o.vcand exPar = [0, 1, 2, 3, 4, 5]) : ∃ g', parRound o exPar = some (true, g') ∧ g'.verts.card < 6 := by
  obtain ⟨a, b, c⟩ := exPar_match
  obtain ⟨g', i1, -, -, i4⟩ := par_round a b (cands := [0, 1, 2, 3, 4, 5]) (by decide) (by intro v hv; simp [exPar, mkG]; simp at hv; omega)
  refine ⟨g', ?_, ?_⟩
  · rw [c] at i1
    simp [parRound, h1, h2, c, afterRewrite, i1]
  · have := i4 (by rw [c]; simp)
    simpa [exPar, mkG] using this

end Props
end PyZX
