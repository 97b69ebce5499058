import Verif.Proofs.Color
import Verif.Model.Recolor

/-!
# `to_gh` and `to_rg`
-/

namespace PyZX
open Finset Graph

namespace Graph

/-- Preservation and the frame facts that are kept by colour changes. -/
structure Recolored (g g' : Graph) : Prop where
  pres : Preserves g g'
  verts : g'.verts = g.verts
  conn : ∀ a b, (g'.adj a b).isSome = (g.adj a b).isSome
  phase : g'.phase = g.phase
  label : g'.label = g.label
  scalar : g'.scalar = g.scalar

theorem Recolored.refl {g : Graph} (h : g.WF) : Recolored g g := ⟨Preserves.refl h, rfl, fun _ _ => rfl, rfl, rfl, rfl⟩

theorem Recolored.trans {g1 g2 g3 : Graph} (h : Recolored g1 g2) (h' : Recolored g2 g3) : Recolored g1 g3 :=
  ⟨h.pres.trans h'.pres, h'.verts.trans h.verts, fun a b => (h'.conn a b).trans (h.conn a b), h'.phase.trans h.phase, h'.label.trans h.label,
    h'.scalar.trans h.scalar⟩

end Graph

namespace Basic

theorem colorChange_frame (g : Graph) (ord : ℕ → List ℕ) (v : ℕ) :
    (colorChange g ord v).1.phase = g.phase ∧ (colorChange g ord v).1.label = g.label ∧ (colorChange g ord v).1.scalar = g.scalar ∧
      (colorChange g ord v).2 = (g.ty v).isZX ∧ ∀ w, (colorChange g ord v).1.ty w = if w = v then (g.ty v).toggle else g.ty w := by
  unfold colorChange
  by_cases hz : (g.ty v).isZX = true
  · rw [if_pos hz]
    simp only
    rw [toggleEdges_frame]
    refine ⟨rfl, rfl, rfl, hz.symm, fun w => ?_⟩
    show Function.update g.ty v _ w = _
    by_cases h : w = v
    · subst h; simp
    · simp [h]
  · rw [if_neg hz]
    refine ⟨rfl, rfl, rfl, by simpa using hz, fun w => ?_⟩
    by_cases h : w = v
    · subst h
      rw [if_pos rfl]
      show g.ty w = _
      revert hz; cases g.ty w <;> simp [VType.toggle, VType.isZX]
    · rw [if_neg h]

theorem colorChange_recolored {g : Graph} (hg : g.WF) {ord : ℕ → List ℕ} (ho : Rules.NbrOrder g ord) {v : ℕ} (hv : v ∈ g.verts) :
    Recolored g (colorChange g ord v).1 ∧ Rules.NbrOrder (colorChange g ord v).1 ord := by
  obtain ⟨h1, h2, h3, h4, -⟩ := colorChange_sound hg ho hv
  obtain ⟨a, b, c, -, -⟩ := colorChange_frame g ord v
  exact ⟨⟨h1, h4, h3, a, b, c⟩, h2⟩

end Basic

namespace Simplify

theorem toRGStep_eq (ord : ℕ → List ℕ) (select : Graph → ℕ → Bool) (g : Graph) (v : ℕ) :
    toRGStep ord select g v = if select g v then (Basic.colorChange g ord v).1 else g := by
  unfold toRGStep Basic.colorChange
  by_cases h : select g v = true <;> by_cases h' : (g.ty v).isZX = true <;> simp [h, h']

theorem toGHStep_eq (ord : ℕ → List ℕ) (g : Graph) (v : ℕ) :
    toGHStep ord g v = toRGStep ord (fun g v => decide (g.ty v = .X)) g v := by
  unfold toGHStep toRGStep
  by_cases h : g.ty v = .X
  · simp [h, VType.toggle, VType.isZX]
  · simp [h]

theorem toRG_sound (ord : ℕ → List ℕ) (select : Graph → ℕ → Bool) : ∀ (vs : List ℕ) (g : Graph), g.WF → Rules.NbrOrder g ord →
    (∀ v ∈ vs, v ∈ g.verts) → Recolored g (toRG g ord select vs) := by
  intro vs
  induction vs with
  | nil => intro g hg _ _; exact Recolored.refl hg
  | cons v vs ih =>
    intro g hg ho hm
    have hstep : Recolored g (toRGStep ord select g v) ∧ Rules.NbrOrder (toRGStep ord select g v) ord := by
      rw [toRGStep_eq]
      by_cases h : select g v = true
      · rw [if_pos h]; exact Basic.colorChange_recolored hg ho (hm v (by simp))
      · rw [if_neg h]; exact ⟨Recolored.refl hg, ho⟩
    exact hstep.1.trans (ih _ hstep.1.pres.wf hstep.2 fun w hw => by rw [hstep.1.verts]; exact hm w (by simp [hw]))

theorem toRG_ty (ord : ℕ → List ℕ) (sel : ℕ → Bool) : ∀ (vs : List ℕ) (g : Graph), vs.Nodup →
    ∀ w, (toRG g ord (fun _ => sel) vs).ty w = if w ∈ vs ∧ sel w = true then (g.ty w).toggle else g.ty w := by
  intro vs
  induction vs with
  | nil => intro g _ w; simp [toRG]
  | cons v vs ih =>
    intro g hn w
    obtain ⟨hv, hn⟩ := List.nodup_cons.mp hn
    show (toRG (toRGStep ord (fun _ => sel) g v) ord (fun _ => sel) vs).ty w = _
    rw [ih _ hn]
    have hs : (toRGStep ord (fun _ => sel) g v).ty w = if w = v ∧ sel w = true then (g.ty w).toggle else g.ty w := by
      rw [toRGStep_eq]
      by_cases h : sel v = true
      · rw [if_pos h, (Basic.colorChange_frame g ord v).2.2.2.2]
        by_cases e : w = v
        · subst e; simp [h]
        · simp [e]
      · rw [if_neg h]
        by_cases e : w = v
        · subst e; simp [h]
        · simp [e]
    rw [hs]
    by_cases e : w = v
    · subst e; simp [hv]
    · simp [e]

theorem toGH_eq (g : Graph) (ord : ℕ → List ℕ) (vs : List ℕ) : toGH g ord vs = toRG g ord (fun g v => decide (g.ty v = .X)) vs := by
  unfold toGH toRG
  congr 1
  funext g v; exact toGHStep_eq ord g v

theorem toGH_ty (ord : ℕ → List ℕ) : ∀ (vs : List ℕ) (g : Graph),
    ∀ w, (toGH g ord vs).ty w = if w ∈ vs ∧ g.ty w = .X then .Z else g.ty w := by
  intro vs
  induction vs with
  | nil => intro g w; simp [toGH]
  | cons v vs ih =>
    intro g w
    show (toGH (toGHStep ord g v) ord vs).ty w = _
    rw [ih]
    have hs : (toGHStep ord g v).ty w = if w = v ∧ g.ty w = .X then .Z else g.ty w := by
      rw [toGHStep_eq, toRGStep_eq]
      by_cases h : g.ty v = .X
      · rw [if_pos (by simpa using h), (Basic.colorChange_frame g ord v).2.2.2.2]
        by_cases e : w = v
        · subst e; simp [h, VType.toggle]
        · simp [e]
      · rw [if_neg (by simpa using h)]
        by_cases e : w = v
        · subst e; simp [h]
        · simp [e]
    rw [hs]
    by_cases e : w = v
    · subst e
      by_cases h : g.ty w = .X <;> simp [h]
    · simp [e]

end Simplify
end PyZX
