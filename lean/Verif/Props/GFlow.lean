import Verif.Proofs.GFlow
import Verif.Props.Simp

/-!
# Properties of `gflow` (C34)

`openV`, `openIn` and the outputs (with the grounds) are the open graph of a diagram, `IsGFlow` is the definition of a generalised flow. No
input boundary is an output.
-/

namespace PyZX
namespace Props

open Graph Rules GFlow

variable {g : Graph} {lst : ℕ → Finset ℕ → List ℕ} {stale : ℕ → ℕ → List ℕ} {grounds : Finset ℕ} {fuel : ℕ}

/-- C34: `gflow` ends after at most as many iterations as there are vertices, and one more. -/
theorem gflow_terminates (hg : g.Inv) (hl : ∀ k, SetOrder (lst k)) (hgr : grounds ⊆ g.verts)
    (hio : ∀ v ∈ g.inputs, g.ty v = .boundary → v ∉ g.outputs ∧ v ∉ grounds) (hf : g.verts.card < fuel) :
    gflow lst stale g grounds fuel ≠ .running := by
  unfold gflow
  rcases loop_spec hg hl (stale := stale) fuel _ _ _ _ (LInv.init hg hgr hio) with ⟨-, h⟩ | ⟨h, -⟩ | ⟨pd, l, gf, k, h, -⟩
  · have : (g.verts \ (g.outputs.toFinset ∪ grounds)).card ≤ g.verts.card := Finset.card_le_card Finset.sdiff_subset
    omega
  · rw [h]; simp
  · rw [h]; simp

/-- C34: what `gflow` returns is a generalised flow: all vertices of the open graph have a layer, the outputs are those in layer 0, all other
vertices have a correction set, and these sets satisfy the conditions with respect to the layers. -/
theorem gflow_sound (hg : g.Inv) (hl : ∀ k, SetOrder (lst k)) (hgr : grounds ⊆ g.verts)
    (hio : ∀ v ∈ g.inputs, g.ty v = .boundary → v ∉ g.outputs ∧ v ∉ grounds) {l : ℕ → Option ℕ} {gf : ℕ → Option (Finset ℕ)} {k : ℕ}
    (h : gflow lst stale g grounds fuel = .some l gf k) :
    (∀ v, (l v).isSome ↔ v ∈ g.openV) ∧ (∀ v, l v = some 0 ↔ v ∈ g.outputs.toFinset ∪ grounds) ∧ (∀ v j, l v = some j → j < k) ∧
      (∀ v, (gf v).isSome ↔ v ∈ g.openV \ (g.outputs.toFinset ∪ grounds)) ∧
      IsGFlow g g.openV g.openIn (g.outputs.toFinset ∪ grounds) (fun u => (gf u).getD ∅) (fun u w => (l w).getD 0 < (l u).getD 0) := by
  unfold gflow at h
  rcases loop_spec hg hl (stale := stale) fuel _ _ _ _ (LInv.init hg hgr hio) with ⟨h', -⟩ | ⟨h', -⟩ | ⟨pd, l', gf', k', h', hi, rfl⟩ <;> rw [h'] at h
  · simp at h
  · simp at h
  simp only [Res.some.injEq] at h
  obtain ⟨rfl, rfl, rfl⟩ := h
  refine ⟨hi.dom, hi.zero, hi.lt, hi.gdom, ?_⟩
  have key : ∀ u ∈ g.openV \ (g.outputs.toFinset ∪ grounds), ∃ S j, gf' u = some S ∧ l' u = some j := by
    intro u hu
    obtain ⟨S, hS⟩ := Option.isSome_iff_exists.mp ((hi.gdom u).mpr hu)
    obtain ⟨j, hj⟩ := Option.isSome_iff_exists.mp ((hi.dom u).mpr (Finset.mem_sdiff.mp hu).1)
    exact ⟨S, j, hS, hj⟩
  refine ⟨fun u => lt_irrefl _, fun u v w h1 h2 => lt_trans h2 h1, fun u hu => ?_, fun u hu w hw => ?_, fun u hu => ?_, fun u hu w hw hne ho => ?_⟩ <;>
    obtain ⟨S, j, hS, hj⟩ := key u hu <;> obtain ⟨f1, f2, f3⟩ := hi.flow u S j hS hj <;> beta_reduce at *
  · rw [hS]; exact f1
  · rw [hS] at hw
    obtain ⟨i, hij, hi'⟩ := f2 w hw
    rw [hi', hj]; exact hij
  · rw [hS]
    exact (f3 u (hi.sub (Finset.mem_sdiff.mp hu).1) fun i hi' => by rw [hj] at hi'; simp at hi'; omega).mpr rfl
  · by_contra hlt
    rw [hS] at ho
    refine hne ((f3 w (hi.sub hw) fun i hi' => ?_).mp ho)
    rw [hi', hj] at hlt
    simpa using hlt

/-- C34: when `gflow` returns `None`, there is no generalised flow, for any partial order. -/
theorem gflow_complete (hg : g.Inv) (hl : ∀ k, SetOrder (lst k)) (hgr : grounds ⊆ g.verts)
    (hio : ∀ v ∈ g.inputs, g.ty v = .boundary → v ∉ g.outputs ∧ v ∉ grounds) (h : gflow lst stale g grounds fuel = .none) :
    ¬ ∃ f lt, IsGFlow g g.openV g.openIn (g.outputs.toFinset ∪ grounds) f lt := by
  unfold gflow at h
  rcases loop_spec hg hl (stale := stale) fuel _ _ _ _ (LInv.init hg hgr hio) with ⟨h', -⟩ | ⟨-, h'⟩ | ⟨pd, l, gf, k, h', -⟩
  · rw [h'] at h; simp at h
  · rintro ⟨f, lt, hf⟩; exact h' f lt hf
  · rw [h'] at h; simp at h

/-- C34: the flow that is returned is maximally delayed: no flow puts a vertex into an earlier layer (counted from the outputs). -/
theorem gflow_delayed (hg : g.Inv) (hl : ∀ k, SetOrder (lst k)) (hgr : grounds ⊆ g.verts)
    (hio : ∀ v ∈ g.inputs, g.ty v = .boundary → v ∉ g.outputs ∧ v ∉ grounds) {l : ℕ → Option ℕ} {gf : ℕ → Option (Finset ℕ)} {k : ℕ}
    (h : gflow lst stale g grounds fuel = .some l gf k) {f : ℕ → Finset ℕ} {l' : ℕ → ℕ}
    (hf : IsGFlow g g.openV g.openIn (g.outputs.toFinset ∪ grounds) f (fun u w => l' w < l' u)) {v j : ℕ} (hv : l v = some j) : j ≤ l' v := by
  unfold gflow at h
  rcases loop_spec hg hl (stale := stale) fuel _ _ _ _ (LInv.init hg hgr hio) with ⟨h', -⟩ | ⟨h', -⟩ | ⟨pd, l'', gf', k', h', hi, -⟩ <;> rw [h'] at h
  · simp at h
  · simp at h
  simp only [Res.some.injEq] at h
  obtain ⟨rfl, rfl, rfl⟩ := h
  exact (hi.early f l' hf).2 v j hv

/-- C34: `gflow` returns a flow exactly if there is one. -/
theorem gflow_iff (hg : g.Inv) (hl : ∀ k, SetOrder (lst k)) (hgr : grounds ⊆ g.verts)
    (hio : ∀ v ∈ g.inputs, g.ty v = .boundary → v ∉ g.outputs ∧ v ∉ grounds) (hf : g.verts.card < fuel) :
    (∃ l gf k, gflow lst stale g grounds fuel = .some l gf k) ↔
      ∃ f lt, IsGFlow g g.openV g.openIn (g.outputs.toFinset ∪ grounds) f lt := by
  constructor
  · rintro ⟨l, gf, k, h⟩
    exact ⟨_, _, (gflow_sound hg hl hgr hio h).2.2.2.2⟩
  · intro hex
    have ht := gflow_terminates (stale := stale) hg hl hgr hio hf
    cases h : gflow lst stale g grounds fuel with
    | running => exact absurd h ht
    | none => exact absurd hex (gflow_complete hg hl hgr hio h)
    | some l gf k => exact ⟨l, gf, k, rfl⟩

/-! ### Examples -/

theorem exLine_openIn {v : ℕ} : v ∈ exLine.openIn ↔ v = 1 := by
  rw [mem_openIn]
  unfold OpenIn
  constructor
  · rintro ⟨-, ⟨h1, h2⟩ | ⟨i, h1, -, h3⟩⟩
    · have : v = 0 := by simpa [exLine, mkG] using h1
      rw [this] at h2; simp [exLine, mkG] at h2
    · have : i = 0 := by simpa [exLine, mkG] using h1
      rw [this] at h3; simp [exLine, mkG] at h3; omega
  · rintro rfl
    exact ⟨by simp [exLine, mkG], Or.inr ⟨0, by simp [exLine, mkG], by simp [exLine, mkG], by simp [exLine, mkG]⟩⟩

theorem exLine_openV {v : ℕ} : v ∈ exLine.openV ↔ 1 ≤ v ∧ v ≤ 5 := by
  unfold openV
  rw [Finset.mem_sdiff, Finset.mem_sdiff, exLine_openIn]
  simp [exLine, mkG]
  omega

theorem exLine_out : exLine.outputs.toFinset ∪ ∅ = {5} := by simp [exLine, mkG]

/-- The line has a flow: every vertex is corrected on the next one. -/
theorem exLine_flow : IsGFlow exLine exLine.openV exLine.openIn (exLine.outputs.toFinset ∪ ∅) (fun u => {u + 1}) (fun u w => u < w) := by
  have hw := exLine_zx.wf
  have adj : ∀ u, 1 ≤ u → u ≤ 5 → ∀ w, exLine.adj w u ≠ none ↔ (w + 1 = u ∨ w = u + 1) ∧ w ≤ 5 := by
    intro u h1 h2 w
    interval_cases u <;> simp [exLine, mkG] <;> omega
  have one : ∀ (u w : ℕ), exLine.adj w (u + 1) ≠ none → ({u + 1} ∩ exLine.nbrs w : Finset ℕ) = {u + 1} := by
    intro u w h
    ext a
    rw [Finset.mem_inter, mem_nbrs hw.toInv, Finset.mem_singleton]
    constructor
    · exact fun h => h.1
    · rintro rfl; exact ⟨rfl, h⟩
  refine ⟨fun u => lt_irrefl u, fun u v w => lt_trans, fun u hu w hw' => ?_, fun u hu w hw' => ?_, fun u hu => ?_, fun u hu w hw' hne ho => ?_⟩ <;>
    rw [exLine_out, Finset.mem_sdiff, exLine_openV, Finset.mem_singleton] at hu <;> beta_reduce at *
  · rw [Finset.mem_singleton] at hw'
    rw [Finset.mem_sdiff, exLine_openV, exLine_openIn]
    omega
  · rw [Finset.mem_singleton] at hw'; omega
  · rw [one u u ((adj (u + 1) (by omega) (by omega) u).mpr ⟨Or.inl rfl, by omega⟩)]
    simp
  · obtain ⟨a, ha⟩ := Finset.card_pos.mp ho.pos
    rw [Finset.mem_inter, Finset.mem_singleton, mem_nbrs hw.toInv] at ha
    rw [ha.1] at ha
    have := (adj (u + 1) (by omega) (by omega) w).mp ha.2
    omega

/-- The hypotheses hold for the line, and `gflow` returns a flow. -/
example : ∃ l gf k, gflow (fun _ => incSet) (fun _ _ => []) exLine ∅ 7 = .some l gf k := by
  refine (gflow_iff exLine_zx.wf.toInv (fun _ => incSet_ok) (Finset.empty_subset _) (fun v hv _ => ?_) ?_).mpr ⟨_, _, exLine_flow⟩
  · have : v = 0 := by simpa [exLine, mkG] using hv
    rw [this]; simp [exLine, mkG]
  · show (Finset.range 6).card < 7; simp

/-- A diagram without flow: a spider with an input and no output. -/
noncomputable def exNoFlow : Graph := mkG [.boundary, .Z] [0, 1 / 4] [(0, 1, .simple)] [0] []

example : gflow (fun _ => incSet) (fun _ _ => []) exNoFlow ∅ 3 = .none := by
  have hw : exNoFlow.WF := mkG_wf (by decide)
  have hio : ∀ v ∈ exNoFlow.inputs, exNoFlow.ty v = .boundary → v ∉ exNoFlow.outputs ∧ v ∉ (∅ : Finset ℕ) := by
    intro v hv _; simp [exNoFlow, mkG]
  have ht := gflow_terminates (stale := fun _ _ => []) (fuel := 3) hw.toInv (fun _ => incSet_ok) (Finset.empty_subset _) hio
    (by show (Finset.range 2).card < 3; simp)
  have hno : ¬ ∃ f lt, IsGFlow exNoFlow exNoFlow.openV exNoFlow.openIn (exNoFlow.outputs.toFinset ∪ ∅) f lt := by
    rintro ⟨f, lt, hf⟩
    have h1 : (1 : ℕ) ∈ exNoFlow.openV \ (exNoFlow.outputs.toFinset ∪ ∅) := by
      rw [Finset.mem_sdiff]
      refine ⟨?_, by simp [exNoFlow, mkG]⟩
      unfold openV
      rw [Finset.mem_sdiff]
      simp [exNoFlow, mkG]
    obtain ⟨a, ha⟩ := Finset.card_pos.mp (hf.odd 1 h1).pos
    rw [Finset.mem_inter, mem_nbrs hw.toInv] at ha
    have h0 : a = 0 := by
      have := ha.2
      simp [exNoFlow, mkG] at this
      omega
    have hs := (Finset.mem_sdiff.mp (hf.sub 1 h1 ha.1)).1
    unfold openV at hs
    rw [h0, Finset.mem_sdiff, Finset.mem_sdiff, mem_openIn] at hs
    refine hs.2 ⟨by simp [exNoFlow, mkG], fun hc => ?_⟩
    rcases hc.2 with ⟨-, h⟩ | ⟨i, h1, -, h3⟩
    · simp [exNoFlow, mkG] at h
    · have : i = 0 := by simpa [exNoFlow, mkG] using h1
      rw [this] at h3
      exact h3 (hw.loopless 0)
  cases h : gflow (fun _ => incSet) (fun _ _ => []) exNoFlow ∅ 3 with
  | running => exact absurd h ht
  | none => rfl
  | some l gf k => exact absurd ⟨_, _, (gflow_sound hw.toInv (fun _ => incSet_ok) (Finset.empty_subset _) hio h).2.2.2.2⟩ hno

end Props
end PyZX
