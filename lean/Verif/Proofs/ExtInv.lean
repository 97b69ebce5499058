import Verif.Proofs.ExtCz
import Verif.Spec.Simp

/-!
# The invariant of circuit extraction; `clean_frontier`
-/

namespace PyZX
namespace Extract

open Finset Graph Simplify

/-- The diagrams that occur during extraction. -/
structure GLike (g : Graph) : Prop where
  zx : g.ZX Reduced
  tys : ∀ v ∈ g.verts, g.ty v = .boundary ∨ g.ty v = .Z
  zh : g.ZHad
  io : g.IO
  out1 : ∀ v o o', o ∈ g.outputs → o' ∈ g.outputs → g.adj v o ≠ none → g.adj v o' ≠ none → o = o'
  oo : ∀ o o', o ∈ g.outputs → o' ∈ g.outputs → g.adj o o' = none
  in1 : ∀ v i i', i ∈ g.inputs → i' ∈ g.inputs → g.adj v i ≠ none → g.adj v i' ≠ none → i = i'

theorem GLike.of {g g' : Graph} (h : GLike g) (hw : g'.WF) (hv : g'.verts = g.verts) (ht : g'.ty = g.ty) (hi : g'.inputs = g.inputs)
    (ho : g'.outputs = g.outputs) (hp : ∀ v ∈ g.verts, Reduced (g'.phase v))
    (hb : ∀ b u, g.ty b = .boundary → (g'.adj b u = none ↔ g.adj b u = none)) (hz : g'.ZHad) : GLike g' := by
  have hb' : ∀ b u, g.ty b = .boundary → (g'.adj u b = none ↔ g.adj u b = none) := fun b u hbt => by
    rw [hw.symm, h.zx.wf.symm]; exact hb b u hbt
  have hbo : ∀ o ∈ g.outputs, g.ty o = .boundary := fun o hoo => h.zx.wf.io o (Or.inr hoo)
  have hbi : ∀ o ∈ g.inputs, g.ty o = .boundary := fun o hoo => h.zx.wf.io o (Or.inl hoo)
  refine ⟨⟨hw, ?_, ?_, ?_, by rw [hv]; exact hp⟩, by rw [hv, ht]; exact h.tys, hz, ?_, ?_, ?_, ?_⟩
  · intro b hbv hbt u w hu hw'
    rw [hv] at hbv
    rw [ht] at hbt
    exact h.zx.bdeg b hbv hbt u w (fun e => hu ((hb b u hbt).mpr e)) (fun e => hw' ((hb b w hbt).mpr e))
  · intro b hbv hbt
    rw [hv] at hbv
    rw [ht] at hbt
    obtain ⟨z, hz⟩ := h.zx.badj b hbv hbt
    exact ⟨z, fun e => hz ((hb b z hbt).mp e)⟩
  · rw [hv, ht]; exact h.zx.types
  · exact ⟨by rw [hi]; exact h.io.nodupIn, by rw [ho]; exact h.io.nodupOut, by rw [hi, ho]; exact h.io.disj, by rw [hv, ht, hi, ho]; exact h.io.all⟩
  · intro v o o' h1 h2 h3 h4
    rw [ho] at h1 h2
    exact h.out1 v o o' h1 h2 (fun e => h3 ((hb' o v (hbo o h1)).mpr e)) (fun e => h4 ((hb' o' v (hbo o' h2)).mpr e))
  · intro o o' h1 h2
    rw [ho] at h1 h2
    exact (hb o o' (hbo o h1)).mpr (h.oo o o' h1 h2)
  · intro v o o' h1 h2 h3 h4
    rw [hi] at h1 h2
    exact h.in1 v o o' h1 h2 (fun e => h3 ((hb' o v (hbi o h1)).mpr e)) (fun e => h4 ((hb' o' v (hbi o' h2)).mpr e))

theorem GLike.leaf {g : Graph} (h : GLike g) {b v : ℕ} (hb : g.ty b = .boundary) (ha : g.adj v b ≠ none) : Leaf g b v := by
  have hm : b ∈ g.verts := h.zx.wf.toInv.mem' ha
  have ha' : g.adj b v ≠ none := by rw [h.zx.wf.symm]; exact ha
  exact ⟨hm, hb, ha', fun w hw => h.zx.bdeg b hm hb w v hw ha'⟩

/-- The frontier consists of spiders next to the outputs given by `qmap`; spiders next to outputs that are not on the frontier have
no spiders as neighbours. -/
structure Front (g : Graph) (frontier : List ℕ) (qmap : ℕ → Option ℕ) : Prop where
  nodup : frontier.Nodup
  each : ∀ v ∈ frontier, g.ty v = .Z ∧ ∃ q o, qmap v = some q ∧ g.outputs[q]? = some o ∧ g.adj v o ≠ none
  cover : ∀ v, g.ty v = .Z → ∀ o ∈ g.outputs, g.adj v o ≠ none → v ∈ frontier ∨ ∀ u, g.adj v u ≠ none → g.ty u = .boundary

theorem Front.of {g g' : Graph} {fr : List ℕ} {qm : ℕ → Option ℕ} (h : Front g fr qm) (hg : g.WF) (hw : g'.WF) (ht : g'.ty = g.ty)
    (ho : g'.outputs = g.outputs) (hb : ∀ b u, g.ty b = .boundary → (g'.adj b u = none ↔ g.adj b u = none))
    (hc : ∀ v, (∀ u, g.adj v u ≠ none → g.ty u = .boundary) → ∀ u, g'.adj v u ≠ none → g.ty u = .boundary) : Front g' fr qm := by
  have hb' : ∀ b u, g.ty b = .boundary → (g'.adj u b = none ↔ g.adj u b = none) := fun b u hbt => by
    rw [hw.symm, hg.symm]; exact hb b u hbt
  refine ⟨h.nodup, fun v hv => ?_, fun v hv o hoo ha => ?_⟩
  · obtain ⟨h1, q, o, h2, h3, h4⟩ := h.each v hv
    rw [ht, ho]
    refine ⟨h1, q, o, h2, h3, fun e => h4 ((hb' o v ?_).mp e)⟩
    exact hg.io o (Or.inr (List.mem_of_getElem? h3))
  · rw [ht] at hv ⊢
    rw [ho] at hoo
    rcases h.cover v hv o hoo (fun e => ha ((hb' o v (hg.io o (Or.inr hoo))).mpr e)) with h1 | h1
    · exact Or.inl h1
    · exact Or.inr (hc v h1)

/-- The axels of the phase gadgets. -/
structure GadAt (g : Graph) (frontier : List ℕ) (w : ℕ) : Prop where
  ty : g.ty w = .Z
  ph : g.phase w = 0 ∨ g.phase w = 1
  off : w ∉ frontier
  nb : ∀ u, g.adj w u ≠ none → g.ty u = .Z
  leaf : ∃ l u, g.ty l = .Z ∧ g.adj w l ≠ none ∧ (∀ x, g.adj l x ≠ none → x = w) ∧ u ≠ l ∧ g.adj w u ≠ none

theorem GadAt.of {g g' : Graph} {fr : List ℕ} {w : ℕ} (h : GadAt g fr w) (ht : ∀ u, u = w ∨ g.adj w u ≠ none → g'.ty u = g.ty u)
    (hp : g'.phase w = g.phase w)
    (ha : ∀ u, u = w ∨ (g.adj w u ≠ none ∧ ∀ x, g.adj u x ≠ none → x = w) → ∀ x, g'.adj u x = none ↔ g.adj u x = none) : GadAt g' fr w := by
  obtain ⟨l, u, h1, h2, h3, h4, h5⟩ := h.leaf
  have hw := ha w (Or.inl rfl)
  refine ⟨by rw [ht w (Or.inl rfl)]; exact h.ty, by rw [hp]; exact h.ph, h.off, fun u hu => ?_, l, u, by rw [ht l (Or.inr h2)]; exact h1, ?_, ?_, h4, ?_⟩
  · have hu' : g.adj w u ≠ none := fun e => hu ((hw u).mpr e)
    rw [ht u (Or.inr hu')]; exact h.nb u hu'
  · exact fun e => h2 ((hw l).mp e)
  · exact fun x hx => h3 x (fun e => hx ((ha l (Or.inr ⟨h2, h3⟩) x).mpr e))
  · exact fun e => h5 ((hw u).mp e)

/-- The invariant of the main loop; `g0` is the diagram that is extracted. -/
structure LoopInv (g0 : Graph) (s : State) : Prop where
  gl : GLike s.g
  onto : s.g.Onto
  ext : GExt g0 s.g s.gates
  front : Front s.g s.frontier s.qmap
  gad : ∀ w ∈ s.gadgets, GadAt s.g s.frontier w

theorem LoopInv.outputs {g0 : Graph} {s : State} (h : LoopInv g0 s) : s.g.outputs = g0.outputs := h.ext.outputs

/-! ### Cleaning single vertices -/

/-- The phases and the output edges of the vertices in `T` have been moved to the circuit. -/
def Clean (g : Graph) (T : List ℕ) : Prop := ∀ v ∈ T, g.phase v = 0 ∧ ∀ o ∈ g.outputs, g.adj v o ≠ none → g.adj v o = some .simple

theorem outputOf_spec {o : Orders} (ho : o.OK) {g : Graph} (hg : g.WF) {v b : ℕ} (hv : v ∈ g.verts) (h : outputOf o g v = some b) :
    b ∈ g.outputs ∧ g.adj v b ≠ none := by
  have h1 := List.mem_of_head? h
  rw [List.mem_filter, decide_eq_true_eq] at h1
  refine ⟨h1.2, ?_⟩
  have h2 := (ho.nbr g v hv).2
  rw [← mem_nbrs hg.toInv, ← h2, List.mem_toFinset]
  exact h1.1

theorem LoopInv.step {g0 : Graph} {s s' : State} (h : LoopInv g0 s) (hw : s'.g.WF) (hv : s'.g.verts = s.g.verts) (ht : s'.g.ty = s.g.ty)
    (hp : ∀ v ∈ s.g.verts, Reduced (s'.g.phase v)) (hpg : ∀ v ∉ s.frontier, s'.g.phase v = s.g.phase v)
    (ha : ∀ u v, s'.g.adj u v = none ↔ s.g.adj u v = none) (hz : s'.g.ZHad) (hf : s'.frontier = s.frontier) (hq : s'.qmap = s.qmap)
    (hgd : s'.gadgets = s.gadgets) {c : List Gate} (hc : s'.gates = s.gates ++ c) (he : GExt s.g s'.g c) : LoopInv g0 s' := by
  refine ⟨h.gl.of hw hv ht he.inputs he.outputs hp (fun b u _ => ha b u) hz, h.onto.ext he, by rw [hc]; exact h.ext.trans he, ?_, ?_⟩
  · rw [hf, hq]
    exact h.front.of h.gl.zx.wf hw ht he.outputs (fun b u _ => ha b u) (fun v hv u hu => hv u (fun e => hu ((ha v u).mpr e)))
  · rw [hf, hgd]
    exact fun w hw' => (h.gad w hw').of (fun u _ => by rw [ht]) (hpg w (h.gad w hw').off) (fun u _ x => ha u x)

theorem setPhase_zero_self (g : Graph) (v : ℕ) : (g.setPhase v 0).phase v = 0 := by simp [setPhase, mod2_zero]

theorem setPhase_ne (g : Graph) {u v : ℕ} (h : u ≠ v) (p : ℚ) : (g.setPhase v p).phase u = g.phase u := by simp [setPhase, h]

theorem cleanVertex_spec {o : Orders} (ho : o.OK) {g0 : Graph} {s s' : State} (h : LoopInv g0 s) {v : ℕ} (hv : v ∈ s.frontier)
    (e : cleanVertex o s v = some s') :
    LoopInv g0 s' ∧ s'.frontier = s.frontier ∧ (s'.g.verts = s.g.verts ∧ s'.g.inputs = s.g.inputs) ∧
      ∀ T, (∀ u ∈ T, u ∈ s.frontier) → Clean s.g T → Clean s'.g (v :: T) := by
  unfold cleanVertex at e
  obtain ⟨hz, q, b, hq, hb, hab⟩ := h.front.each v hv
  have hvm : v ∈ s.g.verts := h.gl.zx.wf.mem _ _ hab
  rw [hq, Option.bind_some, Option.map_eq_some_iff] at e
  obtain ⟨b', hb', e⟩ := e
  obtain ⟨hb1, hb2⟩ := outputOf_spec ho h.gl.zx.wf hvm hb'
  have hbo : b ∈ s.g.outputs := List.mem_of_getElem? hb
  have : b' = b := h.gl.out1 v b' b hb1 hbo hb2 hab
  subst this
  have hbt : s.g.ty b' = .boundary := h.gl.zx.wf.io b' (Or.inr hbo)
  simp only at e
  -- the Hadamard edge
  obtain ⟨s1, hs1⟩ : ∃ s1 : State, s1 = if s.g.adj v b' = some .had then
    { s with g := s.g.setAdj v b' (some .simple), gates := s.gates ++ [.had q] } else s := ⟨_, rfl⟩
  rw [← hs1] at e
  have k1 : LoopInv g0 s1 ∧ s1.frontier = s.frontier ∧ s1.qmap = s.qmap ∧ s1.g.ty = s.g.ty ∧ s1.g.outputs = s.g.outputs ∧
      (s1.g.verts = s.g.verts ∧ s1.g.inputs = s.g.inputs) ∧ s1.g.phase = s.g.phase ∧ s1.g.adj v b' = some .simple ∧
      ∀ u x, u ≠ v → s.g.ty u = .Z → s1.g.adj u x = s.g.adj u x := by
    by_cases hh : s.g.adj v b' = some .had
    · rw [if_pos hh] at hs1
      subst hs1
      have hw := setAdj_wf h.gl.zx.wf hab .simple (by simp)
      refine ⟨?_, rfl, rfl, rfl, rfl, ⟨rfl, rfl⟩, rfl, by simp [Graph.setAdj], ?_⟩
      · refine h.step (c := [.had q]) hw rfl rfl h.gl.zx.phases (fun _ _ => rfl) (setAdj_none_iff h.gl.zx.wf.toInv hab .simple) ?_ rfl rfl rfl rfl ?_
        · intro a c h1 h2 h3
          have h1' : s.g.ty a = .Z := h1
          have h2' : s.g.ty c = .Z := h2
          have hne : ¬ ((a = v ∧ c = b') ∨ (a = b' ∧ c = v)) := by
            rintro (⟨-, rfl⟩ | ⟨rfl, -⟩)
            · rw [hbt] at h2'; simp at h2'
            · rw [hbt] at h1'; simp at h1'
          simp only [Graph.setAdj, if_neg hne] at h3 ⊢
          exact h.gl.zh a c h1' h2' h3
        · have hE := Graph.sem_had h.gl.zx.wf (h.gl.leaf hbt hab) (isX_Z hz) hh
          exact GExt.of_had (g' := s.g.setAdj v b' (some .simple)) h.gl.io rfl rfl hb hE
      · intro u x hu huz
        simp only [Graph.setAdj]
        rw [if_neg]
        rintro (⟨h1, -⟩ | ⟨rfl, -⟩)
        · exact hu h1
        · rw [hbt] at huz; simp at huz
    · rw [if_neg hh] at hs1
      subst hs1
      refine ⟨h, rfl, rfl, rfl, rfl, ⟨rfl, rfl⟩, rfl, ?_, fun _ _ _ _ => rfl⟩
      have := h.gl.zx.wf.noWio v b'
      rcases hc : s1.g.adj v b' with _ | _ | _ | _ <;> simp_all
  obtain ⟨k1, k2, k3, k4, k5, ⟨k6, k6'⟩, k7, k8, k9⟩ := k1
  have hv1 : v ∈ s1.frontier := by rw [k2]; exact hv
  have hcl : ∀ T, (∀ u ∈ T, u ∈ s.frontier) → Clean s.g T → ∀ u ∈ T, u ≠ v →
      s1.g.phase u = 0 ∧ ∀ o ∈ s1.g.outputs, s1.g.adj u o ≠ none → s1.g.adj u o = some .simple := by
    intro T hTf hT u hu huv
    obtain ⟨h1, h2⟩ := hT u hu
    rw [k7, k5]
    refine ⟨h1, fun o hoo ha => ?_⟩
    rw [k9 u o huv (h.front.each u (hTf u hu)).1] at ha ⊢
    exact h2 o hoo ha
  have hvs : ∀ o ∈ s1.g.outputs, s1.g.adj v o ≠ none → s1.g.adj v o = some .simple := by
    intro o hoo ha
    have : o = b' := k1.gl.out1 v o b' hoo (by rw [k5]; exact hbo) ha (by rw [k8]; simp)
    rw [this]; exact k8
  by_cases hp : s1.g.phase v = 0
  · rw [if_pos hp] at e
    subst e
    refine ⟨k1, k2, ⟨k6, k6'⟩, fun T hTf hT u hu => ?_⟩
    by_cases huv : u = v
    · subst huv; exact ⟨hp, hvs⟩
    · exact hcl T hTf hT u ((List.mem_cons.mp hu).resolve_left huv) huv
  · rw [if_neg hp] at e
    subst e
    refine ⟨?_, k2, ⟨k6, k6'⟩, fun T hTf hT u hu => ?_⟩
    · refine k1.step (c := [Gate.mkZPhase q (s1.g.phase v)]) (setPhase_wf k1.gl.zx.wf v 0) rfl rfl ?_ ?_ (fun _ _ => Iff.rfl) k1.gl.zh rfl rfl rfl rfl ?_
      · intro u hu
        show Reduced ((s1.g.setPhase v 0).phase u)
        by_cases huv : u = v
        · subst huv; rw [setPhase_zero_self]; exact ⟨le_refl _, by norm_num⟩
        · rw [setPhase_ne _ huv]; exact k1.gl.zx.phases u hu
      · intro u hu
        exact setPhase_ne _ (by rintro rfl; exact hu hv1) _
      · have hE := Graph.sem_phase k1.gl.zx.wf (k1.gl.leaf (by rw [k4]; exact hbt) (by rw [k8]; simp)) (by rw [k4]; exact hz) k8
        exact GExt.of_phase (g' := s1.g.setPhase v 0) k1.gl.io rfl rfl (by rw [k5]; exact hb) hE
    · by_cases huv : u = v
      · subst huv
        exact ⟨setPhase_zero_self _ _, hvs⟩
      · obtain ⟨h1, h2⟩ := hcl T hTf hT u ((List.mem_cons.mp hu).resolve_left huv) huv
        exact ⟨(setPhase_ne _ huv _).trans h1, h2⟩

theorem cleanVertices_spec {o : Orders} (ho : o.OK) {g0 : Graph} : ∀ (l : List ℕ) {s s' : State} {T : List ℕ}, LoopInv g0 s →
    (∀ v ∈ l, v ∈ s.frontier) → (∀ v ∈ T, v ∈ s.frontier) → Clean s.g T → l.foldlM (cleanVertex o) s = some s' →
    LoopInv g0 s' ∧ s'.frontier = s.frontier ∧ Clean s'.g (l ++ T) := by
  intro l
  induction l with
  | nil =>
    intro s s' T h _ _ hT e
    rw [List.foldlM_nil] at e
    obtain rfl := Option.some.inj e
    exact ⟨h, rfl, hT⟩
  | cons v l ih =>
    intro s s' T h hl hTf hT e
    rw [List.foldlM_cons] at e
    obtain ⟨s1, e1, e2⟩ := Option.bind_eq_some_iff.mp e
    obtain ⟨h1, h2, -, h3⟩ := cleanVertex_spec ho h (hl v (by simp)) e1
    obtain ⟨q1, q2, q3⟩ := ih (T := v :: T) h1 (fun u hu => by rw [h2]; exact hl u (by simp [hu])) (fun u hu => by
      rw [h2]
      rcases List.mem_cons.mp hu with rfl | hu
      · exact hl u (by simp)
      · exact hTf u hu) (h3 T hTf hT) e2
    refine ⟨q1, q2.trans h2, fun u hu => q3 u ?_⟩
    simp only [List.mem_append, List.mem_cons] at hu ⊢
    tauto

end Extract
end PyZX
