import Verif.Proofs.ExtTot5
import Verif.Proofs.ExtEnd
import Verif.Proofs.TermIds

/-!
# Circuit extraction does not get stuck: after the main loop
-/

namespace PyZX

namespace Graph

theorem addEdge_phase_off {g g' : Graph} {s t : ℕ} {e : EType} (h : g.addEdge s t e = some g') {v : ℕ} (hv : v ≠ s) :
    g'.phase v = g.phase v := by
  obtain ⟨hs, ⟨hn, ht, rfl⟩ | ⟨e1, hn, z1, z2, ⟨-, -, rfl⟩ | ⟨-, f, -, -, rfl⟩ | ⟨-, -, -, rfl⟩⟩⟩ := addEdge_cases h
  · rfl
  · rfl
  · split
    · rfl
    · show Function.update g.phase s _ v = _
      rw [Function.update_of_ne hv]
  · rfl

theorem addEdgeN_phase_off {g g' : Graph} {s t n : ℕ} {e : EType} (h : g.addEdgeN s t e n = some g') {v : ℕ} (hv : v ≠ s) :
    g'.phase v = g.phase v := by
  induction n generalizing g with
  | zero => simp only [addEdgeN, Option.some.injEq] at h; rw [← h]
  | succ n ih =>
    simp only [addEdgeN] at h
    obtain ⟨g1, h1, h2⟩ := Option.bind_eq_some_iff.mp h
    rw [ih h2, addEdge_phase_off h1 hv]

theorem addEdgeTable_phase_off {g g' : Graph} {t : ETab} (h : g.addEdgeTable t = some g') {v : ℕ} (hv : ∀ e ∈ t, v ≠ e.1.1) :
    g'.phase v = g.phase v := by
  induction t generalizing g with
  | nil => simp only [addEdgeTable, List.foldlM_nil, Option.pure_def, Option.some.injEq] at h; rw [← h]
  | cons e t ih =>
    obtain ⟨g1, g2, h1, h2, h3⟩ := addEdgeTable_cons h
    rw [ih h3 fun e he => hv e (by simp [he]), addEdgeN_phase_off h2 (hv e (by simp)), addEdgeN_phase_off h1 (hv e (by simp))]

theorem finish_phase_off {s : RewriteState} {g' : Graph} (h : s.finish = some g') {v : ℕ} (hv : ∀ e ∈ s.etab, v ≠ e.1.1) :
    g'.phase v = s.g.phase v := by
  unfold RewriteState.finish at h
  obtain ⟨g1, h1, h⟩ := Option.bind_eq_some_iff.mp h
  obtain ⟨g2, h2, h3⟩ := Option.bind_eq_some_iff.mp h
  obtain ⟨hr, -, -, -⟩ := removeVertices_spec h3
  obtain ⟨-, -, b3, -⟩ := removeEdges_same h2
  rw [hr.phase, b3, addEdgeTable_phase_off h1 hv]

/-- Every Z-spider has no neighbours, or has phase 0 and is between an input and an output. -/
def WireSpiders (g : Graph) : Prop := ∀ v, g.ty v = .Z → (∀ u, g.adj v u = none) ∨
  (g.phase v = 0 ∧ ∃ i ∈ g.inputs, ∃ o ∈ g.outputs, ∀ u, g.adj v u ≠ none ↔ u = i ∨ u = o)

open Classical in
/-- The number of spiders that have neighbours. -/
noncomputable def busy (g : Graph) : ℕ := (g.verts.filter fun v => g.ty v = .Z ∧ ∃ u, g.adj v u ≠ none).card

structure WS (P : ℚ → Prop) (g : Graph) : Prop where
  zx : g.ZX P
  tys : ∀ v ∈ g.verts, g.ty v = .boundary ∨ g.ty v = .Z
  w : g.WireSpiders

open Classical in
theorem busy_le {P : ℚ → Prop} {g : Graph} (h : WS P g) : busy g ≤ g.inputs.length := by
  have hw := h.zx.wf
  have hex : ∀ v ∈ g.verts.filter fun v => g.ty v = .Z ∧ ∃ u, g.adj v u ≠ none, ∃ i ∈ g.inputs.toFinset, g.adj v i ≠ none := by
    intro v hv
    obtain ⟨-, h1, u, h2⟩ := Finset.mem_filter.mp hv
    rcases h.w v h1 with h3 | ⟨-, i, h3, o, -, h5⟩
    · exact absurd (h3 u) h2
    · exact ⟨i, List.mem_toFinset.mpr h3, (h5 i).mpr (Or.inl rfl)⟩
  choose! F hF1 hF2 using hex
  refine (Finset.card_le_card_of_injOn F hF1 fun v hv v' hv' e => ?_).trans (List.toFinset_card_le _)
  have hi := List.mem_toFinset.mp (hF1 v hv)
  refine h.zx.bdeg _ (hw.inp _ hi) (hw.io _ (Or.inl hi)) _ _ (by rw [hw.symm]; exact hF2 v hv) ?_
  rw [e, hw.symm]; exact hF2 v' hv'

end Graph

namespace Extract

open Graph Simplify

theorem TI.wire {g0 : Graph} (hlen : g0.inputs.length = g0.outputs.length) {s : State} (h : TI g0 s) (hf : s.frontier = []) : s.g.WireSpiders := by
  have hgl := h.inv.gl
  have hw := hgl.zx.wf
  intro v hv
  by_cases hn : ∀ u, s.g.adj v u = none
  · exact Or.inl hn
  right
  push Not at hn
  obtain ⟨u, hu⟩ := hn
  have hlen' : s.g.inputs.length = s.g.outputs.length := by rw [h.inv.ext.inputs, h.inv.ext.outputs, hlen]
  by_cases hfar : Far s.g v
  · exfalso
    obtain ⟨b, b1, b2⟩ := h.tb v u hv hu
    have hbi : b ∈ s.g.inputs := by
      rcases hgl.io.all b (hw.toInv.mem' b1) b2 with b3 | b3
      · exact b3
      · exact absurd (hfar.2 b b3) b1
    have := count_far hgl h.fin hlen' h.inv.front.nodup (ns := [v]) (by simp) (by simpa using hfar) (by simpa using ⟨b, hbi, b1⟩)
    rw [hf] at this
    simp at this
  · obtain ⟨o, ho, hvo⟩ : ∃ o ∈ s.g.outputs, s.g.adj v o ≠ none := by
      by_contra hc
      push Not at hc
      exact hfar ⟨hv, hc⟩
    rcases h.fin v hv o ho hvo with h1 | ⟨h1, i, h2, h3⟩
    · rw [hf] at h1; simp at h1
    refine ⟨h1, i, h2, o, ho, fun x => ⟨fun hx => ?_, fun hx => ?_⟩⟩
    · rcases h.inv.front.cover v hv o ho hvo with h4 | h4
      · rw [hf] at h4; simp at h4
      · rcases hgl.io.all x (hw.toInv.mem' hx) (h4 x hx) with h5 | h5
        · exact Or.inl (hgl.in1 v x i h5 h2 hx h3)
        · exact Or.inr (hgl.out1 v x o h5 ho hx hvo)
    · rcases hx with rfl | rfl
      · exact h3
      · exact hvo

open Classical in
theorem ids_wire {P : ℚ → Prop} (hP : PhaseSet P) {g g' : Graph} (hg : WS P g) {ms : List Rules.IdMatch} (h : IdsOK g ms) (hne : ms ≠ [])
    (hfin : (Rules.removeIds g ms).finish = some g') : WS P g' ∧ busy g' < busy g := by
  obtain ⟨g1, hfin1, hpr, hzx, hty, hverts⟩ := removeIds_zx hP hg.zx h
  rw [hfin] at hfin1
  cases hfin1
  obtain ⟨f1, f2, f3, f4, -⟩ := ids_fold g ms h
  have hwf := hg.zx.wf
  have hwf' := hzx.wf
  have mnbr : ∀ m ∈ ms, ∀ w, g.adj m.v w ≠ none ↔ w = m.v0 ∨ w = m.v1 := fun m hm w => by
    rw [← mem_nbrs hwf.toInv, h.nbrs m hm]; simp
  have hZ : ∀ m ∈ ms, g.ty m.v = .Z := fun m hm => by
    rcases h.ty m hm with e | e
    · exact e
    · rcases hg.tys m.v (h.mem m hm) with h1 | h1 <;> rw [e] at h1 <;> cases h1
  have hends : ∀ m ∈ ms, g.ty m.v0 = .boundary ∧ g.ty m.v1 = .boundary := by
    intro m hm
    have key : ∀ w, w = m.v0 ∨ w = m.v1 → g.ty w = .boundary := by
      intro w hwm
      rcases hg.w m.v (hZ m hm) with h1 | ⟨-, i, h1, o, h2, h3⟩
      · exact absurd (h1 w) ((mnbr m hm w).mpr hwm)
      · rcases (h3 w).mp ((mnbr m hm w).mpr hwm) with rfl | rfl
        · exact hwf.io _ (Or.inl h1)
        · exact hwf.io _ (Or.inr h2)
    exact ⟨key _ (Or.inl rfl), key _ (Or.inr rfl)⟩
  have hkeys : ∀ e ∈ (Rules.removeIds g ms).etab, g.ty e.1.1 = .boundary ∧ g.ty e.1.2 = .boundary := by
    intro e he
    obtain ⟨m, hm, e1⟩ := ids_keys (g := g) ms e he
    rw [e1]; exact hends m hm
  have hrem : ∀ v, v ∈ (Rules.removeIds g ms).remVerts ↔ ∃ m ∈ ms, m.v = v := fun v => by rw [f2, List.mem_map]
  have inV' : ∀ v, v ∈ g'.verts ↔ v ∈ g.verts ∧ ¬ ∃ m ∈ ms, m.v = v := fun v => by
    rw [hverts, Finset.mem_sdiff, List.mem_toFinset, List.mem_map]
  have hadj : ∀ v u, g.ty v = .Z → g'.adj v u ≠ none → g.adj v u ≠ none := by
    intro v u hv hu
    obtain ⟨-, -, -, hcase⟩ := finish_adj hfin hwf'.toInv hu
    rcases hcase with hcase | ⟨e, he, -, hsp⟩
    · rw [f1] at hcase; exact hcase
    · obtain ⟨k1, k2⟩ := hkeys e he
      rcases hsp with ⟨q1, q2⟩ | ⟨q1, q2⟩ <;> simp only at q1 q2
      · rw [q1, k1] at hv; simp at hv
      · rw [q1, k2] at hv; simp at hv
  have hkeep : ∀ v b, v ∈ g'.verts → g.ty v = .Z → g.ty b = .boundary → g.adj v b ≠ none → g'.adj v b ≠ none := by
    intro v b hv hvz hb ha
    rw [hwf'.symm]
    refine finish_bnd hfin (by rw [f1]; exact hb) ?_ (fun hr => ((inV' v).mp hv).2 ((hrem v).mp hr)) (by rw [f3]; simp)
      (Or.inl (by rw [f1, hwf.symm]; exact ha))
    rw [hrem]
    rintro ⟨m, hm, rfl⟩
    rw [hZ m hm] at hb; cases hb
  refine ⟨⟨hzx, fun v hv => ?_, fun v hv => ?_⟩, ?_⟩
  · rw [hty]; exact hg.tys v ((inV' v).mp hv).1
  · rw [hty] at hv
    by_cases hn : ∀ u, g'.adj v u = none
    · exact Or.inl hn
    right
    push Not at hn
    obtain ⟨u, hu⟩ := hn
    have hvm := hwf'.mem _ _ hu
    rcases hg.w v hv with h1 | ⟨h1, i, h2, o, h3, h4⟩
    · exact absurd (h1 u) (hadj v u hv hu)
    refine ⟨?_, i, by rw [hpr.inputs]; exact h2, o, by rw [hpr.outputs]; exact h3, fun x => ⟨fun hx => (h4 x).mp (hadj v x hv hx), fun hx => ?_⟩⟩
    · rw [finish_phase_off hfin, f1]
      · exact h1
      · intro e he hc
        rw [hc, (hkeys e he).1] at hv
        simp at hv
    · refine hkeep v x hvm hv ?_ ((h4 x).mpr hx)
      rcases hx with rfl | rfl
      · exact hwf.io _ (Or.inl h2)
      · exact hwf.io _ (Or.inr h3)
  · obtain ⟨m, hm⟩ := List.exists_mem_of_ne_nil _ hne
    refine Finset.card_lt_card ⟨fun v hv => ?_, fun hc => ?_⟩
    · obtain ⟨a1, a2, u, a3⟩ := Finset.mem_filter.mp hv
      rw [hty] at a2
      exact Finset.mem_filter.mpr ⟨((inV' v).mp a1).1, a2, u, hadj v u a2 a3⟩
    · have h1 : m.v ∈ g.verts.filter fun v => g.ty v = .Z ∧ ∃ u, g.adj v u ≠ none :=
        Finset.mem_filter.mpr ⟨h.mem m hm, hZ m hm, m.v0, (mnbr m hm _).mpr (Or.inl rfl)⟩
      exact ((inV' _).mp (Finset.mem_filter.mp (hc h1)).1).2 ⟨m, hm, rfl⟩

theorem idRound_wire {P : ℚ → Prop} (hP : PhaseSet P) {o : Orders} (ho : o.OK) : PassOK (WS P) (Shrinks P) busy NoIds o idRound := by
  intro g hg
  obtain ⟨c, g', h1, h2, h3, -, h5⟩ := idRound_ok hP ho g hg.zx
  have hok := matchIds_ok hg.zx.wf (ho.nbr g) (ho.vcand g).1 (ho.vcand g).2 (-1)
  refine ⟨c, g', h1, ?_, h3, ?_, h5⟩
  all_goals
    unfold idRound at h1
    simp only at h1
    by_cases hm : Rules.matchIds g (o.nbr g) (-1) (o.vcand g) = []
    · rw [if_pos hm] at h1
      simp only [Option.some.injEq, Prod.mk.injEq] at h1
      obtain ⟨rfl, rfl⟩ := h1
      first | exact hg | (intro h; simp at h)
    · rw [if_neg hm] at h1
      unfold afterRewrite at h1
      obtain ⟨g1, e1, e2⟩ := Option.bind_eq_some_iff.mp h1
      simp only [Bool.false_eq_true, if_false, Option.some.injEq, Prod.mk.injEq] at e2
      obtain ⟨rfl, rfl⟩ := e2
      obtain ⟨a, b⟩ := ids_wire hP hg hok hm e1
      first | exact a | exact fun _ => b

theorem swapsSteps_total {o : Orders} {g : Graph} : ∀ (l : List (ℕ × ℕ)) (s : List Gate × List ℕ),
    (∀ p ∈ l, ∃ i, (o.nbr g p.1).head? = some i ∧ i ∈ g.inputs) → ∃ r, l.foldlM (swapsStep o g) s = some r := by
  intro l
  induction l with
  | nil => exact fun s _ => ⟨s, rfl⟩
  | cons p l ih =>
    intro s h
    obtain ⟨i, h1, h2⟩ := h p (by simp)
    obtain ⟨s1, hs1⟩ : ∃ s1, swapsStep o g s p = some s1 := by
      unfold swapsStep
      rw [h1, Option.bind_some, if_pos h2]
      exact ⟨_, rfl⟩
    obtain ⟨r, hr⟩ := ih s1 fun p hp => h p (by simp [hp])
    exact ⟨r, by rw [List.foldlM_cons, hs1]; exact hr⟩

end Extract
end PyZX
