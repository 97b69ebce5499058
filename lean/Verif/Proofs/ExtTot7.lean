import Verif.Proofs.ExtTot6
import Verif.Proofs.ExtInit
import Verif.Props.Extract

/-!
# Circuit extraction does not get stuck
-/

namespace PyZX

namespace Extract

open Graph Simplify

theorem initSteps_total {o : Orders} {g : Graph} : ∀ (l : List (ℕ × ℕ)) (s : List ℕ × (ℕ → Option ℕ)),
    (∀ p ∈ l, ∃ v, (o.nbr g p.1).head? = some v) → ∃ r, l.foldlM (initStep o g) s = some r ∧ (∀ v ∈ s.1, v ∈ r.1) ∧
      ∀ p ∈ l, ∀ v, (o.nbr g p.1).head? = some v → v ∉ g.inputs → v ∈ r.1 := by
  intro l
  induction l with
  | nil => exact fun s _ => ⟨s, rfl, fun _ h => h, by simp⟩
  | cons p l ih =>
    intro s h
    obtain ⟨v, hv⟩ := h p (by simp)
    obtain ⟨s1, hs1⟩ : ∃ s1, s1 = if v ∈ g.inputs then s else (s.1 ++ [v], Function.update s.2 v (some p.2)) := ⟨_, rfl⟩
    have e1 : initStep o g s p = some s1 := by
      unfold initStep
      rw [hv, Option.map_some, hs1]
    obtain ⟨r, e2, h1, h2⟩ := ih s1 fun p hp => h p (by simp [hp])
    have hmono : ∀ u ∈ s.1, u ∈ s1.1 := by
      intro u hu
      rw [hs1]
      split
      · exact hu
      · exact List.mem_append_left _ hu
    refine ⟨r, by rw [List.foldlM_cons, e1]; exact e2, fun u hu => h1 u (hmono u hu), fun p' hp' u hu hui => ?_⟩
    rcases List.mem_cons.mp hp' with rfl | hp'
    · rw [hv, Option.some.injEq] at hu
      subst hu
      refine h1 _ ?_
      rw [hs1, if_neg hui]
      simp
    · exact h2 p' hp' u hu hui

theorem out_head {o : Orders} (ho : o.OK) {g : Graph} (hg : g.WF) {b : ℕ} (hb : b ∈ g.verts) (hn : ∃ u, g.adj b u ≠ none) :
    ∃ v, (o.nbr g b).head? = some v ∧ g.adj b v ≠ none := by
  obtain ⟨u, hu⟩ := hn
  have h1 := (ho.nbr g b hb).2
  have h2 : u ∈ o.nbr g b := by rw [← List.mem_toFinset, h1]; exact (mem_nbrs hg.toInv).mpr hu
  rcases hl : o.nbr g b with _ | ⟨v, l⟩
  · rw [hl] at h2; simp at h2
  · refine ⟨v, rfl, ?_⟩
    rw [← mem_nbrs hg.toInv, ← h1, List.mem_toFinset, hl]
    simp

theorem init_total {o : Orders} (ho : o.OK) {n : ℕ} {g : Graph} (h : g.Extractable n) (hgad : initGadgets g = ∅) (htb : TB g) :
    ∃ s, init o g = some s ∧ TI g s ∧ s.g = g := by
  have hg := h.zx.wf
  have hh : ∀ b ∈ g.outputs, ∃ v, (o.nbr g b).head? = some v ∧ g.adj b v ≠ none := fun b hb =>
    out_head ho hg (hg.out b hb) (h.zx.badj b (hg.out b hb) (hg.io b (Or.inr hb)))
  obtain ⟨r, e, -, h2⟩ := initSteps_total (o := o) (g := g) g.outputs.zipIdx ([], fun _ => none) fun p hp => by
    obtain ⟨v, hv, -⟩ := hh p.1 (List.mem_of_getElem? (List.mem_zipIdx_iff_getElem?.mp hp))
    exact ⟨v, hv⟩
  have ei : init o g = some ⟨g, [], r.1, r.2, initGadgets g⟩ := by
    unfold init
    rw [e]
    rfl
  refine ⟨_, ei, ⟨init_spec ho h ei, hgad, htb, fun v hv b hb ha => Or.inl ?_⟩, rfl⟩
  have hb : b ∈ g.outputs := hb
  obtain ⟨u, hu, hbu⟩ := hh b hb
  have ha : g.adj v b ≠ none := ha
  have hvu : v = u := h.zx.bdeg b (hg.out b hb) (hg.io b (Or.inr hb)) v u (by rw [hg.symm]; exact ha) hbu
  subst hvu
  obtain ⟨q, hq⟩ := List.getElem?_of_mem hb
  refine h2 (b, q) (List.mem_zipIdx_iff_getElem?.mpr hq) v hu fun hc => ?_
  have hv : g.ty v = .Z := hv
  rw [hg.io v (Or.inl hc)] at hv
  simp at hv

/-- If every spider with neighbours is next to a boundary and there are no phase gadgets, extraction ends with a circuit. -/
theorem extract_total {ω : ℕ → Orders} (hω : ∀ t, (ω t).OK) (hfu : ∀ t, (ω t).Full) {choose : ℕ → Mat2.Data → Option (List (ℕ × ℕ))}
    {n : ℕ} (hch : ChooseGood n choose) {g : Graph} (h : g.Extractable n) (hgad : initGadgets g = ∅) (htb : TB g) {opt perm : Bool}
    (hn : opt = true → n ≠ 0) {fuel : ℕ} (hf : n * n + 3 * n < fuel) : ∃ c, extractCircuit ω choose opt perm fuel g = .ok c := by
  have hlen : g.inputs.length = g.outputs.length := by rw [h.ins, h.outs]
  have hnn : opt = true → g.outputs ≠ [] := fun ho hc => hn ho (by rw [← h.outs, hc]; rfl)
  obtain ⟨s, e1, hs, hsg⟩ := init_total (hω 0) h hgad htb
  obtain ⟨⟨s', t⟩, e2, hT, hfr⟩ := mainLoop_total hω (by rw [h.outs]; exact hch) hlen (fuel := fuel) hnn (by rw [h.outs]; omega) fuel 0 hs (by
    have := mu_bound s.g
    rw [hsg, h.ins] at this
    rw [hsg]
    omega)
  simp only at hT hfr
  have hW : WS Reduced s'.g := ⟨hT.inv.gl.zx, hT.inv.gl.tys, hT.wire hlen hfr⟩
  have hb := busy_le hW
  rw [hT.inv.ext.inputs, h.ins] at hb
  rcases simp_end (fun t => idRound_wire Props.phaseSet_reduced (hω t)) (fun _ _ _ => Shrinks.trans) fuel t s'.g hW with ⟨-, hr⟩ | ⟨g', t', i, hr, a2, a3, -, -, a4⟩
  · omega
  have hu := a3.keeps.upTo
  have hE : GExt g g' s'.gates := by
    have := hT.inv.ext.trans (GExt.of_upTo hu)
    rwa [List.append_nil] at this
  have hin : g'.inputs.length = n := by rw [hE.inputs]; exact h.ins
  have hio : g'.IO := by
    refine ⟨by rw [hE.inputs]; exact h.io.nodupIn, by rw [hE.outputs]; exact h.io.nodupOut, by rw [hE.inputs, hE.outputs]; exact h.io.disj, ?_⟩
    intro v hv hb
    rw [hu.inputs, hu.outputs]
    obtain ⟨h1, h2⟩ := (hu.boundary v).mp ⟨hv, hb⟩
    exact hT.inv.gl.io.all v h1 h2
  have hon : g'.Onto := (onto_of_unit h.zx.wf h.io h.outs h.unit).ext hE
  have hg' := a2.zx.wf
  have hN := a4 hfu
  -- the outputs are connected to inputs
  have hwire : ∀ p ∈ g'.outputs.zipIdx, ∃ i, ((ω t').nbr g' p.1).head? = some i ∧ i ∈ g'.inputs := by
    intro p hp
    have hb := List.mem_of_getElem? (List.mem_zipIdx_iff_getElem?.mp hp)
    have hbt := hg'.io _ (Or.inr hb)
    have hbm := hg'.out _ hb
    obtain ⟨v, hv, hbv⟩ := out_head (hω t') hg' hbm (a2.zx.badj _ hbm hbt)
    refine ⟨v, hv, ?_⟩
    have hvm := hg'.toInv.mem' hbv
    rcases a2.tys v hvm with h1 | h1
    · rcases hio.all v hvm h1 with h2 | h2
      · exact h2
      · exact (hon.no_wire hg' hio hb h2 ⟨hbm, hbt, hbv, fun u hu => a2.zx.bdeg _ hbm hbt _ _ hu hbv⟩).elim
    · exfalso
      rcases a2.w v h1 with h2 | ⟨h2, i, h3, o, h4, h5⟩
      · exact hbv (by rw [hg'.symm]; exact h2 _)
      · refine hN v hvm (Or.inl h1) h2 ?_
        have : g'.nbrs v = {i, o} := by
          ext u
          rw [mem_nbrs hg'.toInv, h5 u]
          simp
        rw [this, Finset.card_pair]
        rintro rfl
        exact hio.disj _ h3 h4
  obtain ⟨r, e3⟩ := swapsSteps_total (o := ω t') (g := g') g'.outputs.zipIdx ([], []) hwire
  obtain ⟨d, e4, hd⟩ : ∃ d, graphToSwaps (ω t') perm g' = some d ∧ d.qubits = n ∧ d.bits = 0 := by
    unfold graphToSwaps
    rw [e3]
    exact ⟨_, rfl, hin, rfl⟩
  unfold extractCircuit
  rw [e1]
  simp only [ofOption, Out.bind]
  rw [e2]
  simp only
  rw [idSimp, hr]
  simp only
  rw [e4]
  simp only
  unfold Circuit.addCircuit
  rw [if_neg (by rw [hd.1, h.outs]; simp), if_neg (by rw [hd.2]; simp)]
  exact ⟨_, rfl⟩

end Extract
end PyZX
