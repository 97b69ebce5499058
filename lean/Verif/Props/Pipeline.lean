import Verif.Props.Verify

/-!
# C47: optimising a circuit through `full_reduce` and `extract_circuit`; C48: `is_id`
-/

namespace PyZX
namespace Props

open Graph ToGraph Simplify Verify Extract

/-- **C47.** A circuit is turned into a diagram, reduced and extracted again: the new circuit has the same number of qubits, it denotes
the same map up to a global phase. Partial: the shape of the phase gadgets of the reduced diagram is a hypothesis, and so is
that the extraction ends; `full_reduce` always does, see `optimise_reduces`. -/
theorem optimise_sound_partial {ω ω' : ℕ → Orders} {choose : ℕ → Mat2.Data → Option (List (ℕ × ℕ))} {opt : Bool} {fuel fuel' t t' i : ℕ} {c d : Circuit}
    {g g' : Graph} (hω : ∀ t, (ω t).OK) (hfu : ∀ t, (ω t).Full) (hω' : ∀ t, (ω' t).OK) (hch : ChooseOK choose) (hb : c.bits = 0)
    (hc : ∀ a ∈ c.gates, a.Valid ∧ ∀ q ∈ a.qubits, q < c.qubits)
    (hg : toGraph ascending false c = some g) (hr : fullReduce ω fuel t g = .done g' t' i) (hgad : g'.Gadgets)
    (he : extractCircuit ω' choose opt false fuel' g' = .ok d) :
    d.qubits = c.qubits ∧ ∃ w : ℂ, ‖w‖ = 1 ∧ ∀ x y, semGates d.gates (basisState c.qubits x) y = w * semGates c.gates (basisState c.qubits x) y := by
  obtain ⟨g0, h0, -, z, hz, hm⟩ := toGraph_sound false hb (fun a ha => (hc a ha).1) fun a ha => (hc a ha).2
  rw [hg, Option.some.injEq] at h0
  subst h0
  obtain ⟨k1, k2, k3, k4, k5⟩ := toGraph_zx ascending_ok hb (fun a ha => (hc a ha).1) (fun a ha => (hc a ha).2) hg
  exact reduce_extract (fun a ha => ⟨(hc a ha).1.2, (hc a ha).2⟩) hω hfu hch k1 k2 k3 (by rw [k4, List.length_range]) k5
    (fun h => by rw [h] at hz; simp at hz) hm hr hgad hω' he

/-- **C47.** For every circuit of valid gates `full_reduce` ends, with a diagram in normal form. -/
theorem optimise_reduces {ω : ℕ → Orders} {c : Circuit} (hω : ∀ t, (ω t).OK) (hfu : ∀ t, (ω t).Full) (hb : c.bits = 0)
    (hc : ∀ a ∈ c.gates, a.Valid ∧ ∀ q ∈ a.qubits, q < c.qubits) : ∃ g N, toGraph ascending false c = some g ∧
      ∀ fuel t, N < fuel → ∃ g' t', fullReduce ω fuel t g = .done g' t' 0 ∧ g'.FullNF := by
  obtain ⟨g, hg, -⟩ := toGraph_sound false hb (fun a ha => (hc a ha).1) fun a ha => (hc a ha).2
  obtain ⟨k1, k2, -⟩ := toGraph_zx ascending_ok hb (fun a ha => (hc a ha).1) (fun a ha => (hc a ha).2) hg
  refine ⟨g, 32 * g.verts.card + 1, hg, fun fuel t hf => ?_⟩
  obtain ⟨g', t', h1, -, -, h2⟩ := fullReduce_terminates hω hfu k1 k2 hf t
  exact ⟨g', t', h1, h2⟩

/-- The circuit of the example: a phase gadget between Hadamard gates. -/
def exC : Circuit := ⟨2, 0, [.had 0, .cnot 0 1, Gate.mkZPhase 1 (1/4), .cnot 0 1, .had 1]⟩

/-- The three stages of the optimisation of `exC`. -/
noncomputable def exStages : Option (Graph × Graph × Circuit) :=
  (toGraph upto false exC).bind fun g => match fullReduce (fun _ => uptoOrders) 50 0 g with
    | .done g' _ _ => (outc (extractCircuit (fun _ => uptoOrders) (fun _ _ => none) false false 30 g')).map fun d => (g, g', d)
    | _ => none

/-- A test that implies that the gadgets of a diagram have the required shape. -/
def gadgetsTest (g : Graph) : Bool :=
  decide (∀ v ∈ g.verts, g.ty v = .Z → (g.nbrs v).card = 1 → ∀ w ∈ g.verts, g.adj v w ≠ none →
    g.ty w = .Z ∧ (g.phase w = 0 ∨ g.phase w = 1) ∧ (∀ u ∈ g.verts, g.adj w u ≠ none → g.ty u = .Z) ∧ ∃ u ∈ g.verts, u ≠ v ∧ g.adj w u ≠ none)

theorem exStages_eval : (exStages.map fun p => (gadgetsTest p.2.1, p.2.2)) =
    some (true, ⟨2, 0, [.had 1, .had 0, .cz 0 1, .had 1, Gate.mkZPhase 1 (1/4), .had 1, .cz 0 1]⟩) := by decide +kernel

theorem gadgets_of_test {g : Graph} (hg : g.WF) (h : gadgetsTest g = true) : g.Gadgets := by
  intro v hv ht hc w hw
  obtain ⟨h1, h2, h3, u, -, h4⟩ := of_decide_eq_true h v hv ht hc w (hg.toInv.mem' hw) hw
  exact ⟨h1, h2, fun u hu => h3 u (hg.toInv.mem' hu) hu, u, h4⟩

/-- Example: the circuit `exC` meets all the hypotheses of `optimise_sound_partial`; its optimised circuit has seven gates, one of them a T gate. -/
example : ∃ g g' t' i d, (∀ a ∈ exC.gates, a.Valid ∧ ∀ q ∈ a.qubits, q < exC.qubits) ∧ toGraph ascending false exC = some g ∧
    fullReduce (fun _ => uptoOrders) 50 0 g = .done g' t' i ∧ g'.Gadgets ∧
    extractCircuit (fun _ => uptoOrders) (fun _ _ => none) false false 30 g' = .ok d ∧
    d.gates = [.had 1, .had 0, .cz 0 1, .had 1, Gate.mkZPhase 1 (1/4), .had 1, .cz 0 1] := by
  have hv : ∀ a ∈ exC.gates, a.Valid ∧ ∀ q ∈ a.qubits, q < exC.qubits := by simp [exC, Gate.Valid, Gate.qubits, Gate.mkZPhase]
  have e := exStages_eval
  unfold exStages at e
  rw [upto_ascending] at e
  cases hg : toGraph ascending false exC with
  | none => rw [hg] at e; simp at e
  | some g =>
    rw [hg, Option.bind_some] at e
    obtain ⟨k1, k2, -⟩ := toGraph_zx ascending_ok rfl (fun a ha => (hv a ha).1) (fun a ha => (hv a ha).2) hg
    rcases fullReduce_any phaseSet_reduced (fun _ => uptoOrders_ok) (fun _ => uptoOrders_full) 50 0 k1 k2 with h | ⟨g1, t1, h1, h2, -⟩
    · rw [h] at e; simp at e
    · rw [h1] at e
      simp only [Option.map_map] at e
      cases hx : extractCircuit (fun _ => uptoOrders) (fun _ _ => none) false false 30 g1 with
      | ok d =>
        rw [hx] at e
        simp only [outc, Option.map_some, Function.comp, Option.some.injEq, Prod.mk.injEq] at e
        exact ⟨g, g1, _, _, d, hv, rfl, h1, gadgets_of_test h2.wf e.1, hx, by rw [e.2]⟩
      | raised => rw [hx] at e; simp [outc] at e
      | running => rw [hx] at e; simp [outc] at e

/-! ### `is_id` -/

/-- The `q`th input and the `q`th output, the smaller one first. -/
def wirePair (g : Graph) (hl : g.inputs.length = g.outputs.length) (q : Fin g.inputs.length) : ℕ × ℕ :=
  (min g.inputs[q] (g.outputs[q.1]'(hl ▸ q.2)), max g.inputs[q] (g.outputs[q.1]'(hl ▸ q.2)))

theorem wirePair_inj {g : Graph} (hl : g.inputs.length = g.outputs.length) (hio : g.IO) : Function.Injective (wirePair g hl) := by
  intro q q' e
  have hd := fun (a b : Fin g.inputs.length) (e : g.inputs[a] = g.outputs[b.1]'(hl ▸ b.2)) =>
    hio.disj _ (List.getElem_mem a.2) (by show g.inputs[a] ∈ _; rw [e]; exact List.getElem_mem _)
  have h1 : g.inputs[q] = g.inputs[q'] := by
    have h2 := hd q q'
    have h3 := hd q' q
    unfold wirePair at e
    simp only [Prod.mk.injEq] at e
    generalize g.inputs[q] = a at *
    generalize (g.outputs[q.1]'(hl ▸ q.2)) = b at *
    generalize g.inputs[q'] = a' at *
    generalize (g.outputs[q'.1]'(hl ▸ q'.2)) = b' at *
    obtain ⟨e1, e2⟩ := e
    by_contra hc
    rcases le_total a b with c1 | c1 <;> rcases le_total a' b' with c2 | c2
    · rw [min_eq_left c1, min_eq_left c2] at e1; exact hc e1
    · rw [min_eq_left c1, min_eq_right c2] at e1; exact h2 e1
    · rw [min_eq_right c1, min_eq_left c2] at e1; exact h3 e1.symm
    · rw [max_eq_left c1, max_eq_left c2] at e2; exact hc e2
  exact Fin.ext ((List.Nodup.getElem_inj_iff hio.nodupIn).mp h1)

theorem wirePair_edge {g : Graph} (hg : g.WF) (hl : g.inputs.length = g.outputs.length) (q : Fin g.inputs.length)
    (h3 : g.adj g.inputs[q] (g.outputs[q.1]'(hl ▸ q.2)) ≠ none) :
    wirePair g hl q ∈ (pairs g.verts).filter fun p => (g.adj p.1 p.2).isSome := by
  rw [Finset.mem_filter, mem_pairs]
  unfold wirePair
  have h1 := hg.mem _ _ h3
  have h2 := hg.toInv.mem' h3
  have h4 : g.inputs[q] ≠ g.outputs[q.1]'(hl ▸ q.2) := fun e => h3 (by rw [e]; exact hg.loopless _)
  generalize g.inputs[q] = a at *
  generalize (g.outputs[q.1]'(hl ▸ q.2)) = b at *
  rcases lt_or_gt_of_ne h4 with c | c
  · rw [min_eq_left c.le, max_eq_right c.le]
    exact ⟨⟨h1, h2, c⟩, Option.isSome_iff_ne_none.mpr h3⟩
  · rw [min_eq_right c.le, max_eq_left c.le]
    exact ⟨⟨h2, h1, c⟩, Option.isSome_iff_ne_none.mpr (by rw [hg.symm]; exact h3)⟩

theorem nedges_card {g : Graph} (hg : g.WF) : g.nedges = (((pairs g.verts).filter fun p => (g.adj p.1 p.2).isSome).card : ℤ) := by
  have := hg.count
  unfold pairSum at this
  rw [Finset.sum_ite, Finset.sum_const_zero, add_zero, Finset.sum_const, nsmul_eq_mul, mul_one] at this
  exact this

/-- The edges of a diagram on which `is_id` answers `True` are those between the inputs and the outputs, in order. -/
theorem isId_edge {g : Graph} (hg : g.WF) (hio : g.IO) (h : g.isId = true) {u v : ℕ} (huv : g.adj u v ≠ none) :
    ∃ (q : ℕ) (h1 : q < g.inputs.length) (h2 : q < g.outputs.length), (u = g.inputs[q] ∧ v = g.outputs[q]) ∨ (v = g.inputs[q] ∧ u = g.outputs[q]) := by
  rw [isId, Bool.and_eq_true, decide_eq_true_eq] at h
  obtain ⟨⟨hl, -, hn⟩, hs⟩ := h
  obtain ⟨E, hE⟩ : ∃ E : Finset (ℕ × ℕ), E = (pairs g.verts).filter fun p => (g.adj p.1 p.2).isSome := ⟨_, rfl⟩
  have hcard : E.card = g.inputs.length := by
    have := nedges_card hg
    rw [hn, ← hE] at this
    exact_mod_cast this.symm
  have hedge : ∀ q : Fin g.inputs.length, g.adj g.inputs[q] (g.outputs[q.1]'(hl ▸ q.2)) ≠ none := by
    intro q
    have hp : (g.inputs[q], g.outputs[q.1]'(hl ▸ q.2)) ∈ g.inputs.zip g.outputs := by
      rw [List.mem_iff_getElem]
      exact ⟨q, by rw [List.length_zip]; omega, by rw [List.getElem_zip]; rfl⟩
    exact Option.isSome_iff_ne_none.mp (List.all_eq_true.mp hs _ hp)
  have himg : Finset.univ.image (wirePair g hl) = E := by
    refine Finset.eq_of_subset_of_card_le ?_ ?_
    · intro p hp
      obtain ⟨q, -, rfl⟩ := Finset.mem_image.mp hp
      rw [hE]
      exact wirePair_edge hg hl q (hedge q)
    · rw [Finset.card_image_of_injective _ (wirePair_inj hl hio), Finset.card_univ, Fintype.card_fin, hcard]
  have main : ∀ u v, u < v → g.adj u v ≠ none → ∃ (q : ℕ) (h1 : q < g.inputs.length) (h2 : q < g.outputs.length),
      (u = g.inputs[q] ∧ v = g.outputs[q]) ∨ (v = g.inputs[q] ∧ u = g.outputs[q]) := by
    intro u v c huv
    have : (u, v) ∈ E := by
      rw [hE, Finset.mem_filter, mem_pairs]
      exact ⟨⟨hg.mem _ _ huv, hg.toInv.mem' huv, c⟩, Option.isSome_iff_ne_none.mpr huv⟩
    rw [← himg] at this
    obtain ⟨q, -, e⟩ := Finset.mem_image.mp this
    unfold wirePair at e
    simp only [Prod.mk.injEq] at e
    refine ⟨q, q.2, hl ▸ q.2, ?_⟩
    obtain ⟨e1, e2⟩ := e
    rw [← e1, ← e2]
    rcases le_total g.inputs[q] (g.outputs[q.1]'(hl ▸ q.2)) with c | c
    · exact Or.inl ⟨min_eq_left c, max_eq_right c⟩
    · exact Or.inr ⟨max_eq_left c, min_eq_right c⟩
  rcases lt_trichotomy u v with c | c | c
  · exact main u v c huv
  · exact absurd (by rw [c]; exact hg.loopless v) huv
  · obtain ⟨q, h1, h2, e⟩ := main v u c (by rw [hg.symm]; exact huv)
    exact ⟨q, h1, h2, e.symm⟩

/-- **C48.** What a `True` of `is_id` means: the map is a number times a product of identities and Hadamard gates, one for each qubit. -/
theorem isId_mat {g : Graph} (hg : g.WF) (hio : g.IO) (h : g.isId = true) (x y : ℕ → Bool) :
    g.mat x y = g.scalar.toNumber *
      ((List.range g.inputs.length).map fun q => if g.adj (g.inputs.getD q 0) (g.outputs.getD q 0) = some .had then hmat (y q) (x q) else dmat (y q) (x q)).prod := by
  have hl : g.inputs.length = g.outputs.length := by
    rw [isId, Bool.and_eq_true, decide_eq_true_eq] at h
    exact h.1.1
  have hs : g.straight = true := by
    rw [isId, Bool.and_eq_true] at h
    exact h.2
  have hc : g.verts.card = 2 * g.inputs.length := by
    rw [isId, Bool.and_eq_true, decide_eq_true_eq] at h
    exact h.1.2.1
  have hbd : g.BDeg := by
    intro b hb hbt u w hu hw
    obtain ⟨q, h1, h2, e⟩ := isId_edge hg hio h hu
    obtain ⟨r, h3, h4, e'⟩ := isId_edge hg hio h hw
    have hd : ∀ (a b : ℕ) (ha : a < g.inputs.length) (hb : b < g.outputs.length), g.inputs[a] ≠ g.outputs[b] := by
      intro a b ha hb e
      exact hio.disj _ (List.getElem_mem ha) (by rw [e]; exact List.getElem_mem _)
    rcases e with ⟨e1, e2⟩ | ⟨e1, e2⟩ <;> rcases e' with ⟨e3, e4⟩ | ⟨e3, e4⟩
    · have : q = r := (List.Nodup.getElem_inj_iff hio.nodupIn).mp (e1.symm.trans e3)
      subst this
      rw [e2, e4]
    · exact absurd (e1.symm.trans e4) (hd _ _ _ _)
    · exact absurd (e3.symm.trans e2) (hd _ _ _ _)
    · have : q = r := (List.Nodup.getElem_inj_iff hio.nodupOut).mp (e2.symm.trans e4)
      subst this
      rw [e1, e3]
  have hint : g.interior = ∅ := by
    have hnd : (g.inputs ++ g.outputs).Nodup := List.Nodup.append hio.nodupIn hio.nodupOut fun v h1 h2 => hio.disj v h1 h2
    have e : (g.inputs ++ g.outputs).toFinset = g.verts := by
      refine Finset.eq_of_subset_of_card_le ?_ ?_
      · intro v hv
        rcases List.mem_append.mp (List.mem_toFinset.mp hv) with h | h
        · exact hg.inp v h
        · exact hg.out v h
      · rw [List.toFinset_card_of_nodup hnd, List.length_append, hc]
        omega
    rw [Finset.eq_empty_iff_forall_notMem]
    intro v hv
    obtain ⟨hv1, hv2⟩ := Finset.mem_filter.mp hv
    rw [← e, List.mem_toFinset, List.mem_append] at hv1
    exact hv2 (hg.io v hv1)
  obtain ⟨nb, hnb⟩ : ∃ nb : ℕ → ℕ, nb = fun o => g.inputs.getD (g.outputs.idxOf o) 0 := ⟨_, rfl⟩
  have hnbv : ∀ o ∈ g.outputs, nb o ∈ g.inputs ∧ g.adj o (nb o) ≠ none := by
    intro o ho
    have hlt := List.idxOf_lt_length_of_mem ho
    have hlt' : g.outputs.idxOf o < g.inputs.length := by omega
    rw [hnb]
    beta_reduce
    rw [List.getD_eq_getElem _ _ hlt']
    refine ⟨List.getElem_mem _, ?_⟩
    have hp : (g.inputs[g.outputs.idxOf o], o) ∈ g.inputs.zip g.outputs := by
      rw [List.mem_iff_getElem]
      exact ⟨g.outputs.idxOf o, by rw [List.length_zip]; omega, by rw [List.getElem_zip, List.getElem_idxOf]⟩
    rw [hg.symm]
    exact Option.isSome_iff_ne_none.mp (List.all_eq_true.mp hs _ hp)
  rw [mat_wires_eq hg hio hbd hnbv hl, hint, psum_empty]
  congr 1
  · simp [wOn, pairProd, pairs]
  · congr 1
    refine List.ext_getElem (by simp [hl]) fun q h1 h2 => ?_
    have hq : q < g.outputs.length := by simpa using h1
    have hqi : q < g.inputs.length := by omega
    have e1 : nb g.outputs[q] = g.inputs[q] := by
      rw [hnb]
      beta_reduce
      rw [hio.nodupOut.idxOf_getElem, List.getD_eq_getElem _ _ hqi]
    have e2 : g.bval x y g.outputs[q] = y q := by
      unfold bval
      rw [if_neg fun hc => hio.disj _ hc (List.getElem_mem hq), hio.nodupOut.idxOf_getElem]
    have e3 : g.bval x y g.inputs[q] = x q := by
      unfold bval
      rw [if_pos (List.getElem_mem hqi), hio.nodupIn.idxOf_getElem]
    rw [List.getElem_map, List.getElem_map, List.getElem_range, e1, e2, e3, List.getD_eq_getElem _ _ hq, List.getD_eq_getElem _ _ hqi, hg.symm]
    unfold kern
    simp only [decide_eq_true_eq]

/-- **C48.** If `is_id` answers `True` and no edge is a Hadamard edge, the diagram denotes the identity times its scalar. -/
theorem isId_sound_partial {g : Graph} (hg : g.WF) (hio : g.IO) (h : g.isId = true) (hs : ∀ u v, g.adj u v ≠ some .had) (x y : ℕ → Bool) :
    g.mat x y = g.scalar.toNumber * basisState g.inputs.length x y := by
  rw [isId_mat hg hio h]
  congr 1
  unfold basisState
  simp only [hs, if_false]
  by_cases c : ∀ q < g.inputs.length, y q = x q
  · rw [if_pos c]
    refine List.prod_eq_one fun a ha => ?_
    obtain ⟨q, hq, rfl⟩ := List.mem_map.mp ha
    rw [dmat, if_pos (c q (List.mem_range.mp hq))]
  · rw [if_neg c]
    push Not at c
    obtain ⟨q, hq, hne⟩ := c
    exact List.prod_eq_zero (List.mem_map.mpr ⟨q, List.mem_range.mpr hq, by rw [dmat, if_neg hne]⟩)

/-- **C48.** Conversely a diagram of identity wires, in order, is recognised. -/
theorem isId_complete {g : Graph} (hg : g.WF) (hio : g.IO) (hl : g.inputs.length = g.outputs.length) (hv : ∀ v ∈ g.verts, v ∈ g.inputs ∨ v ∈ g.outputs)
    (he : ∀ u v, g.adj u v ≠ none ↔ ∃ p ∈ g.inputs.zip g.outputs, (u = p.1 ∧ v = p.2) ∨ (u = p.2 ∧ v = p.1)) : g.isId = true := by
  have hzip : ∀ p ∈ g.inputs.zip g.outputs, ∃ q : Fin g.inputs.length, p = (g.inputs[q], g.outputs[q.1]'(hl ▸ q.2)) := by
    intro p hp
    obtain ⟨q, hq, rfl⟩ := List.getElem_of_mem hp
    rw [List.length_zip] at hq
    exact ⟨⟨q, by omega⟩, by rw [List.getElem_zip]; rfl⟩
  have hzip' : ∀ q : Fin g.inputs.length, (g.inputs[q], g.outputs[q.1]'(hl ▸ q.2)) ∈ g.inputs.zip g.outputs := by
    intro q
    rw [List.mem_iff_getElem]
    exact ⟨q, by rw [List.length_zip]; omega, by rw [List.getElem_zip]; rfl⟩
  rw [isId, Bool.and_eq_true, decide_eq_true_eq]
  refine ⟨⟨hl, ?_, ?_⟩, ?_⟩
  · have hnd : (g.inputs ++ g.outputs).Nodup := List.Nodup.append hio.nodupIn hio.nodupOut fun v h1 h2 => hio.disj v h1 h2
    have e : (g.inputs ++ g.outputs).toFinset = g.verts := by
      ext v
      rw [List.mem_toFinset, List.mem_append]
      exact ⟨fun h => h.elim (hg.inp v) (hg.out v), hv v⟩
    rw [← e, List.toFinset_card_of_nodup hnd, List.length_append, ← hl]
    omega
  · rw [nedges_card hg]
    have : Finset.univ.image (wirePair g hl) = (pairs g.verts).filter fun p => (g.adj p.1 p.2).isSome := by
      ext p
      constructor
      · intro hp
        obtain ⟨q, -, rfl⟩ := Finset.mem_image.mp hp
        exact wirePair_edge hg hl q ((he _ _).mpr ⟨_, hzip' q, Or.inl ⟨rfl, rfl⟩⟩)
      · intro hp
        obtain ⟨h1, h2⟩ := Finset.mem_filter.mp hp
        obtain ⟨-, -, h3⟩ := mem_pairs.mp h1
        obtain ⟨r, hr, e⟩ := (he _ _).mp (Option.isSome_iff_ne_none.mp h2)
        obtain ⟨q, rfl⟩ := hzip r hr
        refine Finset.mem_image.mpr ⟨q, Finset.mem_univ _, ?_⟩
        unfold wirePair
        simp only at e
        generalize g.inputs[q] = a at *
        generalize (g.outputs[q.1]'(hl ▸ q.2)) = b at *
        obtain ⟨p1, p2⟩ := p
        simp only at e h3
        rcases e with ⟨rfl, rfl⟩ | ⟨rfl, rfl⟩
        · rw [min_eq_left h3.le, max_eq_right h3.le]
        · rw [min_eq_right h3.le, max_eq_left h3.le]
    rw [← this, Finset.card_image_of_injective _ (wirePair_inj hl hio), Finset.card_univ, Fintype.card_fin]
  · refine List.all_eq_true.mpr fun p hp => ?_
    exact Option.isSome_iff_ne_none.mpr ((he _ _).mpr ⟨p, hp, Or.inl ⟨rfl, rfl⟩⟩)

/-- Example: two wires, one of them a Hadamard wire, meet the hypotheses of `isId_mat`; two identity wires those of `isId_sound_partial`. -/
example : (mkG [.boundary, .boundary, .boundary, .boundary] [0, 0, 0, 0] [(0, 2, .had), (1, 3, .simple)] [0, 1] [2, 3]).WF ∧
    (mkG [.boundary, .boundary, .boundary, .boundary] [0, 0, 0, 0] [(0, 2, .had), (1, 3, .simple)] [0, 1] [2, 3]).IO ∧
    (mkG [.boundary, .boundary, .boundary, .boundary] [0, 0, 0, 0] [(0, 2, .had), (1, 3, .simple)] [0, 1] [2, 3]).isId = true ∧
    (mkG [.boundary, .boundary, .boundary, .boundary] [0, 0, 0, 0] [(0, 2, .simple), (1, 3, .simple)] [0, 1] [2, 3]).isId = true ∧
    (mkG [.boundary, .boundary, .boundary, .boundary] [0, 0, 0, 0] [(0, 3, .simple), (1, 2, .simple)] [0, 1] [2, 3]).isId = false := by
  refine ⟨mkG_wf (by decide), ⟨by decide, by decide, by decide, ?_⟩, by decide +kernel, by decide +kernel, by decide +kernel⟩
  intro v hv _
  have hv' : v ∈ Finset.range 4 := hv
  fin_cases hv' <;> simp [mkG]

/-- **C48 is false in general.** A Hadamard wire is accepted. -/
theorem isId_wrong : ∃ g : Graph, g.WF ∧ g.IO ∧ g.isId = true ∧ ¬ ∃ z : ℂ, ∀ x y, g.mat x y = z * basisState g.inputs.length x y := by
  have hg : (mkG [.boundary, .boundary] [0, 0] [(0, 1, .had)] [0] [1]).WF := mkG_wf (by decide)
  have hio : (mkG [.boundary, .boundary] [0, 0] [(0, 1, .had)] [0] [1]).IO := by
    refine ⟨by decide, by decide, by decide, ?_⟩
    intro v hv _
    have hv' : v ∈ Finset.range 2 := hv
    fin_cases hv' <;> simp [mkG]
  have hid : (mkG [.boundary, .boundary] [0, 0] [(0, 1, .had)] [0] [1]).isId = true := by decide +kernel
  refine ⟨_, hg, hio, hid, ?_⟩
  rintro ⟨z, h⟩
  have := h (fun _ => false) fun _ => true
  rw [isId_mat hg hio hid] at this
  simp [mkG, basisState, hmat, sq2_ne_zero, Scalar.new, Scalar.toNumber] at this

end Props
end PyZX
