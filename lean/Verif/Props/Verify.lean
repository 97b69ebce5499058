import Verif.Proofs.Verify
import Verif.Props.Extract

/-!
# C46: `verify_equality`, and circuits through the whole pipeline

A `True` of `verify_equality` means that the two circuits denote the same map up to a global phase, when the gates of the first circuit
belong to classes whose `to_adjoint` is correct. For the other classes this is false: see `verify_wrong`.
-/

namespace PyZX
namespace Props

open Graph ToGraph Simplify Verify

variable {ω : ℕ → Orders} {fuel : ℕ} {c d : Circuit}

/-- The diagram that is reduced, and what is known about it. -/
theorem verify_core (hω : ∀ t, (ω t).OK) (hfu : ∀ t, (ω t).Full) (hb : c.bits = 0) (hb' : d.bits = 0) (hq : c.qubits = d.qubits)
    (hc : ∀ a ∈ c.gates, a.Valid ∧ ∀ q ∈ a.qubits, q < c.qubits) (hd : ∀ a ∈ d.gates, a.Valid ∧ ∀ q ∈ a.qubits, q < c.qubits) (up : Bool) :
    ∃ N, ∀ fuel, (fuel ≤ N ∧ verifyEquality ascending ω fuel c d up = .running) ∨ ∃ g' : Graph,
      verifyEquality ascending ω fuel c d up = .answer (decide (g'.onlyWires c.qubits) && (up || g'.straight)) ∧ g'.ZX Reduced ∧ g'.IO ∧
      g'.inputs.length = c.qubits ∧ g'.outputs.length = c.qubits ∧
      ∃ w : ℂ, w ≠ 0 ∧ ∀ x y, g'.mat x y = w * semGates (c.adjoint.gates ++ d.gates) (basisState c.qubits x) y := by
  unfold verifyEquality
  simp only [if_neg (show ¬ (c.bits ≠ 0 ∨ d.bits ≠ 0) by simp [hb, hb'])]
  have hadd : c.adjoint.addCircuit d = some { c.adjoint with gates := c.adjoint.gates ++ d.gates } := by
    unfold Circuit.addCircuit
    rw [if_neg (by simpa [Circuit.adjoint] using hq), if_neg (by simp [Circuit.adjoint, hb, hb'])]
  rw [hadd]
  obtain ⟨e, he⟩ : ∃ e : Circuit, e = { c.adjoint with gates := c.adjoint.gates ++ d.gates } := ⟨_, rfl⟩
  rw [← he]
  have eq : e.qubits = c.qubits := by rw [he]; rfl
  have eb : e.bits = 0 := by rw [he]; exact hb
  have eg : e.gates = c.adjoint.gates ++ d.gates := by rw [he]
  have hv : ∀ a ∈ e.gates, a.Valid ∧ ∀ q ∈ a.qubits, q < e.qubits := by
    intro a ha
    rw [eg] at ha
    rw [eq]
    rcases List.mem_append.mp ha with h | h
    · obtain ⟨a0, h0, rfl⟩ := List.mem_map.mp h
      have := hc a0 (List.mem_reverse.mp h0)
      unfold Gate.Valid at this ⊢
      rw [Gate.adjoint_qubits]
      exact this
    · exact hd a h
  obtain ⟨g, hg, -, z, hz, hm⟩ := toGraph_sound false eb (fun a ha => (hv a ha).1) fun a ha => (hv a ha).2
  obtain ⟨k1, k2, k3, k4, k5⟩ := toGraph_zx ascending_ok eb (fun a ha => (hv a ha).1) (fun a ha => (hv a ha).2) hg
  simp only [hg]
  refine ⟨32 * g.verts.card + 1, fun fuel => ?_⟩
  rcases fullReduce_any phaseSet_reduced hω hfu fuel 0 k1 k2 with h | ⟨g1, t1, h1, h2, h3, -⟩
  · refine Or.inl ⟨?_, by simp only [h]⟩
    by_contra hc
    obtain ⟨g2, t2, e, -⟩ := fullReduce_end (t := 0) phaseSet_reduced hω hfu k1 k2 (not_le.mp hc)
    rw [e] at h
    simp at h
  · simp only [h1]
    refine Or.inr ⟨g1, rfl, h2, ⟨?_, ?_, ?_, ?_⟩, ?_, ?_, ?_⟩
    · rw [h3.upTo.inputs]; exact k3.nodupIn
    · rw [h3.upTo.outputs]; exact k3.nodupOut
    · rw [h3.upTo.inputs, h3.upTo.outputs]; exact k3.disj
    · intro v hv hvb
      rw [h3.upTo.inputs, h3.upTo.outputs]
      obtain ⟨e1, e2⟩ := (h3.upTo.boundary v).mp ⟨hv, hvb⟩
      exact k3.all v e1 e2
    · rw [h3.upTo.inputs, k4, List.length_range, eq]
    · rw [h3.upTo.outputs, k5, eq]
    · obtain ⟨k, hk, hs⟩ := h3.upTo.sem
      refine ⟨k * z, mul_ne_zero hk (fun h => by rw [h] at hz; simp at hz), fun x y => ?_⟩
      have : g1.bval x y = g.bval x y := by funext v; simp only [bval, h3.upTo.inputs, h3.upTo.outputs]
      rw [mat, hs, this, mul_assoc, ← eg, ← eq, ← hm]
      rfl

/-- **C46.** `verify_equality` raises on hybrid circuits and on circuits with different numbers of qubits. -/
theorem verify_raises (up : Bool) (h : c.bits ≠ 0 ∨ d.bits ≠ 0 ∨ c.qubits ≠ d.qubits) : verifyEquality ascending ω fuel c d up = .raised := by
  unfold verifyEquality
  by_cases hb : c.bits ≠ 0 ∨ d.bits ≠ 0
  · rw [if_pos hb]
  · rw [if_neg hb]
    have hq : c.qubits ≠ d.qubits := by tauto
    have : c.adjoint.addCircuit d = none := by
      unfold Circuit.addCircuit
      rw [if_pos (by simpa [Circuit.adjoint] using hq)]
    rw [this]

/-- **C46.** It never raises on circuits of valid gates with the same number of qubits. -/
theorem verify_no_raise (hω : ∀ t, (ω t).OK) (hfu : ∀ t, (ω t).Full) (hb : c.bits = 0) (hb' : d.bits = 0) (hq : c.qubits = d.qubits)
    (hc : ∀ a ∈ c.gates, a.Valid ∧ ∀ q ∈ a.qubits, q < c.qubits) (hd : ∀ a ∈ d.gates, a.Valid ∧ ∀ q ∈ a.qubits, q < c.qubits) (up : Bool) :
    verifyEquality ascending ω fuel c d up ≠ .raised := by
  obtain ⟨N, hN⟩ := verify_core hω hfu hb hb' hq hc hd up
  rcases hN fuel with ⟨-, h⟩ | ⟨g, h, -⟩ <;> rw [h] <;> simp

/-- **C46.** It always ends with an answer on such circuits: all its loops are bounded. -/
theorem verify_answers (hω : ∀ t, (ω t).OK) (hfu : ∀ t, (ω t).Full) (hb : c.bits = 0) (hb' : d.bits = 0) (hq : c.qubits = d.qubits)
    (hc : ∀ a ∈ c.gates, a.Valid ∧ ∀ q ∈ a.qubits, q < c.qubits) (hd : ∀ a ∈ d.gates, a.Valid ∧ ∀ q ∈ a.qubits, q < c.qubits) (up : Bool) :
    ∃ N, ∀ fuel, N < fuel → ∃ b, verifyEquality ascending ω fuel c d up = .answer b := by
  obtain ⟨N, hN⟩ := verify_core hω hfu hb hb' hq hc hd up
  refine ⟨N, fun fuel h => ?_⟩
  rcases hN fuel with ⟨h', -⟩ | ⟨g, e, -⟩
  · omega
  · exact ⟨_, e⟩

/-- What a `True` means. -/
theorem verify_perm (hω : ∀ t, (ω t).OK) (hfu : ∀ t, (ω t).Full) (hc : ∀ a ∈ c.gates, a.Valid ∧ ∀ q ∈ a.qubits, q < c.qubits)
    (hd : ∀ a ∈ d.gates, a.Valid ∧ ∀ q ∈ a.qubits, q < c.qubits) (hok : ∀ a ∈ c.gates, a.adjointOK = true) (up : Bool)
    (h : verifyEquality ascending ω fuel c d up = .answer true) :
    ∃ σ : List ℕ, IsPerm σ ∧ σ.length = c.qubits ∧ (up = false → σ = List.range c.qubits) ∧ ∃ z : ℂ, ‖z‖ = 1 ∧
      ∀ x y, semGates d.gates (basisState c.qubits x) y = z * semGates c.gates (basisState c.qubits x) fun q => y (σ.getD q 0) := by
  by_cases hr : c.bits ≠ 0 ∨ d.bits ≠ 0 ∨ c.qubits ≠ d.qubits
  · rw [verify_raises up hr] at h; simp at h
  push Not at hr
  obtain ⟨hb, hb', hq⟩ := hr
  obtain ⟨N, hN⟩ := verify_core hω hfu hb hb' hq hc hd up
  rcases hN fuel with ⟨-, e⟩ | ⟨g, e, h1, h2, h3, h4, w, hw, hm⟩
  · rw [e] at h; simp at h
  rw [e, Outcome.answer.injEq, Bool.and_eq_true, decide_eq_true_eq, Bool.or_eq_true] at h
  obtain ⟨how, hst⟩ := h
  have hV : ∀ a ∈ c.adjoint.gates ++ d.gates, a.qubits.Nodup ∧ ∀ q ∈ a.qubits, q < c.qubits := by
    intro a ha
    rcases List.mem_append.mp ha with h | h
    · obtain ⟨a0, h0, rfl⟩ := List.mem_map.mp h
      rw [Gate.adjoint_qubits]
      exact ⟨(hc a0 (List.mem_reverse.mp h0)).1.2, (hc a0 (List.mem_reverse.mp h0)).2⟩
    · exact ⟨(hd a h).1.2, (hd a h).2⟩
  obtain ⟨σ, p1, p2, p3, z, hz⟩ := wires_mat h1 h2 h3 h4 how (by
    intro x
    obtain ⟨y, hy⟩ := norm2_ne (n := c.qubits) (ψ := semGates (c.adjoint.gates ++ d.gates) (basisState c.qubits x))
      (by rw [semGates_norm _ hV, basisState_norm])
    exact ⟨y, by rw [hm]; exact mul_ne_zero hw hy⟩)
  refine ⟨σ, p1, p2, fun hup => p3 (by rcases hst with h | h; · rw [hup] at h; simp at h
                                       · exact h), w⁻¹ * z, ?_⟩
  have key : ∀ x, gatesLin (c.adjoint.gates ++ d.gates) (basisState c.qubits x) = ((w⁻¹ * z) • permLin σ) (basisState c.qubits x) := by
    intro x
    funext y
    show semGates _ _ y = w⁻¹ * z * basisState c.qubits x fun q => y (σ.getD q 0)
    rw [mul_assoc, ← hz, hm, inv_mul_cancel_left₀ hw]
  have hmain : ∀ x y, semGates d.gates (basisState c.qubits x) y =
      w⁻¹ * z * semGates c.gates (basisState c.qubits x) fun q => y (σ.getD q 0) := by
    intro x y
    have hl : (semGates c.gates (basisState c.qubits x)).Local c.qubits :=
      semGates_localQ _ (fun a ha => (hc a ha).2) (basisState_local _ x)
    have := congrFun (local_ext key hl) y
    change semGates (c.adjoint.gates ++ d.gates) (semGates c.gates (basisState c.qubits x)) y =
      w⁻¹ * z * semGates c.gates (basisState c.qubits x) fun q => y (σ.getD q 0) at this
    rw [semGates_append, ← semGates_append c.gates, (adjoint_inverse_partial hok (fun a ha => (hc a ha).1.2) _).1] at this
    exact this
  refine ⟨?_, hmain⟩
  have hx := norm_of_prop (n := c.qubits) (gs := c.adjoint.gates ++ d.gates) (hs := []) hV (by simp) (z := w⁻¹ * z) (x := fun _ => false)
    (x' := fun _ => false) (fun y => by
      have := congrFun (key fun _ => false) y
      change semGates _ _ y = w⁻¹ * z * basisState c.qubits (fun _ => false) fun q => y (σ.getD q 0) at this
      rw [this]
      show _ = w⁻¹ * z * basisState c.qubits (fun _ => false) y
      congr 1
      unfold basisState
      congr 1
      rw [eq_iff_iff]
      constructor
      · intro hy q hq
        have hperm : q ∈ σ := by
          have h1 : σ.toFinset = Finset.range c.qubits := by
            refine Finset.eq_of_subset_of_card_le ?_ ?_
            · intro a ha
              rw [Finset.mem_range, ← p2]
              exact p1.2 a (List.mem_toFinset.mp ha)
            · rw [List.toFinset_card_of_nodup p1.1, Finset.card_range, p2]
          rw [← List.mem_toFinset, h1, Finset.mem_range]
          exact hq
        obtain ⟨k, hk, rfl⟩ := List.getElem_of_mem hperm
        have := hy k (by omega)
        beta_reduce at this
        rwa [List.getD_eq_getElem _ _ hk] at this
      · intro hy q hq
        beta_reduce
        refine hy _ ?_
        rw [List.getD_eq_getElem _ _ (by omega)]
        have := p1.2 _ (List.getElem_mem (by omega : q < σ.length))
        omega)
  exact hx

/-- **C46.** If `verify_equality` answers `True` the circuits denote the same map up to a global phase. -/
theorem verify_sound_partial (hω : ∀ t, (ω t).OK) (hfu : ∀ t, (ω t).Full) (hc : ∀ a ∈ c.gates, a.Valid ∧ ∀ q ∈ a.qubits, q < c.qubits)
    (hd : ∀ a ∈ d.gates, a.Valid ∧ ∀ q ∈ a.qubits, q < c.qubits) (hok : ∀ a ∈ c.gates, a.adjointOK = true)
    (h : verifyEquality ascending ω fuel c d false = .answer true) :
    ∃ z : ℂ, ‖z‖ = 1 ∧ ∀ x y, semGates d.gates (basisState c.qubits x) y = z * semGates c.gates (basisState c.qubits x) y := by
  obtain ⟨σ, -, -, p, z, hz, hm⟩ := verify_perm hω hfu hc hd hok false h
  refine ⟨z, hz, fun x y => ?_⟩
  rw [hm]
  congr 1
  have hl : (semGates c.gates (basisState c.qubits x)).Local c.qubits :=
    semGates_localQ _ (fun a ha => (hc a ha).2) (basisState_local _ x)
  refine hl _ _ fun q hq => ?_
  rw [p rfl, List.getD_eq_getElem _ _ (by simpa using hq), List.getElem_range]

/-- **C46.** With `up_to_swaps`, a `True` means that the circuits agree up to a global phase and a permutation of the outputs. -/
theorem verify_swaps_partial (hω : ∀ t, (ω t).OK) (hfu : ∀ t, (ω t).Full) (hc : ∀ a ∈ c.gates, a.Valid ∧ ∀ q ∈ a.qubits, q < c.qubits)
    (hd : ∀ a ∈ d.gates, a.Valid ∧ ∀ q ∈ a.qubits, q < c.qubits) (hok : ∀ a ∈ c.gates, a.adjointOK = true)
    (h : verifyEquality ascending ω fuel c d true = .answer true) :
    ∃ σ : List ℕ, IsPerm σ ∧ σ.length = c.qubits ∧ ∃ z : ℂ, ‖z‖ = 1 ∧
      ∀ x y, semGates d.gates (basisState c.qubits x) y = z * semGates c.gates (basisState c.qubits x) fun q => y (σ.getD q 0) := by
  obtain ⟨σ, p1, p2, -, z, hz, hm⟩ := verify_perm hω hfu hc hd hok true h
  exact ⟨σ, p1, p2, z, hz, hm⟩

/-! ### Runs -/

theorem upto_ascending : upto = ascending := by
  funext s
  have h1 : (upto s).Pairwise (· ≤ ·) := List.Pairwise.filter _ List.pairwise_le_range
  exact List.Perm.eq_of_pairwise' h1 (Finset.pairwise_sort _ _)
    ((List.perm_ext_iff_of_nodup (upto_ok s).1 (Finset.sort_nodup _ _)).mpr fun a => by
      rw [← List.mem_toFinset, (upto_ok s).2, Finset.mem_sort])

theorem mem_upto {s : Finset ℕ} {v : ℕ} : v ∈ upto s ↔ v ∈ s := by rw [← List.mem_toFinset, (upto_ok s).2]

theorem uptoOrders_full : uptoOrders.Full where
  vcand g _ v hv := mem_upto.mpr hv
  ecand g hg u v h := by
    have hu : u ∈ g.verts := hg.mem u v h
    have hv : v ∈ g.verts := hg.toInv.mem' h
    have hne : u ≠ v := fun e => h (by rw [e]; exact hg.loopless v)
    rcases lt_or_gt_of_ne hne with c | c
    · exact Or.inl (List.mem_filter.mpr ⟨List.mem_product.mpr ⟨mem_upto.mpr hu, mem_upto.mpr hv⟩, by simp [h, c]⟩)
    · exact Or.inr (List.mem_filter.mpr ⟨List.mem_product.mpr ⟨mem_upto.mpr hv, mem_upto.mpr hu⟩, by simp [hg.symm v u, h, c]⟩)

/-- Example: a controlled Z gate and a CNOT gate between Hadamard gates satisfy the hypotheses of `verify_sound_partial`. -/
example : (∀ t : ℕ, ((fun _ => uptoOrders) t).OK) ∧ (∀ t : ℕ, ((fun _ => uptoOrders) t).Full) ∧
    (∀ a ∈ [Gate.cz 0 1], a.Valid ∧ ∀ q ∈ a.qubits, q < 2) ∧ (∀ a ∈ [Gate.had 1, .cnot 0 1, .had 1], a.Valid ∧ ∀ q ∈ a.qubits, q < 2) ∧
    (∀ a ∈ [Gate.cz 0 1], a.adjointOK = true) ∧
    verifyEquality ascending (fun _ => uptoOrders) 30 ⟨2, 0, [.cz 0 1]⟩ ⟨2, 0, [.had 1, .cnot 0 1, .had 1]⟩ false = .answer true :=
  ⟨fun _ => uptoOrders_ok, fun _ => uptoOrders_full, by simp [Gate.Valid, Gate.qubits], by simp [Gate.Valid, Gate.qubits],
    by simp [Gate.adjointOK], by rw [← upto_ascending]; decide +kernel⟩

/-- Example: a swap is the identity up to swaps only. -/
example : verifyEquality ascending (fun _ => uptoOrders) 30 ⟨2, 0, [.swap 0 1]⟩ ⟨2, 0, []⟩ true = .answer true ∧
    verifyEquality ascending (fun _ => uptoOrders) 30 ⟨2, 0, [.swap 0 1]⟩ ⟨2, 0, []⟩ false = .answer false := by
  rw [← upto_ascending]; decide +kernel

/-- **C46 is false in general.** `verify_equality` says that the gate `U3(0, 0, π/2)`, which is `S`, equals `S†`, because `to_adjoint` does not
change a `U3` gate. -/
theorem verify_wrong : ∃ (ω : ℕ → Orders) (fuel : ℕ) (c d : Circuit), (∀ t, (ω t).OK) ∧ (∀ t, (ω t).Full) ∧
    (∀ a ∈ c.gates, a.Valid ∧ ∀ q ∈ a.qubits, q < c.qubits) ∧ (∀ a ∈ d.gates, a.Valid ∧ ∀ q ∈ a.qubits, q < c.qubits) ∧
    verifyEquality ascending ω fuel c d false = .answer true ∧
    ¬ ∃ z : ℂ, ∀ x y, semGates d.gates (basisState c.qubits x) y = z * semGates c.gates (basisState c.qubits x) y := by
  refine ⟨fun _ => uptoOrders, 30, ⟨1, 0, [.u3 0 0 0 (1/2)]⟩, ⟨1, 0, [Gate.mkZPhase 0 (-1/2)]⟩, fun _ => uptoOrders_ok, fun _ => uptoOrders_full,
    by simp [Gate.Valid, Gate.qubits], by simp [Gate.Valid, Gate.qubits, Gate.mkZPhase], by rw [← upto_ascending]; decide +kernel, ?_⟩
  rintro ⟨z, h⟩
  have h0 := h (fun _ => false) fun _ => false
  have h1 := h (fun _ => true) fun _ => true
  simp [semGates, Gate.sem, Gate.mkZPhase, on1, matZ, matU, mat2, basisState, hcos, hsin, Function.update_apply] at h0 h1
  rw [← h0, show (-1 / 2 : ℚ) = -(1/2) by norm_num, ph_neg, show (2⁻¹ : ℚ) = 1 / 2 by norm_num,
    ph_half, one_mul, Complex.inv_I] at h1
  have := congrArg Complex.im h1
  norm_num at this

end Props
end PyZX
