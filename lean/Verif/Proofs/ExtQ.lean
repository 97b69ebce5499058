import Verif.Proofs.ExtSem3
import Verif.Proofs.Circuit3
import Verif.Proofs.Circuit2
import Verif.Proofs.Paste
import Verif.Spec.ToGraph
import Verif.Spec.Matrix

/-!
# Steps of circuit extraction as gates
-/

namespace PyZX

open Finset

/-! ### States of the first `n` qubits -/

/-- A state of the first `n` qubits. -/
def QState.Local (n : ℕ) (ψ : QState) : Prop := ∀ x y, AgreeTo n x y → ψ x = ψ y

theorem semGates_localQ {n : ℕ} (gs : List Gate) (hg : ∀ a ∈ gs, ∀ q ∈ a.qubits, q < n) {ψ : QState} (h : ψ.Local n) : (semGates gs ψ).Local n := by
  induction gs generalizing ψ with
  | nil => exact h
  | cons a gs ih =>
    rw [semGates_cons]
    exact ih (fun b hb => hg b (by simp [hb])) (fun x y hxy => Gate.sem_congr (hg a (by simp)) h hxy)

theorem basisState_local (n : ℕ) (x : ℕ → Bool) : (basisState n x).Local n := by
  intro y z h
  unfold basisState
  have : (∀ q < n, y q = x q) ↔ ∀ q < n, z q = x q := ⟨fun h1 q hq => by rw [← h q hq]; exact h1 q hq, fun h1 q hq => by rw [h q hq]; exact h1 q hq⟩
  simp only [this]

theorem Gate.sem_add (g : Gate) (ψ φ : QState) : g.sem (ψ + φ) = g.sem ψ + g.sem φ := by
  funext x
  cases g <;> simp only [Gate.sem, on1, ctrl, Pi.add_apply, Fintype.sum_bool] <;> (try split_ifs) <;> ring

/-- A list of gates as a linear map. -/
noncomputable def gatesLin (gs : List Gate) : QState →ₗ[ℂ] QState where
  toFun := semGates gs
  map_add' := by
    intro ψ φ
    induction gs generalizing ψ φ with
    | nil => rfl
    | cons a gs ih => rw [semGates_cons, semGates_cons, semGates_cons, Gate.sem_add, ih]
  map_smul' := by
    intro z ψ
    funext x
    exact semGates_smul gs z ψ x

theorem semGates_inj {gs : List Gate} (h : ∀ a ∈ gs, a.adjointOK = true ∧ a.qubits.Nodup) {ψ φ : QState} (e : semGates gs ψ = semGates gs φ) : ψ = φ := by
  induction gs generalizing ψ φ with
  | nil => exact e
  | cons a gs ih =>
    rw [semGates_cons, semGates_cons] at e
    have h1 := ih (fun b hb => h b (by simp [hb])) e
    have h2 := h a (by simp)
    rw [← Gate.adjoint_inv h2.1 h2.2 ψ, h1, Gate.adjoint_inv h2.1 h2.2 φ]

/-- A state of `n` qubits is a combination of basis states. -/
theorem local_span {n : ℕ} {ψ : QState} (h : ψ.Local n) {W : Submodule ℂ QState} (hW : ∀ y, basisState n y ∈ W) : ψ ∈ W := by
  have e : ψ = ∑ T ∈ (Finset.range n).powerset, ψ (fun q => decide (q ∈ T)) • basisState n (fun q => decide (q ∈ T)) := by
    funext x
    rw [Finset.sum_apply, Finset.sum_eq_single ((Finset.range n).filter fun q => x q = true)]
    · have h1 : ∀ q < n, x q = decide (q ∈ (Finset.range n).filter fun q => x q = true) := by
        intro q hq
        simp [hq]
      rw [Pi.smul_apply, smul_eq_mul, basisState, if_pos h1, mul_one]
      exact h _ _ h1
    · intro T hT hne
      rw [Pi.smul_apply, smul_eq_mul, basisState, if_neg, mul_zero]
      intro hc
      refine hne ?_
      have hT := Finset.mem_powerset.mp hT
      ext q
      rw [Finset.mem_filter]
      constructor
      · intro hq
        have hqn := Finset.mem_range.mp (hT hq)
        refine ⟨hT hq, ?_⟩
        rw [hc q hqn]
        simp [hq]
      · rintro ⟨hq, hx⟩
        rw [hc q (Finset.mem_range.mp hq)] at hx
        simpa using hx
    · intro hc
      exact absurd (Finset.mem_powerset.mpr (Finset.filter_subset _ _)) hc
  rw [e]
  exact Submodule.sum_mem _ fun T _ => W.smul_mem _ (hW _)

namespace Graph

variable {g g' : Graph}

/-! ### Boundary values -/

theorem bval_out (hio : g.IO) {q o : ℕ} (h : g.outputs[q]? = some o) (x y : ℕ → Bool) : g.bval x y o = y q := by
  obtain ⟨hq, rfl⟩ := List.getElem?_eq_some_iff.mp h
  unfold bval
  rw [if_neg fun hc => hio.disj _ hc (List.getElem_mem hq), hio.nodupOut.idxOf_getElem]

theorem bval_update (hio : g.IO) {q o : ℕ} (h : g.outputs[q]? = some o) (x y : ℕ → Bool) (z : Bool) :
    g.bval x (Function.update y q z) = Function.update (g.bval x y) o z := by
  obtain ⟨hq, rfl⟩ := List.getElem?_eq_some_iff.mp h
  funext v
  by_cases hv : v = g.outputs[q]
  · subst hv
    rw [Function.update_self, bval_out hio h, Function.update_self]
  · rw [Function.update_of_ne hv]
    unfold bval
    by_cases hi : v ∈ g.inputs
    · rw [if_pos hi, if_pos hi]
    · rw [if_neg hi, if_neg hi, Function.update_of_ne]
      intro e
      by_cases ho : v ∈ g.outputs
      · have h1 := List.getElem_idxOf (List.idxOf_lt_length_of_mem ho)
        refine hv ?_
        rw [← h1]
        simp only [e]
      · rw [List.idxOf_eq_length ho] at e
        omega

theorem bval_congr (hin : g'.inputs = g.inputs) (hout : g'.outputs = g.outputs) (x y : ℕ → Bool) : g'.bval x y = g.bval x y := by
  unfold bval; rw [hin, hout]

theorem mat_local (hg : g.WF) (hio : g.IO) (x : ℕ → Bool) : QState.Local g.outputs.length (g.mat x) := by
  intro y y' h
  refine sem_congr hg fun v hv hb => ?_
  unfold bval
  by_cases hi : v ∈ g.inputs
  · rw [if_pos hi, if_pos hi]
  · rw [if_neg hi, if_neg hi]
    exact h _ (List.idxOf_lt_length_of_mem ((hio.all v hv hb).resolve_left hi))

/-! ### Extraction steps -/

/-- The map of `g` is, up to a number, that of `g'` followed by the gates of `c`, last one first. -/
structure GExt (g g' : Graph) (c : List Gate) : Prop where
  inputs : g'.inputs = g.inputs
  outputs : g'.outputs = g.outputs
  gates : ∀ a ∈ c, (a.adjointOK = true ∧ a.qubits.Nodup) ∧ ∀ q ∈ a.qubits, q < g.outputs.length
  sem : ∃ z : ℂ, z ≠ 0 ∧ ∀ x, g.mat x = fun y => z * semGates c.reverse (g'.mat x) y

theorem GExt.trans {g'' : Graph} {c c' : List Gate} (h : GExt g g' c) (h' : GExt g' g'' c') : GExt g g'' (c ++ c') := by
  obtain ⟨z, hz, e⟩ := h.sem
  obtain ⟨z', hz', e'⟩ := h'.sem
  refine ⟨h'.inputs.trans h.inputs, h'.outputs.trans h.outputs, fun a ha => ?_, z * z', mul_ne_zero hz hz', fun x => ?_⟩
  · rcases List.mem_append.mp ha with ha | ha
    · exact h.gates a ha
    · rw [← h.outputs]; exact h'.gates a ha
  · funext y
    rw [e x, e' x, List.reverse_append, semGates_append]
    simp only [semGates_smul]
    ring

theorem GExt.of_sem (hin : g'.inputs = g.inputs) (hout : g'.outputs = g.outputs) {z : ℂ} (hz : z ≠ 0) (h : ∀ b, g.sem b = z * g'.sem b) :
    GExt g g' [] := by
  refine ⟨hin, hout, by simp, z, hz, fun x => ?_⟩
  funext y
  show g.sem _ = z * g'.sem _
  rw [h, bval_congr hin hout]

theorem GExt.refl (g : Graph) : GExt g g [] := GExt.of_sem rfl rfl one_ne_zero fun b => by rw [one_mul]

theorem GExt.of_upTo (h : PreservesUpTo g g') : GExt g g' [] := by
  obtain ⟨z, hz, e⟩ := h.sem
  exact GExt.of_sem h.inputs h.outputs (inv_ne_zero hz) fun b => by rw [e b, ← mul_assoc, inv_mul_cancel₀ hz, one_mul]

theorem GExt.of_had (hio : g.IO) (hin : g'.inputs = g.inputs) (hout : g'.outputs = g.outputs) {q o : ℕ} (ho : g.outputs[q]? = some o)
    (h : ∀ b, g.sem b = ∑ z : Bool, hmat (b o) z * g'.sem (Function.update b o z)) : GExt g g' [.had q] := by
  obtain ⟨hq, -⟩ := List.getElem?_eq_some_iff.mp ho
  refine ⟨hin, hout, by simpa [Gate.adjointOK, Gate.qubits] using hq, 1, one_ne_zero, fun x => ?_⟩
  funext y
  rw [one_mul]
  show g.sem _ = on1 matH q (g'.mat x) y
  rw [h, on1]
  refine Finset.sum_congr rfl fun z _ => ?_
  rw [← bval_update hio ho, bval_out hio ho]
  congr 1
  · cases y q <;> cases z <;> simp [hmat, matH, mat2]
  · show _ = g'.sem _
    rw [bval_congr hin hout]

theorem GExt.of_phase (hio : g.IO) (hin : g'.inputs = g.inputs) (hout : g'.outputs = g.outputs) {q o : ℕ} (ho : g.outputs[q]? = some o) {p : ℚ}
    (h : ∀ b, g.sem b = (if b o then ph p else 1) * g'.sem b) : GExt g g' [Gate.mkZPhase q p] := by
  obtain ⟨hq, -⟩ := List.getElem?_eq_some_iff.mp ho
  refine ⟨hin, hout, by simpa [Gate.adjointOK, Gate.qubits, Gate.mkZPhase] using hq, 1, one_ne_zero, fun x => ?_⟩
  funext y
  rw [one_mul]
  show g.sem _ = on1 (matZ p) q (g'.mat x) y
  rw [h, on1Z_apply, bval_out hio ho]
  show _ = _ * g'.sem _
  rw [bval_congr hin hout]

/-! ### Surjective maps -/

/-- The columns of the matrix span the states of the outputs. -/
def Onto (g : Graph) : Prop := ∀ y, basisState g.outputs.length y ∈ Submodule.span ℂ (Set.range g.mat)

theorem Onto.ext {c : List Gate} (h : g.Onto) (e : GExt g g' c) : g'.Onto := by
  obtain ⟨z, hz, hs⟩ := e.sem
  have hok : ∀ a ∈ c.reverse, a.adjointOK = true ∧ a.qubits.Nodup := fun a ha => (e.gates a (List.mem_reverse.mp ha)).1
  have hq : ∀ a ∈ c.reverse, ∀ q ∈ a.qubits, q < g.outputs.length := fun a ha => (e.gates a (List.mem_reverse.mp ha)).2
  intro y
  rw [e.outputs]
  have h1 : semGates c.reverse (basisState g.outputs.length y) ∈ Submodule.span ℂ (Set.range g.mat) :=
    local_span (semGates_localQ _ hq (basisState_local _ y)) h
  have h2 : Submodule.span ℂ (Set.range g.mat) ≤ (Submodule.span ℂ (Set.range g'.mat)).map (gatesLin c.reverse) := by
    rw [Submodule.span_le]
    rintro ψ ⟨x, rfl⟩
    rw [hs x]
    refine ⟨z • g'.mat x, Submodule.smul_mem _ _ (Submodule.subset_span ⟨x, rfl⟩), ?_⟩
    funext y
    exact semGates_smul _ z (g'.mat x) y
  obtain ⟨φ, hφ, e2⟩ := h2 h1
  rw [← semGates_inj hok e2]
  exact hφ

theorem Onto.ne_zero (h : g.Onto) (y : ℕ → Bool) : ∃ x, g.mat x y ≠ 0 := by
  by_contra hc
  push Not at hc
  have h1 : ∀ ψ ∈ Submodule.span ℂ (Set.range g.mat), ψ y = 0 := by
    intro ψ hψ
    induction hψ using Submodule.span_induction with
    | mem ψ h => obtain ⟨x, rfl⟩ := h; exact hc x
    | zero => rfl
    | add a b _ _ ha hb => rw [Pi.add_apply, ha, hb, add_zero]
    | smul z a _ ha => rw [Pi.smul_apply, ha, smul_zero]
  have h2 := h1 _ (h y)
  rw [basisState, if_pos fun _ _ => rfl] at h2
  exact one_ne_zero h2

end Graph
end PyZX
