import Verif.Proofs.TermCount
import Verif.Proofs.ExtCount
import Verif.Props.Clifford
import Verif.Props.Counts

/-!
# C59: the T-count does not increase
-/

namespace PyZX
namespace Props

open Graph ToGraph Simplify Verify Extract

/-- A phase that is not a multiple of π/2. -/
def NonClifford (p : ℚ) : Prop := ¬ ∃ k : ℤ, p = k / 2

theorem nonClifford_den {p : ℚ} : NonClifford p ↔ 2 < p.den := by
  have h1 : ∀ a : ℤ, (a : ℚ) / 2 = Rat.divInt a 2 := fun a => by rw [Rat.divInt_eq_div]; norm_num
  constructor
  · intro h
    by_contra hd
    apply h
    have hd : p.den = 1 ∨ p.den = 2 := by have := p.den_pos; omega
    have e := Rat.num_div_den p
    rcases hd with hd | hd
    · exact ⟨2 * p.num, by rw [hd] at e; push_cast at e ⊢; linarith⟩
    · exact ⟨p.num, by rw [hd] at e; push_cast at e ⊢; linarith⟩
  · rintro h ⟨k, rfl⟩
    rw [h1] at h
    have h2 : ((Rat.divInt k 2).den : ℤ) ∣ ((2 : ℕ) : ℤ) := Rat.den_dvd k 2
    exact absurd (Nat.le_of_dvd (by norm_num) (Int.natCast_dvd_natCast.mp h2)) (not_le.mpr h)

/-- **C59.** `tcount` of a diagram is the number of its vertices whose phase is not a multiple of π/2. -/
theorem tcount_spec (g : Graph) : Simplify.tcount g = ((g.verts : Set ℕ) ∩ {v | NonClifford (g.phase v)}).ncard := by
  have : ((g.verts : Set ℕ) ∩ {v | NonClifford (g.phase v)}) = (g.verts.filter fun v => g.phase v ≠ 0 ∧ 2 < (g.phase v).den : Finset ℕ) := by
    ext v
    simp only [Set.mem_inter_iff, Finset.mem_coe, Set.mem_ofPred_eq, Finset.mem_filter, nonClifford_den]
    refine and_congr_right fun _ => ⟨fun h => ⟨fun e => ?_, h⟩, fun h => h.2⟩
    rw [e] at h
    simp at h
  rw [this, Set.ncard_coe_finset]
  rfl

variable {P : ℚ → Prop} {ω ω' : ℕ → Orders} {choose : ℕ → Mat2.Data → Option (List (ℕ × ℕ))} {g g' : Graph} {n fuel fuel' t t' i : ℕ} {opt perm : Bool}

/-- **C59.** `interior_clifford_simp` does not increase the number of spiders with a phase that is not a multiple of π/2. -/
theorem interiorCliffordSimp_tcount (hP : PhaseSet P) (hω : ∀ t, (ω t).OK) (hg : g.ZX P) (hb : g.PlainBnd) (hf : g.verts.card < fuel)
    (h : interiorCliffordSimp ω fuel t g = .done g' t' i) : Simplify.tcount g' ≤ Simplify.tcount g := interior_tcount hP hω hg hb hf h

/-- **C59.** `clifford_simp` does not increase it. -/
theorem cliffordSimp_tcount (hP : PhaseSet P) (hω : ∀ t, (ω t).OK) (hfu : ∀ t, (ω t).Full) (hg : g.ZX P) (hb : g.PlainBnd)
    (hf : 32 * g.verts.card < fuel) (hn : 16 * g.verts.card + 1 < n) (h : cliffordSimp ω fuel n t g = .done g' t' i) :
    Simplify.tcount g' ≤ Simplify.tcount g := clifford_tcount hP hω hfu hg hb hf hn h

/-- **C59.** `full_reduce` does not increase it. -/
theorem fullReduce_tcount (hP : PhaseSet P) (hω : ∀ t, (ω t).OK) (hfu : ∀ t, (ω t).Full) (hg : g.ZX P) (hb : g.PlainBnd)
    (hf : 32 * g.verts.card + 1 < fuel) (h : fullReduce ω fuel t g = .done g' t' i) : Simplify.tcount g' ≤ Simplify.tcount g := by
  obtain ⟨g1, t1, h1, -, h2⟩ := full_tcount (t := t) hP hω hfu hg hb hf
  rw [h1, Run.done.injEq] at h
  rwa [← h.1]

/-- Example: the hypotheses hold for the diagram `exSimp`, which is not in normal form. -/
example : ∃ g' t', fullReduce (fun _ => uptoOrders) 1000 0 exSimp = .done g' t' 0 ∧ Simplify.tcount g' ≤ Simplify.tcount exSimp := by
  obtain ⟨g', t', h1, -, h2⟩ := full_tcount (fuel := 1000) (t := 0) phaseSet_quarter (fun _ => uptoOrders_ok) (fun _ => uptoOrders_full) exSimp_zx exSimp_bnd
    (by decide)
  exact ⟨g', t', h1, h2⟩

/-- **C59.** The circuit that `extract_circuit` returns has no more gates with a phase that is not a multiple of π/2 than the diagram has such spiders. -/
theorem extract_tcount (hω : ∀ t, (ω t).OK) (hch : ChooseOK choose) (h : g.Extractable n) {c : Circuit}
    (e : extractCircuit ω choose opt perm fuel g = .ok c) : c.tcount ≤ Simplify.tcount g := extract_count hω hch h e

theorem toBasic_ph {a : Gate} (h : ∀ x y p, a ≠ .fsim x y p) (hv : a.Valid) : ∀ b ∈ a.toBasic, PhBasic (fun _ => True) b := by
  have hpar : ∀ (p : ℚ) (ts : List ℕ), ∀ b ∈ Gate.parityBasic p ts, PhBasic (fun _ => True) b := by
    intro p ts b hb
    simp only [Gate.parityBasic, List.mem_append, List.mem_reverse, List.mem_map, List.mem_singleton] at hb
    rcases hb with (⟨i, -, rfl⟩ | rfl) | ⟨i, -, rfl⟩ <;> trivial
  intro b hb
  have := (toBasic_basic hv b hb).1
  cases b <;> first | trivial | exact absurd this id | skip
  exfalso
  cases a <;> first
    | exact h _ _ _ rfl
    | exact absurd (hpar _ _ _ hb) id
    | (simp [Gate.toBasic, Gate.yBasic, Gate.u2Basic, Gate.u3Basic, Gate.mkZPhase, Gate.mkXPhase, Gate.mkS, Gate.mkT, Gate.mkNOT, Gate.cphaseBasic,
        Gate.cczBasic, Gate.tofBasic, Gate.cu3Basic] at hb)

/-- **C59.** The diagram of a circuit has no more spiders with a phase that is not a multiple of π/2 than the circuit, in basic gates, has such gates. -/
theorem toGraph_tcount {ord : Finset ℕ → List ℕ} {c : Circuit} (hc : ∀ a ∈ c.gates, a.Valid ∧ ∀ x y p, a ≠ .fsim x y p)
    (hg : toGraph ord false c = some g) : Simplify.tcount g ≤ c.toBasicGates.tcount := by
  refine toGraph_count (fun a ha => ?_) hg
  obtain ⟨a0, ha0, haa⟩ := List.mem_flatMap.mp ha
  exact toBasic_ph (hc a0 ha0).2 (hc a0 ha0).1 a haa

/-- **C59.** Optimising a circuit through `full_reduce` and `extract_circuit` does not increase the T-count. Partial, as `optimise_sound_partial`:
the shape of the phase gadgets of the reduced diagram is a hypothesis, and so is that the extraction ends. -/
theorem optimise_tcount_partial {c d : Circuit} (hω : ∀ t, (ω t).OK) (hfu : ∀ t, (ω t).Full) (hω' : ∀ t, (ω' t).OK) (hch : ChooseOK choose) (hb : c.bits = 0)
    (hc : ∀ a ∈ c.gates, a.Valid ∧ ∀ q ∈ a.qubits, q < c.qubits) (hfs : ∀ a ∈ c.gates, ∀ x y p, a ≠ .fsim x y p)
    (hg : toGraph ascending false c = some g) (hf : 32 * g.verts.card + 1 < fuel)
    (hr : fullReduce ω fuel t g = .done g' t' i) (hgad : g'.Gadgets)
    (he : extractCircuit ω' choose opt perm fuel' g' = .ok d) : d.tcount ≤ c.toBasicGates.tcount := by
  obtain ⟨g0, h0, -, z, hz, hm⟩ := toGraph_sound false hb (fun a ha => (hc a ha).1) fun a ha => (hc a ha).2
  rw [hg, Option.some.injEq] at h0
  subst h0
  obtain ⟨k1, k2, k3, k4, k5⟩ := toGraph_zx ascending_ok hb (fun a ha => (hc a ha).1) (fun a ha => (hc a ha).2) hg
  obtain ⟨hE, -⟩ := reduce_extractable (fun a ha => ⟨(hc a ha).1.2, (hc a ha).2⟩) hω hfu k1 k2 k3 (by rw [k4, List.length_range]) k5
    (fun h => by rw [h] at hz; simp at hz) hm hr hgad
  exact (extract_tcount hω' hch hE he).trans ((fullReduce_tcount phaseSet_reduced hω hfu k1 k2 hf hr).trans
    (toGraph_tcount (fun a ha => ⟨(hc a ha).1, hfs a ha⟩) hg))

/-- **C59.** The same with the T-count of the circuit itself, for gates of which `tcount` counts the T gates. Partial as above. -/
theorem optimise_tcount_self_partial {c d : Circuit} (hω : ∀ t, (ω t).OK) (hfu : ∀ t, (ω t).Full) (hω' : ∀ t, (ω' t).OK) (hch : ChooseOK choose) (hb : c.bits = 0)
    (hc : ∀ a ∈ c.gates, a.Valid ∧ TCounted a ∧ ∀ q ∈ a.qubits, q < c.qubits) (hfs : ∀ a ∈ c.gates, ∀ x y p, a ≠ .fsim x y p)
    (hg : toGraph ascending false c = some g) (hf : 32 * g.verts.card + 1 < fuel)
    (hr : fullReduce ω fuel t g = .done g' t' i) (hgad : g'.Gadgets)
    (he : extractCircuit ω' choose opt perm fuel' g' = .ok d) : d.tcount ≤ c.tcount :=
  (optimise_tcount_partial hω hfu hω' hch hb (fun a ha => ⟨(hc a ha).1, (hc a ha).2.2⟩) hfs hg hf hr hgad he).trans
    (tcount_toBasicGates fun a ha => (hc a ha).2.1).le

/-- The three stages of the optimisation of `exC`, with enough fuel. -/
noncomputable def exStages' : Option (Graph × Graph × Circuit) :=
  (toGraph upto false exC).bind fun g => match fullReduce (fun _ => uptoOrders) 1000 0 g with
    | .done g' _ _ => (outc (extractCircuit (fun _ => uptoOrders) (fun _ _ => none) false false 30 g')).map fun d => (g, g', d)
    | _ => none

theorem exStages'_eval : (exStages'.map fun p => (decide (32 * p.1.verts.card + 1 < 1000), gadgetsTest p.2.1, p.2.2.tcount)) =
    some (true, true, 1) := by decide +kernel

/-- Example: the circuit `exC` meets the hypotheses of `optimise_tcount_self_partial`; both circuits have one T gate. -/
example : ∃ g g' t' i d, (∀ a ∈ exC.gates, a.Valid ∧ TCounted a ∧ ∀ q ∈ a.qubits, q < exC.qubits) ∧ (∀ a ∈ exC.gates, ∀ x y p, a ≠ .fsim x y p) ∧
    toGraph ascending false exC = some g ∧ 32 * g.verts.card + 1 < 1000 ∧ fullReduce (fun _ => uptoOrders) 1000 0 g = .done g' t' i ∧ g'.Gadgets ∧
    extractCircuit (fun _ => uptoOrders) (fun _ _ => none) false false 30 g' = .ok d ∧ d.tcount = 1 ∧ exC.tcount = 1 := by
  have hv : ∀ a ∈ exC.gates, a.Valid ∧ TCounted a ∧ ∀ q ∈ a.qubits, q < exC.qubits := by simp [exC, Gate.Valid, Gate.qubits, Gate.mkZPhase, TCounted]
  have hfs : ∀ a ∈ exC.gates, ∀ x y p, a ≠ .fsim x y p := by simp [exC, Gate.mkZPhase]
  have e := exStages'_eval
  unfold exStages' at e
  rw [upto_ascending] at e
  cases hg : toGraph ascending false exC with
  | none => rw [hg] at e; simp at e
  | some g =>
    rw [hg, Option.bind_some] at e
    obtain ⟨k1, k2, -⟩ := toGraph_zx ascending_ok rfl (fun a ha => (hv a ha).1) (fun a ha => (hv a ha).2.2) hg
    rcases fullReduce_any phaseSet_reduced (fun _ => uptoOrders_ok) (fun _ => uptoOrders_full) 1000 0 k1 k2 with h | ⟨g1, t1, h1, h2, -⟩
    · rw [h] at e; simp at e
    · rw [h1] at e
      simp only [Option.map_map] at e
      cases hx : extractCircuit (fun _ => uptoOrders) (fun _ _ => none) false false 30 g1 with
      | ok d =>
        rw [hx] at e
        simp only [outc, Option.map_some, Function.comp, Option.some.injEq, Prod.mk.injEq] at e
        exact ⟨g, g1, _, _, d, hv, hfs, rfl, of_decide_eq_true e.1, h1, gadgets_of_test h2.wf e.2.1, hx, e.2.2, by decide +kernel⟩
      | raised => rw [hx] at e; simp [outc] at e
      | running => rw [hx] at e; simp [outc] at e

/-- `tcount` counts nothing for FSim, but its diagram has spiders with phases that are not multiples of π/2. -/
theorem toGraph_tcount_fsim_wrong : (Circuit.toBasicGates ⟨2, 0, [.fsim 0 1 (1 / 2)]⟩).tcount = 0 ∧
    ((toGraph upto false ⟨2, 0, [.fsim 0 1 (1 / 2)]⟩).map Simplify.tcount).isSome ∧
    0 < Simplify.tcount ((toGraph upto false ⟨2, 0, [.fsim 0 1 (1 / 2)]⟩).getD Graph.empty) := by decide +kernel

/-- Example: a circuit with a T gate and its adjoint has T-count 2; both are counted in the diagram of the circuit. -/
example : Simplify.tcount ((toGraph upto false ⟨1, 0, [Gate.mkT 0, Gate.mkT 0 true]⟩).getD Graph.empty) = 2 := by decide +kernel

theorem phBasic_tcount {b : Gate} (h : PhBasic Clifford b) : b.tcount = 0 := by
  have key : ∀ p : ℚ, Clifford (mod2 p) → ¬ p.den > 2 := by
    intro p hp hd
    refine nonClifford_den.mpr hd ?_
    obtain ⟨k, hk⟩ := isInt_iff.mp hp.2
    unfold mod2 at hk
    exact ⟨k + 4 * ⌊p / 2⌋, by push_cast; linarith⟩
  cases b <;> first | rfl | exact absurd h id | exact if_neg (key _ h)

/-- **C59.** The optimised form of a circuit of Clifford gates has no gates with a phase that is not a multiple of π/2. -/
theorem clifford_stays {c d : Circuit} (hω : ∀ t, (ω t).OK) (hfu : ∀ t, (ω t).Full) (hω' : ∀ t, (ω' t).OK) (hch : ChooseOK choose) (hb : c.bits = 0)
    (hc : ∀ a ∈ c.gates, a.Valid ∧ a.IsClifford ∧ ∀ q ∈ a.qubits, q < c.qubits) (hg : toGraph ascending false c = some g)
    (hf : 32 * g.verts.card + 1 < fuel) (hr : fullReduce ω fuel t g = .done g' t' i)
    (he : extractCircuit ω' choose opt perm fuel' g' = .ok d) : d.tcount = 0 := by
  have hgad : g'.Gadgets := clifford_reduced_gadgets hω hfu hb hc hg hf hr
  have h0 : c.toBasicGates.tcount = 0 := by
    unfold Circuit.tcount Circuit.toBasicGates
    rw [List.sum_eq_zero_iff]
    intro x hx
    obtain ⟨b, hb, rfl⟩ := List.mem_map.mp hx
    obtain ⟨a, ha, hab⟩ := List.mem_flatMap.mp hb
    exact phBasic_tcount (toBasic_clifford (hc a ha).2.1 b hab)
  refine Nat.le_zero.mp (h0 ▸ optimise_tcount_partial hω hfu hω' hch hb (fun a ha => ⟨(hc a ha).1, (hc a ha).2.2⟩) (fun a ha x y p e => ?_) hg hf hr hgad he)
  have := (hc a ha).2.1
  rw [e] at this
  exact this

end Props
end PyZX
