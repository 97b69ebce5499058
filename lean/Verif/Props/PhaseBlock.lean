import Verif.Proofs.PBPre
import Verif.Props.Optimize
import Verif.Spec.PhaseBlock

/-!
# C52: `phase_block_optimize` and `full_optimize`

For circuits of any size:
* with `pre_optimize=False`, if `phase_block_optimize` returns, then the result denotes the same map exactly, is on the same qubits, has gates of
  the same kinds, and does not have more T gates. It returns for all circuits of `HAD`, `CZ`, `CNOT` and phase gates that are multiples of `π/4`
  on 2 to 499 qubits. On one qubit it raises, unless the circuit is empty;
* with `pre_optimize=True`, the same with `NOT` gates in the input, and up to a global phase;
* `full_optimize` returns a circuit with the same map up to a global phase and not more T gates than the basic gates of the input. It returns for
  all circuits of 2 to 499 qubits that consist of these gates after `to_basic_gates`. On one qubit it raises, for instance for a single T gate.

The random choices are `shuffle`: any function that permutes the rows.
-/

namespace PyZX
namespace Props

open Optimize OptSpec PhaseBlock BlockSpec Mat2

variable {c c' : Circuit} {shuffle : ℕ → Data → Data}

theorem lgate_iff {n : ℕ} {g : Gate} : LGate n g ↔ Block n g := by
  constructor
  · rintro (⟨t, ht, rfl⟩ | h)
    · exact .had ht
    · cases g <;> simp only [ToddSpec.PhaseGate] at h
      · obtain ⟨h1, k, hk⟩ := h
        exact .phase h1 ⟨k, by linarith⟩
      · exact .cnot h.2.2 h.1 h.2.1
      · exact .cz h.2.2 h.1 h.2.1
  · rintro (h | ⟨h, k, hk⟩ | ⟨hct, hc, ht⟩ | ⟨hct, hc, ht⟩)
    · exact Or.inl ⟨_, h, rfl⟩
    · exact Or.inr ⟨h, k, by linarith⟩
    · exact Or.inr ⟨hc, ht, hct⟩
    · exact Or.inr ⟨hc, ht, hct⟩

theorem out_iff {n : ℕ} {g : Gate} (h : OutGate n g) : BlockOut n g := by
  rcases h with h | ⟨q, hq, rfl⟩ | ⟨a, b, hab, hb, rfl⟩
  · exact .block (lgate_iff.mp h)
  · exact .not hq
  · exact .swap hab hb

theorem run_false (c : Circuit) : phaseBlockOptimize shuffle c false = (blockGates shuffle c.qubits c.gates).map fun l => ⟨c.qubits, 0, l⟩ := by
  have e : withBlocks shuffle c.qubits (c.gates, []) = blockGates shuffle c.qubits c.gates := by
    have hi : invert (List.range c.qubits) = List.range c.qubits := by
      unfold invert
      rw [List.length_range]
      conv_rhs => rw [← List.map_id (List.range c.qubits)]
      refine List.map_congr_left fun i hi => ?_
      have hi := List.mem_range.mp hi
      have := List.Nodup.idxOf_getElem (List.nodup_range (n := c.qubits)) i (by simpa using hi)
      rwa [List.getElem_range] at this
    unfold withBlocks
    rw [List.foldl_nil, hi, swaps_id]
    cases blockGates shuffle c.qubits c.gates <;> simp
  rw [phaseBlockOptimize]
  simp only [Bool.false_eq_true, if_false, Option.bind_eq_bind, Option.bind_some, e]
  cases blockGates shuffle c.qubits c.gates <;> rfl

/-- **C52.** Without `pre_optimize`, the result denotes the same map. -/
theorem phaseBlock_exact (hs : ∀ k d, (shuffle k d).Perm d) (hd : ∀ g ∈ c.gates, g.qubits.Nodup) (h : phaseBlockOptimize shuffle c false = some c') :
    c'.qubits = c.qubits ∧ c'.bits = 0 ∧ (∀ g ∈ c'.gates, Block c.qubits g) ∧ semGates c'.gates = semGates c.gates ∧ c'.tcount ≤ c.tcount := by
  rw [run_false, Option.map_eq_some_iff] at h
  obtain ⟨l, h, rfl⟩ := h
  obtain ⟨-, h1, h2, h3⟩ := (blockGates_spec (n := c.qubits) hs hd).1 l h
  exact ⟨rfl, rfl, fun g hg => lgate_iff.mp (h1 g hg), funext h2, h3⟩

/-- C52: it returns on 2 to 499 qubits, for the circuits of these gates, and for no others. -/
theorem phaseBlock_returns_iff (hs : ∀ k d, (shuffle k d).Perm d) (hd : ∀ g ∈ c.gates, g.qubits.Nodup) (h2 : 2 ≤ c.qubits) (h500 : c.qubits < 500) :
    (phaseBlockOptimize shuffle c false).isSome ↔ ∀ g ∈ c.gates, Block c.qubits g := by
  obtain ⟨k1, k2, -⟩ := blockGates_spec (n := c.qubits) hs hd
  rw [run_false, Option.isSome_map]
  constructor
  · intro h
    obtain ⟨l, e⟩ := Option.isSome_iff_exists.mp h
    exact fun g hg => lgate_iff.mp ((k1 l e).1 g hg)
  · intro h
    exact k2 (fun g hg => lgate_iff.mpr (h g hg)) h2 h500

/-- C52: on one qubit it raises. -/
theorem phaseBlock_raises (hs : ∀ k d, (shuffle k d).Perm d) (hd : ∀ g ∈ c.gates, g.qubits.Nodup) (h1 : c.qubits = 1) (hne : c.gates ≠ []) :
    phaseBlockOptimize shuffle c false = none := by
  rw [run_false, (blockGates_spec (n := c.qubits) hs hd).2.2 h1 hne]
  rfl

theorem cliffordT_handled {n : ℕ} {g : Gate} (h : CliffordT n g) : Handled n g ∧ QIn g := by
  rcases h with h | ⟨h, hp⟩
  · rcases h with h | ⟨h, k, hk⟩ | ⟨hct, hc, ht⟩ | ⟨hct, hc, ht⟩
    · exact ⟨.had h, trivial⟩
    · exact ⟨.phase h, k, by linarith⟩
    · exact ⟨.cz hct hc ht, trivial⟩
    · exact ⟨.cnot hct hc ht, trivial⟩
  · exact ⟨.not h hp, trivial⟩

theorem handled_cliffordT {n : ℕ} {g : Gate} (h : Handled n g) (hq : QIn g) : CliffordT n g := by
  rcases h with h | h | ⟨h, hp⟩ | ⟨hct, hc, ht⟩ | ⟨hct, hc, ht⟩
  · exact .block (.had h)
  · obtain ⟨k, hk⟩ := hq
    exact .block (.phase h ⟨k, by linarith⟩)
  · exact .not h hp
  · exact .block (.cz hct hc ht)
  · exact .block (.cnot hct hc ht)

theorem run_true (hc : ∀ g ∈ c.gates, Handled c.qubits g) : ∃ r, SepOK c.qubits c.gates r ∧ parseCircuitSep c.qubits 1000 true c.gates = some r ∧
    phaseBlockOptimize shuffle c = (withBlocks shuffle c.qubits r).map fun l => ⟨c.qubits, 0, l⟩ := by
  obtain ⟨r, e, h⟩ := parseCircuitSep_spec (n := c.qubits) 1000 true fun g hg => accepted_iff.mpr (hc g hg)
  refine ⟨r, h, e, ?_⟩
  rw [phaseBlockOptimize]
  simp only [if_true, e, Option.bind_eq_bind, Option.bind_some]
  cases withBlocks shuffle c.qubits r <;> rfl

/-- **C52.** With `pre_optimize`, which is the default, the result denotes the same map up to a global phase. -/
theorem phaseBlock_sound (hs : ∀ k d, (shuffle k d).Perm d) (hc : ∀ g ∈ c.gates, Handled c.qubits g) (h : phaseBlockOptimize shuffle c = some c') :
    c'.qubits = c.qubits ∧ c'.bits = 0 ∧ (∀ g ∈ c'.gates, BlockOut c.qubits g) ∧ EqUpToPhase (semGates c.gates) (semGates c'.gates) ∧ c'.tcount ≤ c.tcount := by
  obtain ⟨r, hr, -, e⟩ := run_true (shuffle := shuffle) hc
  rw [e, Option.map_eq_some_iff] at h
  obtain ⟨l, h, rfl⟩ := h
  obtain ⟨h1, h2, h3⟩ := (withBlocks_spec hs hr).1 l h
  exact ⟨rfl, rfl, fun g hg => out_iff (h1 g hg), h2, h3⟩

/-- C52: it returns for Clifford+T circuits on 2 to 499 qubits. -/
theorem phaseBlock_returns (hs : ∀ k d, (shuffle k d).Perm d) (hc : ∀ g ∈ c.gates, CliffordT c.qubits g) (h2 : 2 ≤ c.qubits) (h500 : c.qubits < 500) :
    (phaseBlockOptimize shuffle c).isSome := by
  obtain ⟨r, hr, -, e⟩ := run_true (shuffle := shuffle) fun g hg => (cliffordT_handled (hc g hg)).1
  rw [e, Option.isSome_map]
  exact (withBlocks_spec hs hr).2.1 (fun g hg => (cliffordT_handled (hc g hg)).2) h2 h500

/-! ### `full_optimize` -/

theorem blockOut_basic {n : ℕ} {g : Gate} (h : BlockOut n g) : (∀ g' ∈ g.toBasic, Handled n g') ∧ g.Valid ∧ (g.toBasic.map Gate.tcount).sum = g.tcount := by
  rcases h with h | h | ⟨hab, hb⟩
  · rcases h with h | ⟨h, hp⟩ | ⟨hct, hc, ht⟩ | ⟨hct, hc, ht⟩
    · refine ⟨fun g' hg' => ?_, ⟨by simp [Gate.qubits], by simp [Gate.qubits]⟩, by simp [Gate.toBasic]⟩
      replace hg' := List.mem_singleton.mp hg'
      subst hg'; exact .had h
    · refine ⟨fun g' hg' => ?_, ⟨by simp [Gate.qubits], by simp [Gate.qubits]⟩, by simp [Gate.toBasic]⟩
      replace hg' := List.mem_singleton.mp hg'
      subst hg'; exact .phase h
    · refine ⟨fun g' hg' => ?_, ⟨by simp [Gate.qubits], by simpa [Gate.qubits] using hct⟩, by simp [Gate.toBasic]⟩
      replace hg' := List.mem_singleton.mp hg'
      subst hg'; exact .cz hct hc ht
    · refine ⟨fun g' hg' => ?_, ⟨by simp [Gate.qubits], by simpa [Gate.qubits] using hct⟩, by simp [Gate.toBasic]⟩
      replace hg' := List.mem_singleton.mp hg'
      subst hg'; exact .cnot hct hc ht
  · refine ⟨fun g' hg' => ?_, ⟨by simp [Gate.qubits, Gate.mkNOT], by simp [Gate.qubits, Gate.mkNOT]⟩, by simp [Gate.toBasic, Gate.mkNOT]⟩
    rw [show (Gate.mkNOT _).toBasic = [.mkNOT _] from rfl, List.mem_singleton] at hg'
    subst hg'; exact .not h (by norm_num [mod2])
  · refine ⟨fun g' hg' => ?_, ⟨by simp [Gate.qubits], by simp [Gate.qubits]; omega⟩, by simp [Gate.toBasic, Gate.tcount]⟩
    simp only [Gate.toBasic, List.mem_cons, List.not_mem_nil, or_false] at hg'
    rcases hg' with rfl | rfl | rfl
    · exact .cnot (by omega) (by omega) (by omega)
    · exact .cnot (by omega) (by omega) (by omega)
    · exact .cnot (by omega) (by omega) (by omega)

theorem basic_eqv : ∀ {l : List Gate}, (∀ g ∈ l, g.Valid) → EqUpToPhase (semGates l) (semGates (l.flatMap Gate.toBasic))
  | [], _ => Eqv.refl _
  | g :: l, h => by
    have h1 : Eqv [g] g.toBasic := eqUp_symm (Props.toBasic_sound (h g (by simp)))
    exact h1.append (basic_eqv fun g hg => h g (by simp [hg]))

/-- What happens after `phase_block_optimize`. -/
theorem full_last {c2 : Circuit} (h : ∀ g ∈ c2.gates, BlockOut c2.qubits g) :
    ∃ c', basicOptimization c2.toBasicGates = some c' ∧ c'.qubits = c2.qubits ∧ c'.bits = 0 ∧ (∀ g ∈ c'.gates, Handled c'.qubits g) ∧
      EqUpToPhase (semGates c2.gates) (semGates c'.gates) ∧ c'.tcount ≤ c2.tcount := by
  have hb : ∀ g ∈ c2.toBasicGates.gates, Handled c2.toBasicGates.qubits g := by
    intro g hg
    obtain ⟨g', h1, h2⟩ := List.mem_flatMap.mp hg
    exact (blockOut_basic (h g' h1)).1 g h2
  have ht : c2.toBasicGates.tcount = c2.tcount := by
    have : ∀ {l : List Gate}, (∀ g ∈ l, BlockOut c2.qubits g) → ((l.flatMap Gate.toBasic).map Gate.tcount).sum = (l.map Gate.tcount).sum := by
      intro l
      induction l with
      | nil => intro _; rfl
      | cons g l ih =>
        intro hl
        rw [List.flatMap_cons, List.map_append, List.sum_append, List.map_cons, List.sum_cons, ih fun g hg => hl g (by simp [hg]), (blockOut_basic (hl g (by simp))).2.2]
    exact this h
  obtain ⟨c', e, k1, k2, k3, k4⟩ := optimize_sound true hb
  refine ⟨c', e, k1, k2, k3, Eqv.trans (basic_eqv fun g hg => (blockOut_basic (h g hg)).2.1) k4, ?_⟩
  rw [← ht]
  exact optimize_tcount hb e

/-- **C52.** `full_optimize` returns a circuit with the same map up to a global phase, and with at most as many T gates as the basic gates of the
input. -/
theorem fullOptimize_sound (hs : ∀ k d, (shuffle k d).Perm d) (hv : ∀ g ∈ c.gates, g.Valid) (hc : ∀ g ∈ c.toBasicGates.gates, Handled c.qubits g)
    (h : fullOptimize shuffle c = some c') : c'.qubits = c.qubits ∧ c'.bits = 0 ∧ (∀ g ∈ c'.gates, Handled c.qubits g) ∧
      EqUpToPhase (semGates c.gates) (semGates c'.gates) ∧ c'.tcount ≤ c.toBasicGates.tcount := by
  obtain ⟨c1, e1, k1, k2, k3, k4⟩ := optimize_sound (c := c.toBasicGates) true hc
  have q1 : c1.qubits = c.qubits := k1
  simp only [fullOptimize, e1, Option.bind_eq_bind, Option.bind_some, Option.bind_eq_some_iff] at h
  obtain ⟨c2, e2, h⟩ := h
  obtain ⟨m1, m2, m3, m4, m5⟩ := phaseBlock_sound hs k3 e2
  obtain ⟨d, e3, n1, n2, n3, n4, n5⟩ := full_last (c2 := c2) (by rw [m1]; exact m3)
  cases e3.symm.trans h
  have q3 : c'.qubits = c.qubits := by rw [n1, m1, q1]
  refine ⟨q3, n2, fun g hg => by rw [← q3]; exact n3 g hg, ?_, n5.trans (m5.trans (optimize_tcount hc e1))⟩
  exact Eqv.trans (basic_eqv hv) (Eqv.trans k4 (Eqv.trans m4 n4))

/-- C52: `full_optimize` returns for Clifford+T circuits on 2 to 499 qubits. -/
theorem fullOptimize_returns (hs : ∀ k d, (shuffle k d).Perm d) (hc : ∀ g ∈ c.toBasicGates.gates, CliffordT c.qubits g) (h2 : 2 ≤ c.qubits) (h500 : c.qubits < 500) :
    (fullOptimize shuffle c).isSome := by
  obtain ⟨c1, e1, k1, k2, k3, k4⟩ := optimize_sound (c := c.toBasicGates) true fun g hg => (cliffordT_handled (hc g hg)).1
  have q1 : c1.qubits = c.qubits := k1
  have hq : ∀ g ∈ c1.gates, QIn g := by
    have e := e1
    rw [basicOptimization, Option.map_eq_some_iff] at e
    obtain ⟨l, e, rfl⟩ := e
    exact parseCircuit_q (fun g hg => (cliffordT_handled (hc g hg)).2) e
  obtain ⟨c2, e2⟩ := Option.isSome_iff_exists.mp (phaseBlock_returns hs (c := c1) (fun g hg => handled_cliffordT (k3 g hg) (hq g hg)) (by omega) (by omega))
  obtain ⟨m1, m2, m3, m4, m5⟩ := phaseBlock_sound hs k3 e2
  obtain ⟨d, e3, -⟩ := full_last (c2 := c2) (by rw [m1]; exact m3)
  simp only [fullOptimize, e1, e2, e3, Option.bind_eq_bind, Option.bind_some]
  rfl

/-- C52: `full_optimize` and `phase_block_optimize` raise for a single T gate on one qubit, although it is a Clifford+T circuit. -/
theorem fullOptimize_one_raises (hs : ∀ k d, (shuffle k d).Perm d) : fullOptimize shuffle ⟨1, 0, [.mkT 0]⟩ = none ∧ phaseBlockOptimize shuffle ⟨1, 0, [.mkT 0]⟩ = none := by
  have hc : ∀ g ∈ (⟨1, 0, [.zrot .zphase 0 (1 / 4) false]⟩ : Circuit).gates, Handled 1 g := by
    intro g hg
    rw [List.mem_singleton.mp hg]
    exact .phase (by omega)
  have hc' : ∀ g ∈ (⟨1, 0, [.mkT 0]⟩ : Circuit).gates, Handled 1 g := by
    intro g hg
    rw [List.mem_singleton.mp hg]
    exact .phase (by omega)
  have e1 : basicOptimization (Circuit.toBasicGates ⟨1, 0, [.mkT 0]⟩) = some ⟨1, 0, [.zrot .zphase 0 (1 / 4) false]⟩ := by decide +kernel
  have p1 : phaseBlockOptimize shuffle ⟨1, 0, [.zrot .zphase 0 (1 / 4) false]⟩ = none := by
    obtain ⟨r, hr, e, e2⟩ := run_true (shuffle := shuffle) hc
    rw [e2, (withBlocks_spec hs hr).2.2 rfl, Option.map_none]
    intro hn
    have : (parseCircuitSep 1 1000 true [.zrot .zphase 0 (1 / 4) false]).map Prod.fst = some [.zrot .zphase 0 (1 / 4) false] := by decide +kernel
    rw [show parseCircuitSep 1 1000 true [.zrot .zphase 0 (1 / 4) false] = some r from e, Option.map_some, hn] at this
    cases this
  have p2 : phaseBlockOptimize shuffle ⟨1, 0, [.mkT 0]⟩ = none := by
    obtain ⟨r, hr, e, e2⟩ := run_true (shuffle := shuffle) hc'
    rw [e2, (withBlocks_spec hs hr).2.2 rfl, Option.map_none]
    intro hn
    have : (parseCircuitSep 1 1000 true [.mkT 0]).map Prod.fst = some [.zrot .zphase 0 (1 / 4) false] := by decide +kernel
    rw [show parseCircuitSep 1 1000 true [.mkT 0] = some r from e, Option.map_some, hn] at this
    cases this
  refine ⟨?_, p2⟩
  simp only [fullOptimize, e1, p1, Option.bind_eq_bind, Option.bind_some]
  rfl

/-! ### The hypotheses are met, and the optimiser does something -/

/-- Seven T gates, Hadamard gates and CNOTs. -/
def exPB : Circuit := ⟨3, 0, [.mkT 0, .cnot 0 1, .mkT 1, .had 2, .cnot 1 2, .mkT 2, .cz 0 1, .had 1, .mkT 1, .cnot 1 2, .mkT 2, .had 2, .mkT 0, .cnot 0 1, .mkT 1]⟩

theorem exPB_block : ∀ g ∈ exPB.gates, Block exPB.qubits g := by
  have t : ∀ {q : ℕ}, q < 3 → Block 3 (.mkT q) := fun h => .phase h ⟨1, by norm_num⟩
  have cx : ∀ {a b : ℕ}, a ≠ b → a < 3 → b < 3 → Block 3 (.cnot a b) := fun h1 h2 h3 => .cnot h1 h2 h3
  have hd : ∀ {q : ℕ}, q < 3 → Block 3 (.had q) := fun h => .had h
  simp only [exPB, List.mem_cons, List.not_mem_nil, or_false, forall_eq_or_imp, forall_eq]
  refine ⟨t (by decide), cx (by decide) (by decide) (by decide), t (by decide), hd (by decide), cx (by decide) (by decide) (by decide), t (by decide),
    .cz (by decide) (by decide) (by decide), hd (by decide), t (by decide), cx (by decide) (by decide) (by decide), t (by decide), hd (by decide), t (by decide),
    cx (by decide) (by decide) (by decide), t (by decide)⟩

/-- The T-count falls from 7. -/
example : ∃ c', phaseBlockOptimize (fun _ d => d) exPB false = some c' ∧ c'.tcount = 5 ∧ semGates c'.gates = semGates exPB.gates := by
  obtain ⟨c', e⟩ := Option.isSome_iff_exists.mp ((phaseBlock_returns_iff (shuffle := fun _ d => d) (fun _ d => List.Perm.refl d) (by decide) (by decide) (by decide)).mpr exPB_block)
  have h := phaseBlock_exact (fun _ d => List.Perm.refl d) (by decide) e
  refine ⟨c', e, ?_, h.2.2.2.1⟩
  have : (phaseBlockOptimize (fun _ d => d) exPB false).map Circuit.tcount = some 5 := by decide +kernel
  rw [e] at this
  simpa using this

example : ∃ c', fullOptimize (fun _ d => d) ⟨3, 0, [.ccz 0 1 2, .tof 0 1 2]⟩ = some c' ∧ c'.tcount ≤ 14 := by
  have hc : ∀ g ∈ (Circuit.toBasicGates ⟨3, 0, [.ccz 0 1 2, .tof 0 1 2]⟩).gates, CliffordT 3 g := by
    have : ∀ g ∈ (Circuit.toBasicGates ⟨3, 0, [.ccz 0 1 2, .tof 0 1 2]⟩).gates, allowed 3 g = true ∧ g.qubits.Nodup := by decide +kernel
    exact fun g hg => .block (lgate_iff.mp (allowed_lgate (this g hg).1 (this g hg).2))
  obtain ⟨c', e⟩ := Option.isSome_iff_exists.mp (fullOptimize_returns (shuffle := fun _ d => d) (fun _ d => List.Perm.refl d) hc (by decide) (by decide))
  have h := fullOptimize_sound (fun _ d => List.Perm.refl d) (by simp [Gate.Valid, Gate.qubits]) (fun g hg => (cliffordT_handled (hc g hg)).1) e
  exact ⟨c', e, h.2.2.2.2.trans (by decide +kernel)⟩

end Props
end PyZX
