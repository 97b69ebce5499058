import Verif.Proofs.OptRounds
import Verif.Spec.Optimize

/-!
# C49: `basic_optimization`

For a circuit of `HAD`, phase, `NOT`, `CZ` and `CNOT` gates, of any size:
* `basic_optimization` returns a circuit on the same qubits that denotes the same map up to a global phase, made of the same kinds of gates;
* it does not have more non-Clifford phases;
* without `do_swaps` it has two-qubit gates only between qubits that a two-qubit gate of the input connects, and not more of them.

Every other circuit raises. With `do_swaps` the number of two-qubit gates can grow: `optimize_swaps_grow`.
-/

namespace PyZX
namespace Props

open Optimize OptSpec

variable {c c' : Circuit} {ds : Bool}

theorem accepted_iff {n : ℕ} {g : Gate} : Accepted n g ↔ Handled n g := by
  constructor
  · intro h
    cases g with
    | had t => exact .had h
    | zrot cls t p adj => exact .phase h
    | xrot cls t p adj =>
      obtain ⟨rfl, hp, ht⟩ := h
      exact .not ht hp
    | cz c t => exact .cz h.1 h.2.1 h.2.2
    | cnot c t => exact .cnot h.1 h.2.1 h.2.2
    | _ => exact h.elim
  · rintro (h | h | ⟨h, hp⟩ | ⟨hct, hc, ht⟩ | ⟨hct, hc, ht⟩)
    · exact h
    · exact h
    · exact ⟨rfl, hp, h⟩
    · exact ⟨hct, hc, ht⟩
    · exact ⟨hct, hc, ht⟩

/-- The run, for any set of pairs of qubits and any weight of the two-qubit gates. -/
theorem optimize_run (k : ℕ) (E : ℕ → ℕ → Prop) (sym : ∀ a b, E a b → E b a) (h1 : ds = true → ∀ a b, E a b) (hk : ds = true → k = 0)
    (hc : ∀ g ∈ c.gates, Handled c.qubits g) (hl : ds = false → ∀ g ∈ c.gates, Links E g) :
    ∃ c', basicOptimization c ds = some c' ∧ c'.qubits = c.qubits ∧ c'.bits = 0 ∧ OptOK k c.qubits E c.gates c'.gates := by
  obtain ⟨r, e, h⟩ := parseCircuit_spec (k := k) 1000 ds sym h1 hk (fun g hg => accepted_iff.mpr (hc g hg)) hl
  exact ⟨⟨c.qubits, 0, r⟩, by rw [basicOptimization, e]; rfl, rfl, rfl, h⟩

theorem optimize_run' (hc : ∀ g ∈ c.gates, Handled c.qubits g) :
    ∃ c', basicOptimization c ds = some c' ∧ c'.qubits = c.qubits ∧ c'.bits = 0 ∧ OptOK 0 c.qubits (fun _ _ => True) c.gates c'.gates :=
  optimize_run 0 _ (fun _ _ _ => trivial) (fun _ _ _ => trivial) (fun _ => rfl) hc fun _ g _ => by cases g <;> trivial

/-- **C49.** The optimised circuit denotes the same map up to a global phase, on the same qubits, and is made of gates of the same kinds. -/
theorem optimize_sound (ds : Bool) (hc : ∀ g ∈ c.gates, Handled c.qubits g) :
    ∃ c', basicOptimization c ds = some c' ∧ c'.qubits = c.qubits ∧ c'.bits = 0 ∧ (∀ g ∈ c'.gates, Handled c'.qubits g) ∧
      EqUpToPhase (semGates c.gates) (semGates c'.gates) := by
  obtain ⟨c', e, hq, hb, h⟩ := optimize_run' (ds := ds) hc
  exact ⟨c', e, hq, hb, fun g hg => hq ▸ accepted_iff.mp (h.acc g hg), h.sem⟩

/-- The circuits that are handled: all others raise. -/
theorem optimize_returns_iff (ds : Bool) (hw : ∀ g ∈ c.gates, WellFormed g) :
    (∃ c', basicOptimization c ds = some c') ↔ ∀ g ∈ c.gates, Handled c.qubits g := by
  constructor
  · intro ⟨c', e⟩
    by_contra hn
    push Not at hn
    obtain ⟨g, hg, hn⟩ := hn
    have := parseCircuit_none (n := c.qubits) 1000 ds hw ⟨g, hg, fun h => hn (accepted_iff.mp h)⟩
    rw [basicOptimization, this] at e
    cases e
  · intro h
    obtain ⟨c', e, -⟩ := optimize_sound ds h
    exact ⟨c', e⟩

theorem tc_zero (l : List Gate) : tc 0 l = (l.map Gate.tcount).sum := by
  unfold tc
  congr 2
  funext g
  simp [wg]

/-- The number of non-Clifford phases does not grow. -/
theorem optimize_tcount (hc : ∀ g ∈ c.gates, Handled c.qubits g) (h : basicOptimization c ds = some c') : c'.tcount ≤ c.tcount := by
  obtain ⟨d, e, -, -, ho⟩ := optimize_run' (ds := ds) hc
  cases e.symm.trans h
  have := ho.tc
  rwa [tc_zero, tc_zero] at this

/-- Without `do_swaps`, two-qubit gates appear only between qubits that a two-qubit gate of the input connects. -/
theorem optimize_connectivity (hc : ∀ g ∈ c.gates, Handled c.qubits g) (h : basicOptimization c false = some c') {a b : ℕ}
    (hg : ∃ g ∈ c'.gates, On g a b) : ∃ g ∈ c.gates, On g a b := by
  have symm : ∀ {g : Gate} {a b : ℕ}, On g a b → On g b a := by
    rintro g a b (h | h | h | h)
    · exact Or.inr (Or.inl h)
    · exact Or.inl h
    · exact Or.inr (Or.inr (Or.inr h))
    · exact Or.inr (Or.inr (Or.inl h))
  obtain ⟨d, e, -, -, ho⟩ := optimize_run (ds := false) 0 (fun a b => ∃ g ∈ c.gates, On g a b) (fun a b ⟨g, h1, h2⟩ => ⟨g, h1, symm h2⟩)
    (by simp) (by simp) hc (by
      intro _ g hg
      cases g with
      | cz x y => exact ⟨_, hg, Or.inl rfl⟩
      | cnot x y => exact ⟨_, hg, Or.inr (Or.inr (Or.inl rfl))⟩
      | _ => trivial)
  cases e.symm.trans h
  obtain ⟨g, h1, h2⟩ := hg
  have hl := ho.lnk g h1
  rcases h2 with rfl | rfl | rfl | rfl
  · exact hl
  · obtain ⟨g, h1, h2⟩ := hl
    exact ⟨g, h1, symm h2⟩
  · exact hl
  · obtain ⟨g, h1, h2⟩ := hl
    exact ⟨g, h1, symm h2⟩

/-- The weight of a list, from its counts. -/
theorem tc_counts {n : ℕ} (k : ℕ) : ∀ {l : List Gate}, (∀ g ∈ l, Handled n g) → ∀ (q b : ℕ), tc k l = Circuit.tcount ⟨q, b, l⟩ + k * Circuit.twoqubitcount ⟨q, b, l⟩
  | [], _, q, b => by simp [tc, Circuit.tcount, Circuit.twoqubitcount, Circuit.toBasicGates]
  | g :: l, h, q, b => by
    have ih := tc_counts k (l := l) (fun g hg => h g (by simp [hg])) q b
    have hg := h g (by simp)
    simp only [tc_cons, ih, Circuit.tcount, Circuit.twoqubitcount, Circuit.toBasicGates, List.map_cons, List.sum_cons, List.flatMap_cons,
      List.countP_append]
    generalize (l.map Gate.tcount).sum = a
    generalize List.countP _ (List.flatMap Gate.toBasic l) = m
    cases hg with
    | had => simp [wg, Gate.toBasic]; ring
    | phase => simp [wg, Gate.toBasic]; ring
    | not => simp [wg, Gate.toBasic]; ring
    | cz => simp [wg, Gate.toBasic]; ring
    | cnot => simp [wg, Gate.toBasic]; ring

/-- Without `do_swaps`, the number of two-qubit gates does not grow. -/
theorem optimize_twoqubitcount (hc : ∀ g ∈ c.gates, Handled c.qubits g) (h : basicOptimization c false = some c') :
    c'.twoqubitcount ≤ c.twoqubitcount := by
  obtain ⟨d, e, -, -, ho⟩ := optimize_run (ds := false) (c.tcount + 1) (fun _ _ => True) (fun _ _ _ => trivial)
    (by simp) (by simp) hc fun _ g _ => by cases g <;> trivial
  cases e.symm.trans h
  have := ho.tc
  rw [tc_counts _ hc c.qubits c.bits, tc_counts _ (fun g hg => accepted_iff.mp (ho.acc g hg)) c'.qubits c'.bits] at this
  change c'.tcount + (c.tcount + 1) * c'.twoqubitcount ≤ c.tcount + (c.tcount + 1) * c.twoqubitcount at this
  by_contra hlt
  have h2 : (c.tcount + 1) * (c.twoqubitcount + 1) ≤ (c.tcount + 1) * c'.twoqubitcount := Nat.mul_le_mul_left _ (by omega)
  rw [Nat.mul_succ] at h2
  omega

/-- With `do_swaps`, which is the default, it can grow: two CNOTs become four. -/
theorem optimize_swaps_grow : ∃ c c' : Circuit, (∀ g ∈ c.gates, Handled c.qubits g) ∧ basicOptimization c = some c' ∧ c.twoqubitcount = 2 ∧ c'.twoqubitcount = 4 := by
  refine ⟨⟨2, 0, [.cnot 0 1, .cnot 1 0]⟩, ⟨2, 0, [.cnot 1 0, .cnot 0 1, .cnot 1 0, .cnot 0 1]⟩, ?_, by decide +kernel, by decide +kernel, by decide +kernel⟩
  simp only [List.mem_cons, List.not_mem_nil, or_false, forall_eq_or_imp, forall_eq]
  exact ⟨.cnot (by decide) (by decide) (by decide), .cnot (by decide) (by decide) (by decide)⟩

/-- `full_optimize` raises on a circuit with an X rotation, although it first calls `to_basic_gates`: the decomposition into basic gates
keeps the rotation, and the optimiser does not accept it. -/
theorem optimize_xphase_raises (t : ℕ) (p : ℚ) : basicOptimization (Circuit.toBasicGates ⟨t + 1, 0, [.mkXPhase t p]⟩) = none := by
  have hw : ∀ g ∈ (Circuit.toBasicGates ⟨t + 1, 0, [.mkXPhase t p]⟩).gates, WellFormed g := by
    intro g hg
    simp [Circuit.toBasicGates, Gate.mkXPhase, Gate.toBasic] at hg
    subst hg
    exact ⟨by simp [Gate.Valid, Gate.qubits], fun _ _ _ h => by cases h⟩
  by_contra hn
  obtain ⟨c', e⟩ := Option.ne_none_iff_exists'.mp hn
  have := (optimize_returns_iff true hw).mp ⟨c', e⟩ (.mkXPhase t p) (by simp [Circuit.toBasicGates, Gate.mkXPhase, Gate.toBasic])
  cases this

/-! ### The hypotheses are met, and the optimiser does something -/

/-- A circuit with every kind of gate. -/
def exOpt : Circuit := ⟨3, 0, [.cnot 0 1, .mkT 1, .cnot 0 1, .had 2, .mkT 1, .had 2, .cz 1 2, .cnot 1 2, .cz 1 2, .mkNOT 0, .cnot 0 2]⟩

theorem exOpt_handled : ∀ g ∈ exOpt.gates, Handled exOpt.qubits g := by
  simp only [exOpt, List.mem_cons, List.not_mem_nil, or_false, forall_eq_or_imp, forall_eq]
  refine ⟨.cnot (by decide) (by decide) (by decide), .phase (by decide), .cnot (by decide) (by decide) (by decide), .had (by decide), .phase (by decide),
    .had (by decide), .cz (by decide) (by decide) (by decide), .cnot (by decide) (by decide) (by decide), .cz (by decide) (by decide) (by decide),
    .not (by decide) (by norm_num [mod2]), .cnot (by decide) (by decide) (by decide)⟩

/-- It has 11 gates, the result 8. -/
example : ∃ c', basicOptimization exOpt = some c' ∧ c'.gates.length = 8 ∧ EqUpToPhase (semGates exOpt.gates) (semGates c'.gates) := by
  obtain ⟨c', e, -, -, -, h⟩ := optimize_sound true exOpt_handled
  refine ⟨c', e, ?_, h⟩
  have : (basicOptimization exOpt).map (fun c => c.gates.length) = some 8 := by decide +kernel
  rw [e] at this
  simpa using this

example : ∃ c', basicOptimization exOpt false = some c' ∧ c'.twoqubitcount ≤ exOpt.twoqubitcount ∧ c'.tcount ≤ exOpt.tcount := by
  obtain ⟨c', e, -⟩ := optimize_sound false exOpt_handled
  exact ⟨c', e, optimize_twoqubitcount exOpt_handled e, optimize_tcount exOpt_handled e⟩

end Props
end PyZX
