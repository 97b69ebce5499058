import Verif.Proofs.CliffGraph
import Verif.Proofs.Choose2
import Verif.Proofs.FiltCnots
import Verif.Proofs.ColSwap
import Verif.Proofs.ExtTot7
import Verif.Proofs.ExtTot8
import Verif.Props.Pipeline

/-!
# C58: Clifford circuits are always simplified and extracted again
-/

namespace PyZX
namespace Props

open Graph ToGraph Simplify Verify Extract

/-- The multiples of π/2 are closed under sums and differences. -/
theorem phaseSet_clifford : PhaseSet Clifford where
  zero := ⟨by norm_num, isInt_iff.mpr ⟨0, by norm_num⟩⟩
  one := ⟨by norm_num, isInt_iff.mpr ⟨2, by norm_num⟩⟩
  add p q hp hq := by
    obtain ⟨k, hk⟩ := isInt_iff.mp hp.2
    obtain ⟨l, hl⟩ := isInt_iff.mp hq.2
    refine ⟨mod2_mem _, isInt_iff.mpr ⟨k + l - 4 * ⌊(p + q) / 2⌋, ?_⟩⟩
    unfold mod2; push_cast; linarith
  sub p q hp hq := by
    obtain ⟨k, hk⟩ := isInt_iff.mp hp.2
    obtain ⟨l, hl⟩ := isInt_iff.mp hq.2
    refine ⟨mod2_mem _, isInt_iff.mpr ⟨k - l - 4 * ⌊(p - q) / 2⌋, ?_⟩⟩
    unfold mod2; push_cast; linarith
  reduced p h := h.1

theorem clifford_mod2 {p : ℚ} {k : ℤ} (h : 2 * p = k) : Clifford (mod2 p) := by
  refine ⟨mod2_mem _, isInt_iff.mpr ⟨k - 4 * ⌊p / 2⌋, ?_⟩⟩
  unfold mod2; push_cast; linarith

theorem mod2_int {p : ℚ} {k : ℤ} (h : 2 * p = k) : ∃ l : ℤ, 2 * mod2 p = l := ⟨k - 4 * ⌊p / 2⌋, by unfold mod2; push_cast; linarith⟩

theorem toBasic_clifford {a : Gate} (h : a.IsClifford) : ∀ b ∈ a.toBasic, PhBasic Clifford b := by
  have hpar : ∀ (p : ℚ) (ts : List ℕ), (2 * p).isInt = true → ∀ b ∈ Gate.parityBasic p ts, PhBasic Clifford b := by
    intro p ts hp b hb
    obtain ⟨k, hk⟩ := isInt_iff.mp hp
    simp only [Gate.parityBasic, List.mem_append, List.mem_reverse, List.mem_map, List.mem_singleton] at hb
    rcases hb with (⟨i, -, rfl⟩ | rfl) | ⟨i, -, rfl⟩
    · trivial
    · exact clifford_mod2 hk
    · trivial
  have hh : ∀ {p : ℚ} (k : ℤ), 2 * p = k → Clifford (mod2 p) := fun k h => clifford_mod2 h
  cases a <;> first
    | exact absurd h id
    | (simp only [Gate.toBasic, List.mem_singleton, forall_eq, PhBasic]; done)
    | (obtain ⟨k, hk⟩ := isInt_iff.mp h
       simp only [Gate.toBasic, List.mem_singleton, forall_eq, PhBasic]
       exact hh k hk)
    | exact hpar _ _ h
    | skip
  case yrot t p _ =>
    obtain ⟨k, hk⟩ := isInt_iff.mp h
    simp only [Gate.toBasic, Gate.yBasic, List.mem_cons, List.not_mem_nil, or_false, forall_eq_or_imp, forall_eq, Gate.mkZPhase, Gate.mkXPhase, PhBasic]
    exact ⟨hh 1 (by norm_num), hh (-k) (by push_cast; linarith), hh (-1) (by norm_num)⟩
  case xcx => simp [Gate.toBasic, PhBasic]
  case swap => simp [Gate.toBasic, PhBasic]
  case cy =>
    simp only [Gate.toBasic, List.mem_cons, List.not_mem_nil, or_false, forall_eq_or_imp, forall_eq, Gate.mkS, PhBasic, if_true, Bool.false_eq_true, if_false]
    exact ⟨hh (-1) (by norm_num), trivial, hh 1 (by norm_num)⟩
  case rxx c t p =>
    obtain ⟨k, hk⟩ := isInt_iff.mp h
    obtain ⟨l, hl⟩ := mod2_int (p := p + 3) (k := k + 6) (by push_cast; linarith)
    obtain ⟨l2, hl2⟩ := mod2_int (p := 1 - p) (k := 2 - k) (by push_cast; linarith)
    obtain ⟨l3, hl3⟩ := mod2_int (p := mod2 (1 - p) - 1/2) (k := l2 - 1) (by push_cast; linarith)
    obtain ⟨l4, hl4⟩ := mod2_int (p := (1/2 : ℚ) + 1) (k := 3) (by norm_num)
    obtain ⟨l5, hl5⟩ := mod2_int (p := (-1 : ℚ) + 1/2) (k := -1) (by norm_num)
    simp only [Gate.toBasic, Gate.u3Basic, Gate.u2Basic, List.mem_append, List.mem_cons, List.not_mem_nil, or_false, or_imp, forall_and,
      forall_eq, Gate.mkZPhase, Gate.mkXPhase, PhBasic]
    refine ⟨⟨⟨hh 0 (by norm_num), hh 1 (by norm_num), hh l4 hl4, hh 1 (by norm_num), hh l hl⟩, trivial, trivial, hh (-k) (by push_cast; linarith), trivial, trivial⟩,
      hh l3 hl3, hh 1 (by norm_num), hh l5 hl5⟩
  case u2 t p q =>
    obtain ⟨k, hk⟩ := isInt_iff.mp h.1
    obtain ⟨k', hk'⟩ := isInt_iff.mp h.2
    obtain ⟨l1, hl1⟩ := mod2_int (p := q - 1/2) (k := k' - 1) (by push_cast; linarith)
    obtain ⟨l2, hl2⟩ := mod2_int (p := p + 1/2) (k := k + 1) (by push_cast; linarith)
    simp only [Gate.toBasic, Gate.u2Basic, List.mem_cons, List.not_mem_nil, or_false, forall_eq_or_imp, forall_eq, Gate.mkZPhase, Gate.mkXPhase, PhBasic]
    exact ⟨hh l1 hl1, hh 1 (by norm_num), hh l2 hl2⟩
  case u3 t p q r =>
    obtain ⟨k, hk⟩ := isInt_iff.mp h.1
    obtain ⟨k', hk'⟩ := isInt_iff.mp h.2.1
    obtain ⟨k'', hk''⟩ := isInt_iff.mp h.2.2
    obtain ⟨l1, hl1⟩ := mod2_int (p := p + 1) (k := k + 2) (by push_cast; linarith)
    obtain ⟨l2, hl2⟩ := mod2_int (p := q + 3) (k := k' + 6) (by push_cast; linarith)
    simp only [Gate.toBasic, Gate.u3Basic, List.mem_cons, List.not_mem_nil, or_false, forall_eq_or_imp, forall_eq, Gate.mkZPhase, Gate.mkXPhase, PhBasic]
    exact ⟨hh k'' hk'', hh 1 (by norm_num), hh l1 hl1, hh 1 (by norm_num), hh l2 hl2⟩

variable {ω ω' : ℕ → Orders} {choose : ℕ → Mat2.Data → Option (List (ℕ × ℕ))} {g : Graph} {n : ℕ} {opt perm : Bool} {fuel : ℕ}

/-- **C58.** A reduced diagram with phases that are multiples of π/2 and with an invertible map is always extracted. -/
theorem clifford_extract (hω : ∀ t, (ω t).OK) (hfu : ∀ t, (ω t).Full) (hch : ChooseGood n choose) (hg : g.ZX Clifford) (hio : g.IO)
    (hi : g.inputs.length = n) (ho : g.outputs.length = n) (hu : IsUnit (g.toMatrix n)) (hN : g.FullNF) (hn : opt = true → n ≠ 0)
    (hf : n * n + 3 * n < fuel) : g.Extractable n ∧ ∃ c, extractCircuit ω choose opt perm fuel g = .ok c := by
  obtain ⟨h1, h2⟩ := clifford_shape hg hio hi ho hu hN.interior hN.boundary
  have hE : g.Extractable n := ⟨⟨hg.wf, hg.bdeg, hg.badj, hg.types, fun v hv => (hg.phases v hv).1⟩, hN.interior.types, InteriorNF.zHad hN.interior,
    hio, clifford_gadgets h2, hi, ho, hu⟩
  exact ⟨hE, extract_total hω hfu hch hE (clifford_initGadgets hio hN.interior.types h2) h1 hn hf⟩

/-- The diagram of a Clifford circuit, reduced by `full_reduce`. -/
theorem clifford_reduced {c : Circuit} {g : Graph} (hω : ∀ t, (ω t).OK) (hfu : ∀ t, (ω t).Full) (hb : c.bits = 0)
    (hc : ∀ a ∈ c.gates, a.Valid ∧ a.IsClifford ∧ ∀ q ∈ a.qubits, q < c.qubits) (hg : toGraph ascending false c = some g) {fuel t : ℕ}
    (hf : 32 * g.verts.card + 1 < fuel) : ∃ g' t', fullReduce ω fuel t g = .done g' t' 0 ∧ g'.ZX Clifford ∧ g'.FullNF ∧ g'.IO ∧
      g'.inputs.length = c.qubits ∧ g'.outputs.length = c.qubits ∧ IsUnit (g'.toMatrix c.qubits) := by
  have hval : ∀ a ∈ c.gates, a.Valid := fun a ha => (hc a ha).1
  have hq : ∀ a ∈ c.gates, ∀ q ∈ a.qubits, q < c.qubits := fun a ha => (hc a ha).2.2
  obtain ⟨g0, h0, -, z, hz, hm⟩ := toGraph_sound false hb hval hq
  rw [hg, Option.some.injEq] at h0
  subst h0
  obtain ⟨k1, k2, k3, k4, k5⟩ := toGraph_zx ascending_ok hb hval hq hg
  have hz : z ≠ 0 := fun h => by rw [h] at hz; simp at hz
  have hph : ToGraph.Ph Clifford g := toGraph_phases phaseSet_clifford (by
    intro a ha
    obtain ⟨a0, ha0, haa⟩ := List.mem_flatMap.mp ha
    exact toBasic_clifford (hc a0 ha0).2.1 a haa) hg
  have kc : g.ZX Clifford := ⟨k1.wf, k1.bdeg, k1.badj, k1.types, fun v _ => hph v⟩
  have hgs : ∀ a ∈ c.gates, a.qubits.Nodup ∧ ∀ q ∈ a.qubits, q < c.qubits := fun a ha => ⟨(hval a ha).2, hq a ha⟩
  obtain ⟨g', t', h1, h2, h3, h4⟩ := fullReduce_end (t := t) phaseSet_clifford hω hfu kc k2 hf
  have hu := h3.upTo
  obtain ⟨k, hk, hs⟩ := hu.sem
  have hm' : ∀ x y, g'.mat x y = (k * z) * semGates c.gates (basisState c.qubits x) y := by
    intro x y
    have : g'.bval x y = g.bval x y := by funext v; simp only [bval, hu.inputs, hu.outputs]
    rw [mat, hs, this, mul_assoc, ← hm]
    rfl
  have hio : g'.IO := by
    refine ⟨?_, ?_, ?_, ?_⟩
    · rw [hu.inputs]; exact k3.nodupIn
    · rw [hu.outputs]; exact k3.nodupOut
    · rw [hu.inputs, hu.outputs]; exact k3.disj
    · intro v hv hvb
      rw [hu.inputs, hu.outputs]
      obtain ⟨e1, e2⟩ := (hu.boundary v).mp ⟨hv, hvb⟩
      exact k3.all v e1 e2
  exact ⟨g', t', h1, h2, h4, hio, by rw [hu.inputs, k4, List.length_range], by rw [hu.outputs, k5], unit_of_circuit hgs (mul_ne_zero hk hz) hm'⟩

theorem clifford_reduced_gadgets {c : Circuit} {g g' : Graph} (hω : ∀ t, (ω t).OK) (hfu : ∀ t, (ω t).Full) (hb : c.bits = 0)
    (hc : ∀ a ∈ c.gates, a.Valid ∧ a.IsClifford ∧ ∀ q ∈ a.qubits, q < c.qubits) (hg : toGraph ascending false c = some g) {fuel t t' i : ℕ}
    (hf : 32 * g.verts.card + 1 < fuel) (hr : fullReduce ω fuel t g = .done g' t' i) : g'.Gadgets := by
  obtain ⟨g1, t1, h1, h2, h3, h4, h5, h6, h7⟩ := clifford_reduced (t := t) hω hfu hb hc hg hf
  rw [h1, Run.done.injEq] at hr
  rw [← hr.1]
  exact clifford_gadgets (clifford_shape h2 h4 h5 h6 h7 h3.interior h3.boundary).2

/-- **C58.** Every circuit of Clifford gates is optimised: its diagram is reduced by `full_reduce`, the result is extracted, and the new
circuit has the same qubits and denotes the same map up to a global phase. No exception is raised and every loop ends. -/
theorem clifford_pipeline {c : Circuit} (hω : ∀ t, (ω t).OK) (hfu : ∀ t, (ω t).Full) (hω' : ∀ t, (ω' t).OK) (hfu' : ∀ t, (ω' t).Full)
    (hch : ChooseOK choose) (hgood : ChooseGood c.qubits choose) (hb : c.bits = 0)
    (hc : ∀ a ∈ c.gates, a.Valid ∧ a.IsClifford ∧ ∀ q ∈ a.qubits, q < c.qubits) (hn : opt = true → c.qubits ≠ 0) :
    ∃ g N, toGraph ascending false c = some g ∧ ∀ fuel fuel' t, N < fuel → c.qubits * c.qubits + 3 * c.qubits < fuel' →
      ∃ g' t' d, fullReduce ω fuel t g = .done g' t' 0 ∧ extractCircuit ω' choose opt false fuel' g' = .ok d ∧ d.qubits = c.qubits ∧
        ∃ w : ℂ, ‖w‖ = 1 ∧ ∀ x y, semGates d.gates (basisState c.qubits x) y = w * semGates c.gates (basisState c.qubits x) y := by
  have hval : ∀ a ∈ c.gates, a.Valid := fun a ha => (hc a ha).1
  have hq : ∀ a ∈ c.gates, ∀ q ∈ a.qubits, q < c.qubits := fun a ha => (hc a ha).2.2
  obtain ⟨g, hg, -, z, hz, hm⟩ := toGraph_sound false hb hval hq
  obtain ⟨k1, k2, k3, k4, k5⟩ := toGraph_zx ascending_ok hb hval hq hg
  have hz : z ≠ 0 := fun h => by rw [h] at hz; simp at hz
  have hgs : ∀ a ∈ c.gates, a.qubits.Nodup ∧ ∀ q ∈ a.qubits, q < c.qubits := fun a ha => ⟨(hval a ha).2, hq a ha⟩
  refine ⟨g, 32 * g.verts.card + 1, hg, fun fuel fuel' t hf hf' => ?_⟩
  obtain ⟨g', t', h1, h2, h4, hio, h5, h6, h7⟩ := clifford_reduced (t := t) hω hfu hb hc hg hf
  obtain ⟨hE, d, hd⟩ := clifford_extract (n := c.qubits) (perm := false) hω' hfu' hgood h2 hio h5 h6 h7 h4 hn hf'
  obtain ⟨e1, e2⟩ := reduce_extract hgs hω hfu hch k1 k2 k3 (by rw [k4, List.length_range]) k5 hz hm h1 hE.gad hω' hd
  exact ⟨g', t', d, h1, hd, e1, e2⟩

/-- The choice of CNOTs of the code. The iteration orders of sets are the parameter `order`. -/
def codeChoice (level : ℕ) (order : ℕ → ColSwap.Order) (stale : ℕ → ℕ → List ℕ) (t : ℕ) (m : Mat2.Data) : Option (List (ℕ × ℕ)) :=
  chooseCnots level (ColSwap.columnOrder (order t)) filterDuplicateCnots (stale t) m

/-- **C58.** `column_optimal_swap` does not raise on square matrices with fewer than 1000 rows, and its result is a permutation. -/
theorem columnOrder_permutation {order : ColSwap.Order} (ho : ∀ t i l, (order t i l).Perm l) {k : ℕ} (hk : k < 1000) {m : Mat2.Data}
    (hm : Mat2.Rect k k m) : ∃ p, ColSwap.columnOrder order m = some p ∧ p.Perm (List.range k) := by
  rcases Nat.eq_zero_or_pos k with rfl | h0
  · have : m = [] := List.eq_nil_of_length_eq_zero hm.1
    subst this
    exact ColSwap.columnOrder_perm ho hk rfl rfl
  · exact ColSwap.columnOrder_perm ho hk hm.1 (hm.length_getD h0)

/-- The number of ones on the diagonal of a matrix with its columns in the order `p`. -/
def diagOnes (m : Mat2.Data) (p : List ℕ) : ℕ := ((List.range p.length).filter fun i => (m.getD i []).getD (p.getD i 0) false).length

/-- An invertible matrix for which `column_optimal_swap` gives up. -/
def exStuck : Mat2.Data := [[true, true, true, false, false, false], [false, true, false, false, false, true], [true, false, false, true, false, false],
  [true, true, true, false, true, true], [true, true, false, false, true, true], [true, true, false, true, false, false]]

/-- `column_optimal_swap` does not always put as many ones on the diagonal as possible, although it searches with backtracking: an option that
failed is not removed before the next one is tried, so that the next ones fail as well (`ColSwap.none_of_stuck`). -/
theorem columnOrder_optimal_counterexample : Mat2.Rect 6 6 exStuck ∧ IsUnit (Mat2.mat 6 6 exStuck) ∧
    ∃ p q, ColSwap.columnOrder (fun _ _ l => l) exStuck = some p ∧ q.Perm (List.range 6) ∧ diagOnes exStuck p < 6 ∧ diagOnes exStuck q = 6 := by
  refine ⟨⟨rfl, by decide⟩, ?_, ?_⟩
  · rw [Matrix.isUnit_iff_isUnit_det]
    have : (Mat2.mat 6 6 exStuck).det = 1 := by decide +kernel
    rw [this]
    exact isUnit_one
  · exact ⟨_, [2, 5, 0, 4, 1, 3], rfl, by decide, by decide +kernel, by decide +kernel⟩

/-- **C58.** `filter_duplicate_cnots` never raises and returns CNOTs with the same effect. -/
theorem filterDuplicateCnots_sound : FiltOK filterDuplicateCnots := Optimize.filterDuplicateCnots_ok

/-- **C58.** `greedy_reduction` never raises on an invertible matrix without rows of weight 1. If it returns row additions, they lead to a row of
weight 1; up to 16 rows it never returns `None`. -/
theorem greedy_progress {k : ℕ} (h0 : 0 < k) (hk : k < 10000) {m : Mat2.Data} (hm : Mat2.Rect k k m) (hu : IsUnit (Mat2.mat k k m))
    (hr : ∀ row ∈ m, row.count true ≠ 1) :
    (∃ ops, greedyReduction m = some (some ops) ∧ (∀ c ∈ ops, c.1 < k ∧ c.2 < k ∧ c.1 ≠ c.2) ∧
      ∃ row ∈ ops.foldl (fun d p => Mat2.rowAdd p.1 p.2 d) m, row.count true = 1) ∨ greedyReduction m = some none ∧ 16 < k := by
  rcases greedy_good h0 hk hm hu hr with ⟨ops, h1, h2, h3⟩ | h
  · exact Or.inl ⟨ops, h1, h2, by rwa [addRows_swap] at h3⟩
  · exact Or.inr h

/-- The choices of the code are sound and make progress, up to 499 qubits (at level 0 up to 999). -/
theorem codeChoice_good {level : ℕ} {order : ℕ → ColSwap.Order} (ho : ∀ s t i l, (order s t i l).Perm l) (hn : n < 1000)
    (h : 0 < level → n < 500) (stale : ℕ → ℕ → List ℕ) : ChooseOK (codeChoice level order stale) ∧ ChooseGood n (codeChoice level order stale) :=
  ⟨chooseCnots_ok filterDuplicateCnots_sound stale,
    chooseCnots_good (by omega) (Or.inr ⟨h, filterDuplicateCnots_sound, fun t k m _ h2 h3 _ _ => columnOrder_permutation (ho t) (by omega) h3⟩) stale⟩

/-- **C58.** Every circuit of Clifford gates on 1 to 499 qubits is optimised with the choice of CNOTs of the code at its default level 2 or at a lower
level: no exception is raised, every loop ends, and the new circuit denotes the same map up to a global phase. -/
theorem clifford_pipeline_default {c : Circuit} {level : ℕ} (_hl : level ≤ 2) (hω : ∀ t, (ω t).OK) (hfu : ∀ t, (ω t).Full) (hω' : ∀ t, (ω' t).OK)
    (hfu' : ∀ t, (ω' t).Full) {order : ℕ → ColSwap.Order} (ho : ∀ s t i l, (order s t i l).Perm l) (stale : ℕ → ℕ → List ℕ) (hb : c.bits = 0)
    (hc : ∀ a ∈ c.gates, a.Valid ∧ a.IsClifford ∧ ∀ q ∈ a.qubits, q < c.qubits) (h0 : c.qubits ≠ 0) (h500 : c.qubits < 500) :
    ∃ g N, toGraph ascending false c = some g ∧ ∀ fuel fuel' t, N < fuel → c.qubits * c.qubits + 3 * c.qubits < fuel' →
      ∃ g' t' d, fullReduce ω fuel t g = .done g' t' 0 ∧ extractCircuit ω' (codeChoice level order stale) opt false fuel' g' = .ok d ∧
        d.qubits = c.qubits ∧ ∃ w : ℂ, ‖w‖ = 1 ∧ ∀ x y, semGates d.gates (basisState c.qubits x) y = w * semGates c.gates (basisState c.qubits x) y := by
  obtain ⟨h1, h2⟩ := codeChoice_good (n := c.qubits) (level := level) ho (by omega) (fun _ => h500) stale
  exact clifford_pipeline hω hfu hω' hfu' h1 h2 hb hc fun _ => h0

/-- An example of a Clifford circuit on three qubits. -/
def exCliff : Circuit := ⟨3, 0, [.had 0, .cnot 0 1, Gate.mkS 1, .cz 1 2, .swap 0 2, .mkXPhase 2 (3/2), .cy 1 0, .had 2]⟩

/-- It meets the hypotheses of `clifford_pipeline_default`. -/
example : exCliff.bits = 0 ∧ (∀ a ∈ exCliff.gates, a.Valid ∧ a.IsClifford ∧ ∀ q ∈ a.qubits, q < exCliff.qubits) ∧ exCliff.qubits ≠ 0 ∧
    exCliff.qubits < 500 ∧ (∀ t : ℕ, ((fun _ => uptoOrders) t).OK) ∧ ∀ t : ℕ, ((fun _ => uptoOrders) t).Full := by
  refine ⟨rfl, ?_, by decide, by decide, fun _ => uptoOrders_ok, fun _ => uptoOrders_full⟩
  simp only [exCliff, List.mem_cons, List.not_mem_nil, or_false, forall_eq_or_imp, forall_eq, Gate.mkS, Gate.mkXPhase, Gate.Valid, Gate.qubits,
    Gate.IsClifford]
  refine ⟨?_, ?_, ?_, ?_, ?_, ?_, ?_, ?_⟩ <;> simp [isInt_iff]
  · exact ⟨1, by norm_num⟩
  · exact ⟨3, by norm_num⟩

/-- An invertible matrix of which no row has weight 1; the greedy reduction finds one addition. -/
example : Mat2.Rect 3 3 [[true, true, false], [false, true, true], [true, true, true]] ∧
    IsUnit (Mat2.mat 3 3 [[true, true, false], [false, true, true], [true, true, true]]) ∧
    greedyReduction [[true, true, false], [false, true, true], [true, true, true]] = some (some [(0, 2)]) := by
  refine ⟨⟨rfl, by decide⟩, ?_, by decide +kernel⟩
  rw [Matrix.isUnit_iff_isUnit_det]
  have : (Mat2.mat 3 3 [[true, true, false], [false, true, true], [true, true, true]]).det = 1 := by decide +kernel
  rw [this]
  exact isUnit_one

/-- Two CNOTs cancel. -/
example : filterDuplicateCnots [(0, 1), (2, 1), (0, 1)] = some [(2, 1)] := by decide +kernel

end Props
end PyZX
