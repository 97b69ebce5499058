import Verif.Proofs.GenCnots

/-!
# C61: the generators of random circuits

For all outcomes of the random number generator: `cliffordT` returns a diagram that denotes, exactly and with its scalar, the circuit of the
gates it drew; `CNOT_HAD_PHASE_circuit` returns a circuit of the given depth and size; and `cnots` returns the CNOT circuit it
drew, but with the list of outputs reversed.
-/

namespace PyZX
namespace Props

open ToGraph Generate

/-! ### `cliffordT` -/

theorem kind_meas {P : Probs} (h : P.meas = 0) (p : ℚ) : kind P p ≠ .meas := by
  unfold kind
  rw [h, sub_zero]
  split_ifs <;> simp

theorem probs_meas {t s hsh cnot : Option ℚ} {P : Probs} (h : probs t s hsh cnot (some 0) = some P) : P.meas = 0 := by
  unfold probs at h
  simp only at h
  split_ifs at h
  rw [← Option.some.inj h]
  rfl

/-- **C61.** `cliffordT` succeeds for all random outcomes when the probabilities are possible and there are two qubits (or one and no
CNOT is drawn). The diagram has one input and one output per qubit, in order, and denotes the product of the gates drawn, exactly:
CNOT, H·S·H, S and T. -/
theorem cliffordT_denotes {n : ℕ} {t s hsh cnot : Option ℚ} {P : Probs} (hP : probs t s hsh cnot (some 0) = some P) {ds : List Draw}
    (h0 : ds ≠ [] → 0 < n) (h1 : ∀ d ∈ ds, kind P d.p = .cnot → 2 ≤ n) :
    ∃ g, cliffordT n t s hsh cnot ds = some g ∧ Shape g n n ∧
      ∀ x y, g.mat x y = semGates (ds.flatMap (·.gates P n)) (basisState n x) y := by
  obtain ⟨g, a1, a2⟩ := build_spec0 n (fun s => (Generate.row n s).bind fun s => (ds.foldlM (iter P n) s).bind fun s => Generate.row n s)
    (semGates (ds.flatMap (·.gates P n))) fun s N h hl => by
      have r1 := row_acts (List.range n) h fun l hh => by rw [hl]; simpa using hh
      refine r1.bind fun s1 g1 l1 => Acts.bind (U := semGates (ds.flatMap (·.gates P n))) (V := id) ?_ fun s2 g2 l2 =>
        row_acts (List.range n) g2 fun l hh => by rw [l2, l1, hl]; simpa using hh
      by_cases hd : ds = []
      · subst hd
        exact ⟨s1, rfl, g1, rfl, fun b => rfl⟩
      · exact iters_acts (h0 hd) ds g1 (l1.trans hl) fun d hd => ⟨h1 d hd, kind_meas (probs_meas hP) d.p⟩
  refine ⟨g, ?_, by simpa using a2.shape, result_mat a2⟩
  rw [← a1]
  unfold cliffordT
  rw [hP]
  show ((Generate.row n ((addInputs n Graph.empty []).1, (addInputs n Graph.empty []).2.1)).bind fun s => (ds.foldlM (iter P n) s).bind fun s =>
    (Generate.row n s).bind fun s => (addOutputs s.2 (List.range n) (s.1, [])).bind _) = _
  rw [Option.bind_assoc]
  congr 1
  funext s1
  rw [Option.bind_assoc]
  rfl

/-- The gates of a draw act on different qubits of the circuit. -/
theorem draw_gates_valid {P : Probs} {n : ℕ} {d : Draw} (hn : 0 < n) (h : kind P d.p = .cnot → 2 ≤ n) :
    ∀ g ∈ d.gates P n, g.Valid ∧ ∀ q ∈ g.qubits, q < n := by
  have hq := Nat.mod_lt d.q0 hn
  intro g hg
  unfold Draw.gates at hg
  cases hk : kind P d.p <;> simp only [hk, List.mem_cons, List.not_mem_nil, or_false] at hg
  · subst hg
    obtain ⟨t1, t2⟩ := tgt_spec (h hk) hq d.q1
    refine ⟨⟨by simp [Gate.qubits], by simpa [Gate.qubits] using Ne.symm t2⟩, ?_⟩
    intro q hq'
    simp only [Gate.qubits, List.mem_cons, List.not_mem_nil, or_false] at hq'
    rcases hq' with rfl | rfl <;> assumption
  all_goals
    rcases hg with rfl | rfl | rfl <;>
      exact ⟨⟨by simp [Gate.qubits, Gate.mkS, Gate.mkT], by simp [Gate.qubits, Gate.mkS, Gate.mkT]⟩,
        by simpa [Gate.qubits, Gate.mkS, Gate.mkT] using hq⟩

theorem foldlM_none {σ δ : Type} (f : σ → δ → Option σ) (ds : List δ) {d : δ} (hd : d ∈ ds) (h : ∀ s, f s d = none) : ∀ s, ds.foldlM f s = none := by
  induction ds with
  | nil => exact absurd hd (by simp)
  | cons e r ih =>
    intro s
    rw [List.foldlM_cons]
    rcases List.mem_cons.mp hd with rfl | hd
    · rw [h s]; rfl
    · cases f s e with
      | none => rfl
      | some s' => exact ih hd s'

/-- Exactly when `cliffordT` raises: the probabilities add up to more than one, or a gate is drawn without qubits, or a CNOT with one
qubit. -/
theorem cliffordT_raises (n : ℕ) (t s hsh cnot : Option ℚ) (ds : List Draw) :
    cliffordT n t s hsh cnot ds = none ↔ rest [t, s, hsh, cnot, some 0] < 0 ∨ (n = 0 ∧ ds ≠ []) ∨
      (n = 1 ∧ ∃ P, probs t s hsh cnot (some 0) = some P ∧ ∃ d ∈ ds, kind P d.p = .cnot) := by
  by_cases hr : rest [t, s, hsh, cnot, some 0] < 0
  · refine iff_of_true ?_ (Or.inl hr)
    unfold cliffordT probs
    simp only
    rw [if_pos hr]
    rfl
  · obtain ⟨P, hP⟩ : ∃ P, probs t s hsh cnot (some 0) = some P := by
      unfold probs
      simp only
      rw [if_neg hr]
      exact ⟨_, rfl⟩
    have key : (∃ d ∈ ds, ∀ s, iter P n s d = none) → cliffordT n t s hsh cnot ds = none := by
      rintro ⟨d, hd, h⟩
      unfold cliffordT
      rw [hP]
      show ((Generate.row n ((addInputs n Graph.empty []).1, (addInputs n Graph.empty []).2.1)).bind fun s => (ds.foldlM (iter P n) s).bind _) = _
      cases Generate.row n ((addInputs n Graph.empty []).1, (addInputs n Graph.empty []).2.1) with
      | none => rfl
      | some s1 =>
        show (ds.foldlM (iter P n) s1).bind _ = _
        rw [foldlM_none _ ds hd h s1]
        rfl
    constructor
    · intro h
      by_contra hh
      push Not at hh
      obtain ⟨-, h2, h3⟩ := hh
      obtain ⟨g, hg, -⟩ := cliffordT_denotes (n := n) hP (ds := ds) (fun hd => by
        by_contra h0
        exact hd (h2 (by omega))) fun d hd hk => by
        by_contra h0
        have hn0 : n ≠ 0 := fun hn => by rw [h2 hn] at hd; simp at hd
        exact h3 (by omega) P hP d hd hk
      rw [hg] at h
      simp at h
    · rintro (h | ⟨rfl, h⟩ | ⟨rfl, Q, hQ, d, hd, hk⟩)
      · exact absurd h hr
      · obtain ⟨d, hd⟩ := List.exists_mem_of_ne_nil ds h
        exact key ⟨d, hd, fun s => rfl⟩
      · rw [hP, Option.some.injEq] at hQ
        subst hQ
        refine key ⟨d, hd, fun s => ?_⟩
        unfold iter
        show (addNode s .Z (d.q0 % 1) 0 .simple).bind _ = none
        cases addNode s .Z (d.q0 % 1) 0 .simple with
        | none => rfl
        | some s1 => simp only [Option.bind_some, hk]; rfl

/-- When a probability is left open, the probabilities in use add up to one; those that are given are used as they are. -/
theorem probs_sum {t s hsh cnot : Option ℚ} {P : Probs} (hP : probs t s hsh cnot (some 0) = some P)
    (h : t = none ∨ s = none ∨ hsh = none ∨ cnot = none) :
    P.t + P.s + P.hsh + P.cnot = 1 ∧ (∀ x, t = some x → P.t = x) ∧ (∀ x, s = some x → P.s = x) ∧ (∀ x, hsh = some x → P.hsh = x) ∧
      (∀ x, cnot = some x → P.cnot = x) ∧ (t = none → 0 ≤ P.t) ∧ (s = none → 0 ≤ P.s) ∧ (hsh = none → 0 ≤ P.hsh) ∧
      (cnot = none → 0 ≤ P.cnot) := by
  unfold probs at hP
  simp only at hP
  split_ifs at hP with hr
  push Not at hr
  have hP' := (Option.some.inj hP).symm
  subst hP'
  have hf : 0 ≤ free [t, s, hsh, cnot, some 0] := by
    unfold free
    refine List.sum_nonneg fun x hx => ?_
    obtain ⟨p, -, rfl⟩ := List.mem_map.mp hx
    split_ifs <;> norm_num
  have hd := div_nonneg hr hf
  refine ⟨?_, fun x hx => by subst hx; rfl, fun x hx => by subst hx; rfl, fun x hx => by subst hx; rfl, fun x hx => by subst hx; rfl,
    fun hx => by rw [hx] at hd ⊢; exact hd, fun hx => by rw [hx] at hd ⊢; exact hd, fun hx => by rw [hx] at hd ⊢; exact hd,
    fun hx => by rw [hx] at hd ⊢; exact hd⟩
  cases t <;> cases s <;> cases hsh <;> cases cnot <;> simp [rest, free] at h ⊢ <;> ring

/-- Gates with probability zero are not drawn: CNOT, HSH and S for every outcome of `random.random()`. -/
theorem kind_zero {P : Probs} {p : ℚ} (hp : p < 1) : (P.cnot = 0 → kind P p ≠ .cnot) ∧ (P.hsh = 0 → kind P p ≠ .hsh) ∧
    (P.s = 0 → kind P p ≠ .s) := by
  unfold kind
  refine ⟨fun h => ?_, fun h => ?_, fun h => ?_⟩ <;> rw [h] <;> split_ifs <;> simp <;> linarith

/-- T is not drawn with probability zero when the outcome is not exactly zero. What is missing is the outcome zero. -/
theorem kind_noT_partial {P : Probs} {p : ℚ} (hp : 0 < p) (h1 : P.t + P.s + P.hsh + P.cnot = 1) (h0 : P.t = 0) : kind P p ≠ .t := by
  unfold kind
  split_ifs with a b c d <;> simp
  push Not at c
  linarith

theorem free0 : free [some 0, none, none, none, some 0] = 3 := by
  have h : (some (0 : ℚ)).isNone = false := rfl
  simp only [free, List.map_cons, List.map_nil, h, Option.isNone_none]
  norm_num

theorem free1 : free [none, none, none, none, some 0] = 4 := by
  have h : (some (0 : ℚ)).isNone = false := rfl
  simp only [free, List.map_cons, List.map_nil, h, Option.isNone_none]
  norm_num

/-- With the outcome zero, `cliffordT(n, depth, p_t=0)` draws a T gate. -/
theorem cliffordT_draws_T : ∃ P, probs (some 0) none none none (some 0) = some P ∧ P.t = 0 ∧ kind P 0 = .t ∧
    Draw.gates P 2 ⟨0, 0, 0⟩ = [.mkT 0] := by
  refine ⟨⟨0, 1/3, 1/3, 1/3, 0⟩, ?_, rfl, ?_, ?_⟩
  · norm_num [probs, rest, free0, free1]
  · norm_num [kind]
  · norm_num [Draw.gates, kind]

/-! ### `CNOT_HAD_PHASE_circuit` -/

theorem drawCtrl_spec {n q : ℕ} {loop : ℕ → ℕ} (k : ℕ) : ∀ {i c : ℕ}, 0 < n → drawCtrl n q loop i k = some c → c < n ∧ c ≠ q := by
  induction k with
  | zero => intro i c _ h; simp [drawCtrl] at h
  | succ k ih =>
    intro i c hn h
    unfold drawCtrl at h
    simp only at h
    split_ifs at h with hc
    · rw [← Option.some.inj h]
      exact ⟨Nat.mod_lt _ hn, hc⟩
    · exact ih hn h

/-- The gates that `CNOT_HAD_PHASE_circuit` may draw. -/
def Allowed (clifford : Bool) (n : ℕ) (g : Gate) : Prop :=
  (∃ q < n, g = .had q) ∨ (∃ q < n, g = if clifford then .mkS q else .mkT q) ∨ ∃ a < n, ∃ b < n, a ≠ b ∧ g = .cnot a b

/-- **C61.** When `CNOT_HAD_PHASE_circuit` returns, the circuit has the given number of qubits and of gates, and only Hadamards, T gates
(S gates if `clifford`) and CNOTs on two different qubits. -/
theorem hadCircuit_valid {n : ℕ} {had t : ℚ} {clifford : Bool} {k : ℕ} {ds : List HDraw} {c : Circuit}
    (h : hadCircuit n had t clifford k ds = some c) :
    c.qubits = n ∧ c.bits = 0 ∧ c.gates.length = ds.length ∧ ∀ g ∈ c.gates, Allowed clifford n g := by
  unfold hadCircuit at h
  cases hm : ds.mapM (hadGate n had t clifford k) with
  | none => rw [hm] at h; simp at h
  | some gs =>
    rw [hm] at h
    have hc : c = { qubits := n, bits := 0, gates := gs } := (Option.some.inj h).symm
    subst hc
    refine ⟨rfl, rfl, ?_⟩
    have key : ∀ (ds : List HDraw) (gs : List Gate), ds.mapM (hadGate n had t clifford k) = some gs →
        gs.length = ds.length ∧ ∀ g ∈ gs, Allowed clifford n g := by
      intro ds
      induction ds with
      | nil =>
        intro gs hg
        have : gs = [] := by simpa using hg.symm
        subst this
        simp
      | cons d r ih =>
        intro gs hg
        rw [List.mapM_cons] at hg
        cases h1 : hadGate n had t clifford k d with
        | none => rw [h1] at hg; simp at hg
        | some g1 =>
          rw [h1] at hg
          cases h2 : r.mapM (hadGate n had t clifford k) with
          | none => rw [h2] at hg; simp at hg
          | some g2 =>
            rw [h2] at hg
            have hgs : gs = g1 :: g2 := (Option.some.inj hg).symm
            subst hgs
            obtain ⟨l1, l2⟩ := ih g2 h2
            refine ⟨by simp [l1], fun g hgm => ?_⟩
            rcases List.mem_cons.mp hgm with rfl | hgm
            · unfold hadGate randrange at h1
              by_cases hn : n = 0
              · rw [if_pos hn] at h1; simp at h1
              · rw [if_neg hn] at h1
                have hq := Nat.mod_lt d.q (show n > 0 by omega)
                simp only [Option.bind_eq_bind, Option.bind_some] at h1
                split_ifs at h1 with c1 c2 c3
                · exact Or.inl ⟨_, hq, (Option.some.inj h1).symm⟩
                · exact Or.inr (Or.inl ⟨_, hq, by rw [if_pos c3]; exact (Option.some.inj h1).symm⟩)
                · exact Or.inr (Or.inl ⟨_, hq, by rw [if_neg c3]; exact (Option.some.inj h1).symm⟩)
                · cases h3 : drawCtrl n (d.q % n) d.loop 0 k with
                  | none => rw [h3] at h1; simp at h1
                  | some ctrl =>
                    rw [h3] at h1
                    obtain ⟨b1, b2⟩ := drawCtrl_spec k (by omega) h3
                    exact Or.inr (Or.inr ⟨_, hq, ctrl, b1, Ne.symm b2, (Option.some.inj h1).symm⟩)
            · exact l2 g hgm
    exact key ds gs hm

theorem drawCtrl_some {n q : ℕ} {loop : ℕ → ℕ} : ∀ (j i : ℕ), loop (i + j) % n ≠ q → ∃ c, drawCtrl n q loop i (j + 1) = some c := by
  intro j
  induction j with
  | zero => intro i h; exact ⟨_, if_pos h⟩
  | succ j ih =>
    intro i h
    unfold drawCtrl
    simp only
    split_ifs with hc
    · exact ⟨_, rfl⟩
    · exact ih (i + 1) (by rw [show i + 1 + j = i + (j + 1) by omega]; exact h)

theorem drawCtrl_none (loop : ℕ → ℕ) (k : ℕ) : ∀ i, drawCtrl 1 0 loop i k = none := by
  induction k with
  | zero => exact fun i => rfl
  | succ k ih =>
    intro i
    unfold drawCtrl
    simp only
    rw [if_neg (by simp [Nat.mod_one])]
    exact ih (i + 1)

/-- An iteration ends as soon as the loop draws another qubit. -/
theorem hadGate_ends {n : ℕ} (hn : 0 < n) (had t : ℚ) (clifford : Bool) {d : HDraw} {j : ℕ} (h : d.loop j % n ≠ d.q % n) :
    ∃ g, hadGate n had t clifford (j + 1) d = some g := by
  unfold hadGate randrange
  rw [if_neg (by omega)]
  simp only [Option.bind_eq_bind, Option.bind_some]
  split_ifs
  · exact ⟨_, rfl⟩
  · exact ⟨_, rfl⟩
  · exact ⟨_, rfl⟩
  · obtain ⟨c, hc⟩ := drawCtrl_some (n := n) (q := d.q % n) (loop := d.loop) j 0 (by rw [Nat.zero_add]; exact h)
    rw [hc]
    exact ⟨_, rfl⟩

/-- With one qubit, an iteration that draws a CNOT never ends. -/
theorem hadGate_hangs {had t : ℚ} (clifford : Bool) {d : HDraw} (h : d.p ≤ 1 - had - t) (ht : 0 ≤ t) (k : ℕ) :
    hadGate 1 had t clifford k d = none := by
  unfold hadGate randrange
  rw [if_neg (by omega)]
  simp only [Option.bind_eq_bind, Option.bind_some, Nat.mod_one, drawCtrl_none, Option.bind_none]
  rw [if_neg (by linarith), if_neg (by linarith)]

/-! ### `cnots` -/

/-- **C61.** What `cnots` returns for all random outcomes: the diagram of a circuit of `ds.length` CNOTs on different qubits, with the list of
outputs reversed, so that output `i` carries qubit `n - 1 - i`. What is missing is the claim itself: that the outputs are in order. -/
theorem cnots_partial {n : ℕ} (hn : 2 ≤ n) (ds : List (ℕ × ℕ)) : ∃ g g0 gs, cnots n ds = some g ∧ gs.length = ds.length ∧
    (∀ a ∈ gs, ∃ c < n, ∃ t < n, c ≠ t ∧ a = Gate.cnot c t) ∧
    Shape g0 n n ∧ (∀ x y, g0.mat x y = semGates gs (basisState n x) y) ∧ g = { g0 with outputs := g0.outputs.reverse } ∧
    ∀ x y, g.mat x y = semGates gs (basisState n x) fun l => y (n - 1 - l) := by
  obtain ⟨g, g0, h1, h2, h3, h4⟩ := cnots_spec hn ds
  refine ⟨g, g0, _, h1, by simp, ?_, by simpa using h2.shape, result_mat h2, h3, h4⟩
  intro a ha
  obtain ⟨d, -, rfl⟩ := List.mem_map.mp ha
  have hc := Nat.mod_lt d.1 (show n > 0 by omega)
  obtain ⟨t1, t2⟩ := tgt_spec hn hc d.2
  exact ⟨_, hc, _, t1, Ne.symm t2, rfl⟩

/-- `cnots(n, 0)` is not the identity: it reverses the qubits. -/
theorem cnots_reversed {n : ℕ} (hn : 2 ≤ n) : ∃ g, cnots n [] = some g ∧ (∀ x y, g.mat x y = basisState n x fun l => y (n - 1 - l)) ∧
    ¬ ∀ x y, g.mat x y = basisState n x y := by
  obtain ⟨g, g0, h1, h2, h3, h4⟩ := cnots_spec hn []
  refine ⟨g, h1, h4, fun h => ?_⟩
  have e := (h4 (fun q => q = 0) (fun q => q = 0)).symm.trans (h _ _)
  have hl : basisState n (fun q => (q = 0 : Bool)) (fun l => (n - 1 - l = 0 : Bool)) = 0 := by
    unfold basisState
    rw [if_neg]
    intro hh
    have := hh 0 (by omega)
    simp at this
    omega
  have hr : basisState n (fun q => (q = 0 : Bool)) (fun q => (q = 0 : Bool)) = 1 := by
    unfold basisState
    rw [if_pos fun _ _ => rfl]
  have e' : basisState n (fun q => (q = 0 : Bool)) (fun l => (n - 1 - l = 0 : Bool)) = basisState n (fun q => (q = 0 : Bool)) (fun q => (q = 0 : Bool)) := e
  rw [hl, hr] at e'
  exact zero_ne_one e'

/-! ### Examples -/

/-- Draws of `cliffordT(2, 4)`: a CNOT, an H·S·H, an S and a T. -/
def exDraws : List Draw := [⟨9/10, 1, 0⟩, ⟨6/10, 0, 0⟩, ⟨3/10, 1, 0⟩, ⟨1/10, 0, 0⟩]

/-- The hypotheses of `cliffordT_denotes` hold for all default probabilities. -/
example : ∃ P, probs none none none none (some 0) = some P ∧ exDraws.flatMap (·.gates P 2) =
      [.cnot 1 0, .had 0, .mkS 0, .had 0, .mkS 1, .mkT 0] ∧
    ∃ g, cliffordT 2 none none none none exDraws = some g ∧ ∀ x y, g.mat x y =
      semGates [.cnot 1 0, .had 0, .mkS 0, .had 0, .mkS 1, .mkT 0] (basisState 2 x) y := by
  have hP : probs none none none none (some 0) = some ⟨1/4, 1/4, 1/4, 1/4, 0⟩ := by norm_num [probs, rest, free0, free1]
  have hg : exDraws.flatMap (·.gates ⟨1/4, 1/4, 1/4, 1/4, 0⟩ 2) = [.cnot 1 0, .had 0, .mkS 0, .had 0, .mkS 1, .mkT 0] := by
    norm_num [exDraws, Draw.gates, kind, tgt]
  obtain ⟨g, h1, -, h2⟩ := cliffordT_denotes (n := 2) hP (ds := exDraws) (fun _ => by omega) fun _ _ _ => le_refl 2
  exact ⟨_, hP, hg, g, h1, fun x y => by rw [h2, hg]⟩

/-- With one qubit and the same draws, `cliffordT` raises. -/
example : cliffordT 1 none none none none exDraws = none :=
  (cliffordT_raises 1 none none none none exDraws).mpr (Or.inr (Or.inr ⟨rfl, ⟨1/4, 1/4, 1/4, 1/4, 0⟩, by norm_num [probs, rest, free0, free1],
    ⟨9/10, 1, 0⟩, by simp [exDraws], by norm_num [kind]⟩))

/-- A circuit of `CNOT_HAD_PHASE_circuit`: a Hadamard, a T and a CNOT after one rejected draw. -/
example : hadCircuit 2 (1/5) (1/5) false 2 [⟨9/10, 1, id⟩, ⟨7/10, 0, id⟩, ⟨1/10, 0, id⟩] =
    some { qubits := 2, bits := 0, gates := [.had 1, .mkT 0, .cnot 0 1] } := by
  norm_num [hadCircuit, hadGate, randrange, drawCtrl]

/-- `cnots(3, 2)` with two draws. -/
example : ∃ g, cnots 3 [(0, 1), (2, 0)] = some g ∧
    ∀ x y, g.mat x y = semGates [.cnot 0 2, .cnot 2 0] (basisState 3 x) fun l => y (2 - l) := by
  obtain ⟨g, g0, h1, -, -, h4⟩ := cnots_spec (n := 3) (by omega) [(0, 1), (2, 0)]
  exact ⟨g, h1, h4⟩

end Props
end PyZX
