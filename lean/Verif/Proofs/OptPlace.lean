import Verif.Proofs.OptLocal

/-!
# Helper lemmas for `basic_optimization`: placing gates
-/

namespace PyZX
namespace Optimize

open scoped List

/-- Two-qubit gates are on allowed pairs of qubits. -/
def Links (E : ℕ → ℕ → Prop) : Gate → Prop
  | .cz c t => E c t
  | .cnot c t => E c t
  | _ => True

/-- The weight of a gate: its T-count, and `k` if it is a CZ or CNOT. -/
def wg (k : ℕ) (g : Gate) : ℕ := g.tcount + k * match g with
  | .cz _ _ => 1
  | .cnot _ _ => 1
  | _ => 0

/-- The weight of a list of gates. -/
def tc (k : ℕ) (l : List Gate) : ℕ := (l.map (wg k)).sum

variable {k : ℕ}

theorem tc_append (a b : List Gate) : tc k (a ++ b) = tc k a + tc k b := by simp [tc]
theorem tc_cons (a : Gate) (b : List Gate) : tc k (a :: b) = wg k a + tc k b := by simp [tc]
@[simp] theorem tc_nil : tc k [] = 0 := rfl
theorem tc_perm {a b : List Gate} (h : a.Perm b) : tc k a = tc k b := (h.map _).sum_eq
theorem wg_had (t : ℕ) : wg k (.had t) = 0 := by simp [wg, Gate.tcount]
theorem wg_cz (a b : ℕ) : wg k (.cz a b) = k := by simp [wg, Gate.tcount]
theorem wg_cnot (a b : ℕ) : wg k (.cnot a b) = k := by simp [wg, Gate.tcount]
theorem wg_zrot (a : ZCls) (t : ℕ) (p : ℚ) (i : Bool) : wg k (.zrot a t p i) = if p.den > 2 then 1 else 0 := by simp [wg, Gate.tcount]

/-- The gates of a list. -/
abbrev gs (L : List SG) : List Gate := L.map SG.gate

theorem tc_erase {L : List SG} {g : SG} (h : g ∈ L) : tc k (gs L) = tc k (gs (L.erase g)) + wg k g.gate := by
  have := (List.perm_cons_erase h).map SG.gate
  rw [gs, tc_perm this, List.map_cons, tc_cons, Nat.add_comm]

/-! ### The gates that have been placed -/

/-- The circuit `L` fits the lists of gates; the indices are below the counter; the qubits are below `n`. -/
structure Core (n : ℕ) (E : ℕ → ℕ → Prop) (gates : ℕ → List SG) (count : ℕ) (L : List SG) : Prop where
  lin : Lin gates L
  cnt : ∀ x ∈ L, x.idx < count
  rng : ∀ x ∈ L, ∀ q ∈ x.gate.qubits, q < n
  lnk : ∀ x ∈ L, Links E x.gate

variable {n : ℕ} {E : ℕ → ℕ → Prop} {gates gates' : ℕ → List SG} {count : ℕ} {L : List SG}

theorem Core.fresh (h : Core n E gates count L) : count ∉ L.map SG.idx := by
  intro h'
  obtain ⟨x, hx, e⟩ := List.mem_map.mp h'
  exact absurd (h.cnt x hx) (by rw [e]; exact lt_irrefl _)

theorem Core.mono (h : Core n E gates count L) {c' : ℕ} (hc : count ≤ c') : Core n E gates c' L :=
  ⟨h.lin, fun x hx => lt_of_lt_of_le (h.cnt x hx) hc, h.rng, h.lnk⟩

theorem Core.snoc (h : Core n E gates count L) {z : SG} (hz : Stored z.gate) (hi : z.idx ∉ L.map SG.idx) {c' : ℕ} (hc : count ≤ c') (hz' : z.idx < c')
    (hq : ∀ q ∈ z.gate.qubits, q < n) (hl : Links E z.gate)
    (hg : ∀ q, gates' q = if q ∈ z.gate.qubits then gates q ++ [z] else gates q) : Core n E gates' c' (L ++ [z]) := by
  refine ⟨h.lin.snoc hz hi hg, ?_, ?_, ?_⟩ <;> intro x hx <;> rcases List.mem_append.mp hx with hx | hx
  · exact lt_of_lt_of_le (h.cnt x hx) hc
  · rw [List.mem_singleton.mp hx]; exact hz'
  · exact h.rng x hx
  · rw [List.mem_singleton.mp hx]; exact hq
  · exact h.lnk x hx
  · rw [List.mem_singleton.mp hx]; exact hl

theorem Core.erase (h : Core n E gates count L) (g : SG) (hg : ∀ q, gates' q = (gates q).erase g) : Core n E gates' count (L.erase g) :=
  ⟨h.lin.erase g hg, fun x hx => h.cnt x (List.mem_of_mem_erase hx), fun x hx => h.rng x (List.mem_of_mem_erase hx),
    fun x hx => h.lnk x (List.mem_of_mem_erase hx)⟩

theorem idx_erase (h : Lin gates L) {g : SG} (hg : g ∈ L) : g.idx ∉ (L.erase g).map SG.idx := by
  have := h.idx
  rw [((List.perm_cons_erase hg).map SG.idx).nodup_iff, List.map_cons, List.nodup_cons] at this
  exact this.1

/-! ### The available gates of a qubit -/

/-- The available gates are at the end of the list of the qubit, and of one type; at type 2 there may be phase gates before the others. -/
structure AvQ (q : ℕ) (gl av : List SG) (x : Bool) : Prop where
  suf : av <:+ gl
  z : x = false → ∀ y ∈ av, kind y.gate q = some .z
  x : x = true → ∃ zs xs, av = zs ++ xs ∧ (∀ y ∈ zs, isZPhase y = true ∧ kind y.gate q = some .z) ∧ ∀ y ∈ xs, kind y.gate q = some .x

theorem AvQ.nil (q : ℕ) (gl : List SG) (x : Bool) : AvQ q gl [] x := ⟨List.nil_suffix, by simp, fun _ => ⟨[], [], by simp⟩⟩

theorem AvQ.snoc {q : ℕ} {gl av : List SG} {x : Bool} (h : AvQ q gl av x) {y : SG} (hy : kind y.gate q = some (if x then .x else .z)) :
    AvQ q (gl ++ [y]) (av ++ [y]) x := by
  obtain ⟨pre, rfl⟩ := h.suf
  refine ⟨⟨pre, by simp⟩, ?_, ?_⟩
  · intro hx w hw
    rcases List.mem_append.mp hw with hw | hw
    · exact h.z hx w hw
    · rw [List.mem_singleton.mp hw, hy, hx]; rfl
  · intro hx
    obtain ⟨zs, xs, e, h1, h2⟩ := h.x hx
    refine ⟨zs, xs ++ [y], by rw [e, List.append_assoc], h1, ?_⟩
    intro w hw
    rcases List.mem_append.mp hw with hw | hw
    · exact h2 w hw
    · rw [List.mem_singleton.mp hw, hy, hx]; rfl

theorem suffix_erase {gl av : List SG} (h : av <:+ gl) (hn : gl.Nodup) {g : SG} (hg : g ∈ av) : av.erase g <:+ gl.erase g := by
  obtain ⟨pre, rfl⟩ := h
  have : g ∉ pre := fun h' => (List.nodup_append.mp hn).2.2 g h' g hg rfl
  exact ⟨pre, by rw [List.erase_append_right _ this]⟩

theorem AvQ.erase {q : ℕ} {gl av : List SG} {x : Bool} (h : AvQ q gl av x) (hn : gl.Nodup) {g : SG} (hg : g ∈ av) :
    AvQ q (gl.erase g) (av.erase g) x := by
  refine ⟨suffix_erase h.suf hn hg, fun hx y hy => h.z hx y (List.mem_of_mem_erase hy), fun hx => ?_⟩
  obtain ⟨zs, xs, e, h1, h2⟩ := h.x hx
  rw [e]
  by_cases hz : g ∈ zs
  · exact ⟨zs.erase g, xs, List.erase_append_left _ hz, fun y hy => h1 y (List.mem_of_mem_erase hy), h2⟩
  · exact ⟨zs, xs.erase g, List.erase_append_right _ hz, h1, fun y hy => h2 y (List.mem_of_mem_erase hy)⟩

/-- What comes after an available two-qubit gate is of its type. -/
theorem AvQ.after {q : ℕ} {gl av : List SG} {x : Bool} (h : AvQ q gl av x) (hn : gl.Nodup) {g y : SG} (hg : g ∈ av) (hz : x = true → isZPhase g = false)
    (hy : [g, y] <+ gl) : kind y.gate q = some (if x then .x else .z) := by
  obtain ⟨pre, rfl⟩ := h.suf
  have hd := (List.nodup_append.mp hn).2.2
  have hav : [g, y] <+ av := by
    rcases pair_append.mp hy with h1 | ⟨h1, -⟩ | h1
    · exact absurd rfl (hd g (pair_mem h1).1 g hg)
    · exact absurd rfl (hd g h1 g hg)
    · exact h1
  rcases hx : x with _ | _
  · exact h.z hx y (pair_mem hav).2
  · obtain ⟨zs, xs, e, h1, h2⟩ := h.x hx
    have hgz : g ∉ zs := fun h' => by have := (h1 g h').1; rw [hz hx] at this; cases this
    rw [e] at hav
    rcases pair_append.mp hav with h3 | ⟨h3, -⟩ | h3
    · exact absurd (pair_mem h3).1 hgz
    · exact absurd h3 hgz
    · exact h2 y (pair_mem h3).2

theorem AvQ.kindOf {q : ℕ} {gl av : List SG} {x : Bool} (h : AvQ q gl av x) {g : SG} (hg : g ∈ av) (hz : x = true → isZPhase g = false) :
    kind g.gate q = some (if x then .x else .z) := by
  rcases hx : x with _ | _
  · exact h.z hx g hg
  · obtain ⟨zs, xs, e, h1, h2⟩ := h.x hx
    rw [e] at hg
    rcases List.mem_append.mp hg with h3 | h3
    · have := (h1 g h3).1; rw [hz hx] at this; cases this
    · exact h2 g h3

/-! ### The invariant -/

/-- The invariant of the gates that have been placed, for the circuit `L`. -/
structure PInv (n : ℕ) (E : ℕ → ℕ → Prop) (s : State) (L : List SG) : Prop where
  core : Core n E s.gates s.count L
  av : ∀ q, AvQ q (s.gates q) (s.avail q) (s.xtype q)

/-- The gates that are to be placed later, and the permutation, are the same. -/
structure SameL (s s' : State) : Prop where
  hads : s'.hads = s.hads
  nots : s'.nots = s.nots
  zs : s'.zs = s.zs
  perm : s'.perm = s.perm

theorem SameL.refl (s : State) : SameL s s := ⟨rfl, rfl, rfl, rfl⟩
theorem SameL.trans {a b c : State} (h : SameL a b) (h' : SameL b c) : SameL a c :=
  ⟨h'.hads.trans h.hads, h'.nots.trans h.nots, h'.zs.trans h.zs, h'.perm.trans h.perm⟩

variable {s s' : State}

theorem PInv.init (n : ℕ) (E : ℕ → ℕ → Prop) : PInv n E (init n) [] :=
  ⟨⟨Lin.nil, by simp, by simp, by simp⟩, fun q => AvQ.nil q _ _⟩

theorem PInv.mem_lt (h : PInv n E s L) {q : ℕ} {x : SG} (hx : x ∈ s.gates q) : q < n :=
  let h' := (h.core.lin.mem q x).mp hx
  h.core.rng x h'.1 q h'.2

theorem PInv.reset (h : PInv n E s L) (q : ℕ) (x : Bool) : PInv n E (reset s q x) L := by
  refine ⟨h.core, fun r => ?_⟩
  by_cases hr : r = q
  · subst hr
    simp only [Optimize.reset, Function.update_self]
    exact AvQ.nil _ _ _
  · simp only [Optimize.reset, Function.update_of_ne hr]
    exact h.av r

theorem sameL_reset (s : State) (q : ℕ) (x : Bool) : SameL s (reset s q x) := ⟨rfl, rfl, rfl, rfl⟩

/-- `add_hadamard`. -/
theorem PInv.addHad (h : PInv n E s L) {t : ℕ} (ht : t < n) : PInv n E (addHad s t) (L ++ [⟨s.count, .had t⟩]) := by
  refine ⟨h.core.snoc (z := ⟨s.count, .had t⟩) trivial h.core.fresh (Nat.le_succ _) (Nat.lt_succ_self _) (by simp [Gate.qubits, ht]) trivial ?_, fun q => ?_⟩
  · intro q
    simp only [Optimize.addHad, Gate.qubits, List.mem_singleton]
    by_cases hq : q = t
    · subst hq; simp
    · rw [Function.update_of_ne hq, if_neg hq]
  · simp only [Optimize.addHad]
    by_cases hq : q = t
    · subst hq; simp only [Function.update_self]; exact AvQ.nil _ _ _
    · simp only [Function.update_of_ne hq]; exact h.av q

/-- `add_gate` for a phase gate. -/
theorem PInv.addPhase (h : PInv n E s L) {t : ℕ} (ht : t < n) (hx : s.xtype t = false) (p : ℚ) :
    PInv n E (addGate s t (.mkZPhase t p)) (L ++ [⟨s.count, .mkZPhase t p⟩]) := by
  refine ⟨h.core.snoc (z := ⟨s.count, .mkZPhase t p⟩) trivial h.core.fresh (Nat.le_succ _) (Nat.lt_succ_self _) (by simp [Gate.qubits, Gate.mkZPhase, ht]) trivial ?_, fun q => ?_⟩
  · intro q
    simp only [addGate, Gate.qubits, Gate.mkZPhase, List.mem_singleton]
    by_cases hq : q = t
    · subst hq; simp
    · rw [Function.update_of_ne hq, if_neg hq]
  · simp only [addGate]
    by_cases hq : q = t
    · subst hq
      simp only [Function.update_self]
      refine (h.av q).snoc ?_
      rw [hx]; simp [kind, Gate.mkZPhase]
    · simp only [Function.update_of_ne hq]; exact h.av q

/-- Placing a two-qubit gate. -/
theorem PInv.addTwo (h : PInv n E s L) {a b : ℕ} (hab : a ≠ b) (ha : a < n) (hb : b < n) {g : Gate} (hg : Stored g) (hq : g.qubits = [a, b])
    (hl : Links E g) (ka : kind g a = some (if s.xtype a then .x else .z)) (kb : kind g b = some (if s.xtype b then .x else .z)) :
    PInv n E (Optimize.addTwo s a b g) (L ++ [⟨s.count, g⟩]) ∧ SameL s (Optimize.addTwo s a b g) := by
  have e1 : (Optimize.addTwo s a b g).gates = Function.update (Function.update s.gates a (s.gates a ++ [⟨s.count, g⟩])) b (s.gates b ++ [⟨s.count, g⟩]) := by
    simp only [Optimize.addTwo, addGate, Function.update_of_ne hab.symm]
  have e2 : (Optimize.addTwo s a b g).avail = Function.update (Function.update s.avail a (s.avail a ++ [⟨s.count, g⟩])) b (s.avail b ++ [⟨s.count, g⟩]) := by
    simp only [Optimize.addTwo, addGate, Function.update_of_ne hab.symm]
  have e3 : (Optimize.addTwo s a b g).xtype = s.xtype := rfl
  have e4 : (Optimize.addTwo s a b g).count = s.count + 1 := rfl
  refine ⟨⟨?_, fun q => ?_⟩, ⟨rfl, rfl, rfl, rfl⟩⟩
  · rw [e1, e4]
    refine h.core.snoc hg h.core.fresh (Nat.le_succ _) (Nat.lt_succ_self _) ?_ hl ?_
    · intro q hq'
      rw [hq] at hq'
      simp only [List.mem_cons, List.not_mem_nil, or_false] at hq'
      rcases hq' with rfl | rfl <;> assumption
    · intro q
      simp only [hq, List.mem_cons, List.not_mem_nil, or_false]
      by_cases h1 : q = b
      · subst h1; simp
      · rw [Function.update_of_ne h1]
        by_cases h2 : q = a
        · subst h2; simp
        · rw [Function.update_of_ne h2, if_neg (by tauto)]
  · rw [e1, e2, e3]
    by_cases h1 : q = b
    · subst h1; simp only [Function.update_self]; exact (h.av q).snoc kb
    · simp only [Function.update_of_ne h1]
      by_cases h2 : q = a
      · subst h2; simp only [Function.update_self]; exact (h.av q).snoc ka
      · simp only [Function.update_of_ne h2]; exact h.av q

theorem remove_of_mem {l : List SG} {g : SG} (h : g ∈ l) : remove l g = some (l.erase g) := by rw [remove, if_pos h]

theorem PInv.av_mem (h : PInv n E s L) {q : ℕ} {g : SG} (hg : g ∈ s.avail q) : g ∈ s.gates q := (h.av q).suf.subset hg

theorem PInv.mem_of (h : PInv n E s L) {q : ℕ} {g : SG} (hg : g ∈ s.avail q) : g ∈ L := ((h.core.lin.mem q g).mp (h.av_mem hg)).1

/-- An available gate on two qubits can be moved to the end. -/
theorem PInv.toEnd (h : PInv n E s L) {a b : ℕ} {g : SG} (hq : g.gate.qubits = [a, b]) (ha : g ∈ s.avail a) (hb : g ∈ s.avail b)
    (hz : isZPhase g = false) (ψ : QState) : semGates (gs L) ψ = semGates (gs (L.erase g ++ [g])) ψ := by
  refine h.core.lin.last (h.mem_of ha) (fun q y hy hd => ?_) ψ
  have hqm : q = a ∨ q = b := by
    have := ((h.core.lin.mem q g).mp (pair_mem hy).1).2
    rw [hq] at this
    simpa using this
  have hga : g ∈ s.avail q := by rcases hqm with rfl | rfl <;> assumption
  have k1 := (h.av q).after (h.core.lin.nodup q) hga (fun _ => hz) hy
  have k2 := (h.av q).kindOf hga (fun _ => hz)
  obtain ⟨k, l, h1, h2, h3⟩ := hd
  rw [k2] at h1
  rw [k1] at h2
  have e1 := Option.some.inj h1
  have e2 := Option.some.inj h2
  rw [← e1, ← e2] at h3
  rcases h3 with h3 | h3
  · exact h3 rfl
  · revert h3; cases s.xtype q <;> simp

/-- Removing an available gate on two qubits. -/
theorem PInv.cancel (h : PInv n E s L) {a b : ℕ} (hab : a ≠ b) {g : SG} (hq : g.gate.qubits = [a, b]) (ha : g ∈ s.avail a) (hb : g ∈ s.avail b) :
    ∃ s', Optimize.cancel s a b g = some s' ∧ PInv n E s' (L.erase g) ∧ SameL s s' := by
  refine ⟨{ s with
    gates := Function.update (Function.update s.gates a ((s.gates a).erase g)) b ((s.gates b).erase g)
    avail := Function.update (Function.update s.avail a ((s.avail a).erase g)) b ((s.avail b).erase g) },
    by rw [Optimize.cancel, remove_of_mem ha, remove_of_mem (h.av_mem ha), remove_of_mem hb, remove_of_mem (h.av_mem hb)]; rfl, ⟨?_, ?_⟩,
    ⟨rfl, rfl, rfl, rfl⟩⟩
  · refine h.core.erase g fun q => ?_
    simp only
    by_cases h1 : q = b
    · subst h1; simp
    · rw [Function.update_of_ne h1]
      by_cases h2 : q = a
      · subst h2; simp
      · rw [Function.update_of_ne h2, List.erase_of_not_mem]
        intro hm
        have := ((h.core.lin.mem q g).mp hm).2
        rw [hq] at this
        simp only [List.mem_cons, List.not_mem_nil, or_false] at this
        tauto
  · intro q
    simp only
    by_cases h1 : q = b
    · subst h1; simp only [Function.update_self]; exact (h.av q).erase (h.core.lin.nodup q) hb
    · simp only [Function.update_of_ne h1]
      by_cases h2 : q = a
      · subst h2; simp only [Function.update_self]; exact (h.av q).erase (h.core.lin.nodup q) ha
      · simp only [Function.update_of_ne h2]; exact h.av q

theorem Eqv.drop {A : List Gate} {g : Gate} (h : ∀ ψ, g.sem (g.sem ψ) = ψ) {B : List Gate} (e : ∀ ψ, semGates B ψ = semGates (A ++ [g]) ψ) :
    Eqv (B ++ [g]) A := by
  refine .of_eq fun ψ => ?_
  rw [semGates_append, e, semGates_append]
  exact h _

/-- The end of `add_cz`. -/
theorem PInv.addCzPlain (h : PInv n E s L) {a b : ℕ} (hab : a ≠ b) (ha : a < n) (hb : b < n) (hl : E a b) :
    ∃ s' L', Optimize.addCzPlain s a b = some s' ∧ PInv n E s' L' ∧ SameL s s' ∧ Eqv (gs L ++ [.cz a b]) (gs L') ∧ tc k (gs L') ≤ tc k (gs L) + k := by
  have key : ∀ s : State, PInv n E s L → s.xtype a = false → s.xtype b = false →
      ∃ s' L', (match (s.avail a).reverse.find? fun g => decide (g.gate = .cz a b) with
        | some g => if g ∈ s.avail b then Optimize.cancel s a b g else some (Optimize.addTwo s a b (.cz a b))
        | none => some (Optimize.addTwo s a b (.cz a b))) = some s' ∧ PInv n E s' L' ∧ SameL s s' ∧
        Eqv (gs L ++ [.cz a b]) (gs L') ∧ tc k (gs L') ≤ tc k (gs L) + k := by
    intro s h xa xb
    have plain : ∃ s' L', some (Optimize.addTwo s a b (.cz a b)) = some s' ∧ PInv n E s' L' ∧ SameL s s' ∧
        Eqv (gs L ++ [.cz a b]) (gs L') ∧ tc k (gs L') ≤ tc k (gs L) + k := by
      obtain ⟨h1, h2⟩ := h.addTwo hab ha hb (g := .cz a b) hab rfl hl (by rw [xa]; simp [kind]) (by rw [xb]; simp [kind])
      refine ⟨_, _, rfl, h1, h2, by rw [gs, gs, List.map_append]; exact Eqv.refl _, ?_⟩
      rw [gs, List.map_append, tc_append]
      simp [tc, wg_cz, wg_cnot]
    cases hf : (s.avail a).reverse.find? fun g => decide (g.gate = .cz a b) with
    | none => exact plain
    | some g =>
      have hg := List.find?_some hf
      have hm := List.mem_reverse.mp (List.mem_of_find?_eq_some hf)
      simp only [decide_eq_true_eq] at hg
      by_cases hgb : g ∈ s.avail b
      · have hq : g.gate.qubits = [a, b] := by rw [hg]; rfl
        have hz : isZPhase g = false := by simp [isZPhase, hg]
        obtain ⟨s', e, h1, h2⟩ := h.cancel hab hq hm hgb
        refine ⟨s', _, by simp only [if_pos hgb]; exact e, h1, h2, ?_, ?_⟩
        · refine Eqv.drop (fun ψ => cz_cz a b ψ) fun ψ => ?_
          rw [h.toEnd hq hm hgb hz ψ, gs, List.map_append]
          simp [hg]
        · rw [tc_erase (h.mem_of hm)]; omega
      · simp only [if_neg hgb]; exact plain
  unfold Optimize.addCzPlain
  by_cases xa : s.xtype a = true
  · simp only [if_pos xa]
    have x0 : (Optimize.reset s a false).xtype b = s.xtype b := by simp [Optimize.reset, hab.symm]
    by_cases xb : s.xtype b = true
    · simp only [x0, if_pos xb]
      obtain ⟨s', L', h1, h2, h3, h4⟩ := key _ ((h.reset a false).reset b false) (by simp [Optimize.reset, hab]) (by simp [Optimize.reset])
      exact ⟨s', L', h1, h2, ((sameL_reset _ _ _).trans (sameL_reset _ _ _)).trans h3, h4⟩
    · simp only [x0, if_neg xb]
      obtain ⟨s', L', h1, h2, h3, h4⟩ := key _ (h.reset a false) (by simp [Optimize.reset]) (by rw [x0]; simpa using xb)
      exact ⟨s', L', h1, h2, (sameL_reset _ _ _).trans h3, h4⟩
  · simp only [if_neg xa]
    by_cases xb : s.xtype b = true
    · simp only [if_pos xb]
      obtain ⟨s', L', h1, h2, h3, h4⟩ := key _ (h.reset b false) (by simp [Optimize.reset, hab]; simpa using xa) (by simp [Optimize.reset])
      exact ⟨s', L', h1, h2, (sameL_reset _ _ _).trans h3, h4⟩
    · simp only [if_neg xb]
      exact key s h (by simpa using xa) (by simpa using xb)

/-- The end of `add_cnot`. -/
theorem PInv.addCnotPlain (h : PInv n E s L) {c t : ℕ} (hct : c ≠ t) (hc : c < n) (ht : t < n) (hl : E c t) :
    ∃ s' L', Optimize.addCnotPlain s c t = some s' ∧ PInv n E s' L' ∧ SameL s s' ∧ Eqv (gs L ++ [.cnot c t]) (gs L') ∧ tc k (gs L') ≤ tc k (gs L) + k := by
  have key : ∀ s : State, PInv n E s L → s.xtype c = false → s.xtype t = true →
      ∃ s' L', (match (s.avail c).reverse.find? fun g => decide (g.gate = .cnot c t) with
        | some g => if g ∈ s.avail t then Optimize.cancel s c t g else some (Optimize.addTwo s c t (.cnot c t))
        | none => some (Optimize.addTwo s c t (.cnot c t))) = some s' ∧ PInv n E s' L' ∧ SameL s s' ∧
        Eqv (gs L ++ [.cnot c t]) (gs L') ∧ tc k (gs L') ≤ tc k (gs L) + k := by
    intro s h xa xb
    have plain : ∃ s' L', some (Optimize.addTwo s c t (.cnot c t)) = some s' ∧ PInv n E s' L' ∧ SameL s s' ∧
        Eqv (gs L ++ [.cnot c t]) (gs L') ∧ tc k (gs L') ≤ tc k (gs L) + k := by
      obtain ⟨h1, h2⟩ := h.addTwo hct hc ht (g := .cnot c t) hct rfl hl (by rw [xa]; simp [kind]) (by rw [xb]; simp [kind, hct.symm])
      refine ⟨_, _, rfl, h1, h2, by rw [gs, gs, List.map_append]; exact Eqv.refl _, ?_⟩
      rw [gs, List.map_append, tc_append]
      simp [tc, wg_cz, wg_cnot]
    cases hf : (s.avail c).reverse.find? fun g => decide (g.gate = .cnot c t) with
    | none => exact plain
    | some g =>
      have hg := List.find?_some hf
      have hm := List.mem_reverse.mp (List.mem_of_find?_eq_some hf)
      simp only [decide_eq_true_eq] at hg
      by_cases hgb : g ∈ s.avail t
      · have hq : g.gate.qubits = [c, t] := by rw [hg]; rfl
        have hz : isZPhase g = false := by simp [isZPhase, hg]
        obtain ⟨s', e, h1, h2⟩ := h.cancel hct hq hm hgb
        refine ⟨s', _, by simp only [if_pos hgb]; exact e, h1, h2, ?_, ?_⟩
        · refine Eqv.drop (fun ψ => cnot_cnot hct ψ) fun ψ => ?_
          rw [h.toEnd hq hm hgb hz ψ, gs, List.map_append]
          simp [hg]
        · rw [tc_erase (h.mem_of hm)]; omega
      · simp only [if_neg hgb]; exact plain
  unfold Optimize.addCnotPlain
  by_cases xa : s.xtype c = true
  · simp only [if_pos xa]
    have x0 : (Optimize.reset s c false).xtype t = s.xtype t := by simp [Optimize.reset, hct.symm]
    by_cases xb : s.xtype t = true
    · simp only [x0, if_pos xb]
      obtain ⟨s', L', h1, h2, h3, h4⟩ := key _ (h.reset c false) (by simp [Optimize.reset]) (by rw [x0]; exact xb)
      exact ⟨s', L', h1, h2, (sameL_reset _ _ _).trans h3, h4⟩
    · simp only [x0, if_neg xb]
      obtain ⟨s', L', h1, h2, h3, h4⟩ := key _ ((h.reset c false).reset t true) (by simp [Optimize.reset, hct]) (by simp [Optimize.reset])
      exact ⟨s', L', h1, h2, ((sameL_reset _ _ _).trans (sameL_reset _ _ _)).trans h3, h4⟩
  · simp only [if_neg xa]
    by_cases xb : s.xtype t = true
    · simp only [if_pos xb]
      exact key s h (by simpa using xa) xb
    · simp only [if_neg xb]
      obtain ⟨s', L', h1, h2, h3, h4⟩ := key _ (h.reset t true) (by simp [Optimize.reset, hct]; simpa using xa) (by simp [Optimize.reset])
      exact ⟨s', L', h1, h2, (sameL_reset _ _ _).trans h3, h4⟩

end Optimize
end PyZX
