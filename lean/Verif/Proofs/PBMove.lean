import Verif.Proofs.OptRounds
import Verif.Model.PhaseBlock

/-!
# Helper lemmas for `phase_block_optimize`: moving a gate past Hadamard gates
-/

namespace PyZX
namespace PhaseBlock

open Optimize
open scoped List

/-- The other type. -/
def flipK : Kd → Kd
  | .z => .x
  | .x => .z
  | .h => .h

/-- The map of a gate, with Hadamard gates before and after it on the qubits that are flagged. -/
noncomputable def op (g : Gate) (c t : ℕ) (bc bt : Bool) (ψ : QState) : QState :=
  let f : QState → QState := fun ψ => if bc then (Gate.had c).sem (g.sem ((Gate.had c).sem ψ)) else g.sem ψ
  if bt then (Gate.had t).sem (f ((Gate.had t).sem ψ)) else f ψ

theorem op_cz_t {c t : ℕ} (h : c ≠ t) (ψ : QState) : op (.cz c t) c t false true ψ = (Gate.cnot c t).sem ψ := by
  simp only [op, if_true, Bool.false_eq_true, if_false]
  rw [had_cz' h, had_had]

theorem op_cz_c {c t : ℕ} (h : c ≠ t) (ψ : QState) : op (.cz c t) c t true false ψ = (Gate.cnot t c).sem ψ := by
  simp only [op, if_true, Bool.false_eq_true, if_false]
  rw [had_cz h, had_had]

theorem op_cnot_t {c t : ℕ} (h : c ≠ t) (ψ : QState) : op (.cnot c t) c t false true ψ = (Gate.cz c t).sem ψ := by
  simp only [op, if_true, Bool.false_eq_true, if_false]
  rw [had_cnot h, had_had]

theorem op_cnot_ct {c t : ℕ} (h : c ≠ t) (ψ : QState) : op (.cnot c t) c t true true ψ = (Gate.cnot t c).sem ψ := by
  simp only [op, if_true]
  rw [comm_hads c t ψ, had_had_cnot h, comm_hads c t, had_had, had_had]

/-- `y` commutes with gates of type `k` on the qubit `r`. -/
def Ok (y : Gate) (r : ℕ) (k : Kd) : Prop := kind y r = none ∨ kind y r = some k

theorem comm_cz {y : Gate} (hy : Placed y) {c t : ℕ} (h : c ≠ t) (hc : Ok y c .z) (ht : Ok y t .z) (ψ : QState) :
    (Gate.cz c t).sem (y.sem ψ) = y.sem ((Gate.cz c t).sem ψ) := by
  refine Optimize.comm (b := .cz c t) hy h ?_ ψ
  rintro q ⟨k, l, h1, h2, h3⟩
  simp only [kind] at h2
  by_cases e : q = c ∨ q = t
  · rw [if_pos e] at h2
    cases h2
    rcases e with rfl | rfl
    · rcases hc with hc | hc <;> rw [hc] at h1 <;> cases h1; simp at h3
    · rcases ht with hc | hc <;> rw [hc] at h1 <;> cases h1; simp at h3
  · rw [if_neg e] at h2; cases h2

theorem comm_cnot {y : Gate} (hy : Placed y) {c t : ℕ} (h : c ≠ t) (hc : Ok y c .z) (ht : Ok y t .x) (ψ : QState) :
    (Gate.cnot c t).sem (y.sem ψ) = y.sem ((Gate.cnot c t).sem ψ) := by
  refine Optimize.comm (b := .cnot c t) hy h ?_ ψ
  rintro q ⟨k, l, h1, h2, h3⟩
  simp only [kind] at h2
  by_cases e : q = c
  · rw [if_pos e] at h2
    cases h2
    subst e
    rcases hc with hc | hc <;> rw [hc] at h1 <;> cases h1; simp at h3
  · rw [if_neg e] at h2
    by_cases e : q = t
    · rw [if_pos e] at h2
      cases h2
      subst e
      rcases ht with hc | hc <;> rw [hc] at h1 <;> cases h1; simp at h3
    · rw [if_neg e] at h2; cases h2

theorem comm_had {y : Gate} (hy : Placed y) {c : ℕ} (hc : kind y c = none) (ψ : QState) :
    (Gate.had c).sem (y.sem ψ) = y.sem ((Gate.had c).sem ψ) := by
  refine Optimize.comm (b := .had c) hy trivial ?_ ψ
  rintro q ⟨k, l, h1, h2, h3⟩
  simp only [kind] at h2
  by_cases e : q = c
  · subst e; rw [hc] at h1; cases h1
  · rw [if_neg e] at h2; cases h2

theorem kind_x {y : Gate} (hy : Stored y) {c : ℕ} (h : kind y c = some .x) : ∃ d, y = .cnot d c ∧ d ≠ c := by
  cases y <;> simp only [Stored] at hy <;> simp only [kind] at h
  case cnot d t =>
    by_cases e : c = d
    · rw [if_pos e] at h; simp at h
    · rw [if_neg e] at h
      by_cases e' : c = t
      · exact ⟨d, by rw [e'], fun e'' => e e''.symm⟩
      · rw [if_neg e'] at h; simp at h
  all_goals split at h <;> simp at h

theorem comm_xcx {y : Gate} (hy : Stored y) {c t : ℕ} (h : c ≠ t) (hc : Ok y c .x) (ht : Ok y t .x) (ψ : QState) :
    (Gate.had c).sem ((Gate.cnot c t).sem ((Gate.had c).sem (y.sem ψ))) = y.sem ((Gate.had c).sem ((Gate.cnot c t).sem ((Gate.had c).sem ψ))) := by
  rcases hc with hc | hc
  · rw [comm_had hy.placed hc, comm_cnot hy.placed h (Or.inl hc) ht, comm_had hy.placed hc]
  · obtain ⟨d, rfl, hd⟩ := kind_x hy hc
    have hdt : d ≠ t := by
      rintro rfl
      rcases ht with ht | ht <;> simp [kind] at ht
    have e : ∀ φ, (Gate.had c).sem ((Gate.cnot d c).sem φ) = (Gate.cz d c).sem ((Gate.had c).sem φ) := fun φ => (had_cz' hd φ).symm
    rw [e, comm_cnot (y := .cz d c) hd h (Or.inr (by simp [kind])) (Or.inl (by simp [kind, hdt.symm, h.symm])), ← had_cnot hd]

/-- The gates that are moved. -/
def IsTwo (g : Gate) (c t : ℕ) : Prop := g = .cz c t ∨ g = .cnot c t

theorem IsTwo.kind_c {g : Gate} {c t : ℕ} (h : IsTwo g c t) : kind g c = some .z := by
  rcases h with rfl | rfl <;> simp [kind]

theorem op_comm {g y : Gate} {c t : ℕ} (hg : IsTwo g c t) (h : c ≠ t) (hy : Stored y) {k : Kd} (hk : kind g t = some k) {bc bt : Bool}
    (hc : Ok y c (if bc then .x else .z)) (ht : Ok y t (if bt then flipK k else k)) (ψ : QState) :
    op g c t bc bt (y.sem ψ) = y.sem (op g c t bc bt ψ) := by
  rcases hg with rfl | rfl
  · simp only [kind, or_true, if_true, Option.some.injEq] at hk
    subst hk
    cases bc <;> cases bt <;> simp only [Bool.false_eq_true, if_false, if_true, flipK] at hc ht
    · exact comm_cz hy.placed h hc ht ψ
    · rw [op_cz_t h, op_cz_t h]
      exact comm_cnot hy.placed h hc ht ψ
    · rw [op_cz_c h, op_cz_c h]
      exact comm_cnot hy.placed h.symm ht hc ψ
    · have e : ∀ φ, op (.cz c t) c t true true φ = (Gate.had t).sem ((Gate.cnot t c).sem ((Gate.had t).sem φ)) := by
        intro φ
        simp only [op, if_true]
        rw [had_cz h, had_had]
      rw [e, e]
      exact comm_xcx hy h.symm ht hc ψ
  · simp only [kind, h.symm, if_true, if_false, Option.some.injEq] at hk
    subst hk
    cases bc <;> cases bt <;> simp only [Bool.false_eq_true, if_false, if_true, flipK] at hc ht
    · exact comm_cnot hy.placed h hc ht ψ
    · rw [op_cnot_t h, op_cnot_t h]
      exact comm_cz hy.placed h hc ht ψ
    · exact comm_xcx hy h hc ht ψ
    · rw [op_cnot_ct h, op_cnot_ct h]
      exact comm_cnot hy.placed h.symm ht hc ψ

theorem op_pass_t (g : Gate) (c t : ℕ) (bc : Bool) (ψ : QState) :
    op g c t bc false ((Gate.had t).sem ψ) = (Gate.had t).sem (op g c t bc true ψ) := by
  simp only [op, if_true, Bool.false_eq_true, if_false]
  rw [had_had]

theorem op_pass_c (g : Gate) (c t : ℕ) (bt : Bool) (ψ : QState) :
    op g c t false bt ((Gate.had c).sem ψ) = (Gate.had c).sem (op g c t true bt ψ) := by
  simp only [op, if_true, Bool.false_eq_true, if_false]
  cases bt
  · simp only [Bool.false_eq_true, if_false]
    rw [had_had]
  · simp only [if_true]
    rw [comm_hads t c ψ, comm_hads c t ((Gate.had c).sem _), had_had]

/-- Whether the Hadamard gate `h` is in the list. -/
def flagged (h : Option SG) (a : List SG) : Bool := a.any fun y => decide (h = some y)

/-- The Hadamard gate of a qubit, and the gates before a gate of type `k` on the qubit. -/
def Way (r : ℕ) (k : Kd) (h : Option SG) (a : List SG) : Prop :=
  ∀ a1 y a2, a = a1 ++ y :: a2 → r ∈ y.gate.qubits → if h = some y then y.gate = .had r ∧ flagged h a2 = false else kind y.gate r = some (if flagged h a2 then flipK k else k)

theorem flagged_cons (h : Option SG) (y : SG) (a : List SG) : flagged h (y :: a) = (decide (h = some y) || flagged h a) := rfl

theorem Way.tail {r : ℕ} {k : Kd} {h : Option SG} {y : SG} {a : List SG} (hw : Way r k h (y :: a)) : Way r k h a :=
  fun a1 z a2 e hz => hw (y :: a1) z a2 (by rw [e]; rfl) hz

/-- A gate can be moved to the front. -/
theorem move {g : SG} {c t : ℕ} (hg : IsTwo g.gate c t) (h : c ≠ t) {k : Kd} (hk : kind g.gate t = some k) {hc ht : Option SG}
    (hdc : ∀ y, hc = some y → y.gate = .had c) (hdt : ∀ y, ht = some y → y.gate = .had t) :
    ∀ {a : List SG}, (∀ y ∈ a, Stored y.gate) → Way c .z hc a → Way t k ht a → ∀ ψ,
      semGates (gs a ++ [g.gate]) ψ = semGates (gs a) (op g.gate c t (flagged hc a) (flagged ht a) ψ)
  | [], _, _, _, ψ => rfl
  | y :: a, hs, wc, wt, ψ => by
    have ih := move hg h hk hdc hdt (a := a) (fun z hz => hs z (by simp [hz])) wc.tail wt.tail (y.gate.sem ψ)
    have e1 : gs (y :: a) = y.gate :: gs a := rfl
    rw [e1, List.cons_append, semGates_cons, semGates_cons, ih]
    congr 1
    have hy := hs y (by simp)
    have c1 := wc [] y a rfl
    have t1 := wt [] y a rfl
    rw [flagged_cons, flagged_cons]
    by_cases ec : hc = some y
    · have yc := hdc y ec
      have et : ht ≠ some y := by
        intro et
        have := hdt y et
        rw [yc] at this
        exact h (Gate.had.inj this)
      rw [if_pos ec] at c1
      have := (c1 (by rw [yc]; simp [Gate.qubits])).2
      simp only [ec, et, decide_true, decide_false, Bool.true_or, Bool.false_or]
      rw [← ec, this, yc, op_pass_c]
    · by_cases et : ht = some y
      · have yt := hdt y et
        rw [if_pos et] at t1
        have := (t1 (by rw [yt]; simp [Gate.qubits])).2
        simp only [ec, et, decide_true, decide_false, Bool.true_or, Bool.false_or]
        rw [← et, this, yt, op_pass_t]
      · rw [if_neg ec] at c1
        rw [if_neg et] at t1
        simp only [ec, et, decide_false, Bool.false_or]
        refine op_comm hg h hy hk ?_ ?_ ψ
        · by_cases m : c ∈ y.gate.qubits
          · right; rw [c1 m]; rfl
          · left
            by_contra hn
            exact m ((mem_qubits_iff hy.placed c).mpr hn)
        · by_cases m : t ∈ y.gate.qubits
          · right; rw [t1 m]
          · left
            by_contra hn
            exact m ((mem_qubits_iff hy.placed t).mpr hn)

end PhaseBlock
end PyZX
