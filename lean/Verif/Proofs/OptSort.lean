import Verif.Proofs.OptPlace3

/-!
# Helper lemmas for `basic_optimization`: putting the gates in order
-/

namespace PyZX
namespace Optimize

open scoped List

/-- The type of the gates that are passed. -/
def kd (x : Bool) : Kd := if x then .x else .z

theorem not_dep {q : ℕ} {a b : Gate} {x : Bool} (ha : kind a q = some (kd x)) (hb : kind b q = some (kd x)) : ¬ DepAt q a b := by
  rintro ⟨k, l, h1, h2, h3⟩
  rw [ha] at h1
  rw [hb] at h2
  cases h1; cases h2
  rcases h3 with h3 | h3
  · exact h3 rfl
  · revert h3; cases x <;> simp [kd]

/-! ### Two-qubit gates -/

theorem isTwo_other {g : SG} (hs : Stored g.gate) (h2 : isTwo g = true) {q r : ℕ} (hq : q ∈ g.gate.qubits) (hr : r ∈ g.gate.qubits) (hne : r ≠ q) :
    r = other g q ∧ ∀ w ∈ g.gate.qubits, w = q ∨ w = r := by
  unfold isTwo at h2
  unfold other
  cases hg : g.gate <;> rw [hg] at h2 hq hr hs <;> simp only [Bool.false_eq_true] at h2 <;>
    simp only [Gate.qubits, List.mem_cons, List.not_mem_nil, or_false] at hq hr ⊢
  all_goals
    refine ⟨?_, fun w hw => ?_⟩
    · rcases hq with rfl | rfl
      · rw [if_pos rfl]
        rcases hr with rfl | rfl
        · exact absurd rfl hne
        · rfl
      · rw [if_neg (Ne.symm hs)]
        rcases hr with rfl | rfl
        · rfl
        · exact absurd rfl hne
    · rcases hq with rfl | rfl <;> rcases hr with rfl | rfl <;> rcases hw with rfl | rfl <;> simp_all

theorem notTwo_qubits {g : SG} (hs : Stored g.gate) (h2 : isTwo g = false) {q : ℕ} (hq : q ∈ g.gate.qubits) : g.gate.qubits = [q] := by
  unfold isTwo at h2
  cases hg : g.gate <;> rw [hg] at h2 hs hq <;> simp only [Stored, Bool.true_eq_false] at hs h2 <;>
    simp only [Gate.qubits, List.mem_singleton] at hq ⊢ <;> rw [hq]

theorem two_qubits {g : SG} (h2 : isTwo g = true) (hs : Stored g.gate) : ∃ a b, a ≠ b ∧ a ∈ g.gate.qubits ∧ b ∈ g.gate.qubits := by
  unfold isTwo at h2
  cases hg : g.gate <;> rw [hg] at h2 hs <;> simp only [Bool.false_eq_true] at h2
  · exact ⟨_, _, hs, by simp [Gate.qubits], by simp [Gate.qubits]⟩
  · exact ⟨_, _, hs, by simp [Gate.qubits], by simp [Gate.qubits]⟩

theorem stored_qubit {g : Gate} (hs : Stored g) : ∃ q, q ∈ g.qubits := by
  apply List.exists_mem_of_ne_nil
  cases g <;> simp only [Stored] at hs <;> simp [Gate.qubits]

theorem kind_isZAt {g : SG} (hs : Stored g.gate) (h2 : isTwo g = true) {q : ℕ} (hq : q ∈ g.gate.qubits) : kind g.gate q = some (kd (!isZAt q g)) := by
  unfold isTwo at h2
  unfold isZAt
  cases hg : g.gate <;> rw [hg] at h2 hs hq <;> simp only [Bool.false_eq_true] at h2 <;>
    simp only [Gate.qubits, List.mem_cons, List.not_mem_nil, or_false] at hq
  · rename_i c t
    simp only [kind]
    by_cases h : q = c
    · simp [h, kd]
    · rcases hq with rfl | rfl
      · exact absurd rfl h
      · simp [h, kd, Ne.symm h]
  · simp [kind, hq, kd]

theorem kind_scan {g : SG} (hs : Stored g.gate) {q : ℕ} (hq : q ∈ g.gate.qubits) {x : Bool}
    (h : ((!x && isZAt q g) || (x && isCnotTo q g)) = true) : kind g.gate q = some (kd x) := by
  cases x with
  | false =>
    simp only [Bool.not_false, Bool.true_and, Bool.false_and, Bool.or_false] at h
    have h2 : isTwo g = true := by
      unfold isZAt at h
      unfold isTwo
      cases hg : g.gate <;> rw [hg] at h <;> simp at h ⊢
    rw [kind_isZAt hs h2 hq, h]; rfl
  | true =>
    simp only [Bool.not_true, Bool.true_and, Bool.false_and, Bool.false_or] at h
    unfold isCnotTo at h
    cases hg : g.gate <;> rw [hg] at h hs <;> simp at h
    subst h
    simp only [Stored] at hs
    simp [kind, Ne.symm hs, kd]

theorem kind_phase {g : SG} (hs : Stored g.gate) {q : ℕ} (hq : q ∈ g.gate.qubits) {x : Bool}
    (h : ((!x && isZPhase g) || (x && isXPhase g)) = true) : kind g.gate q = some (kd x) ∧ isTwo g = false := by
  cases x with
  | false =>
    simp only [Bool.not_false, Bool.true_and, Bool.false_and, Bool.or_false] at h
    obtain ⟨a, t, p, i, hg⟩ := isZPhase_gate h
    rw [hg] at hq
    simp only [Gate.qubits, List.mem_singleton] at hq
    exact ⟨by simp [hg, kind, hq, kd], by simp [isTwo, hg]⟩
  | true =>
    simp only [Bool.not_true, Bool.true_and, Bool.false_and, Bool.false_or] at h
    unfold isXPhase at h
    cases hg : g.gate <;> rw [hg] at h hs <;> simp at h
    exact hs.elim

/-! ### The invariant of a visit -/

/-- The invariant of the visit of the qubit `q`: `L0` is the circuit, `L` what is left of it, `kept` and `l` the gates of `q` that have been
passed and that are to come, `D` are the qubits visited before. -/
structure VInv (D : ℕ → Prop) (q : ℕ) (L0 kept l : List SG) (s : TopState) (L : List SG) : Prop where
  lin : Lin (Function.update s.gates q (kept ++ l)) L
  perm : (s.out ++ L).Perm L0
  sem : ∀ ψ, semGates (gs L0) ψ = semGates (gs (s.out ++ L)) ψ
  nd : s.avail.Nodup
  av : ∀ i ∈ s.avail, ∃ g ∈ L, g.idx = i ∧ ∃ r ∈ g.gate.qubits, (D r ∨ (r = q ∧ g ∈ kept)) ∧
    ∀ y, [y, g] <+ Function.update s.gates q (kept ++ l) r → ¬ DepAt r y.gate g.gate

variable {D : ℕ → Prop} {q : ℕ} {L0 kept l : List SG} {s s' : TopState} {L : List SG} {g : SG}

theorem VInv.head (h : VInv D q L0 kept (g :: l) s L) : g ∈ L ∧ q ∈ g.gate.qubits ∧ Stored g.gate ∧ g ∉ kept ∧ g ∉ l := by
  have hm : g ∈ Function.update s.gates q (kept ++ g :: l) q := by simp
  have h1 := (h.lin.mem q g).mp hm
  have hn := h.lin.nodup q
  rw [Function.update_self, List.nodup_append] at hn
  exact ⟨h1.1, h1.2, h.lin.stored g h1.1, fun hk => hn.2.2 g hk g (by simp) rfl, (List.nodup_cons.mp hn.2.1).1⟩

theorem VInv.before (h : VInv D q L0 kept (g :: l) s L) {y : SG} (hy : [y, g] <+ Function.update s.gates q (kept ++ g :: l) q) : y ∈ kept := by
  obtain ⟨-, -, -, h1, h2⟩ := h.head
  rw [Function.update_self] at hy
  rcases pair_append.mp hy with h3 | ⟨h3, -⟩ | h3
  · exact absurd (pair_mem h3).2 h1
  · exact h3
  · rcases pair_cons.mp h3 with ⟨-, h4⟩ | h4
    · exact absurd h4 h2
    · exact absurd (pair_mem h4).2 h2

theorem idx_inj {gates : ℕ → List SG} (h : Lin gates L) {a b : SG} (ha : a ∈ L) (hb : b ∈ L) (e : a.idx = b.idx) : a = b :=
  List.inj_on_of_nodup_map h.idx ha hb e

/-- Put out a gate that commutes with what is left before it. -/
theorem VInv.put (h : VInv D q L0 kept (g :: l) s L) {gates' : ℕ → List SG} {av : List ℕ}
    (hg : ∀ r, Function.update gates' q (kept ++ l) r = (Function.update s.gates q (kept ++ g :: l) r).erase g) (hav : av.Sublist s.avail) (hi : g.idx ∉ av)
    (hc : ∀ r y, [y, g] <+ Function.update s.gates q (kept ++ g :: l) r → ¬ DepAt r y.gate g.gate) :
    VInv D q L0 kept l ⟨gates', av, s.out ++ [g]⟩ (L.erase g) := by
  obtain ⟨h1, h2, h3, h4, h5⟩ := h.head
  refine ⟨h.lin.erase g hg, ?_, ?_, h.nd.sublist hav, ?_⟩
  · simp only [List.append_assoc, List.singleton_append]
    exact ((List.perm_cons_erase h1).symm.append_left _).trans h.perm
  · intro ψ
    rw [h.sem, gs_append, gs_append, gs_append, semGates_append, semGates_append, semGates_append, h.lin.first h1 hc]
    rfl
  · intro i hi'
    obtain ⟨g', a1, a2, r, a3, a4, a5⟩ := h.av i (hav.subset hi')
    have hne : g' ≠ g := fun e => hi (by rw [← e, a2]; exact hi')
    refine ⟨g', (h.lin.lnodup.mem_erase_iff).mpr ⟨hne, a1⟩, a2, r, a3, a4, fun y hy => a5 y ?_⟩
    simp only at hy
    rw [hg] at hy
    exact hy.trans List.erase_sublist

/-- Put out a gate on one qubit. -/
theorem VInv.one (h : VInv D q L0 kept (g :: l) s L) (hD : ¬ D q) (h2 : isTwo g = false) (hc : ∀ y ∈ kept, ¬ DepAt q y.gate g.gate) :
    VInv D q L0 kept l { s with out := s.out ++ [g] } (L.erase g) := by
  obtain ⟨h1, hq, h3, h4, h5⟩ := h.head
  have hq1 := notTwo_qubits h3 h2 hq
  have only : ∀ r, r ≠ q → g ∉ s.gates r := by
    intro r hr hm
    have : g ∈ Function.update s.gates q (kept ++ g :: l) r := by rw [Function.update_of_ne hr]; exact hm
    have := ((h.lin.mem r g).mp this).2
    rw [hq1, List.mem_singleton] at this
    exact hr this
  refine h.put (gates' := s.gates) (av := s.avail) ?_ (List.Sublist.refl _) ?_ ?_
  · intro r
    by_cases hr : r = q
    · subst hr
      rw [Function.update_self, Function.update_self, List.erase_append_right _ h4, List.erase_cons_head]
    · rw [Function.update_of_ne hr, Function.update_of_ne hr, List.erase_of_not_mem (only r hr)]
  · intro hi
    obtain ⟨g', a1, a2, r, a3, a4, -⟩ := h.av _ hi
    have e := idx_inj h.lin a1 h1 a2
    subst e
    rw [hq1, List.mem_singleton] at a3
    subst a3
    rcases a4 with a4 | a4
    · exact hD a4
    · exact h4 a4.2
  · intro r y hy
    by_cases hr : r = q
    · subst hr; exact hc y (h.before hy)
    · rw [Function.update_of_ne hr] at hy
      exact absurd (pair_mem hy).2 (only r hr)

/-- Put out a two-qubit gate that has been seen on the other qubit. -/
theorem VInv.two (h : VInv D q L0 kept (g :: l) s L) (hD : ¬ D q) (h2 : isTwo g = true) (hi : g.idx ∈ s.avail) (hc : ∀ y ∈ kept, ¬ DepAt q y.gate g.gate) :
    ∃ s', emitTwo s q g = some s' ∧ s'.out = s.out ++ [g] ∧ VInv D q L0 kept l s' (L.erase g) := by
  obtain ⟨h1, hq, h3, h4, h5⟩ := h.head
  obtain ⟨g', a1, a2, r, a3, a4, a5⟩ := h.av _ hi
  have e := idx_inj h.lin a1 h1 a2
  subst e
  have hr : r ≠ q := by
    rintro rfl
    rcases a4 with a4 | a4
    · exact hD a4
    · exact h4 a4.2
  obtain ⟨ho, hall⟩ := isTwo_other h3 h2 hq a3 hr
  have hm : g' ∈ s.gates r := by
    have := (h.lin.mem r g').mpr ⟨h1, a3⟩
    rwa [Function.update_of_ne hr] at this
  refine ⟨_, by rw [emitTwo, ← ho, remove_of_mem hm]; rfl, rfl, ?_⟩
  refine h.put ?_ List.erase_sublist (fun h' => (h.nd.mem_erase_iff.mp h').1 rfl) ?_
  · intro w
    by_cases hw : w = q
    · subst hw
      rw [Function.update_self, Function.update_self, List.erase_append_right _ h4, List.erase_cons_head]
    · rw [Function.update_of_ne hw, Function.update_of_ne hw]
      by_cases hw2 : w = r
      · subst hw2; rw [Function.update_self]
      · rw [Function.update_of_ne hw2, List.erase_of_not_mem]
        intro hm'
        have : g' ∈ Function.update s.gates q (kept ++ g' :: l) w := by rw [Function.update_of_ne hw]; exact hm'
        rcases hall w ((h.lin.mem w g').mp this).2 with e | e
        · exact hw e
        · exact hw2 e
  · intro w y hy
    rcases hall w ((h.lin.mem w g').mp (pair_mem hy).2).2 with e | e
    · rw [e] at hy ⊢; exact hc y (h.before hy)
    · rw [e] at hy ⊢; exact a5 y hy

/-- Pass a two-qubit gate. -/
theorem VInv.pass (h : VInv D q L0 kept (g :: l) s L) (hi : g.idx ∉ s.avail) (hc : ∀ y ∈ kept, ¬ DepAt q y.gate g.gate) :
    VInv D q L0 (kept ++ [g]) l { s with avail := g.idx :: s.avail } L := by
  obtain ⟨h1, hq, h3, h4, h5⟩ := h.head
  have e : kept ++ [g] ++ l = kept ++ g :: l := by simp
  refine ⟨by rw [e]; exact h.lin, h.perm, h.sem, List.nodup_cons.mpr ⟨hi, h.nd⟩, ?_⟩
  rw [e]
  intro i hi'
  rcases List.mem_cons.mp hi' with rfl | hi'
  · refine ⟨g, h1, rfl, q, hq, Or.inr ⟨rfl, by simp⟩, fun y hy => hc y (h.before hy)⟩
  · obtain ⟨g', a1, a2, r, a3, a4, a5⟩ := h.av i hi'
    refine ⟨g', a1, a2, r, a3, ?_, a5⟩
    rcases a4 with a4 | ⟨a4, a6⟩
    · exact Or.inl a4
    · exact Or.inr ⟨a4, by simp [a6]⟩

/-- Stop. -/
theorem VInv.stop (h : VInv D q L0 kept l s L) : VInv D q L0 (kept ++ l) [] s L := by
  refine ⟨by rw [List.append_nil]; exact h.lin, h.perm, h.sem, h.nd, ?_⟩
  rw [List.append_nil]
  intro i hi
  obtain ⟨g', a1, a2, r, a3, a4, a5⟩ := h.av i hi
  refine ⟨g', a1, a2, r, a3, ?_, a5⟩
  rcases a4 with a4 | ⟨a4, a6⟩
  · exact Or.inl a4
  · exact Or.inr ⟨a4, by simp [a6]⟩

/-- The loop over the gates behind a two-qubit gate. -/
theorem VInv.scan (hD : ¬ D q) {x : Bool} : ∀ {l kept : List SG} {s : TopState} {L : List SG}, VInv D q L0 kept l s L →
    (∀ y ∈ kept, kind y.gate q = some (kd x)) → ∃ l' s' L', scan q x l s = some (l', s') ∧ VInv D q L0 (kept ++ l') [] s' L'
  | [], kept, s, L, h, hk => ⟨[], s, L, rfl, by simpa using h⟩
  | g :: r, kept, s, L, h, hk => by
    obtain ⟨h1, hq, h3, h4, h5⟩ := h.head
    rw [Optimize.scan]
    by_cases c1 : ((!x && isZPhase g) || (x && isXPhase g)) = true
    · rw [if_pos c1]
      obtain ⟨k1, k2⟩ := kind_phase h3 hq c1
      exact (h.one hD k2 fun y hy => not_dep (hk y hy) k1).scan hD hk
    · rw [if_neg c1]
      by_cases c2 : (!isTwo g) = true
      · rw [if_pos c2]
        exact ⟨_, _, L, rfl, h.stop⟩
      · rw [if_neg c2]
        have c2' : isTwo g = true := by simpa using c2
        by_cases c3 : ((!x && isZAt q g) || (x && isCnotTo q g)) = true
        · rw [if_pos c3]
          have k1 := kind_scan h3 hq c3
          have hc : ∀ y ∈ kept, ¬ DepAt q y.gate g.gate := fun y hy => not_dep (hk y hy) k1
          by_cases c4 : g.idx ∈ s.avail
          · rw [if_pos c4]
            obtain ⟨s', e, -, h'⟩ := h.two hD c2' c4 hc
            rw [e]
            exact h'.scan hD hk
          · rw [if_neg c4]
            obtain ⟨l', s', L', e, h'⟩ := (h.pass c4 hc).scan hD (x := x) (by
              intro y hy
              rcases List.mem_append.mp hy with hy | hy
              · exact hk y hy
              · rw [List.mem_singleton.mp hy]; exact k1)
            rw [e]
            exact ⟨_, _, L', rfl, by simpa using h'⟩
        · rw [if_neg c3]
          exact ⟨_, _, L, rfl, h.stop⟩

/-- The visit of a qubit. -/
theorem VInv.visit (hD : ¬ D q) : ∀ {l : List SG} {s : TopState} {L : List SG}, VInv D q L0 [] l s L →
    ∃ l' s' L', visit q l s = some (l', s') ∧ VInv D q L0 l' [] s' L'
  | [], s, L, h => ⟨[], s, L, rfl, h⟩
  | g :: r, s, L, h => by
    obtain ⟨h1, hq, h3, h4, h5⟩ := h.head
    rw [Optimize.visit]
    by_cases c2 : (!isTwo g) = true
    · rw [if_pos c2]
      exact (h.one hD (by simpa using c2) (by simp)).visit hD
    · rw [if_neg c2]
      have c2' : isTwo g = true := by simpa using c2
      by_cases c4 : g.idx ∈ s.avail
      · rw [if_pos c4]
        obtain ⟨s', e, -, h'⟩ := h.two hD c2' c4 (by simp)
        rw [e]
        exact h'.visit hD
      · rw [if_neg c4]
        obtain ⟨l', s', L', e, h'⟩ := (h.pass c4 (by simp)).scan hD (x := !isZAt q g) (by
          intro y hy
          rw [List.nil_append, List.mem_singleton] at hy
          rw [hy]; exact kind_isZAt h3 c2' hq)
        rw [e]
        exact ⟨_, _, L', rfl, by simpa using h'⟩

/-- The invariant between visits. -/
structure SInv (D : ℕ → Prop) (L0 : List SG) (s : TopState) (L : List SG) : Prop where
  lin : Lin s.gates L
  perm : (s.out ++ L).Perm L0
  sem : ∀ ψ, semGates (gs L0) ψ = semGates (gs (s.out ++ L)) ψ
  nd : s.avail.Nodup
  av : ∀ i ∈ s.avail, ∃ g ∈ L, g.idx = i ∧ ∃ r ∈ g.gate.qubits, D r ∧ ∀ y, [y, g] <+ s.gates r → ¬ DepAt r y.gate g.gate

theorem SInv.visitQubit (h : SInv D L0 s L) (hD : ¬ D q) : ∃ s' L', visitQubit s q = some s' ∧ SInv (fun r => D r ∨ r = q) L0 s' L' := by
  have e0 : Function.update s.gates q ([] ++ s.gates q) = s.gates := by simp
  have hv : VInv D q L0 [] (s.gates q) s L := by
    refine ⟨by rw [e0]; exact h.lin, h.perm, h.sem, h.nd, ?_⟩
    rw [e0]
    intro i hi
    obtain ⟨g', a1, a2, r, a3, a4, a5⟩ := h.av i hi
    exact ⟨g', a1, a2, r, a3, Or.inl a4, a5⟩
  obtain ⟨l', s', L', e, h'⟩ := hv.visit hD
  refine ⟨_, L', by rw [Optimize.visitQubit, e]; rfl, ?_⟩
  have e1 : l' ++ [] = l' := List.append_nil _
  refine ⟨by have := h'.lin; rwa [e1] at this, h'.perm, h'.sem, h'.nd, ?_⟩
  intro i hi
  obtain ⟨g', a1, a2, r, a3, a4, a5⟩ := h'.av i hi
  rw [e1] at a5
  exact ⟨g', a1, a2, r, a3, by tauto, a5⟩

theorem SInv.sweep : ∀ {qs : List ℕ} {D : ℕ → Prop} {s : TopState} {L : List SG}, SInv D L0 s L → qs.Nodup → (∀ q ∈ qs, ¬ D q) →
    ∃ s' L' D', qs.foldlM Optimize.visitQubit s = some s' ∧ SInv D' L0 s' L'
  | [], D, s, L, h, _, _ => ⟨s, L, D, rfl, h⟩
  | q :: qs, D, s, L, h, hn, hD => by
    obtain ⟨s1, L1, e1, h1⟩ := h.visitQubit (hD q (by simp))
    obtain ⟨hq, hn'⟩ := List.nodup_cons.mp hn
    obtain ⟨s2, L2, D2, e2, h2⟩ := h1.sweep hn' (by
      rintro r hr (h' | h')
      · exact hD r (by simp [hr]) h'
      · exact hq (h' ▸ hr))
    exact ⟨s2, L2, D2, by rw [List.foldlM_cons, e1]; exact e2, h2⟩

/-! ### Progress -/

/-- `g` commutes with what comes before it on the qubit. -/
def FreeIn (q : ℕ) (l : List SG) (g : SG) : Prop := g ∈ l ∧ ∀ y, [y, g] <+ l → ¬ DepAt q y.gate g.gate

theorem emitTwo_out (h : emitTwo s q g = some s') : s'.out = s.out ++ [g] := by
  unfold emitTwo at h
  cases hr : remove (s.gates (other g q)) g with
  | none => rw [hr] at h; simp at h
  | some l => rw [hr] at h; simp only [Option.bind_eq_bind, Option.bind_some, Option.pure_def, Option.some.injEq] at h; rw [← h]

theorem scan_le (x : Bool) : ∀ {l l' : List SG} {s s' : TopState}, scan q x l s = some (l', s') → s.out.length ≤ s'.out.length
  | [], l', s, s', h => by simp only [scan, Option.some.injEq, Prod.mk.injEq] at h; rw [h.2]
  | g :: r, l', s, s', h => by
    rw [scan] at h
    by_cases c1 : ((!x && isZPhase g) || (x && isXPhase g)) = true
    · rw [if_pos c1] at h
      have := scan_le x h
      simp only [List.length_append, List.length_singleton] at this
      omega
    · rw [if_neg c1] at h
      by_cases c2 : (!isTwo g) = true
      · rw [if_pos c2] at h; cases h; exact le_rfl
      · rw [if_neg c2] at h
        by_cases c3 : ((!x && isZAt q g) || (x && isCnotTo q g)) = true
        · rw [if_pos c3] at h
          by_cases c4 : g.idx ∈ s.avail
          · rw [if_pos c4] at h
            obtain ⟨s1, e1, h⟩ := Option.bind_eq_some_iff.mp h
            have := scan_le x h
            rw [emitTwo_out e1] at this
            simp only [List.length_append, List.length_singleton] at this
            omega
          · rw [if_neg c4] at h
            obtain ⟨p, e1, h⟩ := Option.map_eq_some_iff.mp h
            cases h
            exact scan_le x (s := { s with avail := g.idx :: s.avail }) e1
        · rw [if_neg c3] at h; cases h; exact le_rfl

/-- A scan that puts out no gate. -/
theorem scan_stay (x : Bool) : ∀ {l l' : List SG} {s s' : TopState}, scan q x l s = some (l', s') → s'.out.length = s.out.length →
    (∀ y ∈ l, Stored y.gate ∧ q ∈ y.gate.qubits) → l.Nodup →
    l' = l ∧ s'.gates = s.gates ∧ (∀ i ∈ s.avail, i ∈ s'.avail) ∧
      ∀ g ∈ l, kind g.gate q = some (kd x) → (∀ y, [y, g] <+ l → kind y.gate q = some (kd x)) → isTwo g = true ∧ g.idx ∉ s.avail ∧ g.idx ∈ s'.avail
  | [], l', s, s', h, _, _, _ => by
    simp only [scan, Option.some.injEq, Prod.mk.injEq] at h
    obtain ⟨rfl, rfl⟩ := h
    exact ⟨rfl, rfl, fun _ h => h, by simp⟩
  | g :: r, l', s, s', h, ho, hst, hn => by
    obtain ⟨hgs, hgq⟩ := hst g (by simp)
    obtain ⟨hgr, hnr⟩ := List.nodup_cons.mp hn
    rw [scan] at h
    by_cases c1 : ((!x && isZPhase g) || (x && isXPhase g)) = true
    · rw [if_pos c1] at h
      have := scan_le x h
      simp only [List.length_append, List.length_singleton] at this
      omega
    · rw [if_neg c1] at h
      -- a gate of the type is a two-qubit gate
      have hty : kind g.gate q = some (kd x) → isTwo g = true ∧ ((!x && isZAt q g) || (x && isCnotTo q g)) = true := by
        intro hk
        by_cases c2 : isTwo g = true
        · refine ⟨c2, ?_⟩
          have hk' := kind_isZAt hgs c2 hgq
          rw [hk] at hk'
          cases x with
          | false =>
            have : isZAt q g = true := by
              by_contra hz
              simp only [Bool.not_eq_true] at hz
              rw [hz] at hk'
              simp [kd] at hk'
            simp [this]
          | true =>
            have hz : isZAt q g = false := by
              by_contra hz
              simp only [Bool.not_eq_false] at hz
              rw [hz] at hk'
              simp [kd] at hk'
            have : isCnotTo q g = true := by
              unfold isTwo at c2
              unfold isZAt at hz
              unfold isCnotTo
              cases hg : g.gate <;> rw [hg] at c2 hz hgq <;> simp at c2 hz
              simp only [Gate.qubits, List.mem_cons, List.not_mem_nil, or_false] at hgq
              rcases hgq with hgq | hgq
              · exact absurd hgq.symm hz
              · simp [hgq]
            simp [this]
        · exfalso
          unfold isTwo at c2
          unfold isZPhase isXPhase at c1
          cases hg : g.gate <;> rw [hg] at c2 c1 hk hgs <;> simp only [Stored] at hgs <;> simp at c2
          · cases x with
            | false => simp at c1
            | true => simp only [kind] at hk; split at hk <;> simp [kd] at hk
          · cases x <;> (simp only [kind] at hk; split at hk <;> simp [kd] at hk)
      have hstop : ¬ kind g.gate q = some (kd x) → ∀ y ∈ g :: r, kind y.gate q = some (kd x) → (∀ z, [z, y] <+ g :: r → kind z.gate q = some (kd x)) → False := by
        intro hk y hy hky hb
        rcases List.mem_cons.mp hy with rfl | hy
        · exact hk hky
        · exact hk (hb g (pair_cons.mpr (Or.inl ⟨rfl, hy⟩)))
      by_cases c2 : (!isTwo g) = true
      · rw [if_pos c2] at h
        cases h
        refine ⟨rfl, rfl, fun _ h => h, fun y hy hky hb => (hstop (fun hk => ?_) y hy hky hb).elim⟩
        have := (hty hk).1
        simp [this] at c2
      · rw [if_neg c2] at h
        by_cases c3 : ((!x && isZAt q g) || (x && isCnotTo q g)) = true
        · rw [if_pos c3] at h
          by_cases c4 : g.idx ∈ s.avail
          · rw [if_pos c4] at h
            obtain ⟨s1, e1, h⟩ := Option.bind_eq_some_iff.mp h
            have := scan_le x h
            rw [emitTwo_out e1] at this
            simp only [List.length_append, List.length_singleton] at this
            omega
          · rw [if_neg c4] at h
            obtain ⟨p, e1, h⟩ := Option.map_eq_some_iff.mp h
            cases h
            obtain ⟨k1, k2, k3, k4⟩ := scan_stay x (s := { s with avail := g.idx :: s.avail }) e1 ho (fun y hy => hst y (by simp [hy])) hnr
            refine ⟨by rw [k1], k2, fun i hi => k3 i (by simp [hi]), fun y hy hky hb => ?_⟩
            rcases List.mem_cons.mp hy with rfl | hy
            · exact ⟨(hty hky).1, c4, k3 _ (by simp)⟩
            · obtain ⟨m1, m2, m3⟩ := k4 y hy hky fun z hz => hb z (hz.trans (List.sublist_cons_self _ _))
              exact ⟨m1, fun h' => m2 (by simp [h']), m3⟩
        · rw [if_neg c3] at h
          cases h
          exact ⟨rfl, rfl, fun _ h => h, fun y hy hky hb => (hstop (fun hk => c3 (hty hk).2) y hy hky hb).elim⟩

theorem visit_le : ∀ {l l' : List SG} {s s' : TopState}, visit q l s = some (l', s') → s.out.length ≤ s'.out.length
  | [], l', s, s', h => by simp only [visit, Option.some.injEq, Prod.mk.injEq] at h; rw [h.2]
  | g :: r, l', s, s', h => by
    rw [visit] at h
    by_cases c2 : (!isTwo g) = true
    · rw [if_pos c2] at h
      have := visit_le h
      simp only [List.length_append, List.length_singleton] at this
      omega
    · rw [if_neg c2] at h
      by_cases c4 : g.idx ∈ s.avail
      · rw [if_pos c4] at h
        obtain ⟨s1, e1, h⟩ := Option.bind_eq_some_iff.mp h
        have := visit_le h
        rw [emitTwo_out e1] at this
        simp only [List.length_append, List.length_singleton] at this
        omega
      · rw [if_neg c4] at h
        obtain ⟨p, e1, h⟩ := Option.map_eq_some_iff.mp h
        cases h
        exact scan_le _ (s := { s with avail := g.idx :: s.avail }) e1

/-- A visit that puts out no gate. -/
theorem visit_stay {l l' : List SG} (h : visit q l s = some (l', s')) (ho : s'.out.length = s.out.length)
    (hst : ∀ y ∈ l, Stored y.gate ∧ q ∈ y.gate.qubits) (hn : l.Nodup) :
    l' = l ∧ s'.gates = s.gates ∧ (∀ i ∈ s.avail, i ∈ s'.avail) ∧ ∀ g, FreeIn q l g → isTwo g = true ∧ g.idx ∉ s.avail ∧ g.idx ∈ s'.avail := by
  rcases l with _ | ⟨g, r⟩
  · simp only [visit, Option.some.injEq, Prod.mk.injEq] at h
    obtain ⟨rfl, rfl⟩ := h
    exact ⟨rfl, rfl, fun _ h => h, fun g hg => by simp [FreeIn] at hg⟩
  · obtain ⟨hgs, hgq⟩ := hst g (by simp)
    obtain ⟨hgr, hnr⟩ := List.nodup_cons.mp hn
    rw [visit] at h
    by_cases c2 : (!isTwo g) = true
    · rw [if_pos c2] at h
      have := visit_le h
      simp only [List.length_append, List.length_singleton] at this
      omega
    · rw [if_neg c2] at h
      have c2' : isTwo g = true := by simpa using c2
      by_cases c4 : g.idx ∈ s.avail
      · rw [if_pos c4] at h
        obtain ⟨s1, e1, h⟩ := Option.bind_eq_some_iff.mp h
        have := visit_le h
        rw [emitTwo_out e1] at this
        simp only [List.length_append, List.length_singleton] at this
        omega
      · rw [if_neg c4] at h
        obtain ⟨p, e1, h⟩ := Option.map_eq_some_iff.mp h
        cases h
        obtain ⟨k1, k2, k3, k4⟩ := scan_stay _ (s := { s with avail := g.idx :: s.avail }) e1 ho (fun y hy => hst y (by simp [hy])) hnr
        refine ⟨by rw [k1], k2, fun i hi => k3 i (by simp [hi]), fun y hy => ?_⟩
        obtain ⟨hy, hb⟩ := hy
        have kg := kind_isZAt hgs c2' hgq
        have knd : ∀ {z y : SG}, Stored z.gate → q ∈ z.gate.qubits → kind y.gate q = some (kd (!isZAt q g)) → ¬ DepAt q z.gate y.gate →
            kind z.gate q = some (kd (!isZAt q g)) := by
          intro z y hz hzq hky hd
          have := (mem_qubits_iff hz.placed q).mp hzq
          obtain ⟨k, hk⟩ := Option.ne_none_iff_exists'.mp this
          by_contra hne
          exact hd ⟨k, _, hk, hky, Or.inl fun e => hne (by rw [hk, e])⟩
        rcases List.mem_cons.mp hy with rfl | hy
        · exact ⟨c2', c4, k3 _ (by simp)⟩
        · have hgy : ¬ DepAt q g.gate y.gate := hb g (pair_cons.mpr (Or.inl ⟨rfl, hy⟩))
          obtain ⟨hys, hyq⟩ := hst y (by simp [hy])
          have ky := knd hys hyq kg fun hd => hgy hd.symm
          obtain ⟨m1, m2, m3⟩ := k4 y hy ky fun z hz =>
            knd (hst z (by simp [(pair_mem hz).1])).1 (hst z (by simp [(pair_mem hz).1])).2 ky (hb z (hz.trans (List.sublist_cons_self _ _)))
          exact ⟨m1, fun h' => m2 (by simp [h']), m3⟩

theorem visitQubit_le (h : visitQubit s q = some s') : s.out.length ≤ s'.out.length := by
  unfold visitQubit at h
  obtain ⟨p, e, h⟩ := Option.map_eq_some_iff.mp h
  cases h
  exact visit_le (l' := p.1) (s' := p.2) e

theorem sweep_le : ∀ {qs : List ℕ} {s s' : TopState}, qs.foldlM visitQubit s = some s' → s.out.length ≤ s'.out.length
  | [], s, s', h => by cases h; exact le_rfl
  | q :: qs, s, s', h => by
    rw [List.foldlM_cons] at h
    obtain ⟨s1, e1, h⟩ := Option.bind_eq_some_iff.mp h
    exact (visitQubit_le e1).trans (sweep_le h)

/-- A sweep that puts out no gate meets a free gate once at most. -/
theorem sweep_stay {g : SG} : ∀ {qs : List ℕ} {s s' : TopState}, qs.foldlM visitQubit s = some s' → s'.out.length = s.out.length → Lin s.gates L →
    qs.Nodup → (∀ i ∈ s.avail, i ∈ s'.avail) ∧ ∀ q ∈ qs, FreeIn q (s.gates q) g →
      isTwo g = true ∧ g.idx ∉ s.avail ∧ g.idx ∈ s'.avail ∧ ∀ q' ∈ qs, FreeIn q' (s.gates q') g → q' = q
  | [], s, s', h, _, _, _ => by cases h; exact ⟨fun _ h => h, by simp⟩
  | q :: qs, s, s', h, ho, hl, hn => by
    rw [List.foldlM_cons] at h
    obtain ⟨s1, e1, h⟩ := Option.bind_eq_some_iff.mp h
    have l1 := visitQubit_le e1
    have l2 := sweep_le h
    obtain ⟨hq, hn'⟩ := List.nodup_cons.mp hn
    unfold visitQubit at e1
    obtain ⟨p, e2, e3⟩ := Option.map_eq_some_iff.mp e1
    have hout : s1.out = p.2.out := by rw [← e3]
    obtain ⟨k1, k2, k3, k4⟩ := visit_stay (l' := p.1) (s' := p.2) e2 (by rw [← hout]; omega)
      (fun y hy => ⟨hl.stored y ((hl.mem q y).mp hy).1, ((hl.mem q y).mp hy).2⟩) (hl.nodup q)
    have hg1 : s1.gates = s.gates := by rw [← e3]; simp only; rw [k1, k2, Function.update_eq_self]
    have ha1 : s1.avail = p.2.avail := by rw [← e3]
    obtain ⟨m1, m2⟩ := sweep_stay h (by omega) (by rw [hg1]; exact hl) hn'
    rw [hg1] at m2
    rw [ha1] at m1 m2
    refine ⟨fun i hi => m1 i (k3 i hi), fun r hr hf => ?_⟩
    rcases List.mem_cons.mp hr with hr | hr
    · subst hr
      obtain ⟨n1, n2, n3⟩ := k4 g hf
      refine ⟨n1, n2, m1 _ n3, fun q' hq' hf' => ?_⟩
      rcases List.mem_cons.mp hq' with rfl | hq'
      · rfl
      · exact absurd n3 (m2 q' hq' hf').2.1
    · obtain ⟨n1, n2, n3, n4⟩ := m2 r hr hf
      refine ⟨n1, fun h' => n2 (k3 _ h'), n3, fun q' hq' hf' => ?_⟩
      rcases List.mem_cons.mp hq' with h'' | hq'
      · subst h''
        exact absurd (k4 g hf').2.2 n2
      · exact n4 q' hq' hf'

/-- A sweep puts out a gate. -/
theorem sweep_progress {n : ℕ} (hl : Lin s.gates L) (hr : ∀ x ∈ L, ∀ q ∈ x.gate.qubits, q < n) (hne : L ≠ [])
    (h : (List.range n).foldlM visitQubit s = some s') : s.out.length < s'.out.length := by
  refine lt_of_le_of_ne (sweep_le h) fun ho => ?_
  obtain ⟨g, M, rfl⟩ := List.exists_cons_of_ne_nil hne
  have hgM : g ∉ M := (List.nodup_cons.mp hl.lnodup).1
  have hgs := hl.stored g (by simp)
  have hfree : ∀ q ∈ g.gate.qubits, FreeIn q (s.gates q) g := by
    intro q hq
    refine ⟨(hl.mem q g).mpr ⟨by simp, hq⟩, fun y hy hd => ?_⟩
    rcases pair_cons.mp (hl.ord q y g hy hd) with ⟨-, h'⟩ | h'
    · exact hgM h'
    · exact hgM (pair_mem h').2
  obtain ⟨-, hs⟩ := sweep_stay (g := g) h ho.symm hl List.nodup_range
  obtain ⟨q, hq⟩ := stored_qubit hgs
  have hrange : ∀ q ∈ g.gate.qubits, q ∈ List.range n := fun q hq => List.mem_range.mpr (hr g (by simp) q hq)
  obtain ⟨h2, -, -, -⟩ := hs q (hrange q hq) (hfree q hq)
  obtain ⟨a, b, hab, ha, hb⟩ := two_qubits h2 hgs
  exact hab ((hs b (hrange b hb) (hfree b hb)).2.2.2 a (hrange a ha) (hfree a ha))

theorem sortLoop_spec {n : ℕ} : ∀ {fuel : ℕ} {gates : ℕ → List SG} {out L : List SG}, Lin gates L → (∀ x ∈ out ++ L, ∀ q ∈ x.gate.qubits, q < n) → L.length < fuel →
    ∃ M, sortLoop n fuel gates out = some M ∧ M.Perm (out ++ L) ∧ ∀ ψ, semGates (gs M) ψ = semGates (gs (out ++ L)) ψ
  | 0, _, _, _, _, _, h => absurd h (Nat.not_lt_zero _)
  | fuel + 1, gates, out, L, hl, hr, hf => by
    rw [sortLoop]
    by_cases hc : ∀ q ∈ List.range n, gates q = []
    · rw [if_pos hc]
      have hL : L = [] := by
        by_contra hne
        obtain ⟨g, M, rfl⟩ := List.exists_cons_of_ne_nil hne
        have hgs := hl.stored g (by simp)
        obtain ⟨q, hq⟩ := stored_qubit hgs
        have := (hl.mem q g).mpr ⟨by simp, hq⟩
        rw [hc q (List.mem_range.mpr (hr g (by simp) q hq))] at this
        simp at this
      exact ⟨out, rfl, by simp [hL], by simp [hL]⟩
    · rw [if_neg hc]
      have hne : L ≠ [] := by
        rintro rfl
        apply hc
        intro q _
        by_contra h
        obtain ⟨g, r, e⟩ := List.exists_cons_of_ne_nil h
        have := ((hl.mem q g).mp (by rw [e]; simp)).1
        simp at this
      have h0 : SInv (fun _ => False) (out ++ L) ⟨gates, [], out⟩ L := ⟨hl, .refl _, fun _ => rfl, by simp, by simp⟩
      obtain ⟨s', L', D', e, h'⟩ := h0.sweep List.nodup_range (by simp)
      rw [e]
      have hp := sweep_progress (s := ⟨gates, [], out⟩) hl (fun x hx => hr x (by simp [hx])) hne e
      have hlen := h'.perm.length_eq
      simp only [List.length_append] at hlen hp
      obtain ⟨M, e2, p2, s2⟩ := sortLoop_spec (fuel := fuel) (out := s'.out) h'.lin (fun x hx => hr x (h'.perm.subset hx)) (by omega)
      exact ⟨M, e2, p2.trans h'.perm, fun ψ => by rw [s2, h'.sem]⟩

/-- `topological_sort_gates` puts out the gates of a circuit that fits, in an order that gives the same map. -/
theorem topSort_spec {n : ℕ} {gates : ℕ → List SG} (hl : Lin gates L) (hr : ∀ x ∈ L, ∀ q ∈ x.gate.qubits, q < n) :
    ∃ M, topSort n gates = some M ∧ M.Perm L ∧ ∀ ψ, semGates (gs M) ψ = semGates (gs L) ψ := by
  have hlen : L.length ≤ ((List.range n).map fun q => (gates q).length).sum := by
    have hsub : L ⊆ (List.range n).flatMap gates := by
      intro x hx
      obtain ⟨q, hq⟩ := stored_qubit (hl.stored x hx)
      exact List.mem_flatMap.mpr ⟨q, List.mem_range.mpr (hr x hx q hq), (hl.mem q x).mpr ⟨hx, hq⟩⟩
    have := (hl.lnodup.subperm hsub).length_le
    rwa [List.length_flatMap] at this
  have := sortLoop_spec (n := n) (fuel := ((List.range n).map fun q => (gates q).length).sum + 1) (out := []) hl (by simpa using hr) (by omega)
  unfold topSort
  simpa only [List.nil_append] using this

end Optimize
end PyZX
