import Verif.Proofs.OptParse
import Verif.Proofs.OptSort

/-!
# Helper lemmas for `basic_optimization`: a pass
-/

namespace PyZX
namespace Optimize

open scoped List

/-- The gates that a pass takes, on `n` qubits. -/
def Accepted (n : ℕ) : Gate → Prop
  | .had t => t < n
  | .zrot _ t _ _ => t < n
  | .xrot cls t p _ => cls = .not ∧ mod2 p = 1 ∧ t < n
  | .cz c t => c ≠ t ∧ c < n ∧ t < n
  | .cnot c t => c ≠ t ∧ c < n ∧ t < n
  | _ => False

variable {k n : ℕ} {E : ℕ → ℕ → Prop} {s s' : State} {L : List SG}

theorem pm_range (n i : ℕ) : pm (List.range n) i = i := by
  by_cases h : i < n
  · rw [pm_lt (by simpa using h), List.getElem_range]
  · rw [pm_ge (by simpa using h)]

/-- `parse_gate`. -/
theorem FInv.parseGate (h : FInv n E s L) (min ds : Bool) {g : Gate} (hg : Accepted n g) (sym : ∀ a b, E a b → E b a)
    (h1 : ds = true → ∀ a b, E a b) (h2 : ds = false → s.perm = List.range n ∧ Links E g) :
    ∃ s' L', parseGate min ds s g = some s' ∧ FInv n E s' L' ∧ EqUpToPhase (fun ψ => g.sem (out s L ψ)) (out s' L') ∧
      tc k (gs L') ≤ tc k (gs L) + wg k g ∧ (ds = false → s'.perm = s.perm) := by
  have loc := fun q => locate_spec h.perm h.len q
  cases g with
  | had t =>
    obtain ⟨i, e1, e2, e3⟩ := (loc t).1 hg
    obtain ⟨L', k⟩ := h.parseHad ds e2
    refine ⟨_, L', by rw [Optimize.parseGate, e1]; rfl, k.inv, ?_, k.tc, k.perm⟩
    have := k.sem
    simp only [Gate.sem, ← permSem_on1 h.perm, e3] at this
    exact this
  | zrot cls t p adj =>
    obtain ⟨i, e1, e2, e3⟩ := (loc t).1 hg
    obtain ⟨s', L', e, k⟩ := h.parseZ ds e2 cls p adj
    refine ⟨s', L', by rw [Optimize.parseGate, e1]; exact e, k.inv, ?_, k.tc, k.perm⟩
    have := k.sem
    simp only [Gate.sem, ← permSem_on1 h.perm, e3] at this
    exact this
  | xrot cls t p adj =>
    obtain ⟨rfl, hp, ht⟩ := hg
    obtain ⟨i, e1, e2, e3⟩ := (loc t).1 ht
    have k := h.parseNot (k := k) ds e2
    refine ⟨_, L, by rw [Optimize.parseGate, e1]; rfl, k.inv, ?_, Nat.le_add_right _ _, fun _ => rfl⟩
    have := k.sem
    have em : matX p = matX 1 := by
      have : ph p = ph 1 := by rw [← ph_mod2, hp]
      unfold matX
      rw [this]
    simp only [Gate.mkNOT, Gate.sem, ← permSem_on1 h.perm, e3] at this
    simp only [Gate.sem, em]
    exact this
  | cz c t =>
    obtain ⟨hct, hc, ht⟩ := hg
    obtain ⟨i, e1, e2, e3⟩ := (loc c).1 hc
    obtain ⟨j, f1, f2, f3⟩ := (loc t).1 ht
    have hij : i ≠ j := by rintro rfl; exact hct (e3.symm.trans f3)
    have hl : E i j := by
      cases hd : ds with
      | true => exact h1 hd i j
      | false =>
        obtain ⟨m1, m2⟩ := h2 hd
        rw [m1, pm_range] at e3 f3
        rw [e3, f3]; exact m2
    obtain ⟨s', L', e, k⟩ := h.parseCz min ds hij e2 f2 hl (sym _ _ hl)
    refine ⟨s', L', by rw [Optimize.parseGate, e1, f1]; exact e, k.inv, ?_, k.tc, k.perm⟩
    have := k.sem
    simp only [Gate.sem, ← permSem_ctrl h.perm, e3, f3] at this
    exact this
  | cnot c t =>
    obtain ⟨hct, hc, ht⟩ := hg
    obtain ⟨i, e1, e2, e3⟩ := (loc c).1 hc
    obtain ⟨j, f1, f2, f3⟩ := (loc t).1 ht
    have hij : i ≠ j := by rintro rfl; exact hct (e3.symm.trans f3)
    have hl : E i j := by
      cases hd : ds with
      | true => exact h1 hd i j
      | false =>
        obtain ⟨m1, m2⟩ := h2 hd
        rw [m1, pm_range] at e3 f3
        rw [e3, f3]; exact m2
    obtain ⟨s', L', e, k⟩ := h.parseCnot min ds hij e2 f2 hl (sym _ _ hl)
    refine ⟨s', L', by rw [Optimize.parseGate, e1, f1]; exact e, k.inv, ?_, k.tc, k.perm⟩
    have := k.sem
    simp only [Gate.sem, ← permSem_ctrl h.perm, e3, f3] at this
    exact this
  | _ => exact hg.elim

theorem eqUp_semGates {f g : QState → QState} (h : EqUpToPhase f g) (l : List Gate) : EqUpToPhase (fun ψ => semGates l (f ψ)) (fun ψ => semGates l (g ψ)) := by
  obtain ⟨z, hz, h⟩ := h
  refine ⟨z, hz, fun ψ x => ?_⟩
  have : f ψ = fun x => z * g ψ x := funext fun x => h ψ x
  beta_reduce
  rw [this, semGates_smul]

/-- Parse a list of gates. -/
theorem FInv.parseGates (min ds : Bool) (sym : ∀ a b, E a b → E b a) (h1 : ds = true → ∀ a b, E a b) : ∀ {l : List Gate} {s : State} {L : List SG},
    FInv n E s L → (∀ g ∈ l, Accepted n g) → (ds = false → s.perm = List.range n ∧ ∀ g ∈ l, Links E g) →
    ∃ s' L', l.foldlM (Optimize.parseGate min ds) s = some s' ∧ FInv n E s' L' ∧ EqUpToPhase (fun ψ => semGates l (out s L ψ)) (out s' L') ∧
      tc k (gs L') ≤ tc k (gs L) + tc k l ∧ (ds = false → s'.perm = List.range n)
  | [], s, L, h, _, h2 => ⟨s, L, rfl, h, ⟨1, by simp, fun ψ x => by rw [one_mul]; rfl⟩, le_rfl, fun hd => (h2 hd).1⟩
  | g :: l, s, L, h, ha, h2 => by
    obtain ⟨s1, L1, e1, i1, m1, t1, p1⟩ := h.parseGate (k := k) min ds (ha g (by simp)) sym h1 fun hd => ⟨(h2 hd).1, (h2 hd).2 g (by simp)⟩
    obtain ⟨s2, L2, e2, i2, m2, t2, p2⟩ := FInv.parseGates min ds sym h1 (l := l) i1 (fun g hg => ha g (by simp [hg]))
      fun hd => ⟨(p1 hd).trans (h2 hd).1, fun g hg => (h2 hd).2 g (by simp [hg])⟩
    refine ⟨s2, L2, by rw [List.foldlM_cons, e1]; exact e2, i2, ?_, by rw [tc_cons]; omega, p2⟩
    exact eqUp_trans (eqUp_semGates m1 l) m2

/-! ### The end of a pass -/

/-- Place the Hadamard gates. -/
theorem FInv.placeHads : ∀ {l : List ℕ} {s : State} {L : List SG}, FInv n E s L → s.hads = l →
    ∃ L', FInv n E (l.foldl Optimize.addHad s) L' ∧ (l.foldl Optimize.addHad s).hads = [] ∧ Eqv (eff s L) (eff (l.foldl Optimize.addHad s) L') ∧
      tc k (gs L') = tc k (gs L) ∧ (l.foldl Optimize.addHad s).perm = s.perm
  | [], s, L, h, hl => ⟨L, h, hl, Eqv.refl _, rfl, rfl⟩
  | a :: l, s, L, h, hl => by
    obtain ⟨h1, h2, h3⟩ := h.addHad (t := a) (by rw [hl]; simp)
    obtain ⟨L', k1, k2, k3, k4, k5⟩ := h1.placeHads (l := l) (by rw [Optimize.addHad]; simp only; rw [hl, List.erase_cons_head])
    exact ⟨L', k1, k2, h2.trans k3, k4.trans h3, k5⟩

/-- Place the Z gates. -/
theorem Core.placeZs : ∀ {l : List ℕ} {s : State} {L : List SG}, Core n E s.gates s.count L → (∀ q ∈ l, q < n) →
    ∃ L', Core n E (l.foldl placePauliZ s).gates (l.foldl placePauliZ s).count L' ∧ gs L' = gs L ++ l.map Gate.mkZ ∧
      (l.foldl placePauliZ s).nots = s.nots ∧ (l.foldl placePauliZ s).perm = s.perm
  | [], s, L, h, _ => ⟨L, h, by simp, rfl, rfl⟩
  | a :: l, s, L, h, hl => by
    have h1 : Core n E (placePauliZ s a).gates (placePauliZ s a).count (L ++ [⟨s.count, .mkZ a⟩]) := by
      refine h.snoc (z := ⟨s.count, .mkZ a⟩) trivial h.fresh (Nat.le_succ _) (Nat.lt_succ_self _) ?_ trivial fun q => ?_
      · intro q hq
        rw [show (Gate.mkZ a).qubits = [a] from rfl, List.mem_singleton] at hq
        rw [hq]; exact hl a (by simp)
      · simp only [placePauliZ, show (Gate.mkZ a).qubits = [a] from rfl, List.mem_singleton]
        by_cases hq : q = a
        · subst hq; simp
        · rw [Function.update_of_ne hq, if_neg hq]
    obtain ⟨L', k1, k2, k3, k4⟩ := h1.placeZs (l := l) fun q hq => hl q (by simp [hq])
    refine ⟨L', k1, ?_, k3, k4⟩
    rw [k2, gs_append, gs_one, List.map_cons, List.append_assoc]
    rfl

/-- The swaps. -/
def swapGates (l : List (ℕ × ℕ)) : List Gate := l.map fun p => .swap p.1 p.2

theorem sem_swaps : ∀ (l : List (ℕ × ℕ)) (ψ : QState) (x : ℕ → Bool), semGates (swapGates l) ψ x = ψ fun i => x (followSwaps l i)
  | [], ψ, x => rfl
  | p :: l, ψ, x => by
    rw [swapGates, List.map_cons, semGates_cons, ← swapGates, sem_swaps l]
    rw [sem_swap_apply]
    rfl

theorem follow_ge : ∀ {l : List (ℕ × ℕ)} {n i : ℕ}, (∀ p ∈ l, p.1 < n ∧ p.2 < n) → n ≤ i → followSwaps l i = i
  | [], _, _, _, _ => rfl
  | p :: l, n, i, h, hi => by
    have hp := h p (by simp)
    have : Equiv.swap p.1 p.2 i = i := Equiv.swap_apply_of_ne_of_ne (by omega) (by omega)
    unfold followSwaps
    rw [List.foldl_cons, this]
    exact follow_ge (fun p hp => h p (by simp [hp])) hi

theorem sem_permSwaps {l : List ℕ} (h : IsPerm l) (ψ : QState) : semGates (swapGates (permutationAsSwaps l)) ψ = permSem l ψ := by
  funext x
  rw [sem_swaps, permSem]
  congr 1
  funext i
  congr 1
  by_cases hi : i < l.length
  · rw [Props.swaps_realise h hi, pm_lt hi, List.getD_eq_getElem?_getD, List.getElem?_eq_getElem hi]
    rfl
  · rw [pm_ge (not_lt.mp hi)]
    refine follow_ge (n := l.length) (fun p hp => ?_) (not_lt.mp hi)
    have := Props.swaps_range h p hp
    omega

theorem swaps_id (n : ℕ) : permutationAsSwaps (List.range n) = [] := by
  unfold permutationAsSwaps
  rw [List.length_range]
  have : ∀ (k : List ℕ) (c : List ℕ), (∀ i ∈ k, i < n) → (k.foldl swapStep ([], List.range n, c)).1 = [] := by
    intro k
    induction k with
    | nil => intro c _; rfl
    | cons i k ih =>
      intro c hk
      rw [List.foldl_cons]
      have hi := hk i (by simp)
      have : swapStep ([], List.range n, c) i = ([], List.range n, c) := by
        unfold swapStep
        simp [List.getD_eq_getElem?_getD, hi]
      rw [this]
      exact ih c fun j hj => hk j (by simp [hj])
  exact this _ _ fun i hi => List.mem_range.mp hi

theorem accepted_of_stored {g : Gate} (h : Stored g) (hq : ∀ q ∈ g.qubits, q < n) : Accepted n g := by
  cases g <;> simp only [Stored] at h <;> simp only [Gate.qubits, List.mem_cons, List.not_mem_nil, or_false, forall_eq_or_imp, forall_eq] at hq <;>
    simp only [Accepted] <;> first | exact hq | exact ⟨h, hq⟩

/-- What a pass gives. -/
structure PassOK (k n : ℕ) (E : ℕ → ℕ → Prop) (ds : Bool) (l : List Gate) (r : List Gate × List Gate) : Prop where
  sem : Eqv l (r.1 ++ r.2)
  acc : ∀ g ∈ r.1, Accepted n g
  lnk : ∀ g ∈ r.1, Links E g
  tc : tc k r.1 ≤ tc k l
  cor : ∃ (nots : List ℕ) (sw : List (ℕ × ℕ)), r.2 = nots.map Gate.mkNOT ++ swapGates sw ∧ (∀ q ∈ nots, q < n) ∧ (∀ p ∈ sw, p.1 < p.2 ∧ p.2 < n) ∧ (ds = false → sw = [])

/-- A pass. -/
theorem pass_spec (min ds : Bool) (sym : ∀ a b, E a b → E b a) (h1 : ds = true → ∀ a b, E a b) {l : List Gate} (ha : ∀ g ∈ l, Accepted n g)
    (h2 : ds = false → ∀ g ∈ l, Links E g) : ∃ r, parseForward n min ds l = some r ∧ PassOK k n E ds l r := by
  obtain ⟨s1, L1, e1, i1, m1, t1, p1⟩ := FInv.parseGates (k := k) min ds sym h1 (FInv.init n E) ha fun hd => ⟨rfl, h2 hd⟩
  obtain ⟨L2, i2, hh, m2, t2, p2⟩ := i1.placeHads (k := k) rfl
  set s2 := s1.hads.foldl Optimize.addHad s1 with hs2
  obtain ⟨L3, c3, g3, n3, p3⟩ := i2.p.core.placeZs (l := s2.zs) i2.zlt
  set s3 := s2.zs.foldl placePauliZ s2 with hs3
  obtain ⟨M, e4, q4, m4⟩ := topSort_spec c3.lin c3.rng
  refine ⟨(M.map SG.gate, s3.nots.map Gate.mkNOT ++ swapGates (permutationAsSwaps s3.perm)), ?_, ⟨?_, ?_, ?_, ?_, ?_⟩⟩
  · rw [parseForward, e1]
    simp only [Option.bind_eq_bind, Option.bind_some]
    rw [← hs2, ← hs3, e4]
    rfl
  · have e0 : ∀ ψ, out (init n) [] ψ = ψ := by
      intro ψ
      funext x
      simp only [out, permSem, init, pm_range]
      rfl
    have r1 : EqUpToPhase (semGates l) (out s1 L1) := by
      have := m1
      simp only [e0] at this
      exact this
    have r2 : EqUpToPhase (out s1 L1) (out s2 L2) := by
      have := eqUp_permSem (l := s1.perm) m2
      unfold out
      rw [p2]
      exact this
    refine eqUp_trans r1 (eqUp_trans r2 ⟨1, by simp, fun ψ x => ?_⟩)
    rw [one_mul, semGates_append, m4, semGates_append, sem_permSwaps (by rw [p3]; exact i2.perm), out, p3]
    congr 1
    rw [eff, later, hh, P, semGates_append, semGates_append, semGates_append, n3, g3, semGates_append]
    rfl
  · intro g hg
    obtain ⟨x, hx, rfl⟩ := List.mem_map.mp hg
    have := q4.subset hx
    exact accepted_of_stored (c3.lin.stored x this) (c3.rng x this)
  · intro g hg
    obtain ⟨x, hx, rfl⟩ := List.mem_map.mp hg
    exact c3.lnk x (q4.subset hx)
  · have e5 : tc k (gs M) = tc k (gs L3) := tc_perm (q4.map _)
    have e6 : tc k (s2.zs.map Gate.mkZ) = 0 := by
      unfold tc
      rw [List.map_map]
      refine List.sum_eq_zero fun v hv => ?_
      obtain ⟨q, -, rfl⟩ := List.mem_map.mp hv
      simp [Gate.mkZ, wg_zrot]
    rw [show M.map SG.gate = gs M from rfl, e5, g3, tc_append, e6, t2]
    simpa using t1
  · refine ⟨s3.nots, permutationAsSwaps s3.perm, rfl, by rw [n3]; exact i2.nlt, ?_, ?_⟩
    · intro p hp
      have hperm : IsPerm s3.perm := by rw [p3]; exact i2.perm
      have := Props.swaps_range hperm p hp
      rw [p3, i2.len] at this
      exact this
    · intro hd
      rw [p3, p2, p1 hd, swaps_id]

end Optimize
end PyZX
