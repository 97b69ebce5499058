import Verif.Proofs.ExtQ

/-!
# The CZ gates of `clean_frontier`
-/

namespace PyZX
namespace Extract

open Finset Graph

/-- Pairs of different qubits. -/
def upF (n : ℕ) : Finset (ℕ × ℕ) := (Finset.range n ×ˢ Finset.range n).filter fun p => p.1 < p.2

theorem mem_upF {n : ℕ} {p : ℕ × ℕ} : p ∈ upF n ↔ p.1 < n ∧ p.2 < n ∧ p.1 < p.2 := by
  unfold upF
  rw [Finset.mem_filter, Finset.mem_product, Finset.mem_range, Finset.mem_range]
  tauto

theorem mem_upairs {n : ℕ} {p : ℕ × ℕ} : p ∈ upairs n ↔ p.1 < n ∧ p.2 < n ∧ p.1 < p.2 := by
  obtain ⟨a, b⟩ := p
  simp only [upairs, List.mem_flatMap, List.mem_range, List.mem_map, List.mem_filter, decide_eq_true_eq, Prod.mk.injEq]
  constructor
  · rintro ⟨i, hi, j, ⟨hj, hij⟩, rfl, rfl⟩; exact ⟨hi, hj, hij⟩
  · rintro ⟨h1, h2, h3⟩; exact ⟨a, h1, b, ⟨h2, h3⟩, rfl, rfl⟩

theorem upairs_nodup (n : ℕ) : (upairs n).Nodup := by
  unfold upairs
  rw [List.nodup_flatMap]
  constructor
  · intro i _
    refine List.Nodup.map (fun a b h => ?_) (List.nodup_range.filter _)
    simpa using h
  · refine List.Pairwise.imp_of_mem ?_ (List.nodup_range (n := n))
    intro a b _ _ hab
    rw [Function.onFun, List.disjoint_left]
    rintro p hp hp'
    obtain ⟨j, -, rfl⟩ := List.mem_map.mp hp
    obtain ⟨k, -, e⟩ := List.mem_map.mp hp'
    simp only [Prod.mk.injEq] at e
    exact hab e.1.symm

theorem upairs_toFinset (n : ℕ) : (upairs n).toFinset = upF n := by
  ext p
  rw [List.mem_toFinset, mem_upairs, mem_upF]

/-- The sign of the CZ gates given by a table. -/
noncomputable def dsign (n : ℕ) (m : ℕ → ℕ → Bool) (y : ℕ → Bool) : ℂ := ∏ p ∈ upF n, bsgn (m p.1 p.2 && y p.1 && y p.2)

/-- A symmetric table. -/
def SymTab (m : ℕ → ℕ → Bool) : Prop := (∀ a b, m a b = m b a) ∧ ∀ a, m a a = false

theorem SymTab.set {m : ℕ → ℕ → Bool} (h : SymTab m) {i j : ℕ} (hij : i ≠ j) (b : Bool) : SymTab (setPair m i j b) := by
  refine ⟨fun a c => ?_, fun a => ?_⟩
  · unfold setPair
    have : ((a = i ∧ c = j) ∨ (a = j ∧ c = i)) ↔ ((c = i ∧ a = j) ∨ (c = j ∧ a = i)) := by tauto
    simp only [this, h.1 a c]
  · unfold setPair
    rw [if_neg, h.2]
    rintro (⟨rfl, rfl⟩ | ⟨rfl, rfl⟩) <;> exact hij rfl

theorem dsign_zero (n : ℕ) (y : ℕ → Bool) : dsign n (fun _ _ => false) y = 1 := by
  unfold dsign
  exact Finset.prod_eq_one fun p _ => by simp [bsgn]

theorem dsign_set {n : ℕ} {m : ℕ → ℕ → Bool} {i j : ℕ} (hi : i < n) (hj : j < n) (hij : i ≠ j) (hm : SymTab m)
    (h : m i j = false) (y : ℕ → Bool) : dsign n (setPair m i j true) y = dsign n m y * bsgn (y i && y j) := by
  have hmem : (min i j, max i j) ∈ upF n := by
    rw [mem_upF]
    refine ⟨?_, ?_, ?_⟩ <;> simp only <;> omega
  unfold dsign
  have e : ∀ p ∈ upF n, bsgn (setPair m i j true p.1 p.2 && y p.1 && y p.2) =
      bsgn (m p.1 p.2 && y p.1 && y p.2) * (if p = (min i j, max i j) then bsgn (y i && y j) else 1) := by
    rintro ⟨a, b⟩ hp
    obtain ⟨-, -, hab⟩ := mem_upF.mp hp
    simp only at hab ⊢
    unfold setPair
    by_cases hc : (a = i ∧ b = j) ∨ (a = j ∧ b = i)
    · rw [if_pos hc, if_pos]
      · have : m a b = false := by
          rcases hc with ⟨rfl, rfl⟩ | ⟨rfl, rfl⟩
          · exact h
          · rw [hm.1]; exact h
        rw [this]
        have e2 : (y a && y b) = (y i && y j) := by
          rcases hc with ⟨rfl, rfl⟩ | ⟨rfl, rfl⟩
          · rfl
          · exact Bool.and_comm _ _
        simp [e2, bsgn]
      · rcases hc with ⟨rfl, rfl⟩ | ⟨rfl, rfl⟩
        · rw [min_eq_left hab.le, max_eq_right hab.le]
        · rw [min_eq_right hab.le, max_eq_left hab.le]
    · rw [if_neg hc, if_neg, mul_one]
      intro e
      simp only [Prod.mk.injEq] at e
      refine hc ?_
      rcases le_total i j with h1 | h1
      · rw [min_eq_left h1, max_eq_right h1] at e; exact Or.inl e
      · rw [min_eq_right h1, max_eq_left h1] at e; exact Or.inr e
  rw [Finset.prod_congr rfl e, Finset.prod_mul_distrib, Finset.prod_ite_eq', if_pos hmem]

theorem setPair_self {m : ℕ → ℕ → Bool} (hm : SymTab m) {i j : ℕ} (h : m i j = true) (b : Bool) :
    setPair (setPair m i j b) i j true = m := by
  funext a c
  unfold setPair
  by_cases hc : (a = i ∧ c = j) ∨ (a = j ∧ c = i)
  · rw [if_pos hc]
    rcases hc with ⟨rfl, rfl⟩ | ⟨rfl, rfl⟩
    · exact h.symm
    · rw [hm.1]; exact h.symm
  · rw [if_neg hc, if_neg hc]

theorem dsign_clear {n : ℕ} {m : ℕ → ℕ → Bool} {i j : ℕ} (hi : i < n) (hj : j < n) (hij : i ≠ j) (hm : SymTab m)
    (h : m i j = true) (y : ℕ → Bool) : dsign n m y = dsign n (setPair m i j false) y * bsgn (y i && y j) := by
  have := dsign_set hi hj hij (hm.set hij false) (by simp [setPair]) y
  rwa [setPair_self hm h] at this

/-! ### Gates -/

theorem cz_apply (c t : ℕ) (ψ : QState) (x : ℕ → Bool) : ctrl (mat2 1 0 0 (-1)) c t ψ x = bsgn (x c && x t) * ψ x := by
  rw [ctrl, on1_apply]
  rcases hc : x c with _ | _
  · simp [bsgn]
  · rcases ht : x t with _ | _
    · have : Function.update x t false = x := by rw [← ht]; exact Function.update_eq_self t x
      simp [mat2, bsgn, this]
    · have : Function.update x t true = x := by rw [← ht]; exact Function.update_eq_self t x
      simp [mat2, bsgn, this]

theorem czs_apply (l : List (ℕ × ℕ)) (ψ : QState) (y : ℕ → Bool) :
    semGates (l.map fun p => .cz p.1 p.2) ψ y = (l.map fun p => bsgn (y p.1 && y p.2)).prod * ψ y := by
  induction l generalizing ψ with
  | nil => simp [semGates_nil]
  | cons p l ih =>
    rw [List.map_cons, semGates_cons, ih, List.map_cons, List.prod_cons]
    show _ * ctrl (mat2 1 0 0 (-1)) p.1 p.2 ψ y = _
    rw [cz_apply]
    ring

theorem czRest_apply (n : ℕ) (m : ℕ → ℕ → Bool) (ψ : QState) (y : ℕ → Bool) : semGates (czRest n m).reverse ψ y = dsign n m y * ψ y := by
  unfold czRest
  rw [← List.map_reverse, czs_apply, List.map_reverse, List.prod_reverse, ← List.prod_toFinset _ ((upairs_nodup n).filter _), List.toFinset_filter,
    upairs_toFinset, Finset.prod_filter]
  congr 1
  unfold dsign
  refine Finset.prod_congr rfl fun p _ => ?_
  cases m p.1 p.2 <;> simp [bsgn]

/-! ### The CZ optimisation -/

theorem maxOverlap_spec (n : ℕ) (m : ℕ → ℕ → Bool) (h : (maxOverlap n m).2 ≠ []) :
    (maxOverlap n m).1.1 < n ∧ (maxOverlap n m).1.2 < n ∧ (maxOverlap n m).1.1 ≠ (maxOverlap n m).1.2 ∧ (maxOverlap n m).2.Nodup ∧
      ∀ k ∈ (maxOverlap n m).2, k < n ∧ m (maxOverlap n m).1.1 k = true ∧ m (maxOverlap n m).1.2 k = true := by
  have key : ∀ (l : List (ℕ × ℕ)) (b : (ℕ × ℕ) × List ℕ), (∀ p ∈ l, p ∈ upairs n) →
      (b.2 ≠ [] → b.1.1 < n ∧ b.1.2 < n ∧ b.1.1 ≠ b.1.2 ∧ b.2.Nodup ∧ ∀ k ∈ b.2, k < n ∧ m b.1.1 k = true ∧ m b.1.2 k = true) →
      ∀ b', b' = l.foldl (fun best p => if best.2.length < (common n m p.1 p.2).length then
        (if rowOnes n m p.1 < rowOnes n m p.2 then (p.2, p.1) else p, common n m p.1 p.2) else best) b →
      b'.2 ≠ [] → b'.1.1 < n ∧ b'.1.2 < n ∧ b'.1.1 ≠ b'.1.2 ∧ b'.2.Nodup ∧ ∀ k ∈ b'.2, k < n ∧ m b'.1.1 k = true ∧ m b'.1.2 k = true := by
    intro l
    induction l with
    | nil => rintro b - hb b' rfl; exact hb
    | cons p l ih =>
      intro b hl hb b' e
      rw [List.foldl_cons] at e
      refine ih _ (fun p hp => hl p (by simp [hp])) ?_ b' e
      obtain ⟨h1, h2, h3⟩ := mem_upairs.mp (hl p (by simp))
      by_cases hc : b.2.length < (common n m p.1 p.2).length
      · rw [if_pos hc]
        intro _
        have hn : (common n m p.1 p.2).Nodup := List.nodup_range.filter _
        have hk : ∀ k ∈ common n m p.1 p.2, k < n ∧ m p.1 k = true ∧ m p.2 k = true := by
          intro k hk
          simpa [common] using hk
        by_cases hr : rowOnes n m p.1 < rowOnes n m p.2
        · rw [if_pos hr]
          exact ⟨h2, h1, h3.ne', hn, fun k hk' => ⟨(hk k hk').1, (hk k hk').2.2, (hk k hk').2.1⟩⟩
        · rw [if_neg hr]
          exact ⟨h1, h2, h3.ne, hn, hk⟩
      · rw [if_neg hc]; exact hb
  exact key (upairs n) ((0, 0), []) (fun _ h => h) (by simp) _ rfl h

theorem clearCommon_spec {n i j : ℕ} (hi : i < n) (hj : j < n) (hij : i ≠ j) : ∀ (ks : List ℕ) {m : ℕ → ℕ → Bool}, SymTab m → ks.Nodup →
    (∀ k ∈ ks, k < n ∧ m i k = true ∧ m j k = true) →
    SymTab (clearCommon m i j ks) ∧ ∀ y, dsign n m y = dsign n (clearCommon m i j ks) y * (ks.map fun k => bsgn (xor (y i) (y j) && y k)).prod := by
  intro ks
  induction ks with
  | nil => intro m hm _ _; exact ⟨hm, fun y => by simp [clearCommon]⟩
  | cons k ks ih =>
    intro m hm hn hk
    obtain ⟨k1, k2, k3⟩ := hk k (by simp)
    have hik : i ≠ k := by rintro rfl; rw [hm.2] at k2; simp at k2
    have hjk : j ≠ k := by rintro rfl; rw [hm.2] at k3; simp at k3
    have hm1 := hm.set hik false
    have hm2 := hm1.set hjk false
    have hjk1 : setPair m i k false j k = true := by
      unfold setPair; rw [if_neg, k3]; rintro (⟨h, -⟩ | ⟨h, -⟩)
      · exact hij h.symm
      · exact hjk h
    obtain ⟨h1, h2⟩ := ih hm2 (List.nodup_cons.mp hn).2 (by
      intro k' hk'
      obtain ⟨q1, q2, q3⟩ := hk k' (by simp [hk'])
      have hne : k' ≠ k := by rintro rfl; exact (List.nodup_cons.mp hn).1 hk'
      refine ⟨q1, ?_, ?_⟩
      · unfold setPair
        rw [if_neg, if_neg, q2]
        · rintro (⟨-, h⟩ | ⟨h, -⟩)
          · exact hne h
          · exact hik h
        · rintro (⟨-, h⟩ | ⟨h, -⟩)
          · exact hne h
          · exact hik h
      · unfold setPair
        rw [if_neg, if_neg, q3]
        · rintro (⟨-, h⟩ | ⟨h, -⟩)
          · exact hne h
          · exact hjk h
        · rintro (⟨-, h⟩ | ⟨h, -⟩)
          · exact hne h
          · exact hjk h)
    refine ⟨h1, fun y => ?_⟩
    rw [dsign_clear hi k1 hik hm k2, dsign_clear hj k1 hjk hm1 hjk1, h2 y, List.map_cons, List.prod_cons]
    have e : bsgn (xor (y i) (y j) && y k) = bsgn (y i && y k) * bsgn (y j && y k) := by
      cases y i <;> cases y j <;> cases y k <;> simp [bsgn]
    rw [e]
    show dsign n (clearCommon _ i j ks) y * _ * _ * _ = dsign n (clearCommon (setPair (setPair m i k false) j k false) i j ks) y * _
    ring

theorem overlap_apply {i j : ℕ} (hij : i ≠ j) (ks : List ℕ) (hk : ∀ k ∈ ks, k ≠ i ∧ k ≠ j) (ψ : QState) (y : ℕ → Bool) :
    semGates (overlapGates i j ks).reverse ψ y = (ks.map fun k => bsgn (xor (y i) (y j) && y k)).prod * ψ y := by
  have e : (overlapGates i j ks).reverse = .cnot i j :: (((ks.reverse.map fun k => (j, k)).map fun p => .cz p.1 p.2) ++ [.cnot i j]) := by
    simp [overlapGates, List.map_reverse, Function.comp_def]
  rw [e, semGates_cons, semGates_append, semGates_cons, semGates_nil]
  show ctrl (mat2 0 1 1 0) i j _ y = _
  rw [cnot_apply, czs_apply]
  show _ * ctrl (mat2 0 1 1 0) i j ψ _ = _
  rw [cnot_apply, cxBits_invol hij, List.map_map, List.map_reverse, List.prod_reverse]
  congr 2
  refine List.map_congr_left fun k hk' => ?_
  obtain ⟨h1, h2⟩ := hk k hk'
  simp only [Function.comp_apply, cx_apply, if_pos, if_neg h2]
  rw [Bool.xor_comm]

theorem czOptimize_spec {n : ℕ} : ∀ (fuel : ℕ) {m m' : ℕ → ℕ → Bool} {c c' : List Gate}, SymTab m → czOptimize n fuel m c = .ok (m', c') →
    ∃ ds : List Gate, c' = c ++ ds ∧ (∀ a ∈ ds, (a.adjointOK = true ∧ a.qubits.Nodup) ∧ ∀ q ∈ a.qubits, q < n) ∧
      ∀ (ψ : QState) y, dsign n m y * ψ y = semGates ds.reverse (fun y => dsign n m' y * ψ y) y := by
  intro fuel
  induction fuel with
  | zero => intro m m' c c' _ h; simp [czOptimize] at h
  | succ fuel ih =>
    intro m m' c c' hm h
    unfold czOptimize at h
    simp only at h
    split at h
    · next hlen =>
      obtain ⟨h1, h2, h3, h4, h5⟩ := maxOverlap_spec n m (by intro e; rw [e] at hlen; simp at hlen)
      generalize (maxOverlap n m).1.1 = i at *
      generalize (maxOverlap n m).1.2 = j at *
      generalize (maxOverlap n m).2 = ks at *
      obtain ⟨q1, q2⟩ := clearCommon_spec h1 h2 h3 ks hm h4 h5
      obtain ⟨ds, rfl, hds, hs⟩ := ih q1 h
      have hne : ∀ k ∈ ks, k ≠ i ∧ k ≠ j := by
        intro k hk
        obtain ⟨-, r1, r2⟩ := h5 k hk
        exact ⟨by rintro rfl; rw [hm.2] at r1; simp at r1, by rintro rfl; rw [hm.2] at r2; simp at r2⟩
      refine ⟨overlapGates i j ks ++ ds, by rw [List.append_assoc], ?_, fun ψ y => ?_⟩
      · intro a ha
        rcases List.mem_append.mp ha with ha | ha
        · simp only [overlapGates, List.mem_append, List.mem_cons, List.mem_map, List.mem_nil_iff, or_false] at ha
          rcases ha with (rfl | ⟨k, hk, rfl⟩) | rfl
          · simp [Gate.adjointOK, Gate.qubits, h1, h2, h3]
          · simp [Gate.adjointOK, Gate.qubits, h2, (h5 k hk).1, (hne k hk).2.symm]
          · simp [Gate.adjointOK, Gate.qubits, h1, h2, h3]
        · exact hds a ha
      · rw [List.reverse_append, semGates_append, overlap_apply h3 ks hne, ← hs, q2 y]
        ring
    · simp only [Out.ok.injEq, Prod.mk.injEq] at h
      obtain ⟨rfl, rfl⟩ := h
      exact ⟨[], by simp, by simp, fun ψ y => by rw [List.reverse_nil, semGates_nil]⟩

end Extract
end PyZX
