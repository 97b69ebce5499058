import Verif.Proofs.SimpLoop
import Verif.Proofs.PivotBoundary

/-!
# What a pivot does to phases and edges
-/

namespace PyZX
namespace Graph

/-! ### Phases change by multiples of π -/

/-- All phases differ by integers. -/
def Shift (g g' : Graph) : Prop := ∀ v, ∃ k : ℤ, g'.phase v = g.phase v + k

theorem Shift.of_eq {g g' : Graph} (h : g'.phase = g.phase) : Shift g g' := fun v => ⟨0, by rw [h]; simp⟩

theorem Shift.refl (g : Graph) : Shift g g := Shift.of_eq rfl

theorem Shift.trans {g g' g'' : Graph} (h : Shift g g') (h' : Shift g' g'') : Shift g g'' := fun v => by
  obtain ⟨k, hk⟩ := h v
  obtain ⟨l, hl⟩ := h' v
  exact ⟨k + l, by rw [hl, hk]; push_cast; ring⟩

theorem shift_addToPhase (g : Graph) (v : ℕ) (a : ℤ) : Shift g (g.addToPhase v a) := by
  intro w
  show ∃ k : ℤ, Function.update g.phase v _ w = _
  by_cases e : w = v
  · subst e
    rw [Function.update_self]
    exact ⟨a - 2 * ⌊(g.phase w + a) / 2⌋, by unfold mod2; push_cast; ring⟩
  · rw [Function.update_of_ne e]; exact ⟨0, by simp⟩

theorem addEdge_shift {g g' : Graph} {s t : ℕ} {e : EType} (h : g.addEdge s t e = some g') : Shift g g' := by
  obtain ⟨hs, ⟨hn, ht, rfl⟩ | ⟨e1, hn, -, -, ⟨-, -, rfl⟩ | ⟨-, f, -, -, rfl⟩ | ⟨-, -, -, rfl⟩⟩⟩ := addEdge_cases h
  · exact Shift.of_eq rfl
  · exact Shift.of_eq rfl
  · split
    · exact Shift.of_eq rfl
    · refine Shift.trans (g' := g.setAdj s t (some f)) (Shift.of_eq rfl) ?_
      have := shift_addToPhase (g.setAdj s t (some f)) s 1
      rw [Int.cast_one] at this
      exact this
  · exact Shift.of_eq rfl

theorem addEdgeN_shift {g g' : Graph} {s t n : ℕ} {e : EType} (h : g.addEdgeN s t e n = some g') : Shift g g' := by
  induction n generalizing g with
  | zero => simp only [addEdgeN, Option.some.injEq] at h; rw [← h]; exact Shift.refl _
  | succ n ih =>
    simp only [addEdgeN] at h
    obtain ⟨g1, h1, h2⟩ := Option.bind_eq_some_iff.mp h
    exact (addEdge_shift h1).trans (ih h2)

theorem addEdgeTable_shift {g g' : Graph} {t : ETab} (h : g.addEdgeTable t = some g') : Shift g g' := by
  induction t generalizing g with
  | nil => simp only [addEdgeTable, List.foldlM_nil, Option.pure_def, Option.some.injEq] at h; rw [← h]; exact Shift.refl _
  | cons e t ih =>
    obtain ⟨g1, g2, h1, h2, h3⟩ := addEdgeTable_cons h
    exact ((addEdgeN_shift h1).trans (addEdgeN_shift h2)).trans (ih h3)

theorem finish_shift {s : RewriteState} {g' : Graph} (h : s.finish = some g') : Shift s.g g' := by
  unfold RewriteState.finish at h
  obtain ⟨g1, h1, h⟩ := Option.bind_eq_some_iff.mp h
  obtain ⟨g2, h2, h3⟩ := Option.bind_eq_some_iff.mp h
  obtain ⟨hr, -, -, -⟩ := removeVertices_spec h3
  obtain ⟨-, -, b3, -⟩ := removeEdges_same h2
  exact (addEdgeTable_shift h1).trans (Shift.of_eq (by rw [hr.phase, b3]))

theorem addToPhases_shift (a : ℤ) (vs : List ℕ) : ∀ g : Graph, Shift g (Rules.addToPhases g vs a) := by
  induction vs with
  | nil => intro g; exact Shift.refl _
  | cons v vs ih => intro g; exact (shift_addToPhase g v a).trans (ih _)

theorem pivotPhases_shift {g : Graph} {v : ℕ} (h : ∃ k : ℤ, g.phase v = k) (l l' : List ℕ) : Shift g (Rules.pivotPhases g v l l') := by
  obtain ⟨k, hk⟩ := h
  unfold Rules.pivotPhases
  simp only
  split
  · exact Shift.refl _
  · rw [hk]; exact (addToPhases_shift k l g).trans (addToPhases_shift k l' _)

theorem Shift.int {g g' : Graph} (h : Shift g g') {v : ℕ} : (∃ k : ℤ, g'.phase v = k) ↔ ∃ k : ℤ, g.phase v = k := by
  obtain ⟨l, hl⟩ := h v
  constructor
  · rintro ⟨k, hk⟩
    exact ⟨k - l, by push_cast; rw [← hk, hl]; ring⟩
  · rintro ⟨k, hk⟩
    exact ⟨k + l, by push_cast; rw [← hk, hl]⟩

theorem pivotStep_shift (lst : Finset ℕ → List ℕ) {s : RewriteState} {m : Rules.PivotMatch} (h0 : ∃ k : ℤ, s.g.phase m.v0 = k)
    (h1 : ∃ k : ℤ, s.g.phase m.v1 = k) : Shift s.g (Rules.pivotStep lst s m).g := by
  unfold Rules.pivotStep
  simp only [pivotBoundary_g]
  generalize lst (Rules.pivotNbrs s.g m.v0 m.v1 m.b0 ∩ Rules.pivotNbrs s.g m.v1 m.v0 m.b1) = l2
  generalize lst (Rules.pivotNbrs s.g m.v0 m.v1 m.b0 \ (Rules.pivotNbrs s.g m.v0 m.v1 m.b0 ∩ Rules.pivotNbrs s.g m.v1 m.v0 m.b1)) = l0
  generalize lst (Rules.pivotNbrs s.g m.v1 m.v0 m.b1 \ (Rules.pivotNbrs s.g m.v0 m.v1 m.b0 ∩ Rules.pivotNbrs s.g m.v1 m.v0 m.b1)) = l1
  set g1 := s.g.addPower ((l0.length : ℤ) * l2.length + l1.length * l2.length + l0.length * l1.length) with hg1
  set g2 := Rules.addToPhases g1 l2 1 with hg2
  set g3 := (if g2.phase m.v0 ≠ 0 ∧ g2.phase m.v1 ≠ 0 then g2.addScalarPhase 1 else g2) with hg3
  generalize (if m.b0 = none ∧ m.b1 = none then -((l0.length : ℤ) + l1.length + 2 * l2.length - 1)
    else if m.b0 = none then -((l1.length : ℤ) + l2.length) else -((l0.length : ℤ) + l2.length)) = n
  have s2 : Shift s.g g2 := by
    refine Shift.trans (g' := g1) (Shift.of_eq rfl) ?_
    have := addToPhases_shift 1 l2 g1
    rw [Int.cast_one] at this
    exact this
  have s3 : Shift s.g (g3.addPower n) := s2.trans (Shift.of_eq (by show g3.phase = _; rw [hg3]; split <;> rfl))
  have s4 : Shift s.g (Rules.pivotPhases (g3.addPower n) m.v0 l1 l2) := s3.trans (pivotPhases_shift (s3.int.mpr h0) l1 l2)
  exact s4.trans (pivotPhases_shift (s4.int.mpr h1) l0 l2)

theorem pivot_shift (lst : Finset ℕ → List ℕ) {g : Graph} {ms : List Rules.PivotMatch}
    (h : ∀ m ∈ ms, (∃ k : ℤ, g.phase m.v0 = k) ∧ ∃ k : ℤ, g.phase m.v1 = k) : Shift g (Rules.pivot lst g ms).g := by
  have key : ∀ (l : List Rules.PivotMatch) (s : RewriteState), (∀ m ∈ l, m ∈ ms) → Shift g s.g → Shift g (l.foldl (Rules.pivotStep lst) s).g := by
    intro l
    induction l with
    | nil => intro s _ hs; exact hs
    | cons m l ih =>
      intro s hl hs
      rw [List.foldl_cons]
      have := h m (hl m (by simp))
      exact ih _ (fun m hm => hl m (by simp [hm])) (hs.trans (pivotStep_shift lst (hs.int.mpr this.1) (hs.int.mpr this.2)))
  exact key ms _ (fun _ h => h) (Shift.refl g)

/-! ### The edge table of a pivot -/

/-- The neighbours of a pivot. -/
def pivotA (g : Graph) (m : Rules.PivotMatch) : Finset ℕ := Rules.pivotNbrs g m.v0 m.v1 m.b0 ∪ Rules.pivotNbrs g m.v1 m.v0 m.b1

/-- The update of a table entry for a boundary. -/
def pivotBf (g : Graph) (v w : ℕ) (p : ℕ × ℕ) : ℕ × ℕ :=
  if g.adj v w = some .simple then (p.1, p.2 + 1) else if g.adj v w = some .had then (p.1 + 1, p.2) else p

theorem pivotBoundary_forall {g : Graph} {s : RewriteState} (hs : s.g.adj = g.adj) {v o : ℕ} {b : Option ℕ}
    {Q : ℕ × ℕ → ℕ × ℕ → Prop} (ht : ∀ e ∈ s.etab, Q e.1 e.2)
    (hb : ∀ w, b = some w → Q (o, w) (pivotBf g v w (0, 0)) ∧ ∀ p, Q (o, w) p → Q (o, w) (pivotBf g v w p)) :
    ∀ e ∈ (Rules.pivotBoundary s v o b).etab, Q e.1 e.2 := by
  cases b with
  | none => exact ht
  | some w =>
    have hf : (fun p : ℕ × ℕ => if s.g.adj v w = some .simple then (p.1, p.2 + 1) else if s.g.adj v w = some .had then (p.1 + 1, p.2) else p)
        = pivotBf g v w := by
      funext p; unfold pivotBf; rw [hs]
    show ∀ e ∈ ETab.upd s.etab (o, w) (fun p => if s.g.adj v w = some .simple then (p.1, p.2 + 1)
      else if s.g.adj v w = some .had then (p.1 + 1, p.2) else p), Q e.1 e.2
    rw [hf]
    exact forall_upd ht (hb w rfl).1 (hb w rfl).2

theorem setHads_forall {Q : ℕ × ℕ → ℕ × ℕ → Prop} (es : List (ℕ × ℕ)) :
    ∀ {t : ETab}, (∀ e ∈ t, Q e.1 e.2) → (∀ k ∈ es, Q k (0, 1) ∧ ∀ p, Q k p → Q k (0, p.2 + 1)) →
    ∀ e ∈ es.foldl ETab.setHad t, Q e.1 e.2 := by
  induction es with
  | nil => intro t ht _; exact ht
  | cons k es ih =>
    intro t ht hk
    exact ih (t := ETab.setHad t k) (forall_upd ht (hk k (by simp)).1 (hk k (by simp)).2) fun k' hk' => hk k' (by simp [hk'])

/-- To show something for all entries of the table after a pivot it suffices to look at the pairs of neighbours and at the
boundaries. -/
theorem pivotStep_forall {g : Graph} {lst : Finset ℕ → List ℕ} (hlst : Rules.SetOrder lst) {m : Rules.PivotMatch}
    {s : RewriteState} (hs : SameBut g s.g) {Q : ℕ × ℕ → ℕ × ℕ → Prop} (ht : ∀ e ∈ s.etab, Q e.1 e.2)
    (hp : ∀ a ∈ pivotA g m, ∀ b ∈ pivotA g m, Q (a, b) (0, 1) ∧ ∀ p, Q (a, b) p → Q (a, b) (0, p.2 + 1))
    (hb0 : ∀ w, m.b0 = some w → Q (m.v1, w) (pivotBf g m.v0 w (0, 0)) ∧ ∀ p, Q (m.v1, w) p → Q (m.v1, w) (pivotBf g m.v0 w p))
    (hb1 : ∀ w, m.b1 = some w → Q (m.v0, w) (pivotBf g m.v1 w (0, 0)) ∧ ∀ p, Q (m.v0, w) p → Q (m.v0, w) (pivotBf g m.v1 w p)) :
    ∀ e ∈ (Rules.pivotStep lst s m).etab, Q e.1 e.2 := by
  have hn0 : Rules.pivotNbrs s.g m.v0 m.v1 m.b0 = Rules.pivotNbrs g m.v0 m.v1 m.b0 := by unfold Rules.pivotNbrs; rw [hs.nbrs]
  have hn1 : Rules.pivotNbrs s.g m.v1 m.v0 m.b1 = Rules.pivotNbrs g m.v1 m.v0 m.b1 := by unfold Rules.pivotNbrs; rw [hs.nbrs]
  have ml : ∀ N w, w ∈ lst N → w ∈ N := by intro N w hw; rw [← (hlst N).2]; simpa using hw
  unfold Rules.pivotStep
  simp only [hn0, hn1]
  have z2 : ∀ w ∈ lst (Rules.pivotNbrs g m.v0 m.v1 m.b0 ∩ Rules.pivotNbrs g m.v1 m.v0 m.b1), w ∈ pivotA g m := fun w hw =>
    Finset.mem_union_left _ (Finset.mem_inter.mp (ml _ w hw)).1
  have z0 : ∀ w ∈ lst (Rules.pivotNbrs g m.v0 m.v1 m.b0 \ (Rules.pivotNbrs g m.v0 m.v1 m.b0 ∩ Rules.pivotNbrs g m.v1 m.v0 m.b1)),
      w ∈ pivotA g m := fun w hw => Finset.mem_union_left _ (Finset.mem_sdiff.mp (ml _ w hw)).1
  have z1 : ∀ w ∈ lst (Rules.pivotNbrs g m.v1 m.v0 m.b1 \ (Rules.pivotNbrs g m.v0 m.v1 m.b0 ∩ Rules.pivotNbrs g m.v1 m.v0 m.b1)),
      w ∈ pivotA g m := fun w hw => Finset.mem_union_right _ (Finset.mem_sdiff.mp (ml _ w hw)).1
  revert z0 z1 z2
  generalize lst (Rules.pivotNbrs g m.v0 m.v1 m.b0 ∩ Rules.pivotNbrs g m.v1 m.v0 m.b1) = l2
  generalize lst (Rules.pivotNbrs g m.v0 m.v1 m.b0 \ (Rules.pivotNbrs g m.v0 m.v1 m.b0 ∩ Rules.pivotNbrs g m.v1 m.v0 m.b1)) = l0
  generalize lst (Rules.pivotNbrs g m.v1 m.v0 m.b1 \ (Rules.pivotNbrs g m.v0 m.v1 m.b0 ∩ Rules.pivotNbrs g m.v1 m.v0 m.b1)) = l1
  intro z2 z0 z1
  set g1 := s.g.addPower ((l0.length : ℤ) * l2.length + l1.length * l2.length + l0.length * l1.length) with hg1
  set g2 := Rules.addToPhases g1 l2 1 with hg2
  set g3 := (if g2.phase m.v0 ≠ 0 ∧ g2.phase m.v1 ≠ 0 then g2.addScalarPhase 1 else g2) with hg3
  generalize (if m.b0 = none ∧ m.b1 = none then -((l0.length : ℤ) + l1.length + 2 * l2.length - 1)
    else if m.b0 = none then -((l1.length : ℤ) + l2.length) else -((l0.length : ℤ) + l2.length)) = n
  have sb2 : SameBut g g2 := (hs.trans (sameBut_addPower _ _)).trans (addToPhases_spec l2 1 g1).1
  have sb3 : SameBut g g3 := by
    rw [hg3]; split
    · exact sb2.trans (sameBut_addScalarPhase _ _)
    · exact sb2
  have sbp : ∀ (g0 : Graph) v l, SameBut g g0 → SameBut g (Rules.pivotPhases g0 v l l2) := by
    intro g0 v l h0
    unfold Rules.pivotPhases
    simp only
    split
    · exact h0
    · exact (h0.trans (addToPhases_spec _ _ _).1).trans (addToPhases_spec _ _ _).1
  have sb5 := sbp (g3.addPower n) m.v0 l1 (sb3.trans (sameBut_addPower _ _))
  set g5 := Rules.pivotPhases (g3.addPower n) m.v0 l1 l2 with hg5
  have e1 := pivotBoundary_forall (g := g) (s := { s with g := g5 }) (v := m.v0) (o := m.v1) (b := m.b0) sb5.adj ht hb0
  set s5 := Rules.pivotBoundary { s with g := g5 } m.v0 m.v1 m.b0 with hs5
  have hs5g : s5.g = g5 := pivotBoundary_g _ _ _ _
  have sb6 := sbp s5.g m.v1 l0 (by rw [hs5g]; exact sb5)
  have e2 := pivotBoundary_forall (g := g) (s := { s5 with g := Rules.pivotPhases s5.g m.v1 l0 l2 }) (v := m.v1) (o := m.v0) (b := m.b1)
    sb6.adj e1 hb1
  refine setHads_forall _ e2 ?_
  rintro ⟨x, y⟩ he
  simp only [Rules.pivotPairs, List.mem_append] at he
  rcases he with (q | q) | q <;> obtain ⟨q1, q2⟩ := List.pair_mem_product.mp q
  · exact hp x (z0 _ q1) y (z1 _ q2)
  · exact hp x (z1 _ q1) y (z2 _ q2)
  · exact hp x (z0 _ q1) y (z2 _ q2)

/-- The same for a list of pivots. -/
theorem pivot_forall {g : Graph} (hg : g.WF) {lst : Finset ℕ → List ℕ} (hlst : Rules.SetOrder lst) {ms : List Rules.PivotMatch}
    (h : ∀ m ∈ ms, PivotOK1 g m) {Q : ℕ × ℕ → ℕ × ℕ → Prop}
    (hp : ∀ m ∈ ms, ∀ a ∈ pivotA g m, ∀ b ∈ pivotA g m, Q (a, b) (0, 1) ∧ ∀ p, Q (a, b) p → Q (a, b) (0, p.2 + 1))
    (hb0 : ∀ m ∈ ms, ∀ w, m.b0 = some w → Q (m.v1, w) (pivotBf g m.v0 w (0, 0)) ∧
      ∀ p, Q (m.v1, w) p → Q (m.v1, w) (pivotBf g m.v0 w p))
    (hb1 : ∀ m ∈ ms, ∀ w, m.b1 = some w → Q (m.v0, w) (pivotBf g m.v1 w (0, 0)) ∧
      ∀ p, Q (m.v0, w) p → Q (m.v0, w) (pivotBf g m.v1 w p)) :
    ∀ e ∈ (Rules.pivot lst g ms).etab, Q e.1 e.2 := by
  have hsame : ∀ m ∈ ms, ∀ s : RewriteState, SameBut g s.g → SameBut g (Rules.pivotStep lst s m).g := by
    intro m hm s hs
    by_cases hc : ∃ c, g.ty c = .boundary
    · obtain ⟨c, hc⟩ := hc
      exact (pivotStep_ge hg hlst (h m hm) hs hc).2
    · unfold Rules.pivotStep
      simp only [pivotBoundary_g]
      generalize lst (Rules.pivotNbrs s.g m.v0 m.v1 m.b0 ∩ Rules.pivotNbrs s.g m.v1 m.v0 m.b1) = l2
      have sbp : ∀ (g0 : Graph) v l, SameBut g g0 → SameBut g (Rules.pivotPhases g0 v l l2) := by
        intro g0 v l h0
        unfold Rules.pivotPhases
        simp only
        split
        · exact h0
        · exact (h0.trans (addToPhases_spec _ _ _).1).trans (addToPhases_spec _ _ _).1
      refine sbp _ _ _ (sbp _ _ _ (SameBut.trans ?_ (sameBut_addPower _ _)))
      split
      · exact ((hs.trans (sameBut_addPower _ _)).trans (addToPhases_spec _ _ _).1).trans (sameBut_addScalarPhase _ _)
      · exact (hs.trans (sameBut_addPower _ _)).trans (addToPhases_spec _ _ _).1
  have key : ∀ (l : List Rules.PivotMatch) (s : RewriteState), (∀ m ∈ l, m ∈ ms) → SameBut g s.g → (∀ e ∈ s.etab, Q e.1 e.2) →
      ∀ e ∈ (l.foldl (Rules.pivotStep lst) s).etab, Q e.1 e.2 := by
    intro l
    induction l with
    | nil => intro s _ _ hs; exact hs
    | cons m l ih =>
      intro s hl hs ht
      have hm := hl m (by simp)
      rw [List.foldl_cons]
      exact ih _ (fun m hm => hl m (by simp [hm])) (hsame m hm s hs) (pivotStep_forall hlst hs ht (hp m hm) (hb0 m hm) (hb1 m hm))
  exact key ms _ (fun _ h => h) (SameBut.refl g) (by simp [RewriteState.start])

/-- The pairs that occur in the table. -/
theorem pivot_keys {g : Graph} (hg : g.WF) {lst : Finset ℕ → List ℕ} (hlst : Rules.SetOrder lst) {ms : List Rules.PivotMatch}
    (h : ∀ m ∈ ms, PivotOK1 g m) : ∀ e ∈ (Rules.pivot lst g ms).etab, ∃ m ∈ ms, (e.1.1 ∈ pivotA g m ∧ e.1.2 ∈ pivotA g m) ∨
      (∃ w, m.b0 = some w ∧ e.1 = (m.v1, w)) ∨ ∃ w, m.b1 = some w ∧ e.1 = (m.v0, w) :=
  pivot_forall hg hlst h (Q := fun k _ => ∃ m ∈ ms, (k.1 ∈ pivotA g m ∧ k.2 ∈ pivotA g m) ∨
      (∃ w, m.b0 = some w ∧ k = (m.v1, w)) ∨ ∃ w, m.b1 = some w ∧ k = (m.v0, w))
    (fun m hm _ ha _ hb => ⟨⟨m, hm, Or.inl ⟨ha, hb⟩⟩, fun _ h => h⟩)
    (fun m hm w hw => ⟨⟨m, hm, Or.inr (Or.inl ⟨w, hw, rfl⟩)⟩, fun _ h => h⟩)
    (fun m hm w hw => ⟨⟨m, hm, Or.inr (Or.inr ⟨w, hw, rfl⟩)⟩, fun _ h => h⟩)

theorem mem_pivotA {g : Graph} (hg : g.WF) {m : Rules.PivotMatch} {a : ℕ} (h : a ∈ pivotA g m) :
    (g.adj m.v0 a ≠ none ∧ a ≠ m.v1 ∧ m.b0 ≠ some a) ∨ (g.adj m.v1 a ≠ none ∧ a ≠ m.v0 ∧ m.b1 ≠ some a) := by
  rcases Finset.mem_union.mp h with h | h
  · left
    simp only [Rules.pivotNbrs, Finset.mem_filter, Finset.mem_erase, mem_nbrs hg.toInv] at h
    exact ⟨h.1.2, h.1.1, h.2⟩
  · right
    simp only [Rules.pivotNbrs, Finset.mem_filter, Finset.mem_erase, mem_nbrs hg.toInv] at h
    exact ⟨h.1.2, h.1.1, h.2⟩

/-! ### The edges of the result -/

/-- `n` is neither a vertex nor a neighbour of a pivot. -/
def Untouched (g : Graph) (ms : List Rules.PivotMatch) (n : ℕ) : Prop :=
  ∀ m ∈ ms, n ≠ m.v0 ∧ n ≠ m.v1 ∧ g.adj m.v0 n = none ∧ g.adj m.v1 n = none

/-- The edges of an untouched vertex stay. -/
theorem pivot_untouched {g : Graph} (hg : g.WF) {lst : Finset ℕ → List ℕ} (hlst : Rules.SetOrder lst) {ms : List Rules.PivotMatch}
    (h : PivotOK g ms) {g' : Graph} (hf : (Rules.pivot lst g ms).finish = some g') (hw : g'.WF) {n : ℕ} (hn : Untouched g ms n) :
    ∀ x, g'.adj n x = g.adj n x := by
  obtain ⟨f1, -, f3, f4, -⟩ := pivot_fold hg hlst ms h rfl
  have hkeys := pivot_keys hg hlst h.each
  have hnokey : ∀ e ∈ (Rules.pivot lst g ms).etab, ¬ touch n e.1 := by
    intro e he ht
    obtain ⟨m, hm, hc⟩ := hkeys e he
    obtain ⟨u1, u2, u3, u4⟩ := hn m hm
    have hk := h.each m hm
    have hA : n ∉ pivotA g m := fun hh => by
      rcases mem_pivotA hg hh with q | q
      · exact q.1 u3
      · exact q.1 u4
    rcases hc with ⟨c1, c2⟩ | ⟨w, hw, c⟩ | ⟨w, hw, c⟩
    · rcases ht with t | t
      · exact hA (t ▸ c1)
      · exact hA (t ▸ c2)
    · rw [c] at ht
      rcases ht with t | t
      · exact u2 t
      · exact (hk.b0 w hw).1 (by rw [← show n = w from t]; exact u3)
    · rw [c] at ht
      rcases ht with t | t
      · exact u1 t
      · exact (hk.b1 w hw).1 (by rw [← show n = w from t]; exact u4)
  have hnr : n ∉ ms.flatMap pivotRem := by
    intro hh
    obtain ⟨m, hm, hh⟩ := List.mem_flatMap.mp hh
    obtain ⟨u1, u2, -, -⟩ := hn m hm
    simp only [pivotRem, List.mem_append] at hh
    rcases hh with hh | hh <;> split at hh <;> simp at hh
    · exact u2 hh
    · exact u1 hh
  have hner : ∀ x, ∀ e ∈ ms.flatMap pivotRemE, ¬ SamePair (n, x) e := by
    intro x e he hsp
    obtain ⟨-, m, hm, hh⟩ := pivotRemE_mem h e he
    obtain ⟨u1, u2, u3, u4⟩ := hn m hm
    have hk := h.each m hm
    rcases hh with ⟨q1, q2⟩ | ⟨q1, q2⟩ <;> rcases hsp with ⟨p1, p2⟩ | ⟨p1, p2⟩ <;> simp only at p1 p2
    · exact u1 (p1.trans q1)
    · exact (hk.b0 e.2 q2).1 (by rw [← p1]; exact u3)
    · exact u2 (p1.trans q1)
    · exact (hk.b1 e.2 q2).1 (by rw [← p1]; exact u4)
  intro x
  have hf0 := hf
  unfold RewriteState.finish at hf
  obtain ⟨g1, h1, hf⟩ := Option.bind_eq_some_iff.mp hf
  obtain ⟨g2, h2, h3⟩ := Option.bind_eq_some_iff.mp hf
  obtain ⟨hr, -, -, -⟩ := removeVertices_spec h3
  obtain ⟨-, -, -, b4⟩ := removeEdges_same h2
  rw [f3] at hr
  rw [f4] at b4
  by_cases hx : x ∈ ms.flatMap pivotRem
  · obtain ⟨m, hm, hh⟩ := List.mem_flatMap.mp hx
    obtain ⟨-, -, u3, u4⟩ := hn m hm
    have e1 : g.adj n x = none := by
      rw [hg.symm]
      simp only [pivotRem, List.mem_append] at hh
      rcases hh with hh | hh <;> split at hh <;> simp at hh
      · rw [hh]; exact u4
      · rw [hh]; exact u3
    rw [e1]
    by_contra hne
    have := (finish_adj hf0 hw.toInv hne).2.1
    rw [f3] at this
    exact this hx
  · rw [hr.adj n x (by simpa using hnr) (by simpa using hx), b4 n x (hner x),
      addEdgeTable_adj_other h1 fun e he _ hsp => hnokey e he ?_, f1.adj]
    rcases hsp with ⟨p, -⟩ | ⟨p, -⟩
    · exact Or.inl p
    · exact Or.inr p

theorem addEdgeTable_append {g : Graph} {t t' : ETab} : g.addEdgeTable (t ++ t') = (g.addEdgeTable t).bind fun g1 => g1.addEdgeTable t' := by
  unfold addEdgeTable
  rw [List.foldlM_append]; rfl

theorem addEdge_new {g g' : Graph} {s t : ℕ} {e : EType} (h : g.addEdge s t e = some g') (hn : g.adj s t = none) :
    g'.adj s t = some e := by
  obtain ⟨-, ⟨-, -, rfl⟩ | ⟨e1, hn', -⟩⟩ := addEdge_cases h
  · show (if _ then _ else _) = _
    exact if_pos (Or.inl ⟨rfl, rfl⟩)
  · rw [hn] at hn'; simp at hn'

/-- A single entry with a single edge, on a pair that is not connected, leads to an edge. -/
theorem addEdgeTable_single {g g' : Graph} {t : ETab} (h : g.addEdgeTable t = some g') {c : ℕ} (hc : tcount t c ≤ 1) {e} (he : e ∈ t)
    (hz : e.2 ≠ (0, 0)) (ht : touch c e.1) (hn : g.adj e.1.1 e.1.2 = none) : g'.adj e.1.1 e.1.2 ≠ none := by
  have hone : e.2.1 + e.2.2 = 1 := by
    have := tcount_pos he hz ht
    rcases tab_ne.mp hz with q | q <;> omega
  have hpair := tcount_pair hc
  obtain ⟨t1, t2, rfl⟩ := List.append_of_mem he
  rw [addEdgeTable_append] at h
  obtain ⟨g1, h1, h2⟩ := Option.bind_eq_some_iff.mp h
  obtain ⟨g2, g3, h3, h4, h5⟩ := addEdgeTable_cons h2
  rw [List.pairwise_append, List.pairwise_cons] at hpair
  obtain ⟨-, ⟨p2, -⟩, p3⟩ := hpair
  have htp : ∀ f : (ℕ × ℕ) × ℕ × ℕ, SamePair (e.1.1, e.1.2) f.1 → touch c f.1 := by
    intro f hsp
    rcases hsp with ⟨q1, q2⟩ | ⟨q1, q2⟩ <;> rcases ht with q | q <;> simp only at q1 q2
    · exact Or.inl (q.trans q1)
    · exact Or.inr (q.trans q2)
    · exact Or.inr (q.trans q1)
    · exact Or.inl (q.trans q2)
  have a1 : g1.adj e.1.1 e.1.2 = none := by
    rw [addEdgeTable_adj_other h1 fun f hf hfz hsp => p3 f hf e (by simp) hfz hz (htp f hsp) ht, hn]
  have a5 : g'.adj e.1.1 e.1.2 = g3.adj e.1.1 e.1.2 :=
    addEdgeTable_adj_other h5 fun f hf hfz hsp => p2 f hf hz hfz ht (htp f hsp)
  rw [a5]
  by_cases h0 : e.2.1 = 0
  · have h1' : e.2.2 = 1 := by omega
    rw [h0] at h3
    rw [h1'] at h4
    simp only [addEdgeN, Option.some.injEq] at h3
    rw [← h3] at h4
    simp only [addEdgeN] at h4
    obtain ⟨g4, h4, h6⟩ := Option.bind_eq_some_iff.mp h4
    rw [← Option.some.inj h6, addEdge_new h4 a1]
    simp
  · have h1' : e.2.1 = 1 := by omega
    have h2' : e.2.2 = 0 := by omega
    rw [h1'] at h3
    rw [h2'] at h4
    simp only [addEdgeN, Option.some.injEq] at h4
    rw [← h4]
    simp only [addEdgeN] at h3
    obtain ⟨g4, h3, h6⟩ := Option.bind_eq_some_iff.mp h3
    rw [← Option.some.inj h6, addEdge_new h3 a1]
    simp

end Graph
end PyZX
