import Verif.Model.HNot
import Verif.Props.HFuse

/-!
# C69: H-boxes with a parallel NOT

`match_hbox_parallel_not` does not look at the direct edge between the H-box and the spider. With a Hadamard edge the rewrite is wrong.
-/

namespace PyZX
namespace Props

open Graph HRules

theorem isNotGate_iff (g : Graph) (v n1 n2 : ℕ) : isNotGate g v n1 n2 = true ↔
    (g.ty v = .X ∧ g.adj n1 v = some .simple ∧ g.adj n2 v = some .simple) ∨ (g.ty v = .Z ∧ g.adj n1 v = some .had ∧ g.adj n2 v = some .had) := by
  unfold isNotGate
  split
  · rename_i h; simp [h.1, h.2]
  · rename_i h
    split
    · rename_i h'; simp [h'.1, h'.2]
    · rename_i h'
      simp only [Bool.false_eq_true, false_iff, not_or]
      exact ⟨fun a => h ⟨a.2.1, a.1⟩, fun a => h' ⟨a.2.1, a.1⟩⟩

theorem notNbr_spec {g : Graph} {ord : ℕ → List ℕ} {h : ℕ} : ∀ {l : List ℕ} {v n : ℕ}, notNbr g ord h l = some (v, n) →
    n ∈ l ∧ g.degree n = 2 ∧ g.phase n = 1 ∧ g.adj v h ≠ none ∧ v ∈ ord n ∧ v ≠ h ∧ isNotGate g n h v = true := by
  intro l
  induction l with
  | nil => intro v n hh; simp [notNbr] at hh
  | cons a l ih =>
    intro v n hh
    unfold notNbr at hh
    split at hh
    · obtain ⟨h1, h2⟩ := ih hh
      exact ⟨List.mem_cons_of_mem _ h1, h2⟩
    · rename_i hc
      rw [not_or, not_not, not_not] at hc
      split at hh
      · exact absurd hh (by simp)
      · rename_i w ws hw
        split at hh
        · obtain ⟨h1, h2⟩ := ih hh
          exact ⟨List.mem_cons_of_mem _ h1, h2⟩
        · rename_i hd
          rw [not_or] at hd
          simp only [Option.some.injEq, Prod.mk.injEq] at hh
          obtain ⟨rfl, rfl⟩ := hh
          have : w ∈ (ord a).filter (· ≠ h) := by rw [hw]; simp
          rw [List.mem_filter] at this
          exact ⟨List.mem_cons_self, hc.1, hc.2, hd.1, this.1, by simpa using this.2, by simpa using hd.2⟩

/-- **C69.** A match `(h, v, n)` consists of an H-box `h` with phase 1 and a NOT gate `n` between `h` and `v`, where `v` and `h` are connected.
Missing: that `v` is a Z-spider with an ordinary edge to `h`, which is false, and with it that the rewrite keeps the tensor (`not_not_sound`). -/
theorem matchNot_partial {g : Graph} {ord : ℕ → List ℕ} {cands drop : List ℕ} : ∀ m ∈ matchNot g ord drop cands,
    m.1 ∈ cands ∧ g.ty m.1 = .hbox ∧ g.phase m.1 = 1 ∧ m.2.2 ∈ ord m.1 ∧ m.2.1 ∈ ord m.2.2 ∧ m.2.1 ≠ m.1 ∧ g.adj m.2.1 m.1 ≠ none ∧
      g.degree m.2.2 = 2 ∧ g.phase m.2.2 = 1 ∧
      ((g.ty m.2.2 = .X ∧ g.adj m.1 m.2.2 = some .simple ∧ g.adj m.2.1 m.2.2 = some .simple) ∨
        (g.ty m.2.2 = .Z ∧ g.adj m.1 m.2.2 = some .had ∧ g.adj m.2.1 m.2.2 = some .had)) := by
  induction cands generalizing drop with
  | nil => intro m hm; simp [matchNot] at hm
  | cons h hs ih =>
    intro m hm
    unfold matchNot at hm
    split at hm
    · exact ⟨List.mem_cons_of_mem _ (ih m hm).1, (ih m hm).2⟩
    · split at hm
      · exact ⟨List.mem_cons_of_mem _ (ih m hm).1, (ih m hm).2⟩
      · rename_i hc
        rw [not_or, not_not, not_not] at hc
        split at hm
        · exact ⟨List.mem_cons_of_mem _ (ih m hm).1, (ih m hm).2⟩
        · rename_i v n hn
          rcases List.mem_cons.mp hm with rfl | hm
          · obtain ⟨a, b, c, d, e, f, i⟩ := notNbr_spec hn
            exact ⟨List.mem_cons_self, hc.1, hc.2, a, e, f, d, b, c, (isNotGate_iff g n h v).mp i⟩
          · exact ⟨List.mem_cons_of_mem _ (ih m hm).1, (ih m hm).2⟩

/-- An H-box 0 on the Z-spider 1, by a Hadamard edge and through the NOT gate 2. -/
noncomputable def exNot : Graph := mkG [.hbox, .Z, .X] [1, 0, 1] [(0, 1, .had), (0, 2, .simple), (1, 2, .simple)] [] []

/-- Neighbours of `exNot`. -/
def exNotOrd : ℕ → List ℕ
  | 0 => [1, 2] | 1 => [0, 2] | 2 => [0, 1] | _ => []

theorem exNot_ord : Rules.NbrOrder exNot exNotOrd := by
  intro v hv
  have hv : v < 3 := Finset.mem_range.mp hv
  interval_cases v <;> refine ⟨by decide, ?_⟩ <;> simp only [exNot, mkG, Graph.nbrs, exNotOrd] <;> decide

theorem exNot_match : matchNot exNot exNotOrd [] [0, 1, 2] = [(0, 1, 2)] := by
  have d2 : exNot.degree 2 = 2 := by
    have := exNot_ord 2 (by simp [exNot, mkG])
    unfold Graph.degree
    rw [← this.2]; decide
  have t : exNot.ty 0 = .hbox ∧ exNot.ty 1 = .Z ∧ exNot.ty 2 = .X := by simp [exNot, mkG]
  have p : exNot.phase 0 = 1 ∧ exNot.phase 1 = 0 ∧ exNot.phase 2 = 1 := by simp [exNot, mkG]
  have a : exNot.adj 0 2 = some .simple ∧ exNot.adj 1 2 = some .simple ∧ exNot.adj 1 0 = some .had := by simp [exNot, mkG]
  obtain ⟨t0, t1, t2⟩ := t
  obtain ⟨p0, p1, p2⟩ := p
  obtain ⟨a1, a2, a3⟩ := a
  simp [matchNot, notNbr, isNotGate, exNotOrd, t0, t2, p0, p1, p2, a1, a2, a3, d2]

/-- There are matches. -/
example : ∃ m, m ∈ matchNot exNot exNotOrd [] [0, 1, 2] := ⟨(0, 1, 2), by rw [exNot_match]; simp⟩

theorem exNot_sem (b : ℕ → Bool) : exNot.sem b = 0 := by
  have hw : exNot.HWF := mkG_hwf (by decide) (by decide)
  have hv : exNot.verts = insert 0 (insert 1 (insert 2 ∅)) := by ext v; simp [exNot, mkG]; omega
  have hi : exNot.interior = insert 0 (insert 1 (insert 2 ∅)) := by
    ext v
    rw [Graph.interior, Finset.mem_filter, hv]
    constructor
    · exact fun h => h.1
    · intro h
      refine ⟨h, ?_⟩
      simp only [Finset.mem_insert, Finset.notMem_empty, or_false] at h
      rcases h with rfl | rfl | rfl <;> simp [exNot, mkG]
  have t : exNot.ty 0 = .hbox ∧ exNot.ty 1 = .Z ∧ exNot.ty 2 = .X := by simp [exNot, mkG]
  obtain ⟨t0, t1, t2⟩ := t
  rw [sem_eq_wH hw.toInv hw.noW, hi]
  have hwt : ∀ x, exNot.wH exNot.verts x = (if x 0 then -2 else 1) * (if x 2 then -1 else 1) * contr .had (legT .hbox (x 0)) (legT .Z (x 1)) *
      contr .simple (legT .hbox (x 0)) (legT .X (x 2)) * contr .simple (legT .Z (x 1)) (legT .X (x 2)) := by
    intro x
    rw [hv]
    unfold wH
    rw [pairProd_insert (by simp) (edgeH_comm hw.symm x), pairProd_insert (by simp) (edgeH_comm hw.symm x),
      pairProd_insert (by simp) (edgeH_comm hw.symm x), pairProd_empty]
    have e01 : exNot.edgeH x 0 1 = contr .had (legT .hbox (x 0)) (legT .Z (x 1)) := by
      rw [edgeH_some (e := .had) (by simp [exNot, mkG]), t0, t1]
    have e02 : exNot.edgeH x 0 2 = contr .simple (legT .hbox (x 0)) (legT .X (x 2)) := by
      rw [edgeH_some (e := .simple) (by simp [exNot, mkG]), t0, t2]
    have e12 : exNot.edgeH x 1 2 = contr .simple (legT .Z (x 1)) (legT .X (x 2)) := by
      rw [edgeH_some (e := .simple) (by simp [exNot, mkG]), t1, t2]
    have hs : exNot.scalar.toNumber = 1 := by simp [exNot, mkG, Scalar.new, Scalar.toNumber]
    have w0 : exNot.wtH 0 (x 0) = if x 0 then -2 else 1 := by
      unfold wtH wtT; rw [t0]
      have : exNot.phase 0 = 1 := by simp [exNot, mkG]
      rw [this, ph_one]; norm_num
    have w1 : exNot.wtH 1 (x 1) = 1 := by
      unfold wtH wtT; rw [t1]; simp [exNot, mkG]
    have w2 : exNot.wtH 2 (x 2) = if x 2 then -1 else 1 := by
      unfold wtH wtT; rw [t2]
      have : exNot.phase 2 = 1 := by simp [exNot, mkG]
      rw [this, ph_one]
    simp [e01, e02, e12, w0, w1, w2, hs]
    ring_nf
  simp only [psum_insert_env (show (0 : ℕ) ∉ insert 1 (insert 2 (∅ : Finset ℕ)) by simp),
    psum_insert_env (show (1 : ℕ) ∉ insert 2 (∅ : Finset ℕ) by simp), psum_insert_env (show (2 : ℕ) ∉ (∅ : Finset ℕ) by simp)]
  simp only [psum_empty, hwt]
  simp [contr, legT, edgeMat, hmat, dmat]
  ring_nf

/-- **C69 is false.** The matcher accepts a Hadamard edge between the H-box and the spider; the rewrite then changes the tensor 0 into 2. -/
theorem not_not_sound : exNot.HWF ∧ Rules.NbrOrder exNot exNotOrd ∧ matchNot exNot exNotOrd [] [0, 1, 2] = [(0, 1, 2)] ∧
    ∃ g', (removeNot exNot [(0, 1, 2)]).finish = some g' ∧ ∀ b, exNot.sem b = 0 ∧ g'.sem b = 2 := by
  have hw : exNot.HWF := mkG_hwf (by decide) (by decide)
  obtain ⟨g', h3⟩ := removeVertices_isSome hw.toInv (vs := [0, 2]) (by decide) (by simp [exNot, mkG])
  refine ⟨hw, exNot_ord, exNot_match, g', by simp [removeNot, RewriteState.finish, addEdgeTable, removeEdges, h3], fun b => ⟨exNot_sem b, ?_⟩⟩
  obtain ⟨hr, -, hi, -⟩ := removeVertices_spec h3
  have hv : g'.verts = insert 1 ∅ := by
    rw [hr.verts]
    ext v; simp [exNot, mkG]; omega
  have ty1 : g'.ty 1 = .Z := by rw [hr.ty]; simp [exNot, mkG]
  have hint : g'.interior = insert 1 ∅ := by
    ext v
    rw [Graph.interior, Finset.mem_filter, hv]
    constructor
    · exact fun h => h.1
    · intro h
      refine ⟨h, ?_⟩
      simp only [Finset.mem_insert, Finset.notMem_empty, or_false] at h
      rw [h, ty1]; decide
  have hnw : ∀ v ∈ g'.verts, g'.ty v ≠ .winput ∧ g'.ty v ≠ .woutput := by
    intro v h
    rw [hv] at h
    simp only [Finset.mem_insert, Finset.notMem_empty, or_false] at h
    rw [h, ty1]; decide
  rw [sem_eq_wH (hi hw.toInv) hnw, hint]
  have hwt : ∀ x, g'.wH g'.verts x = 1 := by
    intro x
    rw [hv]
    unfold wH
    rw [pairProd_insert (by simp) (edgeH_comm (hi hw.toInv).symm x), pairProd_empty]
    have hs : g'.scalar.toNumber = 1 := by rw [removeVertices_scalar h3]; simp [exNot, mkG, Scalar.new, Scalar.toNumber]
    have w1 : g'.wtH 1 (x 1) = 1 := by
      unfold wtH wtT; rw [ty1, hr.phase]; simp [exNot, mkG]
    simp [w1, hs]
  simp only [psum_insert_env (show (1 : ℕ) ∉ (∅ : Finset ℕ) by simp)]
  simp only [psum_empty, hwt]
  norm_num

end Props
end PyZX
