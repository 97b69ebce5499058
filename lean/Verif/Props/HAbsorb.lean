import Verif.Proofs.HAbsorb
import Verif.Props.HSimp

/-!
# C68: H-boxes with one leg become phases

The first loop of `from_hypergraph_form` keeps the tensor, scalar included, as long as the legs are ordinary edges. It does not look at the type of the
edge, and is wrong for Hadamard edges.
-/

namespace PyZX
namespace Props

open Graph HRules

/-- **C68**, for H-boxes on ordinary edges. The loop ends without an exception and keeps the tensor exactly; it removes exactly the H-boxes whose only neighbour is a
Z-spider. Missing: Hadamard edges, for which the claim is false (`absorb_not_sound`). -/
theorem absorb_partial {g : Graph} (hg : g.HWF) {ord : Graph → ℕ → List ℕ} (ho : ∀ g, Rules.NbrOrder g (ord g)) {vs : List ℕ} (hn : vs.Nodup)
    (hv : vs.toFinset = g.verts) (he : ∀ h n, g.ty h = .hbox → g.nbrs h = {n} → g.ty n = .Z → g.adj h n = some .simple) :
    ∃ g', absorb ord g vs = some g' ∧ HPreserves g g' ∧
      ∀ v, v ∈ g'.verts ↔ v ∈ g.verts ∧ ¬ (g.ty v = .hbox ∧ ∃ n, g.nbrs v = {n} ∧ g.ty n = .Z) := by
  have hm : ∀ v, v ∈ vs.filter (fun h => g.ty h = .hbox) ↔ v ∈ g.verts ∧ g.ty v = .hbox := by
    intro v
    rw [← hv]
    simp
  obtain ⟨g', h1, h2, h3⟩ := absorb_fold ho (vs.filter fun h => g.ty h = .hbox) g hg (hn.filter _) (fun h hh => (hm h).mp hh)
    (fun h hh n => he h n ((hm h).mp hh).2)
  refine ⟨g', h1, h2, fun v => ?_⟩
  rw [h3, hm]
  exact and_congr_right fun a => not_congr ⟨fun b => ⟨b.1.2, b.2⟩, fun b => ⟨⟨a, b.1⟩, b.2⟩⟩

/-- Orders of the neighbours exist. -/
example : ∀ g, Rules.NbrOrder g (incOrders.nbr g) := incOrders_ok.nbr

/-- A Z-spider with two H-boxes, one of them with a second leg. -/
noncomputable def exAbsorb : Graph := mkG [.Z, .hbox, .hbox, .X] [1/4, 1/2, 1/3, 1] [(0, 1, .simple), (0, 2, .had), (2, 3, .had)] [] []

example : exAbsorb.HWF ∧ (∀ h n, exAbsorb.ty h = .hbox → exAbsorb.nbrs h = {n} → exAbsorb.ty n = .Z → exAbsorb.adj h n = some .simple) ∧
    exAbsorb.ty 1 = .hbox ∧ exAbsorb.nbrs 1 = {0} := by
  have hi : exAbsorb.HWF := mkG_hwf (by decide) (by decide)
  have n1 : exAbsorb.nbrs 1 = {0} := by simp only [exAbsorb, mkG, Graph.nbrs]; decide
  have n2 : exAbsorb.nbrs 2 = {0, 3} := by simp only [exAbsorb, mkG, Graph.nbrs]; decide
  refine ⟨hi, ?_, by simp [exAbsorb, mkG], n1⟩
  intro h n hh hn _
  have hn' : n ∈ exAbsorb.nbrs h := by rw [hn]; simp
  rw [mem_nbrs hi.toInv] at hn'
  have hlt : h < 4 := Finset.mem_range.mp (hi.mem h n hn')
  interval_cases h
  · simp [exAbsorb, mkG] at hh
  · rw [n1, Finset.singleton_inj] at hn
    subst hn
    simp [exAbsorb, mkG]
  · rw [n2] at hn
    have h0 : (0 : ℕ) ∈ ({n} : Finset ℕ) := by rw [← hn]; simp
    have h3 : (3 : ℕ) ∈ ({n} : Finset ℕ) := by rw [← hn]; simp
    simp at h0 h3
    omega
  · simp [exAbsorb, mkG] at hh

/-- An H-box with one leg, a Hadamard edge to a Z-spider. -/
noncomputable def exAbsorbHad : Graph := mkG [.hbox, .Z] [1, 0] [(0, 1, .had)] [] []

/-- **C68 is false for Hadamard edges.** The tensor √2 becomes 0. -/
theorem absorb_not_sound {ord : Graph → ℕ → List ℕ} (ho : ∀ g, Rules.NbrOrder g (ord g)) : exAbsorbHad.HWF ∧
    ∃ g', absorb ord exAbsorbHad [0, 1] = some g' ∧ ∀ b, exAbsorbHad.sem b = sq2 ∧ g'.sem b = 0 := by
  have hw : exAbsorbHad.HWF := mkG_hwf (by decide) (by decide)
  have ty0 : exAbsorbHad.ty 0 = .hbox := by simp [exAbsorbHad, mkG]
  have ty1 : exAbsorbHad.ty 1 = .Z := by simp [exAbsorbHad, mkG]
  have n0 : exAbsorbHad.nbrs 0 = {1} := by simp only [exAbsorbHad, mkG, Graph.nbrs]; decide
  have hd : exAbsorbHad.degree 0 = 1 := by unfold Graph.degree; rw [n0]; simp
  have hl : ord exAbsorbHad 0 = [1] := by
    obtain ⟨o1, o2⟩ := ho exAbsorbHad 0 (by simp [exAbsorbHad, mkG])
    have e2 : (ord exAbsorbHad 0).length = 1 := by rw [← List.toFinset_card_of_nodup o1, o2]; exact hd
    obtain ⟨y, hy⟩ := List.length_eq_one_iff.mp e2
    rw [hy, n0] at o2
    rw [hy]; simpa using o2
  have hi1 : (exAbsorbHad.setPhase 1 (exAbsorbHad.phase 1 + exAbsorbHad.phase 0)).Inv := hw.toInv.congr rfl rfl rfl rfl rfl rfl
  obtain ⟨g', h3⟩ := removeVertices_isSome hi1 (vs := [0]) (by decide) (by simp [exAbsorbHad, mkG, setPhase])
  refine ⟨hw, g', ?_, fun b => ⟨?_, ?_⟩⟩
  · simp [absorb, absorbStep, ty0, ty1, hd, hl, h3]
  · have hv : exAbsorbHad.verts = insert 0 (insert 1 ∅) := by ext v; simp [exAbsorbHad, mkG]; omega
    have hi : exAbsorbHad.interior = insert 0 (insert 1 ∅) := by
      ext v
      rw [Graph.interior, Finset.mem_filter, hv]
      constructor
      · exact fun h => h.1
      · intro h
        refine ⟨h, ?_⟩
        simp only [Finset.mem_insert, Finset.notMem_empty, or_false] at h
        rcases h with rfl | rfl <;> simp [exAbsorbHad, mkG]
    rw [sem_eq_wH hw.toInv hw.noW, hi]
    have hwt : ∀ x, exAbsorbHad.wH exAbsorbHad.verts x = (if x 0 then -2 else 1) * contr .had (legT .hbox (x 0)) (legT .Z (x 1)) := by
      intro x
      rw [hv]
      unfold wH
      rw [pairProd_insert (by simp) (edgeH_comm hw.symm x), pairProd_insert (by simp) (edgeH_comm hw.symm x), pairProd_empty]
      have e01 : exAbsorbHad.edgeH x 0 1 = contr .had (legT .hbox (x 0)) (legT .Z (x 1)) := by
        rw [edgeH_some (e := .had) (by simp [exAbsorbHad, mkG]), ty0, ty1]
      have hs : exAbsorbHad.scalar.toNumber = 1 := by simp [exAbsorbHad, mkG, Scalar.new, Scalar.toNumber]
      have w0 : exAbsorbHad.wtH 0 (x 0) = if x 0 then -2 else 1 := by
        unfold wtH wtT; rw [ty0]
        have : exAbsorbHad.phase 0 = 1 := by simp [exAbsorbHad, mkG]
        rw [this, ph_one]; norm_num
      have w1 : exAbsorbHad.wtH 1 (x 1) = 1 := by
        unfold wtH wtT; rw [ty1]; simp [exAbsorbHad, mkG]
      simp [e01, w0, w1, hs]
    simp only [psum_insert_env (show (0 : ℕ) ∉ insert 1 (∅ : Finset ℕ) by simp), psum_insert_env (show (1 : ℕ) ∉ (∅ : Finset ℕ) by simp)]
    simp only [psum_empty, hwt]
    have hs := sq2_mul_self
    have hne : sq2 ≠ 0 := by intro h; rw [h] at hs; norm_num at hs
    simp [contr, legT, edgeMat, hmat, dmat]
    field_simp
    linear_combination -hs
  · obtain ⟨hr, -, hi, -⟩ := removeVertices_spec h3
    have hv : g'.verts = insert 1 ∅ := by
      rw [hr.verts]
      ext v; simp [exAbsorbHad, mkG, setPhase]; omega
    have ty1' : g'.ty 1 = .Z := by rw [hr.ty]; exact ty1
    have hint : g'.interior = insert 1 ∅ := by
      ext v
      rw [Graph.interior, Finset.mem_filter, hv]
      constructor
      · exact fun h => h.1
      · intro h
        refine ⟨h, ?_⟩
        simp only [Finset.mem_insert, Finset.notMem_empty, or_false] at h
        rw [h, ty1']; decide
    have hnw : ∀ v ∈ g'.verts, g'.ty v ≠ .winput ∧ g'.ty v ≠ .woutput := by
      intro v h
      rw [hv] at h
      simp only [Finset.mem_insert, Finset.notMem_empty, or_false] at h
      rw [h, ty1']; decide
    rw [sem_eq_wH (hi hi1) hnw, hint]
    have hp : g'.phase 1 = mod2 1 := by
      rw [hr.phase]
      simp [exAbsorbHad, mkG, setPhase]
    have hwt : ∀ x, g'.wH g'.verts x = if x 1 then -1 else 1 := by
      intro x
      rw [hv]
      unfold wH
      rw [pairProd_insert (by simp) (edgeH_comm (hi hi1).symm x), pairProd_empty]
      have hs : g'.scalar.toNumber = 1 := by
        rw [removeVertices_scalar h3]
        simp [exAbsorbHad, mkG, Scalar.new, Scalar.toNumber, setPhase]
      have w1 : g'.wtH 1 (x 1) = if x 1 then -1 else 1 := by
        unfold wtH wtT; rw [ty1', hp, ph_mod2, ph_one]
      simp [w1, hs]
    simp only [psum_insert_env (show (1 : ℕ) ∉ (∅ : Finset ℕ) by simp)]
    simp only [psum_empty, hwt]
    simp

end Props
end PyZX
