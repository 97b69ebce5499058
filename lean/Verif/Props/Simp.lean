import Verif.Proofs.TermLoop
import Verif.Spec.Example

/-!
# C27: the simplification loops

For every sequence `ω` of possible choices (iteration orders of sets and dictionaries, and the filter `matchf`).
-/

namespace PyZX
namespace Props

open Graph Simplify

/-! ### The two sets of phases -/

theorem mod2_mem (q : ℚ) : 0 ≤ mod2 q ∧ mod2 q < 2 := by
  unfold mod2
  have h1 := Int.floor_le (q / 2)
  have h2 := Int.lt_floor_add_one (q / 2)
  constructor <;> linarith

/-- The phases in `[0, 2)` are closed under sums and differences. -/
theorem phaseSet_reduced : PhaseSet Reduced where
  zero := by unfold Reduced; norm_num
  one := by unfold Reduced; norm_num
  add p q _ _ := mod2_mem _
  sub p q _ _ := mod2_mem _
  reduced p h := h

theorem isInt_iff {q : ℚ} : q.isInt = true ↔ ∃ k : ℤ, q = k := by
  constructor
  · intro h
    simp only [Rat.isInt, beq_iff_eq] at h
    exact ⟨q.num, (Rat.coe_int_num_of_den_eq_one h).symm⟩
  · rintro ⟨k, rfl⟩
    simp [Rat.isInt]

/-- The multiples of π/4 are closed under sums and differences. -/
theorem phaseSet_quarter : PhaseSet Quarter where
  zero := ⟨by norm_num, isInt_iff.mpr ⟨0, by norm_num⟩⟩
  one := ⟨by norm_num, isInt_iff.mpr ⟨4, by norm_num⟩⟩
  add p q hp hq := by
    obtain ⟨k, hk⟩ := isInt_iff.mp hp.2
    obtain ⟨l, hl⟩ := isInt_iff.mp hq.2
    refine ⟨mod2_mem _, isInt_iff.mpr ⟨k + l - 8 * ⌊(p + q) / 2⌋, ?_⟩⟩
    unfold mod2; push_cast; linarith
  sub p q hp hq := by
    obtain ⟨k, hk⟩ := isInt_iff.mp hp.2
    obtain ⟨l, hl⟩ := isInt_iff.mp hq.2
    refine ⟨mod2_mem _, isInt_iff.mpr ⟨k - l - 8 * ⌊(p - q) / 2⌋, ?_⟩⟩
    unfold mod2; push_cast; linarith
  reduced p h := h.1

/-! ### The single loops -/

variable {P : ℚ → Prop} {ω : ℕ → Orders} {fuel : ℕ} {g : Graph}

/-- `id_simp` ends, without exception, after at most as many passes as there are vertices; it keeps the boundary and the tensor; and
without a filter no phase-free spider with two neighbours is left. -/
theorem idSimp_terminates (hP : PhaseSet P) (ho : ∀ t, (ω t).OK) (hg : g.ZX P) (hf : g.verts.card < fuel) (t : ℕ) :
    ∃ g' t' i, idSimp ω fuel t g = .done g' t' i ∧ g'.ZX P ∧ Keeps P g g' ∧ g'.verts ⊆ g.verts ∧
      i + g'.verts.card ≤ g.verts.card ∧ ((∀ t, (ω t).Full) → g'.NoIds) := by
  obtain ⟨g', t', i, h1, h2, h3, h4, -, h6⟩ := simp_ok (fun t => idRound_ok hP (ho t)) fuel t g hg hf
  exact ⟨g', t', i, h1, h2, h3.keeps, h3.verts, h4, h6⟩

/-- The same for `spider_simp`: in the end no two spiders of the same colour are connected by a simple edge. -/
theorem spiderSimp_terminates (hP : PhaseSet P) (ho : ∀ t, (ω t).OK) (hg : g.ZX P) (hf : g.verts.card < fuel) (t : ℕ) :
    ∃ g' t' i, spiderSimp ω fuel t g = .done g' t' i ∧ g'.ZX P ∧ Keeps P g g' ∧ g'.verts ⊆ g.verts ∧
      i + g'.verts.card ≤ g.verts.card ∧ ((∀ t, (ω t).Full) → g'.NoFuse) := by
  obtain ⟨g', t', i, h1, h2, h3, h4, -, h6⟩ := simp_ok (fun t => spiderRound_ok hP (ho t)) fuel t g hg hf
  exact ⟨g', t', i, h1, h2, h3.keeps, h3.verts, h4, h6⟩

/-- The same for `lcomp_simp`: in the end every Z-spider with phase ±π/2 has a neighbour that is not a Z-spider behind a Hadamard edge. -/
theorem lcompSimp_terminates (hP : PhaseSet P) (ho : ∀ t, (ω t).OK) (hg : g.ZX P) (hf : g.verts.card < fuel) (t : ℕ) :
    ∃ g' t' i, lcompSimp ω fuel t g = .done g' t' i ∧ g'.ZX P ∧ Keeps P g g' ∧ g'.verts ⊆ g.verts ∧
      i + g'.verts.card ≤ g.verts.card ∧ ((∀ t, (ω t).Full) → g'.NoLcomp) := by
  obtain ⟨g', t', i, h1, h2, h3, h4, -, h6⟩ := simp_ok (fun t => lcompRound_ok hP (ho t)) fuel t g hg hf
  exact ⟨g', t', i, h1, h2, h3.keeps, h3.verts, h4, h6⟩

/-- The same for `pivot_simp`: in the end no pivot is left that involves at most one boundary. -/
theorem pivotSimp_terminates (hP : PhaseSet P) (ho : ∀ t, (ω t).OK) (hg : g.ZX P) (hf : g.verts.card < fuel) (t : ℕ) :
    ∃ g' t' i, pivotSimp ω fuel t g = .done g' t' i ∧ g'.ZX P ∧ Keeps P g g' ∧ g'.verts ⊆ g.verts ∧
      i + g'.verts.card ≤ g.verts.card ∧ ((∀ t, (ω t).Full) → g'.NoPivot) := by
  obtain ⟨g', t', i, h1, h2, h3, h4, -, h6⟩ := simp_ok (fun t => pivotRound_ok hP (ho t)) fuel t g hg hf
  exact ⟨g', t', i, h1, h2, h3.keeps, h3.verts, h4, h6⟩

/-! ### `interior_clifford_simp` -/

/-- `interior_clifford_simp` ends, without exception, and keeps the boundary and the tensor up to a number that is not 0. It leaves only
boundaries and Z-spiders, and without a filter it reaches the form `InteriorNF`. -/
theorem interiorCliffordSimp_terminates (ho : ∀ t, (ω t).OK) (hg : g.ZX Reduced) (hf : g.verts.card < fuel) (t : ℕ) :
    ∃ g' t' i, interiorCliffordSimp ω fuel t g = .done g' t' i ∧ g'.WF ∧ PreservesUpTo g g' ∧ g'.verts ⊆ g.verts ∧
      i + g'.verts.card ≤ g.verts.card ∧ (∀ v ∈ g'.verts, g'.ty v = .boundary ∨ g'.ty v = .Z) ∧ ((∀ t, (ω t).Full) → g'.InteriorNF) := by
  obtain ⟨g', t', i, h1, h2, h3, h4, h5, h6, h7⟩ := interiorCliffordSimp_ok phaseSet_reduced ho (t := t) hg hf
  exact ⟨g', t', i, h1, h2.wf, h3.upTo, h4, h5, h6, h7⟩

/-- If all phases are multiples of π/4 the tensor is kept exactly. -/
theorem interiorCliffordSimp_exact (ho : ∀ t, (ω t).OK) (hg : g.ZX Quarter) (hf : g.verts.card < fuel) (t : ℕ) :
    ∃ g' t' i, interiorCliffordSimp ω fuel t g = .done g' t' i ∧ Preserves g g' ∧ (∀ v ∈ g'.verts, Quarter (g'.phase v)) ∧
      ((∀ t, (ω t).Full) → g'.InteriorNF) := by
  obtain ⟨g', t', i, h1, h2, h3, h4, h5, h6, h7⟩ := interiorCliffordSimp_ok phaseSet_quarter ho (t := t) hg hf
  exact ⟨g', t', i, h1, h3.exact fun _ h => h, h2.phases, h7⟩

/-! ### The loops that add gadgets -/

/-- `pivot_gadget_simp`, on a diagram whose Z-spiders are connected by Hadamard edges only, ends without exception after at most as many
passes as there are vertices. It keeps the boundary and the tensor, and the edges between Z-spiders are still Hadamard edges. Without a
filter no pivot is left that would turn a phase into a gadget. -/
theorem pivotGadgetSimp_terminates (hP : PhaseSet P) (ho : ∀ t, (ω t).OK) (hg : g.ZX P) (hz : g.ZHad) (hf : g.verts.card < fuel) (t : ℕ) :
    ∃ g' t' i, pivotGadgetSimp ω fuel t g = .done g' t' i ∧ g'.ZX P ∧ g'.ZHad ∧ Keeps P g g' ∧ i ≤ g.verts.card ∧ (i = 0 → g' = g) ∧
      ((∀ t, (ω t).Full) → g'.NoGadgetPivot) := by
  have hc : g.gadM.card ≤ g.verts.card := Finset.card_le_card fun v hv => (mem_gadM.mp hv).1
  rcases simp_end (fun t => pivotGadgetRound_ok hP (ho t)) (fun _ _ _ => Keeps.trans) fuel t g ⟨hg, hz⟩ with
    ⟨-, h⟩ | ⟨g', t', i, h1, h2, h3, h4, h5, h6⟩
  · exact absurd hf (by beta_reduce at h; omega)
  · exact ⟨g', t', i, h1, h2.1, h2.2, h3, by beta_reduce at h4; omega, h5, h6⟩

/-- `pivot_boundary_simp`, on a diagram whose Z-spiders are connected by Hadamard edges only, ends without exception after at most as many
passes as there are vertices. It keeps the boundary and the tensor, and the edges between Z-spiders are still Hadamard edges. Without a
filter no pivot with the neighbour of a boundary is left. -/
theorem pivotBoundarySimp_terminates (hP : PhaseSet P) (ho : ∀ t, (ω t).OK) (hg : g.ZX P) (hz : g.ZHad) (hf : g.verts.card < fuel) (t : ℕ) :
    ∃ g' t' i, pivotBoundarySimp ω fuel t g = .done g' t' i ∧ g'.ZX P ∧ g'.ZHad ∧ Keeps P g g' ∧ i ≤ g.verts.card ∧ (i = 0 → g' = g) ∧
      ((∀ t, (ω t).Full) → g'.NoBoundaryPivot) := by
  have hc : g.bndM.card ≤ g.verts.card := Finset.card_le_card fun v hv => (mem_bndM.mp hv).1.1
  rcases simp_end (fun t => pivotBoundaryRound_ok hP (ho t)) (fun _ _ _ => Keeps.trans) fuel t g ⟨hg, hz⟩ with
    ⟨-, h⟩ | ⟨g', t', i, h1, h2, h3, h4, h5, h6⟩
  · exact absurd hf (by beta_reduce at h; omega)
  · exact ⟨g', t', i, h1, h2.1, h2.2, h3, by beta_reduce at h4; omega, h5, h6⟩

/-! ### `clifford_simp` -/

/-- C27: `clifford_simp` without filter ends without exception: its own loop runs at most `16 |V| + 1` times, each simplifier it calls at most
`32 |V| + 1` times. It has kept the boundary and the tensor up to a number that is not 0, and the diagram has the form `InteriorNF` without
pivots with neighbours of boundaries. -/
theorem cliffordSimp_terminates (ho : ∀ t, (ω t).OK) (hfu : ∀ t, (ω t).Full) (hg : g.ZX Reduced) {n : ℕ} (hf : 32 * g.verts.card < fuel)
    (hn : 16 * g.verts.card < n) (t : ℕ) : ∃ g' t' i, cliffordSimp ω fuel n t g = .done g' t' i ∧
      g'.WF ∧ PreservesUpTo g g' ∧ g'.InteriorNF ∧ g'.NoBoundaryPivot := by
  obtain ⟨g', t', i, h1, h2, h3, h4, h5⟩ := cliffordSimp_ends (t := t) phaseSet_reduced ho hfu hg hf hn
  exact ⟨g', t', i, h1, h2.wf, h3.upTo, h4, h5⟩

/-- C27: if all phases are multiples of π/4 the tensor is kept exactly. -/
theorem cliffordSimp_exact (ho : ∀ t, (ω t).OK) (hfu : ∀ t, (ω t).Full) (hg : g.ZX Quarter) {n : ℕ} (hf : 32 * g.verts.card < fuel)
    (hn : 16 * g.verts.card < n) (t : ℕ) : ∃ g' t' i, cliffordSimp ω fuel n t g = .done g' t' i ∧
      Preserves g g' ∧ (∀ v ∈ g'.verts, Quarter (g'.phase v)) ∧ g'.InteriorNF ∧ g'.NoBoundaryPivot := by
  obtain ⟨g', t', i, h1, h2, h3, h4, h5⟩ := cliffordSimp_ends (t := t) phaseSet_quarter ho hfu hg hf hn
  exact ⟨g', t', i, h1, h3.exact fun _ h => h, h2.phases, h4, h5⟩

/-! ### Possible choices exist, and a diagram -/

/-- Increasing orders and no filter. -/
noncomputable def incOrders : Orders where
  nbr := incOrd
  vcand g := incSet g.verts
  ecand g := ((g.verts ×ˢ g.verts).filter fun e => g.adj e.1 e.2 ≠ none ∧ e.1 < e.2).toList
  all g := incSet g.verts
  lst := incSet
  row0 _ _ := false

theorem incOrders_ok : incOrders.OK where
  nbr := incOrd_ok
  vcand g := ⟨(incSet_ok g.verts).1, fun v (hv : v ∈ incSet g.verts) => by rw [← (incSet_ok g.verts).2]; simpa using hv⟩
  ecand g := ⟨Finset.nodup_toList _, fun e he => by
    rw [show incOrders.ecand g = ((g.verts ×ˢ g.verts).filter fun e => g.adj e.1 e.2 ≠ none ∧ e.1 < e.2).toList from rfl,
      Finset.mem_toList, Finset.mem_filter] at he
    exact he.2.1⟩
  all g := incSet_ok g.verts
  lst := incSet_ok

theorem incOrders_full : incOrders.Full where
  vcand g _ v hv := by
    show v ∈ incSet g.verts
    have := (incSet_ok g.verts).2
    rw [← List.mem_toFinset, this]; exact hv
  ecand g hg a b hab := by
    have ha := hg.mem a b hab
    have hb := hg.toInv.mem' hab
    have hne : a ≠ b := fun e => hab (by rw [e]; exact hg.loopless b)
    have key : ∀ x y, x ∈ g.verts → y ∈ g.verts → g.adj x y ≠ none → x < y → (x, y) ∈ incOrders.ecand g := by
      intro x y hx hy hxy hlt
      rw [show incOrders.ecand g = ((g.verts ×ˢ g.verts).filter fun e => g.adj e.1 e.2 ≠ none ∧ e.1 < e.2).toList from rfl,
        Finset.mem_toList, Finset.mem_filter]
      exact ⟨Finset.mem_product.mpr ⟨hx, hy⟩, hxy, hlt⟩
    rcases lt_or_gt_of_ne hne with h | h
    · exact Or.inl (key a b ha hb hab h)
    · exact Or.inr (key b a hb ha (by rw [hg.symm]; exact hab) h)

/-- Input and output 0 and 5; Z(π/2) at 1, X(π/4) at 2, Z(0) at 3, Z(π) at 4. -/
noncomputable def exSimp : Graph :=
  mkG [.boundary, .Z, .X, .Z, .Z, .boundary] [0, 1 / 2, 1 / 4, 0, 1, 0]
    [(0, 1, .simple), (1, 2, .simple), (2, 3, .had), (1, 3, .had), (3, 4, .simple), (4, 5, .simple)] [0] [5]

theorem exSimp_zx : exSimp.ZX Quarter where
  wf := mkG_wf (by decide)
  bdeg := mkG_bdeg (by decide) (by decide)
  badj b hb hbt := by
    have hb' : b ∈ Finset.range 6 := hb
    fin_cases hb'
    · exact ⟨1, by simp [exSimp, mkG]⟩
    · simp [exSimp, mkG] at hbt
    · simp [exSimp, mkG] at hbt
    · simp [exSimp, mkG] at hbt
    · simp [exSimp, mkG] at hbt
    · exact ⟨4, by simp [exSimp, mkG]⟩
  types v hv := by
    have hv' : v ∈ Finset.range 6 := hv
    fin_cases hv' <;> simp [exSimp, mkG]
  phases v hv := by
    have hv' : v ∈ Finset.range 6 := hv
    fin_cases hv' <;> refine ⟨by norm_num [exSimp, mkG], isInt_iff.mpr ?_⟩
    · exact ⟨0, by norm_num [exSimp, mkG]⟩
    · exact ⟨2, by norm_num [exSimp, mkG]⟩
    · exact ⟨1, by norm_num [exSimp, mkG]⟩
    · exact ⟨0, by norm_num [exSimp, mkG]⟩
    · exact ⟨4, by norm_num [exSimp, mkG]⟩
    · exact ⟨0, by norm_num [exSimp, mkG]⟩

/-- The hypotheses hold for a concrete diagram and concrete choices; the result has the normal form. -/
example : ∃ g' t' i, interiorCliffordSimp (fun _ => incOrders) 7 0 exSimp = .done g' t' i ∧ Preserves exSimp g' ∧ g'.InteriorNF := by
  obtain ⟨g', t', i, h1, h2, -, h4⟩ := interiorCliffordSimp_exact (ω := fun _ => incOrders) (fun _ => incOrders_ok) exSimp_zx
    (fuel := 7) (by show (Finset.range 6).card < 7; simp) 0
  exact ⟨g', t', i, h1, h2, h4 fun _ => incOrders_full⟩

/-- `clifford_simp` on the same diagram. -/
example : ∃ g' t' i, cliffordSimp (fun _ => incOrders) 193 97 0 exSimp = .done g' t' i ∧ Preserves exSimp g' ∧ g'.InteriorNF ∧ g'.NoBoundaryPivot := by
  obtain ⟨g', t', i, h1, h2, -, h3, h4⟩ := cliffordSimp_exact (fuel := 193) (n := 97) (fun _ => incOrders_ok) (fun _ => incOrders_full) exSimp_zx
    (by show 32 * (Finset.range 6).card < 193; simp) (by show 16 * (Finset.range 6).card < 97; simp) 0
  exact ⟨g', t', i, h1, h2, h3, h4⟩

/-- The diagram does not have the form from the start: the fused spiders 3 and 4. -/
example : ¬ exSimp.NoFuse := fun h => (h 3 4 (by simp [exSimp, mkG])).1 ⟨by simp [exSimp, mkG], by simp [exSimp, mkG]⟩

/-- A line: input 0, Z(π/4) at 1, Z(0) at 2, Z(π/4) at 3, Z(π/4) at 4, output 5. -/
noncomputable def exLine : Graph :=
  mkG [.boundary, .Z, .Z, .Z, .Z, .boundary] [0, 1 / 4, 0, 1 / 4, 1 / 4, 0]
    [(0, 1, .simple), (1, 2, .had), (2, 3, .had), (3, 4, .had), (4, 5, .simple)] [0] [5]

theorem exLine_zx : exLine.ZX Quarter where
  wf := mkG_wf (by decide)
  bdeg := mkG_bdeg (by decide) (by decide)
  badj b hb hbt := by
    have hb' : b ∈ Finset.range 6 := hb
    fin_cases hb'
    · exact ⟨1, by simp [exLine, mkG]⟩
    · simp [exLine, mkG] at hbt
    · simp [exLine, mkG] at hbt
    · simp [exLine, mkG] at hbt
    · simp [exLine, mkG] at hbt
    · exact ⟨4, by simp [exLine, mkG]⟩
  types v hv := by
    have hv' : v ∈ Finset.range 6 := hv
    fin_cases hv' <;> simp [exLine, mkG]
  phases v hv := by
    have hv' : v ∈ Finset.range 6 := hv
    fin_cases hv' <;> refine ⟨by norm_num [exLine, mkG], isInt_iff.mpr ?_⟩
    · exact ⟨0, by norm_num [exLine, mkG]⟩
    · exact ⟨1, by norm_num [exLine, mkG]⟩
    · exact ⟨0, by norm_num [exLine, mkG]⟩
    · exact ⟨1, by norm_num [exLine, mkG]⟩
    · exact ⟨1, by norm_num [exLine, mkG]⟩
    · exact ⟨0, by norm_num [exLine, mkG]⟩

theorem exLine_zHad : exLine.ZHad := mkG_zhad (by decide) (by decide)

/-- The hypotheses hold for a concrete diagram, and both loops change it: the spider 2 can be pivoted with 3 and with 1. -/
example : ∃ g' t' i, pivotGadgetSimp (fun _ => incOrders) 7 0 exLine = .done g' t' i ∧ Preserves exLine g' ∧ g'.NoGadgetPivot ∧ g' ≠ exLine := by
  obtain ⟨g', t', i, h1, -, -, h4, -, -, h7⟩ := pivotGadgetSimp_terminates (ω := fun _ => incOrders) phaseSet_quarter (fun _ => incOrders_ok)
    exLine_zx exLine_zHad (fuel := 7) (by show (Finset.range 6).card < 7; simp) 0
  refine ⟨g', t', i, h1, h4.exact fun _ h => h, h7 fun _ => incOrders_full, fun e => ?_⟩
  have hn := h7 fun _ => incOrders_full
  rw [e] at hn
  have hw : exLine.WF := exLine_zx.wf
  have n1 : exLine.nbrs 1 = {0, 2} := by ext v; rw [mem_nbrs hw.toInv]; simp [exLine, mkG]; omega
  have n3 : exLine.nbrs 3 = {2, 4} := by ext v; rw [mem_nbrs hw.toInv]; simp [exLine, mkG]; omega
  have key := hn 2 3 (by simp [exLine, mkG]) (by simp [exLine, mkG]) (by simp [exLine, mkG]) (by simp [exLine, mkG])
    (by norm_num [exLine, mkG])
  have a2 : ∀ n, exLine.adj 2 n ≠ none → n = 1 ∨ n = 3 := by intro n; simp [exLine, mkG]; omega
  have a3 : ∀ n, exLine.adj 3 n ≠ none → n = 2 ∨ n = 4 := by intro n; simp [exLine, mkG]; omega
  rcases key with h | ⟨v, n, hv, hvn, ht⟩ | ⟨n, h2n, hne, hc⟩
  · rw [n3] at h; simp at h
  · rcases hv with rfl | rfl
    · rcases a2 n hvn with rfl | rfl <;> simp [exLine, mkG] at ht
    · rcases a3 n hvn with rfl | rfl <;> simp [exLine, mkG] at ht
  · rcases a2 n h2n with rfl | rfl
    · rw [n1] at hc; simp at hc
    · exact hne rfl

example : ∃ g' t' i, pivotBoundarySimp (fun _ => incOrders) 7 0 exLine = .done g' t' i ∧ Preserves exLine g' ∧ g'.NoBoundaryPivot ∧ g' ≠ exLine := by
  obtain ⟨g', t', i, h1, -, -, h4, -, -, h7⟩ := pivotBoundarySimp_terminates (ω := fun _ => incOrders) phaseSet_quarter (fun _ => incOrders_ok)
    exLine_zx exLine_zHad (fuel := 7) (by show (Finset.range 6).card < 7; simp) 0
  refine ⟨g', t', i, h1, h4.exact fun _ h => h, h7 fun _ => incOrders_full, fun e => ?_⟩
  have hn := h7 fun _ => incOrders_full
  rw [e] at hn
  have hw : exLine.WF := exLine_zx.wf
  have n1 : exLine.nbrs 1 = {0, 2} := by ext v; rw [mem_nbrs hw.toInv]; simp [exLine, mkG]; omega
  have n3 : exLine.nbrs 3 = {2, 4} := by ext v; rw [mem_nbrs hw.toInv]; simp [exLine, mkG]; omega
  have a2 : ∀ n, exLine.adj 2 n ≠ none → n = 1 ∨ n = 3 := by intro n; simp [exLine, mkG]; omega
  have a1 : ∀ n, exLine.adj 1 n ≠ none → n = 0 ∨ n = 2 := by intro n; simp [exLine, mkG]; omega
  have b1 : exLine.bnds 1 = {0} := by
    unfold bnds; rw [n1]; ext v
    simp only [Finset.mem_filter, Finset.mem_insert, Finset.mem_singleton]
    constructor
    · rintro ⟨rfl | rfl, ht⟩
      · rfl
      · simp [exLine, mkG] at ht
    · rintro rfl; simp [exLine, mkG]
  obtain ⟨u, hu, h1, h2⟩ := hn 2 (by simp [exLine, mkG]) (by simp [exLine, mkG]) (by simp [exLine, mkG]) (fun n hn => by
    rcases a2 n hn with rfl | rfl
    · rw [n1]; exact ⟨by simp [exLine, mkG], by simp⟩
    · rw [n3]; exact ⟨by simp [exLine, mkG], by simp⟩) 1 (by simp [exLine, mkG]) (by rw [b1]; simp)
  rcases a1 u hu with rfl | rfl
  · simp [exLine, mkG] at h1
  · simp [exLine, mkG] at h2

end Props
end PyZX
