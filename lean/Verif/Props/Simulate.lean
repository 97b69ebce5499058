import Verif.Proofs.ScalDecomp
import Verif.Props.FullReduce

/-!
# Properties of `reduce_scalar` and `find_stabilizer_decomp` (C60)
-/

namespace PyZX
namespace Props

open Graph Simplify Magic Rules

variable {ω : ℕ → Orders} {g : Graph} {fuel : ℕ}

/-- C60: every loop of `reduce_scalar` ends. If it returns, it has kept the boundary and the tensor up to a number that is not 0, neither the
T-count nor the number of vertices has grown, and no rule applies any more. Missing for the full claim: it can raise (`reduceScalar_raises`). -/
theorem reduceScalar_partial (ho : ∀ t, (ω t).OK) (hfu : ∀ t, (ω t).Full) (hg : g.ZX Reduced) (hz : ∀ v ∈ g.verts, g.ty v = .boundary ∨ g.ty v = .Z)
    (hb : g.PlainBnd) (hf : scalarFuel g.verts.card ≤ fuel) (t : ℕ) :
    reduceScalar ω fuel fuel 0 t g = .raised ∨ ∃ g' t' i, reduceScalar ω fuel fuel 0 t g = .done g' t' i ∧ g'.WF ∧ PreservesUpTo g g' ∧
      ScalarNF g' ∧ Simplify.tcount g' ≤ Simplify.tcount g ∧ g'.verts.card ≤ g.verts.card := by
  rcases reduceScalar_end (i := 0) (t := t) phaseSet_reduced ho hfu ⟨hg, hz⟩ hb le_rfl hf with h | ⟨g', t', j, h1, h2, h3, h4, h5, h6⟩
  · exact Or.inl h
  · exact Or.inr ⟨g', t', j, h1, h2.1.wf, h3.upTo, h4, h5, h6⟩

/-- C60: if all phases are multiples of π/4 the tensor is kept exactly. -/
theorem reduceScalar_exact_partial (ho : ∀ t, (ω t).OK) (hfu : ∀ t, (ω t).Full) (hg : g.ZX Quarter)
    (hz : ∀ v ∈ g.verts, g.ty v = .boundary ∨ g.ty v = .Z) (hb : g.PlainBnd) (hf : scalarFuel g.verts.card ≤ fuel) (t : ℕ) :
    reduceScalar ω fuel fuel 0 t g = .raised ∨ ∃ g' t' i, reduceScalar ω fuel fuel 0 t g = .done g' t' i ∧ Preserves g g' ∧
      (∀ v ∈ g'.verts, Quarter (g'.phase v)) ∧ ScalarNF g' := by
  rcases reduceScalar_end (i := 0) (t := t) phaseSet_quarter ho hfu ⟨hg, hz⟩ hb le_rfl hf with h | ⟨g', t', j, h1, h2, h3, h4, -, -⟩
  · exact Or.inl h
  · exact Or.inr ⟨g', t', j, h1, h3.exact fun _ h => h, h2.1.phases, h4⟩

/-- C60: `find_stabilizer_decomp`, for a diagram of Z-spiders with multiples of π/4 and a depth of recursion larger than the T-count: every
loop ends. If it returns, the diagrams are Clifford diagrams with as many inputs and outputs as `g`, their sum is `g`, and there are at most
`max_terms_needed(u)` of them for some `u` up to the T-count, and for a T-count below 12 at most `max_terms_needed(g)`. Missing for the full
claim: it can raise. -/
theorem findDecomp_partial {κ : ℕ → MagicChoice} (hκ : ∀ t, (κ t).OK) (ho : ∀ t, (ω t).OK) (hfu : ∀ t, (ω t).Full) (hg : g.ZX Quarter)
    (hz : ∀ v ∈ g.verts, g.ty v = .boundary ∨ g.ty v = .Z) (hb : g.PlainBnd) (hf : scalarFuel (g.verts.card + Simplify.tcount g) ≤ fuel) {n : ℕ}
    (hn : Simplify.tcount g < n) (t : ℕ) :
    findDecomp κ ω fuel n t g = .raised ∨ ∃ gs t', findDecomp κ ω fuel n t g = .done gs t' ∧
      (∀ h ∈ gs, h.WF ∧ Simplify.tcount h = 0 ∧ h.inputs.length = g.inputs.length ∧ h.outputs.length = g.outputs.length) ∧
      (∀ x y, (gs.map fun h => h.mat x y).sum = g.mat x y) ∧
      (∃ u ≤ Simplify.tcount g, gs.length ≤ maxTerms u) ∧ (Simplify.tcount g < 12 → gs.length ≤ maxTerms (Simplify.tcount g)) := by
  rcases findDecomp_end hκ ho hfu hf n t g ⟨⟨hg, hz⟩, hb, le_rfl⟩ hn with h | ⟨gs, t', h, d⟩
  · exact Or.inl h
  · refine Or.inr ⟨gs, t', h, fun r hr => ?_, d.sum, ?_, fun h12 => ?_⟩
    · obtain ⟨a, b⟩ := d.terms r hr
      exact ⟨a.1.1.wf, b⟩
    · obtain ⟨u, hu, e⟩ := Finset.exists_mem_eq_sup (Finset.range (Simplify.tcount g + 1)) ⟨0, by simp⟩ maxTerms
      refine ⟨u, by rw [Finset.mem_range] at hu; omega, ?_⟩
      rw [← e]
      exact d.length.trans (decompBound_le _)
    · have := d.length
      unfold decompBound at this
      rw [if_pos h12] at this
      exact this

/-- C60: for a diagram without inputs and outputs with at least one T-spider, the diagrams `find_stabilizer_decomp` returns have no edges, and only
spiders with phase 0 or π. So the amplitude is the sum of their scalars, each times 2 to the number of spiders, or times 0 if there is a phase π. -/
theorem findDecomp_closed_partial {κ : ℕ → MagicChoice} (hκ : ∀ t, (κ t).OK) (ho : ∀ t, (ω t).OK) (hfu : ∀ t, (ω t).Full) (hg : g.ZX Quarter)
    (hz : ∀ v ∈ g.verts, g.ty v = .boundary ∨ g.ty v = .Z) (hb : g.PlainBnd) (hi : g.inputs = []) (hou : g.outputs = [])
    (hT : Simplify.tcount g ≠ 0) (hf : scalarFuel (g.verts.card + Simplify.tcount g) ≤ fuel) {n : ℕ} (hn : Simplify.tcount g < n) (t : ℕ) :
    findDecomp κ ω fuel n t g = .raised ∨ ∃ gs t', findDecomp κ ω fuel n t g = .done gs t' ∧
      (∀ h ∈ gs, (∀ v ∈ h.verts, h.ty v = .Z ∧ (h.phase v = 0 ∨ h.phase v = 1)) ∧ ∀ a b, h.adj a b = none) ∧
      ∀ x y, g.mat x y = (gs.map fun h => h.scalar.toNumber * if ∃ v ∈ h.verts, h.phase v = 1 then 0 else 2 ^ h.verts.card).sum := by
  rcases findDecomp_end hκ ho hfu hf n t g ⟨⟨hg, hz⟩, hb, le_rfl⟩ hn with h | ⟨gs, t', h, d⟩
  · exact Or.inl h
  · have key : ∀ h ∈ gs, (∀ v ∈ h.verts, h.ty v = .Z ∧ (h.phase v = 0 ∨ h.phase v = 1)) ∧ ∀ a b, h.adj a b = none := fun r hr => by
      obtain ⟨a, b, c, e⟩ := d.terms r hr
      exact closed_nf a.1 a.2 (d.nf (Or.inr hT) r hr) b (by rw [c, hi]; rfl) (by rw [e, hou]; rfl)
    refine Or.inr ⟨gs, t', h, key, fun x y => ?_⟩
    rw [← d.sum x y]
    refine congrArg List.sum (List.map_congr_left fun r hr => ?_)
    obtain ⟨k1, k2⟩ := key r hr
    rw [isolated_mat (fun v hv => (k1 v hv).1) k2]
    refine congrArg _ ?_
    split
    · next hv =>
      obtain ⟨v, hv, hp⟩ := hv
      refine Finset.prod_eq_zero hv ?_
      rw [hp, ph_one]
      ring
    · next hv =>
      rw [Finset.prod_congr rfl (g := fun _ => (2 : ℂ)) fun v hv' => by
        rcases (k1 v hv').2 with h0 | h1
        · rw [h0, ph_zero]; norm_num
        · exact absurd ⟨v, hv', h1⟩ hv, Finset.prod_const]

/-- A diagram with T-count 0 is returned as it is. -/
theorem findDecomp_clifford (κ : ℕ → MagicChoice) (ω : ℕ → Orders) (fuel n t : ℕ) (h : Simplify.tcount g = 0) :
    findDecomp κ ω fuel (n + 1) t g = .done [g] t := by
  unfold findDecomp
  rw [if_pos h]

/-- `max_terms_needed` is smaller for six T-spiders than for five. -/
theorem maxTerms_not_mono : maxTerms 6 < maxTerms 5 := by decide

/-- C21: whenever the supplementarity rule returns, also on diagrams with isolated spiders, the tensor is kept exactly and two vertices are removed
for every match. -/
theorem supp_returns {g' : Graph} (hg : SuppBase g) {lst : Finset ℕ → List ℕ} (hl : SetOrder lst) {cands : List ℕ} (hn : cands.Nodup)
    (hc : ∀ c ∈ cands, c ∈ g.verts) (h : applySupp g lst (matchSupp g lst cands) = some g') :
    Preserves g g' ∧ g'.verts.card + 2 * (matchSupp g lst cands).length = g.verts.card :=
  ⟨(applySupp_returns phaseSet_reduced hl hg hn hc h).1, (applySupp_returns phaseSet_reduced hl hg hn hc h).2.1⟩

/-- The hypotheses of `supp_returns` hold for `exSupp`. -/
example : SuppBase exSupp ∧ ∃ g', applySupp exSupp incSet (matchSupp exSupp incSet [0, 1, 2, 3, 4, 5]) = some g' := by
  obtain ⟨g', h, -⟩ := supp_partial exSupp_graph incSet_ok (cands := [0, 1, 2, 3, 4, 5]) (by decide) (by simp [exSupp, mkG])
  exact ⟨exSupp_graph.toSuppBase, g', h⟩

/-! ### A diagram on which `reduce_scalar` raises -/

theorem exSupp3_adj (a b : ℕ) : exSupp3.adj a b = none := by simp [exSupp3, mkG]

theorem exSupp3_zx : exSupp3.ZX Quarter where
  wf := supp_isolated_raises.1
  bdeg b _ _ u w hu := absurd (exSupp3_adj b u) hu
  badj b hb hbt := by
    have hb' : b ∈ Finset.range 3 := hb
    fin_cases hb' <;> simp [exSupp3, mkG] at hbt
  types v hv := by
    have hv' : v ∈ Finset.range 3 := hv
    fin_cases hv' <;> simp [exSupp3, mkG]
  phases v hv := by
    have hv' : v ∈ Finset.range 3 := hv
    fin_cases hv' <;> refine ⟨by norm_num [exSupp3, mkG], isInt_iff.mpr ?_⟩
    · exact ⟨1, by norm_num [exSupp3, mkG]⟩
    · exact ⟨3, by norm_num [exSupp3, mkG]⟩
    · exact ⟨3, by norm_num [exSupp3, mkG]⟩

theorem exSupp3_Z (v : ℕ) (hv : v ∈ exSupp3.verts) : exSupp3.ty v = .Z := by
  have hv' : v ∈ Finset.range 3 := hv
  fin_cases hv' <;> simp [exSupp3, mkG]

theorem exSupp3_bnd : exSupp3.PlainBnd where
  phase v hv hb := by rw [exSupp3_Z v hv] at hb; simp at hb
  io v hv hb := by rw [exSupp3_Z v hv] at hb; simp at hb

theorem exSupp3_nf : exSupp3.InteriorNF where
  types v hv := Or.inr (exSupp3_Z v hv)
  had a b h := absurd (exSupp3_adj a b) h
  ids v hv _ hp := by
    have hv' : v ∈ Finset.range 3 := hv
    fin_cases hv' <;> norm_num [exSupp3, mkG] at hp
  half v hv _ hp := by
    have hv' : v ∈ Finset.range 3 := hv
    fin_cases hv' <;> norm_num [exSupp3, mkG] at hp
  pauli a b h := absurd (exSupp3_adj a b) h

/-- C60: `reduce_scalar` raises on a diagram of three isolated spiders, whatever the depth. -/
theorem reduceScalar_raises (k t : ℕ) : reduceScalar (fun _ => incOrders) (k + 1) (k + 1) 0 t exSupp3 = .raised := by
  have ho : ∀ _ : ℕ, incOrders.OK := fun _ => incOrders_ok
  have hz := exSupp3_zx
  have hw : exSupp3.WF := hz.wf
  have hn := exSupp3_nf
  have nb : ∀ v, exSupp3.nbrs v = ∅ := by
    intro v; ext u; rw [mem_nbrs hw.toInv]; simp [exSupp3_adj]
  have e1 : ∀ t, idSimp (fun _ => incOrders) (k + 1) t exSupp3 = .done exSupp3 (t + 1) 0 := fun t => simp_false (fun t => idRound_nf (ho t) hz hn) k t
  have e2 : ∀ t, spiderSimp (fun _ => incOrders) (k + 1) t exSupp3 = .done exSupp3 (t + 1) 0 := fun t => simp_false (fun t => spiderRound_nf (ho t) hz hn) k t
  have e3 : ∀ t, pivotSimp (fun _ => incOrders) (k + 1) t exSupp3 = .done exSupp3 (t + 1) 0 := fun t => simp_false (fun t => pivotRound_nf (ho t) hz hn) k t
  have e4 : ∀ t, lcompSimp (fun _ => incOrders) (k + 1) t exSupp3 = .done exSupp3 (t + 1) 0 := fun t => simp_false (fun t => lcompRound_nf (ho t) hz hn) k t
  have gp : exSupp3.NoGadgetPivot := fun a b h => absurd (exSupp3_adj a b) h
  have gf : exSupp3.NoGadgetFuse := fun n v h => by
    have := h.1
    rw [nb] at this
    exact absurd this (Finset.singleton_ne_empty _).symm
  have e5 : ∀ t, pivotGadgetSimp (fun _ => incOrders) (k + 1) t exSupp3 = .done exSupp3 (t + 1) 0 := fun t =>
    simp_false (fun t => pivotGadgetRound_nf phaseSet_quarter (ho t) hz (InteriorNF.zHad hn) gp) k t
  have e6 : ∀ t, gadgetSimp (fun _ => incOrders) (k + 1) t exSupp3 = .done exSupp3 (t + 1) 0 := fun t =>
    simp_false (fun t => gadgetFuseRound_nf (ho t) ⟨hz, InteriorNF.zHad hn, hn.types, exSupp3_bnd, InteriorNF.axelSep hz hn⟩ gf) k t
  have hc : incOrders.vcand exSupp3 = [0, 1, 2] := Finset.sort_range 3
  have hr : suppRound incOrders exSupp3 = none := by
    have h3 : applySupp exSupp3 incOrders.lst (matchSupp exSupp3 incOrders.lst (incOrders.vcand exSupp3)) = none := by
      rw [hc]; exact supp_isolated_raises.2
    have hne : matchSupp exSupp3 incOrders.lst (incOrders.vcand exSupp3) ≠ [] := fun h => by
      rw [h] at h3
      exact absurd h3 (by unfold applySupp; simp [removeVertices])
    unfold suppRound
    simp only
    rw [if_neg hne, h3]
    rfl
  have e7 : ∀ t, suppSimp (fun _ => incOrders) (k + 1) t exSupp3 = .raised := fun t => by
    unfold suppSimp Simplify.simp
    rw [hr]
  unfold reduceScalar scalarInterior scalarGadgets
  simp only [e1, e2, e3, e4, e5, e6, e7, Run.bind, add_zero, ne_eq, not_true_eq_false, if_false]

/-! ### Diagrams that meet the hypotheses -/

/-- The choices in increasing order, candidates by degree. -/
noncomputable def incChoice : MagicChoice where
  vs g := incSet g.verts
  es := someEdges
  es' := someEdges
  pick g := pickRanked (rank g (incOrd g))

theorem incChoice_ok : incChoice.OK where
  vs g _ := ⟨(incSet_ok g.verts).1, fun v => by
    rw [show incChoice.vs g = incSet g.verts from rfl, ← List.mem_toFinset, (incSet_ok g.verts).2]⟩
  es g h := someEdges_ok h
  es' g h := someEdges_ok h
  pick := pickRanked_law _

theorem exT7_zx : exT7.ZX Quarter where
  wf := exT7_wf
  bdeg := mkG_bdeg (by decide) (by decide)
  badj b hb hbt := by
    have hb' : b ∈ Finset.range 9 := hb
    fin_cases hb' <;> first | (simp [exT7, mkG] at hbt; done) | skip
    · exact ⟨1, by simp [exT7, mkG]⟩
    · exact ⟨7, by simp [exT7, mkG]⟩
  types v hv := by
    have hv' : v ∈ Finset.range 9 := hv
    fin_cases hv' <;> simp [exT7, mkG]
  phases v hv := by
    have hv' : v ∈ Finset.range 9 := hv
    fin_cases hv' <;> refine ⟨by norm_num [exT7, mkG], isInt_iff.mpr ?_⟩
    · exact ⟨0, by norm_num [exT7, mkG]⟩
    · exact ⟨1, by norm_num [exT7, mkG]⟩
    · exact ⟨3, by norm_num [exT7, mkG]⟩
    · exact ⟨1, by norm_num [exT7, mkG]⟩
    · exact ⟨7, by norm_num [exT7, mkG]⟩
    · exact ⟨1, by norm_num [exT7, mkG]⟩
    · exact ⟨5, by norm_num [exT7, mkG]⟩
    · exact ⟨1, by norm_num [exT7, mkG]⟩
    · exact ⟨0, by norm_num [exT7, mkG]⟩

theorem exT7_types (v : ℕ) (hv : v ∈ exT7.verts) : exT7.ty v = .boundary ∨ exT7.ty v = .Z := by
  have hv' : v ∈ Finset.range 9 := hv
  fin_cases hv' <;> simp [exT7, mkG]

theorem exT7_bnd : exT7.PlainBnd where
  phase v hv hb := by
    have hv' : v ∈ Finset.range 9 := hv
    fin_cases hv' <;> first | (simp [exT7, mkG] at hb; done) | simp [exT7, mkG]
  io v hv hb := by
    have hv' : v ∈ Finset.range 9 := hv
    fin_cases hv' <;> first | (simp [exT7, mkG] at hb; done) | simp [exT7, mkG]

theorem exT7_tcount : Simplify.tcount exT7 = 7 := by
  rw [← tSpiders_card exT7_zx.phases, exT7_tSpiders]; rfl

/-- The hypotheses of `findDecomp_partial` hold for seven T-spiders in a row: at most 14 diagrams. -/
example : findDecomp (fun _ => incChoice) (fun _ => incOrders) (scalarFuel 16) 8 0 exT7 = .raised ∨
    ∃ gs t', findDecomp (fun _ => incChoice) (fun _ => incOrders) (scalarFuel 16) 8 0 exT7 = .done gs t' ∧ gs.length ≤ 14 ∧
      ∀ x y, (gs.map fun h => h.mat x y).sum = exT7.mat x y := by
  have hc : exT7.verts.card + Simplify.tcount exT7 = 16 := by rw [exT7_tcount]; rfl
  rcases findDecomp_partial (fuel := scalarFuel 16) (n := 8) (fun _ => incChoice_ok) (fun _ => incOrders_ok) (fun _ => incOrders_full) exT7_zx exT7_types
    exT7_bnd (by rw [hc]) (by rw [exT7_tcount]; norm_num) 0 with h | ⟨gs, t', h1, -, h2, -, h3⟩
  · exact Or.inl h
  · rw [exT7_tcount] at h3
    exact Or.inr ⟨gs, t', h1, h3 (by norm_num), h2⟩

/-- The hypotheses of the theorems on `reduce_scalar` hold for it. -/
example : exT7.ZX Reduced ∧ exT7.ZX Quarter ∧ (∀ v ∈ exT7.verts, exT7.ty v = .boundary ∨ exT7.ty v = .Z) ∧ exT7.PlainBnd :=
  ⟨Quarter.reduced exT7_zx, exT7_zx, exT7_types, exT7_bnd⟩

/-- Two T-spiders connected by a Hadamard edge, without boundary. -/
noncomputable def exClosed : Graph := mkG [.Z, .Z] [1 / 4, 1 / 4] [(0, 1, .had)] [] []

theorem exClosed_Z (v : ℕ) (hv : v ∈ exClosed.verts) : exClosed.ty v = .Z := by
  have hv' : v ∈ Finset.range 2 := hv
  fin_cases hv' <;> simp [exClosed, mkG]

theorem exClosed_zx : exClosed.ZX Quarter where
  wf := mkG_wf (by decide)
  bdeg b hb hbt := by rw [exClosed_Z b hb] at hbt; simp at hbt
  badj b hb hbt := by rw [exClosed_Z b hb] at hbt; simp at hbt
  types v hv := Or.inr (Or.inl (exClosed_Z v hv))
  phases v hv := by
    have hv' : v ∈ Finset.range 2 := hv
    fin_cases hv' <;> refine ⟨by norm_num [exClosed, mkG], isInt_iff.mpr ?_⟩ <;> exact ⟨1, by norm_num [exClosed, mkG]⟩

/-- The hypotheses of `findDecomp_closed_partial` hold for it. -/
example : exClosed.ZX Quarter ∧ (∀ v ∈ exClosed.verts, exClosed.ty v = .boundary ∨ exClosed.ty v = .Z) ∧ exClosed.PlainBnd ∧
    exClosed.inputs = [] ∧ exClosed.outputs = [] ∧ Simplify.tcount exClosed ≠ 0 := by
  refine ⟨exClosed_zx, fun v hv => Or.inr (exClosed_Z v hv), ⟨fun v hv hb => ?_, fun v hv hb => ?_⟩, rfl, rfl, fun h => ?_⟩
  · rw [exClosed_Z v hv] at hb; simp at hb
  · rw [exClosed_Z v hv] at hb; simp at hb
  · rw [← tSpiders_card exClosed_zx.phases, Finset.card_eq_zero] at h
    unfold tSpiders at h
    rw [Finset.filter_eq_empty_iff] at h
    have := h (x := 0) (by simp [exClosed, mkG])
    apply this
    show (([1 / 4, 1 / 4] : List ℚ).getD 0 0).den = 4
    norm_num

end Props
end PyZX
