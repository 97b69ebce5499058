import Verif.Props.Simp

/-!
# Properties of `gadget_simp` and `full_reduce` (C45)
-/

namespace PyZX
namespace Props

open Graph Rules Simplify

variable {P : ℚ → Prop} {ω : ℕ → Orders} {g : Graph} {fuel : ℕ}

/-! ### `gadget_simp` -/

/-- C45: `gadget_simp`, on a diagram of Z-spiders connected by Hadamard edges, in which adjacent spiders that carry phase gadgets are not
both in the interior, ends without exception after at most twice as many passes as there are vertices. It keeps the boundary and the tensor
exactly, whatever the phases are. It returns 0 only if the diagram has not changed. Without a filter all spiders that carry phase gadgets
have phase 0, and no two phase gadgets have the same targets. -/
theorem gadgetSimp_terminates (hP : PhaseSet P) (ho : ∀ t, (ω t).OK) (hg : g.ZX P) (hz : g.ZHad)
    (ht : ∀ v ∈ g.verts, g.ty v = .boundary ∨ g.ty v = .Z) (hb : g.PlainBnd) (hs : g.AxelSep) (hf : 2 * g.verts.card < fuel) (t : ℕ) :
    ∃ g' t' i, gadgetSimp ω fuel t g = .done g' t' i ∧ g'.ZX P ∧ Preserves g g' ∧ i ≤ 2 * g.verts.card ∧ (i = 0 → g' = g) ∧
      ((∀ t, (ω t).Full) → g'.NoGadgetFuse) := by
  have c1 : (axM g).card ≤ g.verts.card := Finset.card_le_card fun v hv => (mem_axM.mp hv).1
  have c2 : (axM1 g).card ≤ g.verts.card := Finset.card_le_card fun v hv => (mem_axM1.mp hv).1
  rcases simp_end (fun t => gadgetFuseRound_ok hP (ho t)) presB_trans fuel t g ⟨hg, hz, ht, hb, hs⟩ with
    ⟨-, h⟩ | ⟨g', t', i, h1, h2, h3, h4, h5, h6⟩
  · exact absurd hf (by beta_reduce at h; omega)
  · exact ⟨g', t', i, h1, h2.zx, h3.1, by beta_reduce at h4; omega, h5, h6⟩

/-- The diagram `exGad` has two phase gadgets with the same targets; one is left. -/
theorem exGad_zx : exGad.ZX Quarter where
  wf := mkG_wf (by decide)
  bdeg := mkG_bdeg (by decide) (by decide)
  badj b hb hbt := by
    have hb' : b ∈ Finset.range 8 := hb
    fin_cases hb' <;> first | (simp [exGad, mkG] at hbt; done) | skip
    · exact ⟨4, by simp [exGad, mkG]⟩
    · exact ⟨5, by simp [exGad, mkG]⟩
  types v hv := by
    have hv' : v ∈ Finset.range 8 := hv
    fin_cases hv' <;> simp [exGad, mkG]
  phases v hv := by
    have hv' : v ∈ Finset.range 8 := hv
    fin_cases hv' <;> refine ⟨by norm_num [exGad, mkG], isInt_iff.mpr ?_⟩
    · exact ⟨0, by norm_num [exGad, mkG]⟩
    · exact ⟨4, by norm_num [exGad, mkG]⟩
    · exact ⟨1, by norm_num [exGad, mkG]⟩
    · exact ⟨3, by norm_num [exGad, mkG]⟩
    · exact ⟨0, by norm_num [exGad, mkG]⟩
    · exact ⟨2, by norm_num [exGad, mkG]⟩
    · exact ⟨0, by norm_num [exGad, mkG]⟩
    · exact ⟨0, by norm_num [exGad, mkG]⟩

theorem exGad_axel {n : ℕ} (h : IsAxel exGad n) : n < 2 := by
  have hw := exGad_graph.wf
  obtain ⟨-, v, h1, h2⟩ := h
  have hadj : exGad.adj v n ≠ none := (mem_nbrs hw.toInv).mp (by rw [h1]; simp)
  obtain ⟨e, he⟩ := Option.ne_none_iff_exists'.mp hadj
  have hv : v < 8 := by simpa [exGad, mkG] using (hw.edge he).1
  have n2 : exGad.nbrs 2 = {0} := by ext v; rw [mem_nbrs hw.toInv]; simp [exGad, mkG]; omega
  have n3 : exGad.nbrs 3 = {1} := by ext v; rw [mem_nbrs hw.toInv]; simp [exGad, mkG]; omega
  interval_cases v
  · simp [exGad, mkG] at h2
  · simp [exGad, mkG] at h2
  · rw [n2] at h1; have := Finset.singleton_injective h1; omega
  · rw [n3] at h1; have := Finset.singleton_injective h1; omega
  · simp [exGad, mkG] at h2
  · have hp : exGad.phase 5 = 1 / 2 := by simp [exGad, mkG]
    rw [hp, show (1 / 2 : ℚ) = mkRat 1 2 by norm_num [Rat.mkRat_eq_div]] at h2
    exact absurd h2 (by decide)
  · simp [exGad, mkG] at h2
  · simp [exGad, mkG] at h2

theorem exGad_sep : exGad.AxelSep := by
  intro n n' h h' hne
  have h1 := exGad_axel h
  have h2 := exGad_axel h'
  interval_cases n <;> interval_cases n' <;> simp [exGad, mkG] at hne

theorem exGad_gadget : IsGadget exGad 1 3 := by
  have hw := exGad_graph.wf
  refine ⟨by ext v; rw [mem_nbrs hw.toInv]; simp [exGad, mkG]; omega, ?_, Or.inr (by simp [exGad, mkG]), by simp [exGad, mkG], by simp [exGad, mkG]⟩
  rw [show exGad.phase 3 = mkRat 3 4 by norm_num [exGad, mkG, Rat.mkRat_eq_div]]
  decide

/-- `exGad` meets the hypotheses, and the loop changes it. -/
example : ∃ g' t' i, gadgetSimp (fun _ => incOrders) 17 0 exGad = .done g' t' i ∧ Preserves exGad g' ∧ g'.NoGadgetFuse ∧ g' ≠ exGad := by
  obtain ⟨g', t', i, h1, -, h3, -, -, h6⟩ := gadgetSimp_terminates (ω := fun _ => incOrders) phaseSet_quarter (fun _ => incOrders_ok)
    exGad_zx exGad_graph.had exGad_graph.zx ⟨exGad_graph.bphase, exGad_graph.io⟩ exGad_sep (fuel := 17)
    (by show 2 * (Finset.range 8).card < 17; simp) 0
  refine ⟨g', t', i, h1, h3, h6 fun _ => incOrders_full, fun e => ?_⟩
  have hn := h6 fun _ => incOrders_full
  rw [e] at hn
  have := (hn 1 3 exGad_gadget).1
  simp [exGad, mkG] at this

/-! ### `full_reduce` -/

/-- C45: `full_reduce` raises an exception for a diagram with an H-box. -/
theorem fullReduce_hbox (h : ∃ v ∈ g.verts, g.ty v = .hbox) (t : ℕ) : fullReduce ω fuel t g = .raised := by
  unfold fullReduce
  rw [if_pos h]

/-- C45: `full_reduce` (for a diagram of Z- and X-spiders, without filter) ends without exception: no loop runs more than `32 |V| + 2` times. It
has kept the boundary and the tensor up to a number that is not 0, and the diagram has the form `FullNF`. -/
theorem fullReduce_terminates (ho : ∀ t, (ω t).OK) (hfu : ∀ t, (ω t).Full) (hg : g.ZX Reduced) (hb : g.PlainBnd)
    (hf : 32 * g.verts.card + 1 < fuel) (t : ℕ) : ∃ g' t', fullReduce ω fuel t g = .done g' t' 0 ∧ g'.WF ∧ PreservesUpTo g g' ∧ g'.FullNF := by
  obtain ⟨g', t', h1, h2, h3, h4⟩ := fullReduce_end (t := t) phaseSet_reduced ho hfu hg hb hf
  exact ⟨g', t', h1, h2.wf, h3.upTo, h4⟩

/-- C45: if all phases are multiples of π/4 the tensor is kept exactly. -/
theorem fullReduce_exact (ho : ∀ t, (ω t).OK) (hfu : ∀ t, (ω t).Full) (hg : g.ZX Quarter) (hb : g.PlainBnd)
    (hf : 32 * g.verts.card + 1 < fuel) (t : ℕ) : ∃ g' t', fullReduce ω fuel t g = .done g' t' 0 ∧ Preserves g g' ∧
      (∀ v ∈ g'.verts, Quarter (g'.phase v)) ∧ g'.FullNF := by
  obtain ⟨g', t', h1, h2, h3, h4⟩ := fullReduce_end (t := t) phaseSet_quarter ho hfu hg hb hf
  exact ⟨g', t', h1, h3.exact fun _ h => h, h2.phases, h4⟩

/-- C45: `full_reduce` is idempotent: on its own results it ends at once, with the same diagram, whatever the filter and the order of
iteration are. -/
theorem fullReduce_idem (ho : ∀ t, (ω t).OK) (hg : g.ZX Reduced) (hb : g.PlainBnd) (h : g.FullNF) (hf : 0 < fuel) (t : ℕ) :
    ∃ t', fullReduce ω fuel t g = .done g t' 0 := by
  obtain ⟨k, rfl⟩ := Nat.exists_eq_succ_of_ne_zero hf.ne'
  exact fullReduce_nf phaseSet_reduced ho k t hg hb h.interior h.boundary h.gadget h.fuse

/-- C27: `clifford_simp` is idempotent: on its own results it ends at once, with the same diagram. -/
theorem cliffordSimp_idem (ho : ∀ t, (ω t).OK) (hg : g.ZX Reduced) (hi : g.InteriorNF) (hb : g.NoBoundaryPivot) {n : ℕ} (hf : 0 < fuel)
    (hn : 0 < n) (t : ℕ) : ∃ t', cliffordSimp ω fuel n t g = .done g t' 0 := by
  obtain ⟨k, rfl⟩ := Nat.exists_eq_succ_of_ne_zero hf.ne'
  obtain ⟨m, rfl⟩ := Nat.exists_eq_succ_of_ne_zero hn.ne'
  exact cliffordSimp_nf phaseSet_reduced ho k m t hg hi hb

/-- Input 0, Z(π/4) at 1, Z(π/4) at 2, output 3, and a phase gadget (4, 5) with phase π/4 on 1 and 2. -/
noncomputable def exFull : Graph :=
  mkG [.boundary, .Z, .Z, .boundary, .Z, .Z] [0, 1 / 4, 1 / 4, 0, 0, 1 / 4]
    [(0, 1, .simple), (1, 2, .had), (2, 3, .simple), (1, 4, .had), (2, 4, .had), (4, 5, .had)] [0] [3]

theorem exFull_zx : exFull.ZX Quarter where
  wf := mkG_wf (by decide)
  bdeg := mkG_bdeg (by decide) (by decide)
  badj b hb hbt := by
    have hb' : b ∈ Finset.range 6 := hb
    fin_cases hb' <;> first | (simp [exFull, mkG] at hbt; done) | skip
    · exact ⟨1, by simp [exFull, mkG]⟩
    · exact ⟨2, by simp [exFull, mkG]⟩
  types v hv := by
    have hv' : v ∈ Finset.range 6 := hv
    fin_cases hv' <;> simp [exFull, mkG]
  phases v hv := by
    have hv' : v ∈ Finset.range 6 := hv
    fin_cases hv' <;> refine ⟨by norm_num [exFull, mkG], isInt_iff.mpr ?_⟩
    · exact ⟨0, by norm_num [exFull, mkG]⟩
    · exact ⟨1, by norm_num [exFull, mkG]⟩
    · exact ⟨1, by norm_num [exFull, mkG]⟩
    · exact ⟨0, by norm_num [exFull, mkG]⟩
    · exact ⟨0, by norm_num [exFull, mkG]⟩
    · exact ⟨1, by norm_num [exFull, mkG]⟩

theorem exFull_bnd : exFull.PlainBnd where
  phase v hv hb := by
    have hv' : v ∈ Finset.range 6 := hv
    fin_cases hv' <;> first | (simp [exFull, mkG] at hb; done) | simp [exFull, mkG]
  io v hv hb := by
    have hv' : v ∈ Finset.range 6 := hv
    fin_cases hv' <;> first | (simp [exFull, mkG] at hb; done) | simp [exFull, mkG]

theorem exFull_pauli {v : ℕ} (hv : v ∈ exFull.verts) (ht : exFull.ty v = .Z) (h : exFull.phase v = 0 ∨ exFull.phase v = 1) : v = 4 := by
  have hv' : v ∈ Finset.range 6 := hv
  fin_cases hv' <;> first | (simp [exFull, mkG] at ht; done) | (norm_num [exFull, mkG] at h; done) | rfl

theorem exFull_nf : exFull.FullNF := by
  have hw : exFull.WF := exFull_zx.wf
  have n4 : exFull.nbrs 4 = {1, 2, 5} := by ext v; rw [mem_nbrs hw.toInv]; simp [exFull, mkG]; omega
  have n5 : exFull.nbrs 5 = {4} := by ext v; rw [mem_nbrs hw.toInv]; simp [exFull, mkG]; omega
  have a4 : ∀ n, exFull.adj 4 n ≠ none → n = 1 ∨ n = 2 ∨ n = 5 := by
    intro n hn; have := (mem_nbrs hw.toInv).mpr hn; rw [n4] at this; simpa using this
  have hax : ∀ n v, IsGadget exFull n v → n = 4 := by
    rintro n v ⟨h1, -, h2, h3, h4⟩
    have hadj : exFull.adj v n ≠ none := (mem_nbrs hw.toInv).mp (by rw [h1]; simp)
    have hn : n ∈ Finset.range 6 := hw.toInv.mem' hadj
    fin_cases hn <;> first | rfl | (norm_num [exFull, mkG] at h2; done) | (simp [exFull, mkG] at h3; done) | (simp [exFull, mkG] at h4; done)
  refine ⟨⟨fun v hv => ?_, ?_, fun v hv ht hp => ?_, fun v hv ht hp => ?_, fun a b hab ta tb pa pb => ?_⟩, fun v hv ht hp hn => ?_,
    fun a b hab ta tb pa pb => ?_, fun n v h => ?_⟩
  · have hv' : v ∈ Finset.range 6 := hv
    fin_cases hv' <;> simp [exFull, mkG]
  · exact fun a b h ha hb => (mkG_zhad (by decide) (by decide) : exFull.ZHad) a b ha hb h
  · rw [exFull_pauli hv ht (Or.inl hp), n4]; simp
  · have hv' : v ∈ Finset.range 6 := hv
    fin_cases hv' <;> norm_num [exFull, mkG] at hp
  · have e1 := exFull_pauli (hw.mem _ _ hab) ta pa
    have e2 := exFull_pauli (hw.toInv.mem' hab) tb pb
    rw [e1, e2] at hab
    exact absurd (hw.loopless 4) hab
  · rw [exFull_pauli hv ht hp] at hn
    exact absurd (by rw [n5]; rfl) (hn 5 (by simp [exFull, mkG])).2
  · obtain rfl := exFull_pauli (hw.mem _ _ hab) ta pa
    rcases a4 b hab with rfl | rfl | rfl
    · exact Or.inr (Or.inl ⟨1, 0, Or.inr rfl, by simp [exFull, mkG], by simp [exFull, mkG]⟩)
    · exact Or.inr (Or.inl ⟨2, 3, Or.inr rfl, by simp [exFull, mkG], by simp [exFull, mkG]⟩)
    · exact Or.inl (by rw [n5]; rfl)
  · have e := hax n v h
    subst e
    refine ⟨by simp [exFull, mkG], fun n' v' h' hne => ?_⟩
    exact absurd (hax n' v' h').symm hne

theorem Quarter.reduced {g : Graph} (h : g.ZX Quarter) : g.ZX Reduced := ⟨h.wf, h.bdeg, h.badj, h.types, fun v hv => (h.phases v hv).1⟩

/-- A concrete run: the hypotheses of all theorems above hold for `exFull`, and `full_reduce` ends. -/
example : ∃ t', fullReduce (fun _ => incOrders) 1 0 exFull = .done exFull t' 0 :=
  fullReduce_idem (fun _ => incOrders_ok) (Quarter.reduced exFull_zx) exFull_bnd exFull_nf (by simp) 0

example : ∃ t', cliffordSimp (fun _ => incOrders) 1 1 0 exFull = .done exFull t' 0 :=
  cliffordSimp_idem (fun _ => incOrders_ok) (Quarter.reduced exFull_zx) exFull_nf.interior exFull_nf.boundary (by simp) (by simp) 0

theorem exSimp_bnd : exSimp.PlainBnd where
  phase v hv hb := by
    have hv' : v ∈ Finset.range 6 := hv
    fin_cases hv' <;> first | (simp [exSimp, mkG] at hb; done) | simp [exSimp, mkG]
  io v hv hb := by
    have hv' : v ∈ Finset.range 6 := hv
    fin_cases hv' <;> first | (simp [exSimp, mkG] at hb; done) | simp [exSimp, mkG]

/-- The diagram `exSimp` of `Props/Simp` meets the hypotheses and is changed. -/
example : ∃ g' t', fullReduce (fun _ => incOrders) 194 0 exSimp = .done g' t' 0 ∧ Preserves exSimp g' ∧ g'.FullNF ∧ g' ≠ exSimp := by
  obtain ⟨g', t', h1, h2, -, h3⟩ := fullReduce_exact (fuel := 194) (fun _ => incOrders_ok) (fun _ => incOrders_full) exSimp_zx exSimp_bnd
    (by show 32 * (Finset.range 6).card + 1 < 194; simp) 0
  refine ⟨g', t', h1, h2, h3, fun h => ?_⟩
  rw [h] at h3
  have := h3.interior.had 3 4 (by simp [exSimp, mkG]) (by simp [exSimp, mkG]) (by simp [exSimp, mkG])
  simp [exSimp, mkG] at this

/-- The hypotheses of `gadget_complete` (C19) hold for `exFull`. -/
example : ∀ n v, v ∈ incSet exFull.verts → IsGadget exFull n v → exFull.phase n = 0 := by
  have hg : GadgetGraph exFull := ⟨exFull_zx.wf, exFull_zx.bdeg, exFull_nf.interior.types, mkG_zhad (by decide) (by decide), exFull_bnd.phase, exFull_bnd.io⟩
  have hr := gadgetFuseRound_nf (P := Quarter) (o := incOrders) incOrders_ok
    ⟨exFull_zx, mkG_zhad (by decide) (by decide), exFull_nf.interior.types, exFull_bnd, InteriorNF.axelSep exFull_zx exFull_nf.interior⟩ exFull_nf.fuse
  have hm : (matchGadgets exFull (incOrders.nbr exFull) (incOrders.vcand exFull)).2 = [] := by
    by_contra hc
    unfold gadgetFuseRound at hr
    simp only at hr
    rw [if_neg hc] at hr
    simp at hr
  intro n v hv h
  exact (gadget_complete hg (incOrd_ok _) (incOrders_ok.vcand exFull).2 hm n v hv h).1

end Props
end PyZX
