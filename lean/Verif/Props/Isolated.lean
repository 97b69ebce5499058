import Verif.Proofs.Isolated
import Verif.Spec.Example

/-!
# C24: removing isolated vertices
-/

namespace PyZX
namespace Props
open Graph Rules

/-- C24: `remove_isolated_vertices` preserves the tensor, scalar included, when the isolated part consists of Z- and X-spiders and no
isolated pair takes the wrong branch of `add_spider_pair` (see `addSpiderPair_wrong`). `vs` is any order of the vertices.
Missing for the full claim: Z-boxes (`removeIsolated_zbox_wrong`) and that branch (`removeIsolated_upTo`). -/
theorem removeIsolated_partial {g : Graph} (hg : g.WF) (hok : g.IsoOK) (hbr : g.IsoBranch) {ord : ℕ → List ℕ} (ho : NbrOrder g ord)
    {vs : List ℕ} (hn : vs.Nodup) (hvs : vs.toFinset = g.verts) :
    ∃ g', g.removeIsolated ord vs = some g' ∧ Preserves g g' := by
  obtain ⟨g', h1, h2, h3, h4, -, -, -, -, h5, c, -, hc, h6⟩ := removeIsolated_spec hg hok ho hn hvs
  exact ⟨g', h1, h2, h3, h4, h5, fun b => by rw [h6, hc hbr, one_mul]⟩

/-- C24: whatever the phases, `remove_isolated_vertices` preserves the tensor up to a number that is not zero. In particular it never turns
a diagram that is not zero into one that is, or conversely. -/
theorem removeIsolated_upTo {g : Graph} (hg : g.WF) (hok : g.IsoOK) {ord : ℕ → List ℕ} (ho : NbrOrder g ord)
    {vs : List ℕ} (hn : vs.Nodup) (hvs : vs.toFinset = g.verts) :
    ∃ g', g.removeIsolated ord vs = some g' ∧ PreservesUpTo g g' := by
  obtain ⟨g', h1, h2, h3, h4, -, -, -, -, h5, c, hc0, -, h6⟩ := removeIsolated_spec hg hok ho hn hvs
  exact ⟨g', h1, h2, h3, h4, h5, c, hc0, h6⟩

/-- Phases that are multiples of π/4 never take the wrong branch. -/
theorem isoBranch_of_quarter {g : Graph} (hok : g.IsoOK) (h : ∀ v, g.Isolated v → (4 * g.phase v).isInt) : g.IsoBranch := by
  intro v w hp _ hc
  obtain ⟨r1, r2⟩ := hok.reduced v hp.isolated
  have h4 := h v hp.isolated
  obtain ⟨c1, c2, -, -, c3, -, -, c4⟩ := hc
  have hd : (4 * g.phase v).den = 1 := by simpa [Rat.isInt] using h4
  have he : g.phase v = ((4 * g.phase v).num : ℚ) / 4 := by
    have := Rat.num_div_den (4 * g.phase v)
    rw [hd] at this
    rw [Nat.cast_one, div_one] at this
    rw [this]; ring
  generalize (4 * g.phase v).num = n at he
  rw [he] at r1 r2 c1 c2 c3 c4
  have n0 : 0 ≤ n := by
    have : (0 : ℚ) ≤ n := by linarith
    exact_mod_cast this
  have n8 : n < 8 := by
    have : (n : ℚ) < 8 := by linarith
    exact_mod_cast this
  have d1 : ((1 : ℚ) / 4).den = 4 := by
    rw [show (1 / 4 : ℚ) = mkRat 1 4 by norm_num [Rat.mkRat_eq_div]]; rfl
  have d3 : ((3 : ℚ) / 4).den = 4 := by
    rw [show (3 / 4 : ℚ) = mkRat 3 4 by norm_num [Rat.mkRat_eq_div]]; rfl
  have d5 : ((5 : ℚ) / 4).den = 4 := by
    rw [show (5 / 4 : ℚ) = mkRat 5 4 by norm_num [Rat.mkRat_eq_div]]; rfl
  have d7 : ((7 : ℚ) / 4).den = 4 := by
    rw [show (7 / 4 : ℚ) = mkRat 7 4 by norm_num [Rat.mkRat_eq_div]]; rfl
  have d2 : ((2 : ℚ) / 4).den = 2 := by
    rw [show (2 / 4 : ℚ) = mkRat 1 2 by norm_num [Rat.mkRat_eq_div]]; rfl
  have d6 : ((6 : ℚ) / 4).den = 2 := by
    rw [show (6 / 4 : ℚ) = mkRat 3 2 by norm_num [Rat.mkRat_eq_div]]; rfl
  interval_cases n
  · exact c1 (by norm_num)
  · exact c4 (by push_cast; exact d1)
  · exact c3 (by push_cast; exact d2)
  · exact c4 (by push_cast; exact d3)
  · exact c2 (by norm_num)
  · exact c4 (by push_cast; exact d5)
  · exact c3 (by push_cast; exact d6)
  · exact c4 (by push_cast; exact d7)

/-- C24: the result consists of exactly the vertices that are not isolated, with the same types, phases and edges, and nothing in it is isolated. -/
theorem removeIsolated_removes {g : Graph} (hg : g.WF) (hok : g.IsoOK) {ord : ℕ → List ℕ} (ho : NbrOrder g ord)
    {vs : List ℕ} (hn : vs.Nodup) (hvs : vs.toFinset = g.verts) {g' : Graph} (h : g.removeIsolated ord vs = some g') :
    (∀ v, v ∈ g'.verts ↔ v ∈ g.verts ∧ ¬ g.Isolated v) ∧ g'.ty = g.ty ∧ g'.phase = g.phase ∧
      (∀ a ∈ g'.verts, ∀ b ∈ g'.verts, g'.adj a b = g.adj a b) ∧ ∀ v, ¬ g'.Isolated v := by
  obtain ⟨g1, h1, hw, -, -, ht, hp, hv, ha, -, -⟩ := removeIsolated_spec hg hok ho hn hvs
  rw [h1, Option.some.injEq] at h
  rw [← h]
  have hadj : ∀ a ∈ g1.verts, ∀ b ∈ g1.verts, g1.adj a b = g.adj a b := fun a h1 b h2 => ha a b ((hv a).mp h1).2 ((hv b).mp h2).2
  have hnb : ∀ v ∈ g1.verts, g1.nbrs v = g.nbrs v := by
    intro v h1
    ext w
    rw [mem_nbrs hw.toInv, mem_nbrs hg.toInv]
    obtain ⟨v1, v2⟩ := (hv v).mp h1
    have key : g.adj v w ≠ none → w ∈ g1.verts := by
      intro h2
      rw [hv]
      have hwv : g.adj w v ≠ none := by rw [hg.symm]; exact h2
      refine ⟨(Finset.mem_filter.mp ((mem_nbrs hg.toInv).mpr h2)).1, ?_⟩
      rintro ⟨-, h3 | ⟨u, h3⟩⟩
      · have := (mem_nbrs hg.toInv).mpr hwv
        rw [h3] at this
        simp at this
      · have h4 := (mem_nbrs hg.toInv).mpr hwv
        rw [h3.2.2.1, Finset.mem_singleton] at h4
        rw [← h4] at h3
        exact v2 h3.symm.isolated
    constructor
    · intro h2
      have h3 : w ∈ g1.verts := (Finset.mem_filter.mp ((mem_nbrs hw.toInv).mpr h2)).1
      rwa [hadj v h1 w h3] at h2
    · intro h2
      rwa [hadj v h1 w (key h2)]
  refine ⟨hv, ht, hp, hadj, ?_⟩
  rintro v ⟨h1, h2⟩
  refine ((hv v).mp h1).2 ⟨((hv v).mp h1).1, ?_⟩
  rcases h2 with h2 | ⟨w, h2⟩
  · left; rwa [hnb v h1] at h2
  · right
    obtain ⟨a1, a2, a3, a4, a5, a6⟩ := h2
    rw [hnb v a1] at a3
    rw [hnb w a2] at a4
    rw [ht] at a5 a6
    exact ⟨w, ((hv v).mp a1).1, ((hv w).mp a2).1, a3, a4, a5, a6⟩

/-- A wire with a phase, an isolated spider, an isolated pair with a Hadamard edge and an isolated pair of two colours. -/
noncomputable def exIso : Graph := mkG [.boundary, .Z, .boundary, .Z, .Z, .X, .X, .Z] [0, 1 / 4, 0, 1 / 2, 1 / 4, 1 / 4, 3 / 4, 5 / 4]
  [(0, 1, .simple), (1, 2, .had), (4, 7, .had), (5, 6, .simple)] [0] [2]

theorem exIso_wf : exIso.WF := mkG_wf (by decide)

theorem exIso_ok : exIso.IsoOK := by
  have n0 : exIso.nbrs 0 ≠ ∅ := by
    have : 1 ∈ exIso.nbrs 0 := (mem_nbrs exIso_wf.toInv).mpr (by simp [exIso, mkG])
    exact Finset.ne_empty_of_mem this
  have n2 : exIso.nbrs 2 ≠ ∅ := by
    have : 1 ∈ exIso.nbrs 2 := (mem_nbrs exIso_wf.toInv).mpr (by simp [exIso, mkG])
    exact Finset.ne_empty_of_mem this
  have hm : ∀ v, v ∈ exIso.verts ↔ v < 8 := by simp [exIso, mkG]
  refine ⟨fun v hv hb => ?_, fun v hi => ?_, fun v hi => ?_⟩
  · have hv8 := (hm v).mp hv
    interval_cases v
    · exact n0
    · simp [exIso, mkG] at hb
    · exact n2
    all_goals simp [exIso, mkG] at hb
  · have hv8 := (hm v).mp hi.1
    interval_cases v
    · rcases hi.2 with h | ⟨w, h⟩
      · exact absurd h n0
      · exact absurd (show exIso.ty 0 = .boundary by simp [exIso, mkG]) h.2.2.2.2.1
    · simp [exIso, mkG]
    · rcases hi.2 with h | ⟨w, h⟩
      · exact absurd h n2
      · exact absurd (show exIso.ty 2 = .boundary by simp [exIso, mkG]) h.2.2.2.2.1
    all_goals simp [exIso, mkG]
  · have hv8 := (hm v).mp hi.1
    interval_cases v <;> simp [exIso, mkG] <;> norm_num

theorem exIso_branch : exIso.IsoBranch := by
  refine isoBranch_of_quarter exIso_ok fun v hi => ?_
  have hv8 : v < 8 := by have := hi.1; simpa [exIso, mkG] using this
  have key : ∃ n : ℤ, 4 * exIso.phase v = n := by
    interval_cases v
    · exact ⟨0, by simp [exIso, mkG]⟩
    · exact ⟨1, by simp [exIso, mkG]⟩
    · exact ⟨0, by simp [exIso, mkG]⟩
    · exact ⟨2, by simp [exIso, mkG]; norm_num⟩
    · exact ⟨1, by simp [exIso, mkG]⟩
    · exact ⟨1, by simp [exIso, mkG]⟩
    · exact ⟨3, by simp [exIso, mkG]; norm_num⟩
    · exact ⟨5, by simp [exIso, mkG]; norm_num⟩
  obtain ⟨n, hn⟩ := key
  rw [hn]
  simp [Rat.isInt]

/-- The hypotheses are met by `exIso`, where one vertex and two pairs are removed. -/
example : ∃ g', exIso.removeIsolated exIso.incOrd (List.range 8) = some g' ∧ Preserves exIso g' :=
  removeIsolated_partial exIso_wf exIso_ok exIso_branch (incOrd_ok _) List.nodup_range (by ext; simp [exIso, mkG])

/-- A single Z-box with parameter 5. -/
noncomputable def exZBox : Graph := { mkG [.zbox] [0] [] [] [] with label := fun _ => 5 }

/-- C24 fails for Z-boxes: `remove_isolated_vertices` uses the phase of an isolated Z-box and not its parameter. A Z-box with parameter 5
is worth 6, the result is worth 2. -/
theorem removeIsolated_zbox_wrong : exZBox.WF ∧ NbrOrder exZBox exZBox.incOrd ∧
    ∃ g', exZBox.removeIsolated exZBox.incOrd [0] = some g' ∧ ∀ b, exZBox.sem b = 6 ∧ g'.sem b = 2 := by
  have hm : (mkG [.zbox] [0] [] [] [] : Graph).WF := mkG_wf (by decide)
  have hi : exZBox.Inv := hm.toInv.congr rfl rfl rfl rfl rfl rfl
  have hw : exZBox.WF := hm.congr hi rfl rfl rfl rfl rfl
  have hn : exZBox.nbrs 0 = ∅ := by ext v; rw [mem_nbrs hi]; simp [exZBox, mkG]
  have hd : exZBox.degree 0 = 0 := by unfold degree; rw [hn]; rfl
  have ht : exZBox.ty 0 = .zbox := by simp [exZBox, mkG]
  have hp : exZBox.phase 0 = 0 := by simp [exZBox, mkG]
  have hstep : exZBox.isoStep exZBox.incOrd (exZBox.scalar, []) 0 = some (exZBox.scalar.addNode 0, [0]) := by
    unfold isoStep
    rw [if_pos hd, ht, hp]
    simp
  have hs1 : exZBox.scalar.toNumber = 1 := by simp [exZBox, mkG, Scalar.new, Scalar.toNumber]
  set g0 : Graph := { exZBox with scalar := exZBox.scalar.addNode 0 } with hg0
  have hi0 : g0.Inv := hi.congr rfl rfl rfl rfl rfl rfl
  have hw0 : g0.WF := hw.congr hi0 rfl rfl rfl rfl rfl
  obtain ⟨g', e⟩ := removeVertices_isSome hi0 (vs := [0]) (by simp) (by simp [hg0, exZBox, mkG])
  obtain ⟨hr, -, -, hwf⟩ := removeVertices_spec e
  refine ⟨hw, incOrd_ok _, g', ?_, fun b => ⟨?_, ?_⟩⟩
  · unfold removeIsolated
    rw [List.foldlM_cons, hstep]
    exact e
  · rw [sem_eq_amp hw]
    have hI : exZBox.interior = insert 0 ∅ := by
      ext v; simp only [Graph.interior, Finset.mem_filter]; simp [exZBox, mkG]; rintro rfl; simp
    have hv : exZBox.verts = insert 0 ∅ := by ext v; simp [exZBox, mkG]
    have h5 : exZBox.vval 0 = 5 := by unfold vval; rw [ht]; rfl
    have hwt : ∀ x, exZBox.weight x = if x 0 then 5 else 1 := by
      intro x
      rw [weight_eq_wOn, hv]
      unfold wOn
      rw [pairProd_insert (by simp) (edgeK_comm hw.symm x), hs1]
      simp [vwt, h5]
    unfold amp
    rw [hI, psum_insert_env (by simp)]
    simp only [psum_empty, hwt]
    norm_num
  · rw [sem_eq_amp (hwf hw0)]
    have hv : g'.verts = ∅ := by rw [hr.verts]; ext v; simp [hg0, exZBox, mkG]
    have hI : g'.interior = ∅ := by unfold Graph.interior; rw [hv]; rfl
    unfold amp
    rw [hI, psum_empty, weight_eq_wOn, hr.wOn _ (by rw [hv]; simp), hv]
    unfold wOn
    have : g0.scalar.toNumber = 2 := by
      show (exZBox.scalar.addNode 0).toNumber = 2
      rw [Scalar.addNode_toNumber, hs1, ph_zero]; norm_num
    rw [this]
    simp

/-- C24: an isolated boundary makes the call raise. -/
theorem removeIsolated_boundary_raises {g : Graph} {ord : ℕ → List ℕ} {vs : List ℕ} {v : ℕ} (hv : v ∈ vs) (hb : g.ty v = .boundary)
    (hn : g.nbrs v = ∅) : g.removeIsolated ord vs = none := by
  have key : ∀ s, vs.foldlM (g.isoStep ord) s = none := by
    induction vs with
    | nil => simp at hv
    | cons u vs ih =>
      intro s
      rw [List.foldlM_cons]
      rcases List.mem_cons.mp hv with h | h
      · have : g.isoStep ord s u = none := by
          unfold isoStep
          rw [← h, if_pos (by unfold degree; rw [hn]; rfl), if_pos hb]
        rw [this]; rfl
      · rcases hq : g.isoStep ord s u with _ | s1
        · rfl
        · exact ih h s1
  unfold removeIsolated
  rw [key]
  rfl

example : (mkG [.boundary, .Z] [0, 1 / 4] [] [] []).removeIsolated (fun _ => []) [0, 1] = none :=
  removeIsolated_boundary_raises (v := 0) (by simp) (by simp [mkG]) (by ext v; rw [mem_nbrs (mkG_wf (by decide)).toInv]; simp [mkG])

end Props
end PyZX
