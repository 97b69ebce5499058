import Verif.Proofs.Bialg
import Verif.Proofs.Recolor
import Verif.Proofs.Fuse
import Verif.Spec.Example

/-!
# C14, C15, C22, C23: the rules of `basicrules.py`, the bialgebra rule and the colour changes
-/

namespace PyZX
namespace Props

open Graph Rules

/-! ### C23: colour changes -/

/-- C23: `color_change` preserves the tensor, reports whether the vertex is a spider, and toggles the type of the vertex and of no other. -/
theorem colorChange_preserves {g : Graph} (hg : g.WF) {ord : ℕ → List ℕ} (ho : NbrOrder g ord) {v : ℕ} (hv : v ∈ g.verts) :
    Preserves g (Basic.colorChange g ord v).1 ∧ (Basic.colorChange g ord v).2 = decide (g.ty v = .Z ∨ g.ty v = .X) ∧
      (Basic.colorChange g ord v).1.verts = g.verts ∧ (Basic.colorChange g ord v).1.phase = g.phase ∧
      ∀ w, (Basic.colorChange g ord v).1.ty w =
        if w = v then (match g.ty v with | .Z => .X | .X => .Z | t => t) else g.ty w := by
  obtain ⟨h1, -⟩ := Basic.colorChange_recolored hg ho hv
  obtain ⟨p, -, -, h2, h3⟩ := Basic.colorChange_frame g ord v
  refine ⟨h1.pres, ?_, h1.verts, p, fun w => ?_⟩
  · rw [h2]; cases g.ty v <;> rfl
  · rw [h3]; cases g.ty v <;> rfl

/-- C23: `to_gh` preserves the tensor and turns exactly the X-spiders into Z-spiders. -/
theorem toGH_preserves {g : Graph} (hg : g.WF) {ord : ℕ → List ℕ} (ho : NbrOrder g ord) {vs : List ℕ} (hvs : ∀ v, v ∈ vs ↔ v ∈ g.verts) :
    Preserves g (Simplify.toGH g ord vs) ∧ (Simplify.toGH g ord vs).verts = g.verts ∧ (Simplify.toGH g ord vs).phase = g.phase ∧
      (∀ v ∈ g.verts, (Simplify.toGH g ord vs).ty v ≠ .X) ∧
      ∀ v ∈ g.verts, g.ty v ≠ .X → (Simplify.toGH g ord vs).ty v = g.ty v := by
  have h1 := Simplify.toRG_sound ord (fun g v => decide (g.ty v = .X)) vs g hg ho fun v hv => (hvs v).mp hv
  rw [← Simplify.toGH_eq] at h1
  refine ⟨h1.pres, h1.verts, h1.phase, fun v hv => ?_, fun v hv hx => ?_⟩
  · rw [Simplify.toGH_ty]
    by_cases hx : g.ty v = .X
    · simp [hx, (hvs v).mpr hv]
    · simp [hx]
  · rw [Simplify.toGH_ty, if_neg fun h => hx h.2]

/-- C23: `to_rg` preserves the tensor for every predicate, including predicates that depend on the current state of the diagram such as
the default one. -/
theorem toRG_preserves {g : Graph} (hg : g.WF) {ord : ℕ → List ℕ} (ho : NbrOrder g ord) (select : Graph → ℕ → Bool) {vs : List ℕ}
    (hvs : ∀ v ∈ vs, v ∈ g.verts) :
    Preserves g (Simplify.toRG g ord select vs) ∧ (Simplify.toRG g ord select vs).verts = g.verts ∧
      (Simplify.toRG g ord select vs).phase = g.phase := by
  have h := Simplify.toRG_sound ord select vs g hg ho hvs
  exact ⟨h.pres, h.verts, h.phase⟩

/-- C23: `to_rg` with a predicate on vertices toggles exactly the selected spiders. -/
theorem toRG_types (g : Graph) (ord : ℕ → List ℕ) (sel : ℕ → Bool) {vs : List ℕ} (hn : vs.Nodup) (w : ℕ) :
    (Simplify.toRG g ord (fun _ => sel) vs).ty w =
      if w ∈ vs ∧ sel w = true then (match g.ty w with | .Z => .X | .X => .Z | t => t) else g.ty w := by
  rw [Simplify.toRG_ty ord sel vs g hn]
  cases g.ty w <;> rfl

/-- C23: `color_change_diagram` applies a Hadamard to every boundary of the tensor. -/
theorem colorChangeDiagram_hadamards {g : Graph} (hg : g.WF) {ord : ℕ → List ℕ} (ho : NbrOrder g ord) {vs : List ℕ}
    (hvs : ∀ v ∈ vs, v ∈ g.verts) (hd : ∀ v ∈ vs, g.ty v = .boundary → g.degree v = 1) :
    ∃ g', Basic.colorChangeDiagram g ord vs = some g' ∧ g'.WF ∧ g'.inputs = g.inputs ∧ g'.outputs = g.outputs ∧
      ∀ b, g'.sem b = ((vs.filter fun v => g.ty v = .boundary).foldl (fun f v => Basic.hadAt v f) g.sem) b := by
  obtain ⟨g', h1, h2, -, h3, h4, -, h5⟩ := Basic.colorChangeDiagram_sound ord vs g hg ho hvs hd
  exact ⟨g', h1, h2, h3, h4, h5⟩

/-- A diagram with spiders of both colours and both kinds of edges. -/
noncomputable def exColor : Graph :=
  mkG [.boundary, .Z, .X, .X, .boundary] [0, 1 / 4, 1 / 2, 0, 0]
    [(0, 1, .simple), (1, 2, .had), (2, 3, .simple), (1, 3, .simple), (3, 4, .had)] [0] [4]

example : exColor.WF ∧ NbrOrder exColor exColor.incOrd ∧ (∀ v, v ∈ [3, 1, 0, 2, 4] ↔ v ∈ exColor.verts) :=
  ⟨mkG_wf (by decide), incOrd_ok _, fun v => by simp [exColor, mkG]; omega⟩

/-! ### C22: strong complementarity, copying and the bialgebra rule -/

/-- C22: `strong_comp` on any match succeeds, removes the two spiders and preserves the tensor, scalar included. -/
theorem strongComp_preserves {g : Graph} (hg : g.WF) {ord : ℕ → List ℕ} (ho : NbrOrder g ord) {v1 v2 : ℕ}
    (hty : (g.ty v1 = .X ∧ g.ty v2 = .Z) ∨ (g.ty v1 = .Z ∧ g.ty v2 = .X)) (hp1 : g.phase v1 = 0 ∨ g.phase v1 = 1)
    (hp2 : g.phase v2 = 0 ∨ g.phase v2 = 1) (hadj : g.adj v1 v2 = some .simple) :
    ∃ g', Basic.strongComp g ord v1 v2 = some (g', true) ∧ (v1 ∉ g'.verts ∧ v2 ∉ g'.verts) ∧ Preserves g g' := by
  refine Basic.strongComp_sound hg ho ?_
  unfold Basic.checkStrongComp Basic.isPauli
  simp only [Bool.and_eq_true, Bool.or_eq_true, decide_eq_true_eq]
  exact ⟨⟨⟨hty, hp1⟩, hp2⟩, hadj⟩

/-- C22: whatever the vertices, `strong_comp` preserves the tensor, and does nothing if it reports failure. -/
theorem strongComp_any {g g' : Graph} (hg : g.WF) {ord : ℕ → List ℕ} (ho : NbrOrder g ord) {v1 v2 : ℕ} {b : Bool}
    (h : Basic.strongComp g ord v1 v2 = some (g', b)) : Preserves g g' ∧ (b = false → g' = g) := by
  by_cases hc : Basic.checkStrongComp g v1 v2 = true
  · obtain ⟨g'', h1, -, h2⟩ := Basic.strongComp_sound hg ho hc
    rw [h] at h1
    simp only [Option.some.injEq, Prod.mk.injEq] at h1
    obtain ⟨e1, e2⟩ := h1
    exact ⟨by rw [e1]; exact h2, by simp [e2]⟩
  · unfold Basic.strongComp at h
    rw [if_pos (by simpa using hc)] at h
    obtain ⟨rfl, rfl⟩ := Prod.ext_iff.mp (Option.some.inj h)
    exact ⟨Preserves.refl hg, fun _ => rfl⟩

/-- C22: `copy_X` preserves the tensor on every vertex of every diagram. -/
theorem copyX_preserves {g : Graph} (hg : g.WF) {ord : ℕ → List ℕ} (ho : NbrOrder g ord) (v : ℕ) :
    ∃ g' b, Basic.copyX g ord v = some (g', b) ∧ Preserves g g' := by
  obtain ⟨g', b, h1, h2, -⟩ := Basic.copyX_sound (v := v) hg ho
  exact ⟨g', b, h1, h2⟩

/-- C22: when the neighbour is a Pauli Z-spider, `copy_X` removes both vertices. -/
theorem copyX_copies {g : Graph} (hg : g.WF) {ord : ℕ → List ℕ} (ho : NbrOrder g ord) {v w : ℕ} (hv : g.ty v = .X)
    (hp : g.phase v = 0 ∨ g.phase v = 1) (hn : ord v = [w]) (hw : g.ty w = .Z) (hq : g.phase w = 0 ∨ g.phase w = 1)
    (hadj : g.adj v w = some .simple) :
    ∃ g', Basic.copyX g ord v = some (g', true) ∧ (v ∉ g'.verts ∧ w ∉ g'.verts) ∧ Preserves g g' := by
  obtain ⟨g', h1, h2, h3⟩ := strongComp_preserves hg ho (Or.inl ⟨hv, hw⟩) hp hq hadj
  refine ⟨g', ?_, h2, h3⟩
  have hdeg : g.degree v = 1 := by
    have := (ho v (hg.edge hadj).1).2
    unfold Graph.degree
    rw [← this, hn]; rfl
  unfold Basic.copyX
  have hc : Basic.checkCopyX g ord v = true := by
    unfold Basic.checkCopyX Basic.isPauli
    rw [hn]
    simp [hdeg, hv, hp, hw, hadj]
  rw [if_neg (by rw [hc]; simp), hn]
  simp only [List.head?_cons]
  rw [h1]; rfl

/-- Two spiders of opposite colours with phase π and two further neighbours each, one of them shared. -/
noncomputable def exStrong : Graph :=
  mkG [.boundary, .Z, .X, .X, .Z, .boundary] [0, 1, 1, 1 / 4, 1 / 3, 0]
    [(0, 1, .had), (1, 2, .simple), (1, 3, .had), (2, 3, .simple), (2, 4, .simple), (4, 5, .simple)] [0] [5]

example : exStrong.WF ∧ NbrOrder exStrong exStrong.incOrd ∧ exStrong.ty 1 = .Z ∧ exStrong.ty 2 = .X ∧ exStrong.phase 1 = 1 ∧
    exStrong.adj 1 2 = some .simple :=
  ⟨mkG_wf (by decide), incOrd_ok _, by simp [exStrong, mkG], by simp [exStrong, mkG], by simp [exStrong, mkG], by simp [exStrong, mkG]⟩

theorem sem_addPower {g : Graph} (hg : g.WF) (k : ℤ) (b : ℕ → Bool) : (g.addPower k).sem b = sq2 ^ k * g.sem b := by
  have ws : (g.addPower k).WF := hg.congr (hg.toInv.congr rfl rfl rfl rfl rfl rfl) rfl rfl rfl rfl rfl
  rw [sem_eq_amp ws, sem_eq_amp hg]
  unfold amp
  rw [← psum_const_mul]
  refine psum_congr fun y _ => ?_
  rw [weight_eq_wOn, wOn_addPower, mul_comm]; rfl

/-- C22, the part that holds for `rules.bialg`: any independent list of matches with simple edges is rewritten without raising, both
spiders of each match are removed, and the tensor is multiplied by `√2 ^ (-(n - 1) (m - 1))` for each match with `n` and `m` outer
neighbours. Missing: the code records no scalar, so the tensor is preserved only up to this power of `√2`. -/
theorem bialg_partial {g : Graph} (hg : g.WF) (hb : g.BDeg) {ms : List BialgMatch} (h : BialgOK g ms) :
    ∃ g', (bialg g ms).finish = some g' ∧ g'.WF ∧ g'.BDeg ∧ g'.inputs = g.inputs ∧ g'.outputs = g.outputs ∧
      g'.verts = g.verts \ (ms.flatMap fun m => [m.v0, m.v1]).toFinset ∧
      ∀ b, g'.sem b = sq2 ^ (ms.map fun m => -(((m.n0.length : ℤ) - 1) * ((m.n1.length : ℤ) - 1))).sum * g.sem b := by
  obtain ⟨g', h1, h2, h3, h4⟩ := bialg_total hg hb h
  exact ⟨g', h1, h2.wf, h3, h2.inputs, h2.outputs, h4, fun b => by rw [h2.sem, sem_addPower hg]; rfl⟩

/-- C18 and C22: the matcher returns independent matches on diagrams with only simple edges. -/
theorem matchBialg_independent {g : Graph} (hg : g.WF) {ord : ℕ → List ℕ} (ho : NbrOrder g ord)
    (hs : ∀ u v, g.adj u v ≠ none → g.adj u v = some .simple) {cands : List (ℕ × ℕ)} (hn : cands.Nodup)
    (hc : ∀ c ∈ cands, g.adj c.1 c.2 ≠ none) (hsw : ∀ c ∈ cands, (c.2, c.1) ∉ cands) (num : ℤ) :
    BialgOK g (matchBialg g ord num cands) := matchBialg_ok hg ho hs hn hc hsw num

/-- Two spiders of opposite colours with two outer neighbours each. -/
noncomputable def exBialg : Graph :=
  mkG [.boundary, .boundary, .X, .X, .Z, .X, .Z, .Z, .boundary, .boundary] [0, 0, 0, 0, 0, 0, 0, 0, 0, 0]
    [(0, 2, .simple), (1, 3, .simple), (2, 4, .simple), (3, 4, .simple), (4, 5, .simple), (5, 6, .simple), (5, 7, .simple),
      (6, 8, .simple), (7, 9, .had)] [0, 1] [8, 9]

example : exBialg.WF ∧ exBialg.BDeg ∧ BialgOK exBialg [⟨4, 5, [2, 3], [6, 7]⟩] := by
  refine ⟨mkG_wf (by decide), mkG_bdeg (by decide) (by decide), ?_⟩
  constructor <;> simp [exBialg, mkG] <;> decide

/-- Two connected spiders of opposite colours and nothing else. -/
noncomputable def exBialg0 : Graph := mkG [.Z, .X] [0, 0] [(0, 1, .simple)] [] []

theorem exBialg0_sem (b : ℕ → Bool) : exBialg0.sem b = sq2 := by
  have hw : exBialg0.WF := mkG_wf (by decide)
  rw [sem_eq_amp hw]
  have hi : exBialg0.interior = insert 0 (insert 1 ∅) := by
    ext v; simp only [Graph.interior, Finset.mem_filter]; simp [exBialg0, mkG]
    constructor
    · rintro ⟨h, -⟩; omega
    · rintro (rfl | rfl) <;> simp
  have hv : exBialg0.verts = insert 0 (insert 1 ∅) := by
    ext v; simp [exBialg0, mkG]; omega
  unfold amp
  rw [hi, psum_insert_env (by simp), psum_insert_env (by simp), psum_insert_env (by simp)]
  simp only [psum_empty]
  have hwt : ∀ x, exBialg0.weight x = hmat (x 0) (x 1) := by
    intro x
    rw [weight_eq_wOn, hv]
    unfold wOn
    rw [pairProd_insert (by simp) (edgeK_comm hw.symm x), pairProd_insert (by simp) (edgeK_comm hw.symm x)]
    have : exBialg0.edgeK x 0 1 = hmat (x 0) (x 1) := by
      rw [edgeK_some (e := .simple) (by simp [exBialg0, mkG])]
      have : exBialg0.eff 0 1 .simple = true := by simp [eff, isX, exBialg0, mkG]
      rw [this]; rfl
    have h0 : exBialg0.vwt 0 (x 0) = 1 := by simp [vwt, vval, exBialg0, mkG]
    have h1 : exBialg0.vwt 1 (x 1) = 1 := by simp [vwt, vval, exBialg0, mkG]
    have hs : exBialg0.scalar.toNumber = 1 := by simp [exBialg0, mkG, Scalar.new, Scalar.toNumber]
    simp [this, h0, h1, hs]
  simp only [hwt]
  simp [hmat]
  have := sq2_mul_self
  have h0 := sq2_ne_zero
  field_simp
  rw [sq2_sq]; ring

/-- C22 fails for `rules.bialg`: it records no scalar. On two connected spiders of opposite colours, which the matcher matches, the tensor
`√2` becomes `1`. -/
theorem bialg_not_exact : exBialg0.WF ∧ exBialg0.BDeg ∧ matchBialg exBialg0 exBialg0.incOrd (-1) [(0, 1)] = [⟨0, 1, [], []⟩] ∧
    ∃ g', (bialg exBialg0 [⟨0, 1, [], []⟩]).finish = some g' ∧ ∀ b, g'.sem b ≠ exBialg0.sem b := by
  have hw : exBialg0.WF := mkG_wf (by decide)
  have hb : exBialg0.BDeg := mkG_bdeg (by decide) (by decide)
  have n0 : exBialg0.nbrs 0 = {1} := by
    ext v; rw [mem_nbrs hw.toInv]; simp [exBialg0, mkG]; omega
  have n1 : exBialg0.nbrs 1 = {0} := by
    ext v; rw [mem_nbrs hw.toInv]; simp [exBialg0, mkG]; omega
  have hok : BialgOK exBialg0 [⟨0, 1, [], []⟩] := by
    constructor <;> simp [n0, n1] <;> simp [exBialg0, mkG]
  refine ⟨hw, hb, ?_, ?_⟩
  · have o0 : exBialg0.incOrd 0 = [1] := by unfold incOrd; rw [n0]; simp
    have o1 : exBialg0.incOrd 1 = [0] := by unfold incOrd; rw [n1]; simp
    have : bialgTry exBialg0 exBialg0.incOrd (0, 1) = some ⟨0, 1, [], []⟩ := by
      unfold bialgTry
      simp only [o0, o1]
      simp [exBialg0, mkG]
    unfold matchBialg
    simp [greedy, this]
  · obtain ⟨g', h1, -, -, -, -, -, h2⟩ := bialg_partial hw hb hok
    refine ⟨g', h1, fun b => ?_⟩
    rw [h2 b, exBialg0_sem]
    simp
    rw [inv_mul_cancel₀ sq2_ne_zero]
    intro h
    have := sq2_sq
    rw [← h] at this
    norm_num at this

/-! ### C14 and C15: `fuse` and `remove_id` -/

/-- C14: `fuse` on two adjacent spiders of the same colour succeeds, removes the second one and preserves the tensor. -/
theorem fuse_preserves {g : Graph} (hg : g.WF) (hb : g.BDeg) {ord : ℕ → List ℕ} (ho : NbrOrder g ord) {v1 v2 : ℕ}
    (hty : (g.ty v1 = .X ∧ g.ty v2 = .X) ∨ ((g.ty v1 = .Z ∨ g.ty v1 = .zbox) ∧ (g.ty v2 = .Z ∨ g.ty v2 = .zbox)))
    (hadj : g.adj v1 v2 = some .simple) :
    ∃ g', Basic.fuse g ord v1 v2 = some (g', true) ∧ Preserves g g' ∧ g'.verts = g.verts.erase v2 := by
  have hc : Basic.checkFuse g v1 v2 = true := by
    unfold Basic.checkFuse
    rcases hty with ⟨a, b⟩ | ⟨a | a, b | b⟩ <;> simp [a, b, hadj, VType.zLike]
  obtain ⟨g', h⟩ := Basic.fuse_total hg hb ho hc
  obtain ⟨-, h1, h2⟩ := Basic.fuse_sound hg ho hc h
  exact ⟨g', h, h1, h2⟩

/-- C14: whatever the vertices, `fuse` preserves the tensor if it does not raise. -/
theorem fuse_any {g g' : Graph} (hg : g.WF) {ord : ℕ → List ℕ} (ho : NbrOrder g ord) {v1 v2 : ℕ} {b : Bool}
    (h : Basic.fuse g ord v1 v2 = some (g', b)) : Preserves g g' ∧ (b = false → g' = g) := by
  by_cases hc : Basic.checkFuse g v1 v2 = true
  · obtain ⟨rfl, h1, -⟩ := Basic.fuse_sound hg ho hc h
    exact ⟨h1, by simp⟩
  · unfold Basic.fuse at h
    rw [if_pos (by simpa using hc)] at h
    obtain ⟨rfl, rfl⟩ := Prod.ext_iff.mp (Option.some.inj h)
    exact ⟨Preserves.refl hg, fun _ => rfl⟩

/-- A Z-spider next to a Z-box with a common neighbour. -/
noncomputable def exFuse : Graph := mkG [.boundary, .Z, .zbox, .X, .boundary] [0, 1 / 4, 0, 1, 0]
  [(0, 1, .simple), (1, 2, .simple), (1, 3, .had), (2, 3, .simple), (3, 4, .simple)] [0] [4]

example : exFuse.WF ∧ exFuse.BDeg ∧ exFuse.ty 1 = .Z ∧ exFuse.ty 2 = .zbox ∧ exFuse.adj 1 2 = some .simple :=
  ⟨mkG_wf (by decide), mkG_bdeg (by decide) (by decide), by simp [exFuse, mkG], by simp [exFuse, mkG], by simp [exFuse, mkG]⟩

/-- C15: `remove_id` on a spider of arity two with phase zero (or a Z-box with label one) succeeds, removes it and preserves the tensor. -/
theorem removeId_preserves {g : Graph} (hg : g.WF) (hb : g.BDeg) {ord : ℕ → List ℕ} (ho : NbrOrder g ord) {v : ℕ} (hv : v ∈ g.verts)
    (hd : g.degree v = 2) (ht : ((g.ty v = .Z ∨ g.ty v = .X) ∧ g.phase v = 0) ∨ (g.ty v = .zbox ∧ g.label v = 1)) :
    ∃ g', Basic.removeId g ord v = some (g', true) ∧ Preserves g g' ∧ g'.verts = g.verts.erase v := by
  have hc : Basic.checkRemoveId g v := by
    refine ⟨hd, ?_⟩
    rcases ht with ⟨h, p⟩ | h
    · right; exact ⟨by rcases h with h | h <;> simp [h], p⟩
    · left; exact h
  have hnb : g.ty v ≠ .boundary := by rcases ht with ⟨h | h, -⟩ | ⟨h, -⟩ <;> simp [h]
  obtain ⟨g', h⟩ := Basic.removeId_total hg hb ho hv hc
  obtain ⟨-, h1, h2⟩ := Basic.removeId_sound hg ho hv hnb hc h
  exact ⟨g', h, h1, h2⟩

/-- C15: whatever the vertex (other than a boundary), `remove_id` preserves the tensor if it does not raise. -/
theorem removeId_any {g g' : Graph} (hg : g.WF) {ord : ℕ → List ℕ} (ho : NbrOrder g ord) {v : ℕ} (hv : v ∈ g.verts)
    (hnb : g.ty v ≠ .boundary) {b : Bool} (h : Basic.removeId g ord v = some (g', b)) : Preserves g g' ∧ (b = false → g' = g) := by
  by_cases hc : Basic.checkRemoveId g v
  · obtain ⟨rfl, h1, -⟩ := Basic.removeId_sound hg ho hv hnb hc h
    exact ⟨h1, by simp⟩
  · unfold Basic.removeId at h
    rw [if_pos hc] at h
    obtain ⟨rfl, rfl⟩ := Prod.ext_iff.mp (Option.some.inj h)
    exact ⟨Preserves.refl hg, fun _ => rfl⟩

/-- A row of four with one identity spider and a Hadamard edge. -/
noncomputable def exRemoveId : Graph :=
  mkG [.boundary, .Z, .X, .boundary] [0, 0, 1 / 4, 0] [(0, 1, .simple), (1, 2, .had), (2, 3, .simple)] [0] [3]

example : exRemoveId.WF ∧ exRemoveId.BDeg ∧ 1 ∈ exRemoveId.verts ∧ exRemoveId.degree 1 = 2 ∧ exRemoveId.ty 1 = .Z ∧ exRemoveId.phase 1 = 0 := by
  have hw : exRemoveId.WF := mkG_wf (by decide)
  refine ⟨hw, mkG_bdeg (by decide) (by decide), by simp [exRemoveId, mkG], ?_, by simp [exRemoveId, mkG], by simp [exRemoveId, mkG]⟩
  have : exRemoveId.nbrs 1 = {0, 2} := by
    ext v; rw [mem_nbrs hw.toInv]; simp [exRemoveId, mkG]; omega
  unfold Graph.degree; rw [this]; rfl

/-! ### C42: `pi_commute_Z` -/

/-- C42, the part that holds for `pi_commute_Z`: when every neighbour can absorb the new spider, the result denotes the tensor divided by
`e ^ (i α)`, `α` being the phase of the vertex. Missing: the code records no scalar, and when some neighbour cannot absorb the
new spider the code modifies the dictionary it iterates over (not modelled). -/
theorem piCommuteZ_partial {g g' : Graph} (hg : g.WF) {ord : ℕ → List ℕ} (ho : NbrOrder g ord) {v : ℕ} (hv : v ∈ g.verts)
    (h : Basic.piCommuteZ g ord v = some (g', true)) :
    g'.WF ∧ g'.inputs = g.inputs ∧ g'.outputs = g.outputs ∧ g'.verts = g.verts ∧ g'.ty = g.ty ∧
      ∀ b, g'.sem b = ph (-g.phase v) * g.sem b := Basic.piCommuteZ_sound hg ho hv h

/-- A single Z-spider with phase π/2. -/
noncomputable def exPi : Graph := mkG [.Z] [1 / 2] [] [] []

theorem exPi_sem (b : ℕ → Bool) : exPi.sem b = 1 + Complex.I := by
  have hw : exPi.WF := mkG_wf (by decide)
  rw [sem_eq_amp hw]
  have hi : exPi.interior = insert 0 ∅ := by
    ext v; simp only [Graph.interior, Finset.mem_filter]; simp [exPi, mkG]; rintro rfl; simp
  have hv : exPi.verts = insert 0 ∅ := by ext v; simp [exPi, mkG]
  unfold amp
  rw [hi, psum_insert_env (by simp)]
  simp only [psum_empty]
  have hwt : ∀ x, exPi.weight x = if x 0 then Complex.I else 1 := by
    intro x
    rw [weight_eq_wOn, hv]
    unfold wOn
    rw [pairProd_insert (by simp) (edgeK_comm hw.symm x)]
    have h0 : exPi.vwt 0 (x 0) = if x 0 then Complex.I else 1 := by
      have : exPi.vval 0 = Complex.I := by
        have hp : exPi.phase 0 = 1 / 2 := by simp [exPi, mkG]
        have ht : exPi.ty 0 = .Z := by simp [exPi, mkG]
        unfold vval; rw [hp, ht, ph_half]
      unfold vwt; rw [this]
    have hs : exPi.scalar.toNumber = 1 := by simp [exPi, mkG, Scalar.new, Scalar.toNumber]
    simp [h0, hs]
  simp only [hwt]
  simp

/-- C42 fails: `pi_commute_Z` changes the tensor of a single spider with phase π/2 from `1 + i` to `1 - i`. -/
theorem piCommuteZ_not_exact : exPi.WF ∧ NbrOrder exPi exPi.incOrd ∧
    ∃ g', Basic.piCommuteZ exPi exPi.incOrd 0 = some (g', true) ∧ ∀ b, g'.sem b ≠ exPi.sem b := by
  have hw : exPi.WF := mkG_wf (by decide)
  have n0 : exPi.incOrd 0 = [] := by
    have : exPi.nbrs 0 = ∅ := by ext v; rw [mem_nbrs hw.toInv]; simp [exPi, mkG]
    unfold incOrd; rw [this]; simp
  have ht : exPi.ty 0 = .Z := by simp [exPi, mkG]
  have he : Basic.piCommuteZ exPi exPi.incOrd 0 = some (exPi.setPhase 0 (-exPi.phase 0), true) := by
    unfold Basic.piCommuteZ
    rw [n0]; simp [ht]
  refine ⟨hw, incOrd_ok _, _, he, fun b => ?_⟩
  obtain ⟨-, -, -, -, -, h⟩ := piCommuteZ_partial hw (incOrd_ok _) (by simp [exPi, mkG]) he
  rw [h, exPi_sem]
  have hp : exPi.phase 0 = 1 / 2 := by simp [exPi, mkG]
  rw [hp, ph_neg, ph_half, Complex.inv_I]
  intro e
  have := congrArg Complex.im e
  simp at this
  norm_num at this

end Props
end PyZX
