import Verif.Proofs.Tensorfy
import Verif.Props.ComposeEx
import Verif.Spec.State

/-!
# C38: `tensorfy` computes the tensor network, whatever the order of the vertices
-/

namespace PyZX
namespace Props

open Graph Finset Tensorfy

/-- `vs` is sorted by row and then by index. -/
def RowSorted (rows : ℕ → ℚ) (vs : List ℕ) : Prop := vs.Pairwise fun a b => rows a < rows b ∨ rows a = rows b ∧ a < b

/-- Conditions under which `tensorfy` succeeds: every boundary vertex is an input or an output and has exactly one neighbour, the
neighbour of an input is no input and comes later, Z-boxes have phase 0, and no X-spider is isolated. -/
structure Tensorable (g : Graph) (rows : ℕ → ℚ) : Prop where
  io : g.IO
  wired : g.Wired g.inputs
  later : ∀ i ∈ g.inputs, ∀ n, g.adj i n ≠ none → rows i < rows n ∨ rows i = rows n ∧ i < n
  out : ∀ o ∈ g.outputs, g.OneNbr o
  zbox : ∀ v ∈ g.verts, g.ty v = .zbox → g.phase v = 0
  notIsolated : ∀ v ∈ g.verts, g.ty v = .X → ∃ w, g.adj v w ≠ none

/-- **C38**: `tensorfy` returns an array with one axis per output and then one axis per input; its entries are those of the tensor
network (the sum over all labellings of the half-edges of the product of the vertex tensors), times the scalar. -/
theorem tensorfy_spec {g : Graph} {ord : ℕ → List ℕ} {rows : ℕ → ℚ} {vs : List ℕ} (hg : g.WF) (hord : Rules.NbrOrder g ord)
    (hvs : g.VertOrder vs) (hs : RowSorted rows vs) (ht : Tensorable g rows) :
    ∃ R, tensorfy g ord rows vs = some R ∧ R.rank = g.outputs.length + g.inputs.length ∧
      ∀ x y, R.val (fun k => if k < g.outputs.length then y k else x (k - g.outputs.length)) = g.mat x y := by
  obtain ⟨hio, hw, hlater, ho, hz, hx⟩ := ht
  have hmem : ∀ v ∈ g.verts, ∀ n, n ∈ ord v ↔ g.adj v n ≠ none := fun v hv n => by
    rw [← List.mem_toFinset, (hord v hv).2]; exact mem_nbrs hg.toInv
  obtain ⟨T0, h0, hr0, hv0⟩ := startTensor_spec g.inputs.length
  have S0 := start_state hg hio.nodupIn hio.disj hw hr0 hv0
  obtain ⟨T, ind, h1, outer, S⟩ := fold_state hg hio hord hz
    (fun v hv h h' => by
      obtain ⟨w, hw'⟩ := hx v hv h
      have := (hmem v hv w).mpr hw'
      rw [List.length_eq_zero_iff.mp h'] at this
      cases this)
    (fun v hv => by
      obtain ⟨n, hn, hn2⟩ := ho v hv
      have hvv := hg.out v hv
      have : ord v = [n] := by
        have hp : (ord v).Perm [n] := by
          rw [List.perm_ext_iff_of_nodup (hord v hvv).1 (List.nodup_singleton n)]
          intro w
          rw [hmem v hvv, List.mem_singleton]
          constructor
          · exact hn2 w
          · rintro rfl
            exact hn
        exact List.perm_singleton.mp hp
      rw [this]
      rfl)
    (fun i hi n hn => by simpa [before] using hlater i hi n hn)
    vs [] T0 (startInd g) _ (by simpa [before, RowSorted] using hs) hvs.1 hvs.2 (by simpa using S0)
  obtain ⟨perm0, R, h2, h3, h4, h5⟩ := finish hg hio S
  refine ⟨⟨R.rank, fun idx => R.val idx * g.scalar.toNumber⟩, ?_, h4, ?_⟩
  · unfold tensorfy
    rw [if_neg]
    · simp only [h0, h1, Option.bind_eq_bind, Option.bind_some]
      simp only [Option.bind_eq_bind] at h2
      rw [h2]
      simp only [Option.bind_some, h3]
    · rintro ⟨e1, e2, v, hv, hb⟩
      rcases hio.all v ((hvs.2 v).mp hv) hb with h | h
      · rw [e1] at h; cases h
      · rw [e2] at h; cases h
  · intro x y
    show R.val _ * _ = _
    rw [h5]
    unfold mat
    rw [sem_eq_amp hg, amp_eq_coreAmp, mul_comm]

/-- **C38**: the result does not depend on the rows of the vertices, nor on the order in which neighbours are listed. -/
theorem tensorfy_order {g : Graph} {ord ord' : ℕ → List ℕ} {rows rows' : ℕ → ℚ} {vs vs' : List ℕ} (hg : g.WF)
    (hord : Rules.NbrOrder g ord) (hvs : g.VertOrder vs) (hs : RowSorted rows vs) (ht : Tensorable g rows)
    (hord' : Rules.NbrOrder g ord') (hvs' : g.VertOrder vs') (hs' : RowSorted rows' vs') (ht' : Tensorable g rows') :
    ∃ R R', tensorfy g ord rows vs = some R ∧ tensorfy g ord' rows' vs' = some R' ∧ R.rank = R'.rank ∧
      ∀ x y : ℕ → Bool, R.val (fun k => if k < g.outputs.length then y k else x (k - g.outputs.length)) =
        R'.val (fun k => if k < g.outputs.length then y k else x (k - g.outputs.length)) := by
  obtain ⟨R, h1, h2, h3⟩ := tensorfy_spec hg hord hvs hs ht
  obtain ⟨R', h1', h2', h3'⟩ := tensorfy_spec hg hord' hvs' hs' ht'
  exact ⟨R, R', h1, h1', h2.trans h2'.symm, fun x y => (h3 x y).trans (h3' x y).symm⟩

/-- A diagram with an X- and two Z-spiders, one input and two outputs. -/
noncomputable def exTf : Graph :=
  mkG [.boundary, .Z, .X, .boundary, .boundary, .Z] [0, 1 / 4, 1 / 2, 0, 0, 1]
    [(0, 1, .simple), (1, 2, .had), (2, 3, .simple), (1, 4, .had), (2, 5, .simple), (1, 5, .simple)] [0] [3, 4]

theorem exTf_adj {P : ℕ → ℕ → Prop} (h : ∀ u < 6, ∀ v < 6, exTf.adj u v ≠ none → P u v) : ∀ u v, exTf.adj u v ≠ none → P u v := by
  have hw : exTf.WF := mkG_wf (by decide)
  intro u v huv
  have h1 := mem_range.mp (hw.mem u v huv)
  have h2 := mem_range.mp (hw.mem v u (by rw [hw.symm]; exact huv))
  exact h u h1 v h2 huv

theorem exTf_tensorable (rows : ℕ → ℚ) (h : rows 0 < rows 1) : Tensorable exTf rows where
  io := mkG_io (by decide) (by decide) (by decide) (by decide)
  wired := by
    intro v hv
    have e : v = 0 := List.mem_singleton.mp hv
    subst e
    refine ⟨1, by decide, by decide, ?_⟩
    exact fun w hw => exTf_adj (P := fun u v => u = 0 → v = 1) (by decide) 0 w hw rfl
  later := by
    intro v hv n hn
    have e : v = 0 := List.mem_singleton.mp hv
    subst e
    have := exTf_adj (P := fun u v => u = 0 → v = 1) (by decide) 0 n hn rfl
    subst this
    exact Or.inl h
  out := by
    intro v hv
    have e : v = 3 ∨ v = 4 := by simpa [exTf, mkG] using hv
    rcases e with rfl | rfl
    · exact ⟨2, by decide, fun w hw => exTf_adj (P := fun u v => u = 3 → v = 2) (by decide) 3 w hw rfl⟩
    · exact ⟨1, by decide, fun w hw => exTf_adj (P := fun u v => u = 4 → v = 1) (by decide) 4 w hw rfl⟩
  zbox := by decide
  notIsolated := by
    intro v hv ht
    have : ∀ v < 6, exTf.ty v = .X → v = 2 := by decide
    rw [this v (mem_range.mp hv) ht]
    exact ⟨1, by decide⟩

/-- The hypotheses of `tensorfy_spec` hold for a concrete diagram in two different vertex orders. -/
example : exTf.WF ∧ Rules.NbrOrder exTf (incOrd exTf) ∧
    exTf.VertOrder [0, 1, 5, 2, 3, 4] ∧ RowSorted (fun v => if v = 0 then 0 else if v = 1 ∨ v = 5 then 1 else if v = 2 then 2 else 3) [0, 1, 5, 2, 3, 4] ∧
    Tensorable exTf (fun v => if v = 0 then 0 else if v = 1 ∨ v = 5 then 1 else if v = 2 then 2 else 3) ∧
    exTf.VertOrder [4, 0, 3, 2, 1, 5] ∧ RowSorted (fun v => if v = 4 then 0 else if v = 0 then 1 else if v = 3 then 2 else if v = 2 then 3 else 4) [4, 0, 3, 2, 1, 5] ∧
    Tensorable exTf (fun v => if v = 4 then 0 else if v = 0 then 1 else if v = 3 then 2 else if v = 2 then 3 else 4) := by
  refine ⟨mkG_wf (by decide), incOrd_ok _, ⟨by decide, ?_⟩, ?_, exTf_tensorable _ (by norm_num), ⟨by decide, ?_⟩, ?_, exTf_tensorable _ (by norm_num)⟩
  · intro v
    simp [exTf, mkG]
    omega
  · unfold RowSorted
    norm_num [List.pairwise_cons]
  · intro v
    simp [exTf, mkG]
    omega
  · unfold RowSorted
    norm_num [List.pairwise_cons]

/-! ### Where it fails -/

/-- A single X-spider without legs. -/
noncomputable def exIsoX : Graph := mkG [.X] [1 / 2] [] [] []

/-- `tensorfy` raises on a diagram with an isolated X-spider (the number `1 + i` here): `X_to_tensor` with arity 0 returns an array
with one axis, so the final transposition does not match. -/
theorem tensorfy_isolatedX_raises : exIsoX.WF ∧ exIsoX.IO ∧ exIsoX.VertOrder [0] ∧ tensorfy exIsoX (incOrd exIsoX) (fun _ => 0) [0] = none := by
  refine ⟨mkG_wf (by decide), mkG_io (by decide) (by decide) (by decide) (by decide), ⟨by decide, by simp [exIsoX, mkG]⟩, ?_⟩
  have e0 : incOrd exIsoX 0 = [] := by
    have h := (incOrd_ok exIsoX 0 (by simp [exIsoX, mkG])).2
    have e : exIsoX.nbrs 0 = ∅ := by simp [nbrs, exIsoX, mkG]
    rw [e] at h
    exact List.toFinset_eq_empty_iff _ |>.mp h
  have e1 : exIsoX.ty 0 = .X := rfl
  have e2 : exIsoX.inputs = [] := rfl
  have e3 : exIsoX.outputs = [] := rfl
  unfold tensorfy
  rw [if_neg (by rintro ⟨-, -, v, hv, h⟩; rw [List.mem_singleton.mp hv, e1] at h; cases h)]
  simp [e2, e3, startTensor, step, e0, vertexTensor, e1, NT.xSpider, popAndShift, popAll, NT.dot, NT.transpose]

/-- A wire from the input 0 to the output 1. -/
noncomputable def exWire : Graph := mkG [.boundary, .boundary] [0, 0] [(0, 1, .simple)] [0] [1]

/-- `tensorfy` raises if an input is in a later row than its neighbour, although the diagram denotes a matrix. -/
theorem tensorfy_late_input_raises : exWire.WF ∧ exWire.IO ∧ exWire.Wired exWire.inputs ∧ exWire.Wired exWire.outputs ∧
    RowSorted (fun v => if v = 1 then 0 else 1) [1, 0] ∧ tensorfy exWire (incOrd exWire) (fun v => if v = 1 then 0 else 1) [1, 0] = none := by
  have hw : exWire.WF := mkG_wf (by decide)
  have hadj : ∀ {P : ℕ → ℕ → Prop}, (∀ u < 2, ∀ v < 2, exWire.adj u v ≠ none → P u v) → ∀ u v, exWire.adj u v ≠ none → P u v := by
    intro P h u v huv
    exact h u (mem_range.mp (hw.mem u v huv)) v (mem_range.mp (hw.mem v u (by rw [hw.symm]; exact huv))) huv
  refine ⟨hw, mkG_io (by decide) (by decide) (by decide) (by decide), ?_, ?_, ?_, ?_⟩
  · intro v hv
    have e : v = 0 := List.mem_singleton.mp hv
    subst e
    exact ⟨1, by decide, by decide, fun w h => hadj (P := fun u v => u = 0 → v = 1) (by decide) 0 w h rfl⟩
  · intro v hv
    have e : v = 1 := List.mem_singleton.mp hv
    subst e
    exact ⟨0, by decide, by decide, fun w h => hadj (P := fun u v => u = 1 → v = 0) (by decide) 1 w h rfl⟩
  · unfold RowSorted
    norm_num [List.pairwise_cons]
  · have e0 : incOrd exWire 1 = [0] := by
      have h := incOrd_ok exWire 1 (by simp [exWire, mkG])
      have e : exWire.nbrs 1 = {0} := by decide
      rw [e] at h
      have hp : (incOrd exWire 1).Perm [0] := by
        rw [List.perm_ext_iff_of_nodup h.1 (List.nodup_singleton 0)]
        intro w
        rw [← List.mem_toFinset, h.2]
        simp
      exact List.perm_singleton.mp hp
    have e1 : exWire.ty 0 = .boundary := rfl
    have e1' : exWire.ty 1 = .boundary := rfl
    have e2 : exWire.inputs = [0] := rfl
    have e3 : exWire.outputs = [1] := rfl
    unfold tensorfy
    rw [if_neg (by rintro ⟨h, -⟩; rw [e2] at h; cases h)]
    simp [e2, e3, startTensor, step, e0, e1, e1', popAndShift, popAll, NT.dot, NT.transpose, NT.id2, before]
    intro a ha _ hl
    have e4 : (List.range 2).head? = some 0 := rfl
    rw [e4] at ha
    simp only [Option.map_some, Option.bind_some, Option.some.injEq] at ha
    rw [← ha] at hl
    simp at hl

end Props
end PyZX
