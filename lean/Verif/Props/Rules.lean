import Verif.Proofs.PivotBoundary
import Verif.Spec.Example

/-!
# C14-C18: the rewrite rules preserve the tensor and the matchers return independent matches

For every rule there are three statements: the rewrite applied to any list of matches that meets the side conditions of
`Spec/Match.lean` does not raise and preserves the denoted tensor (scalar included); the matcher only returns such lists,
for every order in which candidates are popped and every limit `num`; and the composition of both.
-/

namespace PyZX
namespace Props

open Graph Rules

/-! ### C15: identity removal -/

/-- C15: removing any independent list of identity spiders preserves the tensor and removes exactly these spiders. -/
theorem removeIds_preserves {g : Graph} (hg : g.WF) (hb : g.BDeg) {ms : List IdMatch} (h : IdsOK g ms) :
    ∃ g', (removeIds g ms).finish = some g' ∧ Preserves g g' ∧ g'.BDeg ∧ g'.verts = g.verts \ (ms.map (·.v)).toFinset :=
  removeIds_total hg hb h

/-- C18 for `match_ids_parallel`. -/
theorem matchIds_independent {g : Graph} (hg : g.WF) {ord : ℕ → List ℕ} (ho : NbrOrder g ord) {cands : List ℕ}
    (hn : cands.Nodup) (hc : ∀ c ∈ cands, c ∈ g.verts) (num : ℤ) : IdsOK g (matchIds g ord num cands) :=
  matchIds_ok hg ho hn hc num

/-- C15 and C18: matching and rewriting. -/
theorem ids_round {g : Graph} (hg : g.WF) (hb : g.BDeg) {ord : ℕ → List ℕ} (ho : NbrOrder g ord) {cands : List ℕ}
    (hn : cands.Nodup) (hc : ∀ c ∈ cands, c ∈ g.verts) (num : ℤ) :
    ∃ g', (removeIds g (matchIds g ord num cands)).finish = some g' ∧ Preserves g g' ∧ g'.BDeg ∧
      g'.verts = g.verts \ ((matchIds g ord num cands).map (·.v)).toFinset :=
  removeIds_total hg hb (matchIds_ok hg ho hn hc num)

/-- Two identity spiders in a row of four, with a Hadamard edge in the middle. -/
noncomputable def exIds : Graph :=
  mkG [.boundary, .Z, .Z, .X, .boundary] [0, 0, 1 / 4, 0, 0]
    [(0, 1, .simple), (1, 2, .had), (2, 3, .simple), (3, 4, .simple)] [0] [4]

example : exIds.WF ∧ exIds.BDeg ∧
    IdsOK exIds [⟨1, 0, 2, .had⟩, ⟨3, 2, 4, .simple⟩] := by
  refine ⟨mkG_wf (by decide), mkG_bdeg (by decide) (by decide), ?_⟩
  constructor <;> simp [exIds, mkG] <;> decide

/-! ### C16: local complementation -/

/-- C16: any independent list of local complementations preserves the tensor and removes exactly the centres. -/
theorem lcomp_preserves {g : Graph} (hg : g.WF) (hb : g.BDeg) {ms : List LcompMatch} (h : LcompOK g ms) :
    ∃ g', (lcomp g ms).finish = some g' ∧ Preserves g g' ∧ g'.BDeg ∧ g'.verts = g.verts \ (ms.map (·.v)).toFinset :=
  lcomp_total hg hb h

/-- C18 for `match_lcomp_parallel`. -/
theorem matchLcomp_independent {g : Graph} (hg : g.WF) {ord : ℕ → List ℕ} (ho : NbrOrder g ord) {cands : List ℕ}
    (hn : cands.Nodup) (hc : ∀ c ∈ cands, c ∈ g.verts) (num : ℤ) : LcompOK g (matchLcomp g ord num cands) :=
  matchLcomp_ok hg ho hn hc num

/-- C16 and C18: matching and rewriting. -/
theorem lcomp_round {g : Graph} (hg : g.WF) (hb : g.BDeg) {ord : ℕ → List ℕ} (ho : NbrOrder g ord) {cands : List ℕ}
    (hn : cands.Nodup) (hc : ∀ c ∈ cands, c ∈ g.verts) (num : ℤ) :
    ∃ g', (lcomp g (matchLcomp g ord num cands)).finish = some g' ∧ Preserves g g' ∧ g'.BDeg ∧
      g'.verts = g.verts \ ((matchLcomp g ord num cands).map (·.v)).toFinset :=
  lcomp_total hg hb (matchLcomp_ok hg ho hn hc num)

/-- A proper Clifford spider with two neighbours that are connected to each other, and another one with the same
neighbours. -/
noncomputable def exLcomp : Graph :=
  mkG [.boundary, .Z, .Z, .Z, .Z, .boundary] [0, 1 / 4, 1 / 2, 3 / 2, 0, 0]
    [(0, 1, .simple), (1, 2, .had), (1, 3, .had), (2, 4, .had), (3, 4, .had), (1, 4, .had), (4, 5, .simple)] [0] [5]

example : exLcomp.WF ∧ exLcomp.BDeg ∧ LcompOK exLcomp [⟨2, [1, 4]⟩, ⟨3, [4, 1]⟩] := by
  refine ⟨mkG_wf (by decide), mkG_bdeg (by decide) (by decide), ?_⟩
  constructor <;> simp [exLcomp, mkG] <;> decide

/-! ### C14: spider fusion -/

/-- C14: fusing any independent list of pairs preserves the tensor and removes exactly the second vertex of each pair
(after the choice of the survivor by its row). -/
theorem spider_preserves {g : Graph} (hg : g.WF) (hb : g.BDeg) {ord : ℕ → List ℕ} (ho : NbrOrder g ord) {row0 : ℕ → Bool}
    {ms : List (ℕ × ℕ)} (h : SpiderOK g (ms.map (spiderPair row0))) :
    ∃ g', (spider row0 ord g ms).finish = some g' ∧ Preserves g g' ∧ g'.BDeg ∧
      g'.verts = g.verts \ (ms.map fun m => (spiderPair row0 m).2).toFinset :=
  spider_total hg hb ho h

/-- C18 for `match_spider_parallel`. -/
theorem matchSpider_independent {g : Graph} (hg : g.WF) {cands : List (ℕ × ℕ)} (hn : cands.Nodup) (num : ℤ) (row0 : ℕ → Bool) :
    SpiderOK g ((matchSpider g num cands).map (spiderPair row0)) :=
  matchSpider_ok hg hn num row0

/-- C14 and C18: matching and rewriting. -/
theorem spider_round {g : Graph} (hg : g.WF) (hb : g.BDeg) {ord : ℕ → List ℕ} (ho : NbrOrder g ord) (row0 : ℕ → Bool)
    {cands : List (ℕ × ℕ)} (hn : cands.Nodup) (num : ℤ) :
    ∃ g', (spider row0 ord g (matchSpider g num cands)).finish = some g' ∧ Preserves g g' ∧ g'.BDeg ∧
      g'.verts = g.verts \ ((matchSpider g num cands).map fun m => (spiderPair row0 m).2).toFinset :=
  spider_total hg hb ho (matchSpider_ok hg hn num row0)

/-- Two Z-spiders and a Z-box with parallel paths, and two X-spiders. -/
noncomputable def exSpider : Graph :=
  mkG [.boundary, .Z, .Z, .zbox, .X, .X, .boundary] [0, 1 / 4, 1 / 3, 0, 1, 1 / 7, 0]
    [(0, 1, .simple), (1, 2, .simple), (1, 3, .had), (2, 3, .had), (3, 4, .simple), (4, 5, .simple), (2, 5, .simple),
      (5, 6, .had)] [0] [6]

example : exSpider.WF ∧ exSpider.BDeg ∧ SpiderOK exSpider [(1, 2), (5, 4)] := by
  refine ⟨mkG_wf (by decide), mkG_bdeg (by decide) (by decide), ?_⟩
  constructor <;> simp [exSpider, mkG, VType.zLike]

/-! ### C17: pivoting -/

/-- C17: any independent list of pivots (with at most one boundary per pair) preserves the tensor. -/
theorem pivot_preserves {g : Graph} (hg : g.WF) (hb : g.BDeg) {lst : Finset ℕ → List ℕ} (hl : SetOrder lst)
    {ms : List PivotMatch} (h : PivotOK g ms) :
    ∃ g', (pivot lst g ms).finish = some g' ∧ Preserves g g' ∧ g'.BDeg ∧ g'.verts = g.verts \ (ms.flatMap pivotRem).toFinset :=
  pivot_total hg hb hl h

/-- C18 for `match_pivot_parallel`. -/
theorem matchPivot_independent {g : Graph} (hg : g.WF) {ord : ℕ → List ℕ} (ho : NbrOrder g ord) {cands : List (ℕ × ℕ)}
    (hn : cands.Nodup) (num : ℤ) : PivotOK g (matchPivot g ord num cands) :=
  matchPivot_ok hg ho hn num

/-- C17 and C18: matching and rewriting. -/
theorem pivot_round {g : Graph} (hg : g.WF) (hb : g.BDeg) {ord : ℕ → List ℕ} (ho : NbrOrder g ord) {lst : Finset ℕ → List ℕ}
    (hl : SetOrder lst) {cands : List (ℕ × ℕ)} (hn : cands.Nodup) (num : ℤ) :
    ∃ g', (pivot lst g (matchPivot g ord num cands)).finish = some g' ∧ Preserves g g' ∧ g'.BDeg ∧
      g'.verts = g.verts \ ((matchPivot g ord num cands).flatMap pivotRem).toFinset :=
  pivot_total hg hb hl (matchPivot_ok hg ho hn num)

/-- Two connected Pauli spiders with an exclusive neighbour each, a common neighbour and a boundary. -/
noncomputable def exPivot : Graph :=
  mkG [.boundary, .Z, .Z, .Z, .Z, .Z, .boundary] [0, 1, 1, 1 / 4, 1 / 3, 1 / 5, 0]
    [(0, 1, .simple), (1, 2, .had), (1, 3, .had), (2, 4, .had), (1, 5, .had), (2, 5, .had), (3, 4, .had), (5, 6, .simple)] [0] [6]

example : exPivot.WF ∧ exPivot.BDeg ∧ PivotOK exPivot [⟨1, 2, some 0, none⟩] := by
  refine ⟨mkG_wf (by decide), mkG_bdeg (by decide) (by decide), ?_, by simp⟩
  intro m hm
  simp only [List.mem_singleton] at hm
  subst hm
  have hw : exPivot.WF := mkG_wf (by decide)
  have hlt : ∀ v w, exPivot.adj v w ≠ none → w ∈ Finset.range 7 := fun v w h => hw.mem w v (by rw [hw.symm]; exact h)
  have n0 : ∀ w ∈ Finset.range 7, exPivot.adj 1 w ≠ none →
      (some 0 : Option ℕ) = some w ∨ (exPivot.ty w = .Z ∧ exPivot.adj 1 w = some .had) := by
    simp only [exPivot, mkG]; decide
  have n1 : ∀ w ∈ Finset.range 7, exPivot.adj 2 w ≠ none → (exPivot.ty w = .Z ∧ exPivot.adj 2 w = some .had) := by
    simp only [exPivot, mkG]; decide
  refine { adj := rfl, ty0 := rfl, ty1 := rfl, ph0 := Or.inr rfl, ph1 := Or.inr rfl, n0 := ?_, n1 := ?_, b0 := ?_, b1 := ?_, one := ?_ }
  · exact fun w h => n0 w (hlt 1 w h) h
  · exact fun w h => Or.inr (n1 w (hlt 2 w h) h)
  · intro w h
    have h : w = 0 := (Option.some.inj h).symm
    subst h
    simp [exPivot, mkG]
  · simp
  · simp

/-- C17 and C18 for the gadget variant `match_pivot_gadget`: the matcher itself changes the diagram (it splits a phase off
each second vertex); the changed diagram denotes the same tensor, its matches are independent pivots, and pivoting them
preserves the tensor. `ZHad`: all edges between Z-spiders are Hadamard edges, as in the graph-like diagrams this rule is
used on (the matcher does not check edge types). -/
theorem pivotGadget_round {g : Graph} (hg : g.WF) (hb : g.BDeg) (hz : g.ZHad) {lst : Finset ℕ → List ℕ} (hl : SetOrder lst)
    {cands : List (ℕ × ℕ)} (hc : ∀ c ∈ cands, g.adj c.1 c.2 ≠ none) :
    ∃ g1 ms g', matchPivotGadget g cands = some (g1, ms) ∧ Preserves g g1 ∧ PivotOK g1 ms ∧
      (pivot lst g1 ms).finish = some g' ∧ Preserves g g' ∧ g'.BDeg := by
  obtain ⟨s, hs, -, h1, h2, h3⟩ := matchPivotGadget_ok hg hb hz hc
  obtain ⟨g', h4, h5, h6, -⟩ := pivot_total hs.pres.wf h2 hl h3
  exact ⟨_, _, g', h1, hs.pres, h3, h4, hs.pres.trans h5, h6⟩

/-- C17 and C18 for the boundary variant `match_pivot_boundary`, which unfuses a phase gadget next to the boundary. -/
theorem pivotBoundary_round {g : Graph} (hg : g.WF) (hb : g.BDeg) (hz : g.ZHad) {ord : ℕ → List ℕ} (ho : NbrOrder g ord)
    {lst : Finset ℕ → List ℕ} (hl : SetOrder lst) {cands : List ℕ} (hc : ∀ c ∈ cands, c ∈ g.verts) :
    ∃ g1 ms g', matchPivotBoundary g ord cands = some (g1, ms) ∧ Preserves g g1 ∧ PivotOK g1 ms ∧
      (pivot lst g1 ms).finish = some g' ∧ Preserves g g' ∧ g'.BDeg := by
  obtain ⟨s, ns, hs, -, h1, h2, h3⟩ := matchPivotBoundary_ok hg hb hz ho hc
  obtain ⟨g', h4, h5, h6, -⟩ := pivot_total hs.pres.wf h2 hl h3
  exact ⟨_, _, g', h1, hs.pres, h3, h4, hs.pres.trans h5, h6⟩

/-- A Pauli spider next to a spider with a T phase that has another neighbour, and a spider at the boundary: both variants
find a match here. -/
noncomputable def exGadget : Graph :=
  mkG [.boundary, .Z, .Z, .Z, .boundary] [0, 1 / 4, 1, 1 / 4, 0]
    [(0, 1, .simple), (1, 2, .had), (2, 3, .had), (1, 3, .had), (3, 4, .simple)] [0] [4]

example : exGadget.WF ∧ exGadget.BDeg ∧ exGadget.ZHad :=
  ⟨mkG_wf (by decide), mkG_bdeg (by decide) (by decide), mkG_zhad (by decide) (by decide)⟩

end Props
end PyZX
