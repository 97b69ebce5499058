import Verif.Proofs.HRules2
import Verif.Spec.Example

/-!
# C64: H-boxes that are Hadamard gates become Hadamard edges

`match_hadamards` and `hadamard_to_h_edge` keep the tensor, scalar included, for every diagram of spiders, Z-boxes and H-boxes, for every order in
which the sets are iterated. The rewrite raises exactly when it has to add a parallel edge at an H-box.
-/

namespace PyZX
namespace Props

open Graph HRules

theorem HadOK.perm {g : Graph} {ms ms' : List ℕ} (h : HadOK g ms) (hp : ms'.Perm ms) : HadOK g ms' := by
  have e : ∀ v, v ∈ ms' ↔ v ∈ ms := fun v => hp.mem_iff
  refine ⟨hp.nodup_iff.mpr h.nodup, fun v hv => h.mem v ((e v).mp hv), fun v hv => h.ty v ((e v).mp hv), fun v hv => h.phase v ((e v).mp hv),
    fun v hv => h.deg v ((e v).mp hv), fun v hv w hw => h.indep v ((e v).mp hv) w ((e w).mp hw),
    fun v hv w hw => h.apart v ((e v).mp hv) w ((e w).mp hw)⟩

/-- **C64.** Whenever the rewrite returns, it keeps the tensor exactly and removes the matched H-boxes. -/
theorem hadamardToHEdge_preserves {g : Graph} (hg : g.HWF) {ord : ℕ → List ℕ} (ho : Rules.NbrOrder g ord) {ms : List ℕ} (h : HadOK g ms)
    {s : RewriteState} (hs : hadamardToHEdge g ord ms = some s) {g' : Graph} (hfin : s.finish = some g') :
    HPreserves g g' ∧ g'.verts = g.verts \ ms.toFinset :=
  HRules.sound hg ho h hs hfin

/-- **C64.** The matcher returns H-boxes with two legs and phase 1 such that no two are adjacent or share a neighbour, all among the candidates. -/
theorem matchHadamards_independent {g : Graph} (hg : g.HWF) {ord : ℕ → List ℕ} (ho : Rules.NbrOrder g ord) {cands : List ℕ} (hn : cands.Nodup)
    (hc : ∀ c ∈ cands, c ∈ g.verts) : HadOK g (matchHadamards g ord cands) ∧ ∀ v ∈ matchHadamards g ord cands, v ∈ cands :=
  HRules.match_ok hg.toInv ho hn hc

/-- **C64.** Matching and rewriting. For every order of the candidates and every order `ms` in which the set of matches is listed, the rewrite
returns and keeps the tensor, unless two connected neighbours of a match are not both spiders. -/
theorem hadamard_round {g : Graph} (hg : g.HWF) {ord : ℕ → List ℕ} (ho : Rules.NbrOrder g ord) {cands : List ℕ} (hn : cands.Nodup)
    (hc : ∀ c ∈ cands, c ∈ g.verts) {ms : List ℕ} (hp : ms.Perm (matchHadamards g ord cands))
    (hz : ∀ v ∈ ms, ∀ a ∈ g.nbrs v, ∀ b ∈ g.nbrs v, g.adj a b ≠ none → (g.ty a).zxLike) :
    ∃ s g', hadamardToHEdge g ord ms = some s ∧ s.finish = some g' ∧ HPreserves g g' ∧ g'.verts = g.verts \ ms.toFinset := by
  have h := HadOK.perm (HRules.match_ok hg.toInv ho hn hc).1 hp
  obtain ⟨s, g', h1, h2⟩ := HRules.total hg ho h hz
  exact ⟨s, g', h1, h2, HRules.sound hg ho h h1 h2⟩

/-- Diagrams given by lists, with H-boxes. -/
theorem mkG_hwf {ts : List VType} {ps : List ℚ} {es : List (ℕ × ℕ × EType)} {ins outs : List ℕ}
    (h : mkOK (ts.map fun t => if t = .hbox then .Z else t) es ins outs) (h' : ∀ v ∈ ins ++ outs, ts.getD v .boundary = .boundary) :
    (mkG ts ps es ins outs).HWF := by
  have hw := mkG_wf (ps := ps) h
  have hi : (mkG ts ps es ins outs).Inv := hw.toInv.congr (by simp [mkG]) rfl (by simp [mkG]) rfl rfl rfl
  refine { hi with noWio := hw.noWio, noW := ?_, io := ?_ }
  · intro v hv
    have hv : v < ts.length := Finset.mem_range.mp hv
    have e : ts.getD v .boundary = ts[v] := by simp [List.getD, hv]
    show ts.getD v .boundary ≠ _ ∧ ts.getD v .boundary ≠ _
    rw [e]
    have := h.2.2.1 _ (List.mem_map.mpr ⟨_, List.getElem_mem hv, rfl⟩)
    constructor <;> intro hh <;> rw [hh] at this <;> simp at this
  · intro v hv
    exact h' v (List.mem_append.mpr hv)

/-- Two H-boxes on a wire with a T-spider between them. -/
noncomputable def exHad : Graph :=
  mkG [.boundary, .hbox, .Z, .hbox, .boundary] [0, 1, 1 / 4, 1, 0] [(0, 1, .simple), (1, 2, .had), (2, 3, .simple), (3, 4, .simple)] [0] [4]

/-- Neighbours in increasing order. -/
def exOrd : ℕ → List ℕ
  | 0 => [1] | 1 => [0, 2] | 2 => [1, 3] | 3 => [2, 4] | 4 => [3] | _ => []

theorem exHad_ord : Rules.NbrOrder exHad exOrd := by
  intro v hv
  have hv : v < 5 := Finset.mem_range.mp hv
  interval_cases v <;> refine ⟨by decide, ?_⟩ <;> simp only [exHad, mkG, Graph.nbrs, exOrd] <;> decide

/-- The hypotheses of `hadamard_round` hold for a diagram where the two H-boxes share a neighbour, so that only one of them is matched. -/
example : exHad.HWF ∧ matchHadamards exHad exOrd [0, 1, 2, 3, 4] = [1] ∧ matchHadamards exHad exOrd [3, 1] = [3] ∧
    (∀ v ∈ [1], ∀ a ∈ exHad.nbrs v, ∀ b ∈ exHad.nbrs v, exHad.adj a b ≠ none → (exHad.ty a).zxLike) := by
  refine ⟨mkG_hwf (by decide) (by decide), ?_, ?_, ?_⟩
  · simp [matchHadamards, hadTry, exHad, mkG, exOrd, Graph.degree, Graph.nbrs]
    decide
  · simp [matchHadamards, hadTry, exHad, mkG, exOrd, Graph.degree, Graph.nbrs]
    decide
  · have e : exHad.nbrs 1 = {0, 2} := by
      simp only [exHad, mkG, Graph.nbrs]
      decide
    have a02 : exHad.adj 0 2 = none := by simp [exHad, mkG]
    have a20 : exHad.adj 2 0 = none := by simp [exHad, mkG]
    have a00 : exHad.adj 0 0 = none := by simp [exHad, mkG]
    have t2 : exHad.ty 2 = .Z := rfl
    intro v hv a ha b hb hab
    simp only [List.mem_singleton] at hv
    subst hv
    rw [e] at ha hb
    simp only [Finset.mem_insert, Finset.mem_singleton] at ha hb
    rcases ha with rfl | rfl
    · rcases hb with rfl | rfl
      · exact absurd a00 hab
      · exact absurd a02 hab
    · rw [t2]; rfl

/-- A Hadamard gate between two connected H-boxes: the rewrite raises. -/
noncomputable def exHadRaise : Graph := mkG [.hbox, .hbox, .hbox] [1 / 2, 1 / 2, 1] [(0, 1, .simple), (0, 2, .simple), (1, 2, .simple)] [] []

/-- The condition in `hadamard_round` is needed: the matcher accepts a Hadamard gate whose neighbours are connected H-boxes, and `add_edge` raises on
the parallel edge. -/
theorem hadamard_raises : exHadRaise.HWF ∧ ∃ ord, Rules.NbrOrder exHadRaise ord ∧ matchHadamards exHadRaise ord [0, 1, 2] = [2] ∧
    ∃ s, hadamardToHEdge exHadRaise ord [2] = some s ∧ s.finish = none := by
  refine ⟨mkG_hwf (by decide) (by decide), fun v => match v with | 0 => [1, 2] | 1 => [0, 2] | 2 => [0, 1] | _ => [], ?_, ?_, ?_⟩
  · intro v hv
    have hv : v < 3 := Finset.mem_range.mp hv
    interval_cases v <;> refine ⟨by decide, ?_⟩ <;> simp only [exHadRaise, mkG, Graph.nbrs] <;> decide
  · simp [matchHadamards, hadTry, exHadRaise, mkG, Graph.degree, Graph.nbrs]
    decide
  · refine ⟨_, rfl, ?_⟩
    simp [RewriteState.finish, RewriteState.start, addEdgeTable, PyZX.ETab.upd, upair, addEdgeN, addEdge, exHadRaise, mkG, addPower, VType.zxLike, VType.zLike]

end Props
end PyZX
