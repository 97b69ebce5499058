import Verif.Proofs.SimpMeasure
import Verif.Props.Simp

/-!
# A pivot that removes a vertex next to an output
-/

namespace PyZX
namespace Graph

open Finset

/-! ### The entries of a table at a pair of vertices -/

open Classical in
/-- The entries for the pair `a`, `b`. -/
noncomputable def ents (t : ETab) (a b : ℕ) : ETab := t.filter fun e => decide (SamePair (a, b) e.1)

theorem ents_upd_other (t : ETab) {k : ℕ × ℕ} (f : ℕ × ℕ → ℕ × ℕ) {a b : ℕ} (h : ¬ SamePair (a, b) k) :
    ents (ETab.upd t k f) a b = ents t a b := by
  induction t with
  | nil => simp [ents, ETab.upd, h]
  | cons e t ih =>
    obtain ⟨k', p⟩ := e
    unfold ents at ih ⊢
    rw [ETab.upd]
    by_cases hk : k' = k
    · subst hk
      rw [if_pos rfl, List.filter_cons_of_neg (by simpa using h), List.filter_cons_of_neg (by simpa using h)]
    · rw [if_neg hk]
      by_cases hs : SamePair (a, b) k'
      · rw [List.filter_cons_of_pos (by simpa using hs), List.filter_cons_of_pos (by simpa using hs), ih]
      · rw [List.filter_cons_of_neg (by simpa using hs), List.filter_cons_of_neg (by simpa using hs), ih]

theorem ents_upd_nil {t : ETab} {k : ℕ × ℕ} (f : ℕ × ℕ → ℕ × ℕ) {a b : ℕ} (h : SamePair (a, b) k) (ht : ents t a b = []) :
    ents (ETab.upd t k f) a b = [(k, f (0, 0))] := by
  induction t with
  | nil => simp [ents, ETab.upd, h]
  | cons e t ih =>
    obtain ⟨k', p⟩ := e
    unfold ents at ih ht ⊢
    have hk' : ¬ SamePair (a, b) k' := by
      intro hs
      rw [List.filter_cons_of_pos (by simpa using hs)] at ht
      simp at ht
    rw [List.filter_cons_of_neg (by simpa using hk')] at ht
    rw [ETab.upd, if_neg (by rintro rfl; exact hk' h), List.filter_cons_of_neg (by simpa using hk'), ih ht]

theorem ents_setHads (es : List (ℕ × ℕ)) (t : ETab) {a b : ℕ} (h : ∀ e ∈ es, ¬ SamePair (a, b) e) :
    ents (es.foldl ETab.setHad t) a b = ents t a b := by
  induction es generalizing t with
  | nil => rfl
  | cons e es ih =>
    rw [List.foldl_cons, ih _ (fun e he => h e (by simp [he]))]
    exact ents_upd_other t _ (h e (by simp))

theorem addEdgeTable_ents {g g' : Graph} {t : ETab} (h : g.addEdgeTable t = some g') {a b : ℕ} (he : ents t a b = [((a, b), (0, 1))])
    (hn : g.adj a b = none) : g'.adj a b = some .had := by
  unfold ents at he
  obtain ⟨t1, t2, rfl, h1, -, h2⟩ := List.filter_eq_cons_iff.mp he
  rw [List.filter_eq_nil_iff] at h2
  rw [addEdgeTable_append] at h
  obtain ⟨g1, e1, e2⟩ := Option.bind_eq_some_iff.mp h
  obtain ⟨g2, g3, e3, e4, e5⟩ := addEdgeTable_cons e2
  have a1 : g1.adj a b = none := by
    rw [addEdgeTable_adj_other e1 fun f hf _ hsp => h1 f hf (by simpa using hsp), hn]
  have a5 : g'.adj a b = g3.adj a b := addEdgeTable_adj_other e5 fun f hf _ hsp => h2 f hf (by simpa using hsp)
  simp only [addEdgeN, Option.some.injEq] at e3
  rw [← e3] at e4
  simp only [addEdgeN] at e4
  obtain ⟨g4, e4, e6⟩ := Option.bind_eq_some_iff.mp e4
  rw [a5, ← Option.some.inj e6]
  exact addEdge_new e4 a1

/-! ### The pivot -/

/-- What is known about the diagram after a pivot about `w` and `v`, where `v` is next to the output `o`. -/
structure PivotOut (g g' : Graph) (w v o : ℕ) : Prop where
  pres : Preserves g g'
  zx : g'.ZX Reduced
  zh : g'.ZHad
  verts : g'.verts = g.verts.erase v
  ty : g'.ty = g.ty
  shift : Shift g g'
  far : ∀ n, n ≠ w → n ≠ v → g.adj w n = none → g.adj v n = none → ∀ x, g'.adj n x = g.adj n x
  out : g'.adj w o ≠ none ∧ ∀ x, g'.adj o x ≠ none → x = w
  keep : ∀ x, x ≠ v → x ≠ o → g'.adj w x = g.adj w x
  new : ∀ a b, g.adj w a ≠ none → g.adj v a = none → a ≠ v → g.adj v b ≠ none → g.adj w b = none → b ≠ w → b ≠ o → g.adj a b = none →
    g'.adj a b = some .had

theorem pivot_out {g : Graph} (hg : g.ZX Reduced) (hz : g.ZHad) {lst : Finset ℕ → List ℕ} (hlst : Rules.SetOrder lst) {w v o : ℕ}
    (h : PivotOK1 g ⟨w, v, none, some o⟩) (ho : g.ty o = .boundary) (hl : ∀ z, g.adj o z ≠ none → z = v) :
    ∃ g', (Rules.pivot lst g [⟨w, v, none, some o⟩]).finish = some g' ∧ PivotOut g g' w v o := by
  have hP : PhaseSet Reduced := Props.phaseSet_reduced
  have hok : PivotOK g [⟨w, v, none, some o⟩] := ⟨by simpa using h, by simp⟩
  have hw := hg.wf
  have hwv : w ≠ v := by rintro rfl; have := h.adj; simp only at this; rw [hw.loopless] at this; simp at this
  obtain ⟨g', hf, hp, hzx, hty, hv⟩ := pivot_zx hP hg hlst hok
  have hadj := h.adj
  have hb1 := h.b1 o rfl
  simp only at hadj hb1
  obtain ⟨b1, b2, b3, b4⟩ := hb1
  have how : o ≠ w := b3
  have hov : o ≠ v := by rintro rfl; rw [hw.loopless] at b1; simp at b1
  have hrem : ([⟨w, v, none, some o⟩] : List Rules.PivotMatch).flatMap pivotRem = [v] := by simp [pivotRem]
  have hremE : ([⟨w, v, none, some o⟩] : List Rules.PivotMatch).flatMap pivotRemE = [(v, o)] := by simp [pivotRemE]
  obtain ⟨f1, -, f3, f4, -⟩ := pivot_fold hw hlst _ hok rfl
  rw [hrem] at f3
  rw [hremE] at f4
  have hkeys := pivot_keys hw hlst hok.each
  have hf0 := hf
  unfold RewriteState.finish at hf
  obtain ⟨g1, h1, hf⟩ := Option.bind_eq_some_iff.mp hf
  obtain ⟨g2, h2, h3⟩ := Option.bind_eq_some_iff.mp hf
  obtain ⟨hr, -, -, -⟩ := removeVertices_spec h3
  obtain ⟨-, -, -, c4⟩ := removeEdges_same h2
  rw [f3] at hr
  rw [f4] at c4
  -- edges that are not removed
  have hg' : ∀ a b, a ≠ v → b ≠ v → g'.adj a b = g1.adj a b := by
    intro a b ha hb
    rw [hr.adj a b (by simpa using ha) (by simpa using hb), c4 a b]
    intro e he hsp
    rw [List.mem_singleton] at he
    subst he
    rcases hsp with ⟨p, -⟩ | ⟨-, p⟩
    · exact ha p
    · exact hb p
  refine ⟨g', hf0, hp, hzx, ?_, ?_, hty, ?_, ?_, ?_, ?_, ?_⟩
  · refine pivot_zHad hw hlst hok hf0 hzx.wf (fun a b _ _ ta tb hne => hz a b ta tb hne) (by simp) ?_
    intro m hm x hx hxt
    rw [List.mem_singleton] at hm
    subst hm
    rw [Option.some.injEq] at hx
    subst hx
    rw [ho] at hxt; simp at hxt
  · rw [hv, hrem]
    ext x
    simp [and_comm]
  · refine (pivot_shift lst ?_).trans (finish_shift hf0)
    intro m hm
    rw [List.mem_singleton] at hm
    subst hm
    refine ⟨?_, ?_⟩
    · rcases h.ph0 with h | h
      · exact ⟨0, by rw [h]; simp⟩
      · exact ⟨1, by rw [h]; simp⟩
    · rcases h.ph1 with h | h
      · exact ⟨0, by rw [h]; simp⟩
      · exact ⟨1, by rw [h]; simp⟩
  · intro n n1 n2 n3 n4
    refine pivot_untouched hw hlst hok hf0 hzx.wf ?_
    intro m hm
    rw [List.mem_singleton] at hm
    subst hm
    exact ⟨n1, n2, n3, n4⟩
  · exact pivot_transfer hw hlst hok hf0 hzx.wf (m := ⟨w, v, none, some o⟩) (by simp) rfl rfl hl
  · intro x hxv hxo
    rw [hg' w x hwv hxv, addEdgeTable_adj_other h1, f1.adj]
    intro e he _ hsp
    obtain ⟨m, hm, hc⟩ := hkeys e he
    rw [List.mem_singleton] at hm
    subst hm
    have hwA : w ∉ pivotA g ⟨w, v, none, some o⟩ := by
      intro hA
      rcases mem_pivotA hw hA with ⟨q, -, -⟩ | ⟨-, q, -⟩
      · simp only at q; rw [hw.loopless] at q; simp at q
      · exact q rfl
    rcases hc with ⟨q1, q2⟩ | ⟨y, hy, -⟩ | ⟨y, hy, q⟩
    · rcases hsp with ⟨p, -⟩ | ⟨p, -⟩
      · rw [← show w = e.1.1 from p] at q1; exact hwA q1
      · rw [← show w = e.1.2 from p] at q2; exact hwA q2
    · simp at hy
    · simp only [Option.some.injEq] at hy
      subst hy
      rw [q] at hsp
      rcases hsp with ⟨-, p⟩ | ⟨p, -⟩
      · exact hxo p
      · exact how p.symm
  · intro a b wa va av vb wb bw bo hab
    have hbv : b ≠ v := by rintro rfl; rw [hw.loopless] at vb; simp at vb
    have haw : a ≠ w := by rintro rfl; rw [hw.loopless] at wa; simp at wa
    rw [hg' a b av hbv]
    refine addEdgeTable_ents h1 ?_ (by rw [f1.adj]; exact hab)
    have ea : a ∈ Rules.pivotNbrs g w v none := by
      simp [Rules.pivotNbrs, Finset.mem_filter, mem_nbrs hw.toInv, wa, av]
    have ea' : a ∉ Rules.pivotNbrs g v w (some o) := by
      simp [Rules.pivotNbrs, Finset.mem_filter, mem_nbrs hw.toInv, va]
    have eb : b ∈ Rules.pivotNbrs g v w (some o) := by
      simp [Rules.pivotNbrs, Finset.mem_filter, mem_nbrs hw.toInv, vb, bw, Ne.symm bo]
    have eb' : b ∉ Rules.pivotNbrs g w v none := by
      simp [Rules.pivotNbrs, Finset.mem_filter, mem_nbrs hw.toInv, wb]
    have ml : ∀ N x, x ∈ lst N ↔ x ∈ N := by intro N x; rw [← List.mem_toFinset, (hlst N).2]
    obtain ⟨p, hpe⟩ : ∃ p, (Rules.pivot lst g [⟨w, v, none, some o⟩]).etab =
      (Rules.pivotPairs
        (lst (Rules.pivotNbrs g w v none \ (Rules.pivotNbrs g w v none ∩ Rules.pivotNbrs g v w (some o))))
        (lst (Rules.pivotNbrs g v w (some o) \ (Rules.pivotNbrs g w v none ∩ Rules.pivotNbrs g v w (some o))))
        (lst (Rules.pivotNbrs g w v none ∩ Rules.pivotNbrs g v w (some o)))).foldl ETab.setHad [((w, o), p)] := ⟨_, rfl⟩
    rw [hpe]
    have hal : a ∈ lst (Rules.pivotNbrs g w v none \ (Rules.pivotNbrs g w v none ∩ Rules.pivotNbrs g v w (some o))) := by
      rw [ml, Finset.mem_sdiff, Finset.mem_inter]; exact ⟨ea, fun h => ea' h.2⟩
    have hbl : b ∈ lst (Rules.pivotNbrs g v w (some o) \ (Rules.pivotNbrs g w v none ∩ Rules.pivotNbrs g v w (some o))) := by
      rw [ml, Finset.mem_sdiff, Finset.mem_inter]; exact ⟨eb, fun h => eb' h.1⟩
    have hb0 : b ∉ lst (Rules.pivotNbrs g w v none \ (Rules.pivotNbrs g w v none ∩ Rules.pivotNbrs g v w (some o))) := by
      rw [ml, Finset.mem_sdiff]; exact fun h => eb' h.1
    have ha1 : a ∉ lst (Rules.pivotNbrs g v w (some o) \ (Rules.pivotNbrs g w v none ∩ Rules.pivotNbrs g v w (some o))) := by
      rw [ml, Finset.mem_sdiff]; exact fun h => ea' h.1
    have ha2 : a ∉ lst (Rules.pivotNbrs g w v none ∩ Rules.pivotNbrs g v w (some o)) := by
      rw [ml, Finset.mem_inter]; exact fun h => ea' h.2
    have hb2 : b ∉ lst (Rules.pivotNbrs g w v none ∩ Rules.pivotNbrs g v w (some o)) := by
      rw [ml, Finset.mem_inter]; exact fun h => eb' h.1
    have n0 := (hlst (Rules.pivotNbrs g w v none \ (Rules.pivotNbrs g w v none ∩ Rules.pivotNbrs g v w (some o)))).1
    have n1 := (hlst (Rules.pivotNbrs g v w (some o) \ (Rules.pivotNbrs g w v none ∩ Rules.pivotNbrs g v w (some o)))).1
    revert hal hbl hb0 ha1 ha2 hb2 n0 n1
    generalize lst (Rules.pivotNbrs g w v none \ (Rules.pivotNbrs g w v none ∩ Rules.pivotNbrs g v w (some o))) = l0
    generalize lst (Rules.pivotNbrs g v w (some o) \ (Rules.pivotNbrs g w v none ∩ Rules.pivotNbrs g v w (some o))) = l1
    generalize lst (Rules.pivotNbrs g w v none ∩ Rules.pivotNbrs g v w (some o)) = l2
    intro hal hbl hb0 ha1 ha2 hb2 n0 n1
    have hnd : (l0 ×ˢ l1).Nodup := n0.product n1
    obtain ⟨r1, r2, hr12⟩ := List.append_of_mem (List.pair_mem_product.mpr ⟨hal, hbl⟩ : (a, b) ∈ l0 ×ˢ l1)
    have hr12 : l0 ×ˢ l1 = r1 ++ (a, b) :: r2 := hr12
    have hr1 : ∀ e ∈ l0 ×ˢ l1, SamePair (a, b) e → e = (a, b) := by
      rintro ⟨x, y⟩ he hsp
      obtain ⟨q1, q2⟩ := List.pair_mem_product.mp he
      rcases hsp with ⟨p1, p2⟩ | ⟨p1, p2⟩ <;> simp only at p1 p2
      · rw [p1, p2]
      · exact absurd (p2 ▸ q1) hb0
    rw [hr12] at hnd hr1
    rw [List.nodup_append, List.nodup_cons] at hnd
    obtain ⟨-, ⟨d2, -⟩, d3⟩ := hnd
    unfold Rules.pivotPairs
    rw [hr12]
    simp only [List.append_assoc, List.cons_append, List.foldl_append, List.foldl_cons]
    rw [ents_setHads, ents_setHads, ents_setHads]
    · refine ents_upd_nil _ (Or.inl ⟨rfl, rfl⟩) ?_
      rw [ents_setHads]
      · have : ¬ SamePair (a, b) (w, o) := by
          rintro (⟨p, -⟩ | ⟨-, p⟩)
          · exact haw p
          · exact bw p
        simp [ents, this]
      · intro e he hsp
        have := hr1 e (by simp [he]) hsp
        subst this
        exact d3 (a, b) he (a, b) (by simp) rfl
    · intro e he hsp
      have := hr1 e (by simp [he]) hsp
      subst this
      exact d2 he
    · rintro ⟨x, y⟩ he hsp
      obtain ⟨q1, q2⟩ := List.pair_mem_product.mp he
      rcases hsp with ⟨p1, p2⟩ | ⟨p1, p2⟩ <;> simp only at p1 p2
      · exact ha1 (p1 ▸ q1)
      · exact ha2 (p1 ▸ q2)
    · rintro ⟨x, y⟩ he hsp
      obtain ⟨q1, q2⟩ := List.pair_mem_product.mp he
      rcases hsp with ⟨p1, p2⟩ | ⟨p1, p2⟩ <;> simp only at p1 p2
      · exact hb2 (p2 ▸ q2)
      · exact ha2 (p1 ▸ q2)

end Graph
end PyZX
