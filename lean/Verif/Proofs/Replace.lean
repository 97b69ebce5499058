import Verif.Proofs.Gadget
import Verif.Model.Basic

/-!
# Replacing some spiders by others
-/

namespace PyZX
open Finset

namespace Graph

/-- Removing the interior vertices `R` and adding the interior vertices `N` preserves the meaning if the sums agree. -/
theorem replace_preserves {g g' : Graph} (hg : g.WF) (hg' : g'.WF) {R N : Finset ℕ} (hR : R ⊆ g.interior) (hN : Disjoint g.verts N)
    (hverts : g'.verts = (g.verts \ R) ∪ N) (hNi : ∀ v ∈ N, g'.ty v ≠ .boundary)
    (hty : ∀ v ∈ g.verts, v ∉ R → (g'.ty v = .boundary ↔ g.ty v = .boundary)) (hin : g'.inputs = g.inputs) (hout : g'.outputs = g.outputs)
    (h : ∀ x, psum N g'.weight x = psum R g.weight x) : Preserves g g' := by
  have hRb : ∀ v ∈ R, v ∈ g.verts ∧ g.ty v ≠ .boundary := fun v hv => Finset.mem_filter.mp (hR hv)
  refine ⟨hg', hin, hout, fun v => ?_, fun b => ?_⟩
  · rw [hverts, Finset.mem_union, Finset.mem_sdiff]
    constructor
    · rintro ⟨⟨h1, h2⟩ | h1, h3⟩
      · exact ⟨h1, (hty v h1 h2).mp h3⟩
      · exact absurd h3 (hNi v h1)
    · rintro ⟨h1, h2⟩
      have hvR : v ∉ R := fun hv => (hRb v hv).2 h2
      exact ⟨Or.inl ⟨h1, hvR⟩, (hty v h1 hvR).mpr h2⟩
  · rw [sem_eq_amp hg', sem_eq_amp hg]
    unfold amp
    set I := g.interior \ R with hI
    have e1 : g.interior = I ∪ R := by rw [hI, Finset.sdiff_union_of_subset hR]
    have e2 : g'.interior = I ∪ N := by
      ext v
      simp only [hI, Graph.interior, hverts, Finset.mem_filter, Finset.mem_union, Finset.mem_sdiff]
      constructor
      · rintro ⟨⟨h1, h2⟩ | h1, h3⟩
        · exact Or.inl ⟨⟨h1, fun hb => h3 ((hty v h1 h2).mpr hb)⟩, h2⟩
        · exact Or.inr h1
      · rintro (⟨⟨h1, h2⟩, h3⟩ | h1)
        · exact ⟨Or.inl ⟨h1, h3⟩, fun hb => h2 ((hty v h1 h3).mp hb)⟩
        · exact ⟨Or.inr h1, hNi v h1⟩
    have d1 : Disjoint I R := Finset.sdiff_disjoint
    have d2 : Disjoint I N := by
      refine Finset.disjoint_of_subset_left ?_ hN
      exact fun v hv => (Finset.mem_filter.mp (Finset.mem_sdiff.mp hv).1).1
    rw [e1, e2, psum_union d1, psum_union d2]
    exact psum_congr fun x _ => h x

/-- `g'` has the new vertices `N` and otherwise agrees with `g`. -/
structure Ext (g g' : Graph) (N : Finset ℕ) : Prop where
  wf : g'.WF
  verts : g'.verts = g.verts ∪ N
  disj : Disjoint g.verts N
  ty : ∀ v ∈ g.verts, g'.ty v = g.ty v
  phase : ∀ v ∈ g.verts, g'.phase v = g.phase v
  adj : ∀ a ∈ g.verts, ∀ b ∈ g.verts, g'.adj a b = g.adj a b
  inputs : g'.inputs = g.inputs
  outputs : g'.outputs = g.outputs

theorem Ext.refl {g : Graph} (hg : g.WF) : Ext g g ∅ :=
  ⟨hg, by simp, by simp, fun _ _ => rfl, fun _ _ => rfl, fun _ _ _ _ => rfl, rfl, rfl⟩

theorem Ext.trans {g g' g'' : Graph} {N N' : Finset ℕ} (h : Ext g g' N) (h' : Ext g' g'' N') : Ext g g'' (N ∪ N') := by
  have hsub : ∀ v ∈ g.verts, v ∈ g'.verts := fun v hv => by rw [h.verts]; exact Finset.mem_union_left _ hv
  refine ⟨h'.wf, by rw [h'.verts, h.verts, Finset.union_assoc], ?_, fun v hv => (h'.ty v (hsub v hv)).trans (h.ty v hv),
    fun v hv => (h'.phase v (hsub v hv)).trans (h.phase v hv),
    fun a ha b hb => (h'.adj a (hsub a ha) b (hsub b hb)).trans (h.adj a ha b hb), h'.inputs.trans h.inputs, h'.outputs.trans h.outputs⟩
  rw [Finset.disjoint_union_right]
  exact ⟨h.disj, Finset.disjoint_of_subset_left hsub h'.disj⟩

/-- Adding a spider with one edge to `w` (`add_vertex`, `add_edge`, `set_phase`). -/
theorem attach_spec {g : Graph} (hg : g.WF) {t : VType} (ht : t = .Z ∨ t = .X) {w : ℕ} (hw : w ∈ g.verts) {e : EType} (he : e ≠ .wio) (p : ℚ) :
    ∃ g2, (g.addVertex t 0).addEdge g.vindex w e = some g2 ∧ Ext g (g2.setPhase g.vindex p) {g.vindex} ∧
      (∀ v ∈ g.verts, g2.phase v = g.phase v) ∧
      (g2.setPhase g.vindex p).ty g.vindex = t ∧
      (∀ b, (g2.setPhase g.vindex p).adj g.vindex b = if b = w then some e else none) ∧
      ∀ S : Finset ℕ, S ⊆ g.verts → w ∈ S → ∀ x, (g2.setPhase g.vindex p).wOn (S ∪ {g.vindex}) x =
        g.wOn S x * ((if x g.vindex then ph p else 1) *
          kern (xor (decide (e = .had)) (xor (decide (t = .X)) (g.isX w))) (x g.vindex) (x w)) := by
  have hn := hg.toInv.notMem_vindex
  set n := g.vindex with hndef
  have hwn : w ≠ n := fun h => hn (h ▸ hw)
  obtain ⟨f1, f2, f3, f4, f5, f6, f7, f8, f9, f10⟩ := addVertex_fields g t 0
  set g1 := g.addVertex t 0 with hg1
  have hw1 : g1.WF := hg.addVertex (by rcases ht with h | h <;> simp [h]) 0
  have hadj1 : g1.adj = g.adj := hg.toInv.addVertex_adj t 0
  have hnone : g1.adj n w = none := by rw [hadj1]; exact hg.toInv.adj_vindex (Or.inl rfl)
  set g2 : Graph := { g1.setAdj n w (some e) with nedges := g1.nedges + 1 } with hg2
  have hadd : g1.addEdge n w e = some g2 := by
    unfold addEdge
    rw [if_neg (by rw [f1, hndef]; simp), hnone]
    simp only
    rw [if_neg (by rw [f1]; simp [hw])]
  have hw2 : g2.WF := hw1.addEdge hadd (Ne.symm hwn) he
  have hw3 : (g2.setPhase n p).WF := hw2.congr (hw2.toInv.congr rfl rfl rfl rfl rfl rfl) rfl rfl rfl rfl rfl
  have hadj : ∀ a b, (g2.setPhase n p).adj a b = if (a = n ∧ b = w) ∨ (a = w ∧ b = n) then some e else g.adj a b := by
    intro a b
    show (if _ then _ else g1.adj a b) = _
    rw [hadj1]
  have hty : ∀ v, (g2.setPhase n p).ty v = if v = n then t else g.ty v := by
    intro v
    show g1.ty v = _
    rw [f3, Function.update_apply]
  have hph1 : ∀ v, v ≠ n → g2.phase v = g.phase v := by
    intro v hv
    show g1.phase v = _
    rw [f4, Function.update_of_ne hv]
  have hne : ∀ v ∈ g.verts, v ≠ n := fun v hv h => hn (h ▸ hv)
  have hph : ∀ v, v ≠ n → (g2.setPhase n p).phase v = g.phase v := by
    intro v hv
    show Function.update g2.phase n _ v = _
    rw [Function.update_of_ne hv, hph1 v hv]
  refine ⟨g2, hadd, ⟨hw3, ?_, by simpa using hn, fun v hv => ?_, fun v hv => hph v (hne v hv), fun a ha b hb => ?_, f9, f10⟩,
    fun v hv => hph1 v (hne v hv), ?_, ?_, ?_⟩
  · show g1.verts = _
    rw [f1, Finset.union_comm]; rfl
  · rw [hty, if_neg (hne v hv)]
  · rw [hadj, if_neg]
    rintro (⟨h, -⟩ | ⟨-, h⟩)
    · exact hne a ha h
    · exact hne b hb h
  · rw [hty, if_pos rfl]
  · intro b
    rw [hadj]
    by_cases hb : b = w
    · rw [if_pos (Or.inl ⟨rfl, hb⟩), if_pos hb]
    · rw [if_neg, if_neg hb]
      · exact hg.toInv.adj_vindex (Or.inl rfl)
      · rintro (⟨-, h⟩ | ⟨h, -⟩)
        · exact hb h
        · exact hwn h.symm
  · intro S hS hwS x
    have hnS : n ∉ S := fun h => hn (hS h)
    rw [Finset.union_comm, ← Finset.insert_eq, wOn_insert hw3.symm hnS]
    have h1 : (g2.setPhase n p).vwt n (x n) = if x n then ph p else 1 := by
      have : (g2.setPhase n p).vval n = ph p := by
        unfold vval
        rw [hty, if_pos rfl]
        have : (g2.setPhase n p).phase n = mod2 p := by
          show Function.update g2.phase n _ n = _
          rw [Function.update_self]
        rw [this, ph_mod2]
        rcases ht with h | h <;> rw [h]
      unfold vwt
      rw [this]
    have h2 : ∏ u ∈ S, (g2.setPhase n p).edgeK x n u = kern (xor (decide (e = .had)) (xor (decide (t = .X)) (g.isX w))) (x n) (x w) := by
      rw [Finset.prod_eq_single w]
      · rw [edgeK_some (e := e) (by rw [hadj, if_pos (Or.inl ⟨rfl, rfl⟩)])]
        have : (g2.setPhase n p).eff n w e = xor (decide (e = .had)) (xor (decide (t = .X)) (g.isX w)) := by
          unfold eff isX
          rw [hty, hty, if_pos rfl, if_neg hwn]
        rw [this]
      · intro u hu huw
        refine edgeK_none ?_
        rw [hadj, if_neg]
        · exact hg.toInv.adj_vindex (Or.inl rfl)
        · rintro (⟨-, h⟩ | ⟨h, -⟩)
          · exact huw h
          · exact hwn h.symm
      · intro h; exact absurd hwS h
    have h3 : (g2.setPhase n p).wOn S x = g.wOn S x := by
      refine wOn_congr (by show g1.scalar.toNumber = _; rw [f8]) (fun v hv => ?_) fun a ha b hb _ => ?_
      · have hvn := hne v (hS hv)
        refine vval_update_ne hvn (by rw [hty, if_neg hvn]) (hph v hvn) ?_
        show g1.label v = _
        rw [f5, Function.update_of_ne hvn]
      · have han := hne a (hS ha)
        have hbn := hne b (hS hb)
        unfold edgeK eff isX
        rw [hadj, if_neg, hty, hty, if_neg han, if_neg hbn]
        rintro (⟨h, -⟩ | ⟨-, h⟩)
        · exact han h
        · exact hbn h
    rw [h1, h2, h3]
    ring

end Graph

namespace Basic
open Graph

/-- Adding a list of edges between spiders. -/
theorem addEdgeList_spec {e : EType} (he : e ≠ .wio) : ∀ (es : List (ℕ × ℕ)) {g : Graph}, g.WF →
    (∀ p ∈ es, p.1 ∈ g.verts ∧ p.2 ∈ g.verts ∧ p.1 ≠ p.2 ∧ g.ty p.1 ≠ .boundary ∧ g.ty p.2 ≠ .boundary) →
    ∃ g', addEdgeList g es e = some g' ∧ g'.WF ∧ SameFrame g g' ∧ (∀ v, (∀ p ∈ es, p.1 ≠ v) → g'.phase v = g.phase v) ∧
      ∀ S : Finset ℕ, (∀ p ∈ es, p.1 ∈ S ∧ p.2 ∈ S) → ∀ x,
        g'.wOn S x = g.wOn S x * (es.map fun p => kern (g.eff p.1 p.2 e) (x p.1) (x p.2)).prod := by
  intro es
  induction es with
  | nil => intro g hg _; exact ⟨g, rfl, hg, SameFrame.refl g, fun _ _ => rfl, fun S _ x => by simp⟩
  | cons p r ih =>
    intro g hg h
    obtain ⟨h1, h2, h3, h4, h5⟩ := h p (by simp)
    obtain ⟨g1, hg1⟩ := addEdge_isSome hg h1 h2 h3 he (Or.inr ⟨hg.zx h1 h4, hg.zx h2 h5⟩)
    have hf := addEdge_frame hg1
    obtain ⟨g', e1, e2, e3, e4, e5⟩ := ih (hg.addEdge hg1 h3 he) (by
      intro q hq
      rw [hf.verts, hf.ty]
      exact h q (by simp [hq]))
    refine ⟨g', ?_, e2, hf.trans e3, ?_, ?_⟩
    · unfold addEdgeList
      rw [List.foldlM_cons, hg1]
      exact e1
    · intro v hv
      rw [e4 v (fun q hq => hv q (by simp [hq]))]
      have hne : p.1 ≠ v := hv p (by simp)
      obtain ⟨-, ⟨-, -, rfl⟩ | ⟨e1, -, -, -, ⟨-, -, rfl⟩ | ⟨-, f, -, -, rfl⟩ | ⟨-, -, -, rfl⟩⟩⟩ := addEdge_cases hg1
      · rfl
      · rfl
      · split
        · rfl
        · show Function.update g.phase p.1 _ v = _
          rw [Function.update_of_ne (Ne.symm hne)]
      · rfl
    · intro S hS x
      rw [e5 S (fun q hq => hS q (by simp [hq])), wOn_addEdge hg1 hg.symm (hS p (by simp)).1 (hS p (by simp)).2 h3, List.map_cons,
        List.prod_cons]
      have : ∀ q : ℕ × ℕ, g1.eff q.1 q.2 e = g.eff q.1 q.2 e := fun q => hf.eff _ _ _
      simp only [this]
      ring

end Basic
end PyZX
