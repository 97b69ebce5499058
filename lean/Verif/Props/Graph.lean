import Verif.Sem.Total
import Verif.Proofs.Ids
import Verif.Spec.Example

/-!
# C10, C11: the graph backend
-/

namespace PyZX

/-- A call of a method of the graph backend. -/
inductive GOp
  | addVertex (t : VType) (p : ℚ)
  | addVertexIndexed (v : ℕ)
  | addEdge (s t : ℕ) (e : EType)
  | addEdges (es : List (ℕ × ℕ)) (e : EType)
  | addEdgeTable (t : Graph.ETab)
  | removeEdges (es : List (ℕ × ℕ))
  | removeVertices (vs : List ℕ)
  | setType (v : ℕ) (t : VType)
  | setPhase (v : ℕ) (p : ℚ)
  | addToPhase (v : ℕ) (p : ℚ)

namespace GOp

/-- Effect of a call; `none` is an exception. -/
noncomputable def run (g : Graph) : GOp → Option Graph
  | addVertex t p => some (g.addVertex t p)
  | addVertexIndexed v => g.addVertexIndexed v
  | addEdge s t e => g.addEdge s t e
  | addEdges es e => g.addEdges es e
  | addEdgeTable t => g.addEdgeTable t
  | removeEdges es => g.removeEdges es
  | removeVertices vs => g.removeVertices vs
  | setType v t => some (g.setType v t)
  | setPhase v p => some (g.setPhase v p)
  | addToPhase v p => some (g.addToPhase v p)

/-- What the caller has to respect: no self-loops, and `add_edges` (which does not look at existing edges) is only used for
new edges. -/
def Allowed (g : Graph) : GOp → Prop
  | addEdge s t _ => s ≠ t
  | addEdges es _ => (∀ e ∈ es, e.1 ≠ e.2 ∧ g.adj e.1 e.2 = none) ∧ es.Pairwise fun e f => ¬ Graph.SamePair e f
  | addEdgeTable t => ∀ e ∈ t, e.2 ≠ (0, 0) → e.1.1 ≠ e.1.2
  | _ => True

end GOp

namespace Graph

/-- The graphs reachable by calls that do not raise, starting from the empty graph. -/
inductive Reach : Graph → Prop
  | empty : Reach Graph.empty
  | step {g g' : Graph} (o : GOp) : Reach g → o.Allowed g → o.run g = some g' → Reach g'

theorem Inv.addEdge0 {g g' : Graph} (hg : g.Inv) {s t : ℕ} {e : EType} (h : g.addEdge0 s t e = some g') (hst : s ≠ t)
    (hn : g.adj s t = none) : g'.Inv ∧ ∀ a b, ¬ SamePair (a, b) (s, t) → g'.adj a b = g.adj a b := by
  unfold Graph.addEdge0 at h
  split at h
  · simp at h
  · next hv =>
    push Not at hv
    have e1 : g.addEdge s t e = some g' := by
      rw [← h]
      simp only [Graph.addEdge, hv.1, hv.2, hn, not_true_eq_false, if_false]
    exact ⟨hg.addEdge e1 hst, fun a b hab => addEdge_adj_other e1 hab⟩

theorem Inv.addEdges {es : List (ℕ × ℕ)} {e : EType} {g g' : Graph} (hg : g.Inv) (h : g.addEdges es e = some g')
    (h1 : ∀ e ∈ es, e.1 ≠ e.2 ∧ g.adj e.1 e.2 = none) (h2 : es.Pairwise fun e f => ¬ SamePair e f) : g'.Inv := by
  induction es generalizing g with
  | nil =>
    simp only [Graph.addEdges, List.foldlM_nil, Option.pure_def, Option.some.injEq] at h
    exact h ▸ hg
  | cons p es ih =>
    simp only [Graph.addEdges, List.foldlM_cons, Option.bind_eq_bind] at h
    obtain ⟨g1, h3, h4⟩ := Option.bind_eq_some_iff.mp h
    rw [List.pairwise_cons] at h2
    obtain ⟨q1, q2⟩ := hg.addEdge0 h3 (h1 p (by simp)).1 (h1 p (by simp)).2
    refine ih q1 h4 (fun f hf => ⟨(h1 f (by simp [hf])).1, ?_⟩) h2.2
    rw [q2 _ _ fun hsp => h2.1 f hf hsp.symm]
    exact (h1 f (by simp [hf])).2

theorem Inv.addEdgeN {g g' : Graph} (hg : g.Inv) {s t n : ℕ} {e : EType} (h : g.addEdgeN s t e n = some g')
    (hst : n ≠ 0 → s ≠ t) : g'.Inv := by
  induction n generalizing g with
  | zero =>
    simp only [Graph.addEdgeN, Option.some.injEq] at h
    exact h ▸ hg
  | succ n ih =>
    simp only [Graph.addEdgeN] at h
    obtain ⟨g1, h3, h4⟩ := Option.bind_eq_some_iff.mp h
    exact ih (hg.addEdge h3 (hst (by simp))) h4 fun _ => hst (by simp)

theorem Inv.addEdgeTable {t : ETab} {g g' : Graph} (hg : g.Inv) (h : g.addEdgeTable t = some g')
    (h1 : ∀ e ∈ t, e.2 ≠ (0, 0) → e.1.1 ≠ e.1.2) : g'.Inv := by
  induction t generalizing g with
  | nil =>
    simp only [Graph.addEdgeTable, List.foldlM_nil, Option.pure_def, Option.some.injEq] at h
    exact h ▸ hg
  | cons e t ih =>
    obtain ⟨g1, g2, q1, q2, q3⟩ := addEdgeTable_cons h
    refine ih ((hg.addEdgeN q1 fun hz => h1 e (by simp) (tab_ne.mpr (Or.inl hz))).addEdgeN q2 fun hz =>
      h1 e (by simp) (tab_ne.mpr (Or.inr hz))) q3 fun e he => h1 e (by simp [he])

theorem Inv.removeEdges {es : List (ℕ × ℕ)} {g g' : Graph} (hg : g.Inv) (h : g.removeEdges es = some g') : g'.Inv := by
  induction es generalizing g with
  | nil =>
    simp only [Graph.removeEdges, List.foldlM_nil, Option.pure_def, Option.some.injEq] at h
    exact h ▸ hg
  | cons p es ih =>
    simp only [Graph.removeEdges, List.foldlM_cons, Option.bind_eq_bind] at h
    obtain ⟨g1, h3, h4⟩ := Option.bind_eq_some_iff.mp h
    exact ih (hg.removeEdge h3) h4

theorem Inv.empty : Graph.empty.Inv := by
  constructor <;> simp [Graph.empty]

end Graph

namespace Props

open Graph

/-- C10: after every history of calls the bookkeeping invariant holds: adjacency is symmetric, joins only vertices and has no
self-loop, the edge counter is the number of connected pairs, inputs and outputs are vertices, and the name that the next
`add_vertex` uses is not in use. -/
theorem reach_inv {g : Graph} (h : Reach g) : g.Inv := by
  induction h with
  | empty => exact Inv.empty
  | step o _ ha hr ih =>
    cases o with
    | addVertex t p => exact Option.some.inj hr ▸ ih.addVertex t p
    | addVertexIndexed v => exact ih.addVertexIndexed hr
    | addEdge s t e => exact ih.addEdge hr ha
    | addEdges es e => exact ih.addEdges hr ha.1 ha.2
    | addEdgeTable t => exact ih.addEdgeTable hr ha
    | removeEdges es => exact ih.removeEdges hr
    | removeVertices vs => exact (removeVertices_spec hr).2.2.1 ih
    | setType v t => exact Option.some.inj hr ▸ ih.congr rfl rfl rfl rfl rfl rfl
    | setPhase v p => exact Option.some.inj hr ▸ ih.congr rfl rfl rfl rfl rfl rfl
    | addToPhase v p => exact Option.some.inj hr ▸ ih.congr rfl rfl rfl rfl rfl rfl

/-- C10: a new vertex gets a name that is not in use, nothing else changes, and it has no neighbours. -/
theorem reach_fresh {g : Graph} (h : Reach g) (t : VType) (p : ℚ) :
    g.vindex ∉ g.verts ∧ (g.addVertex t p).verts = insert g.vindex g.verts ∧ (g.addVertex t p).ty g.vindex = t ∧
      (∀ v ∈ g.verts, (g.addVertex t p).ty v = g.ty v ∧ (g.addVertex t p).phase v = g.phase v) ∧
      (∀ v, (g.addVertex t p).adj g.vindex v = none) ∧ ∀ u v, (g.addVertex t p).adj u v = g.adj u v := by
  have hi := reach_inv h
  obtain ⟨h1, h2, h3, h4, h5, h6, h7, h8, h9, h10⟩ := addVertex_fields g t p
  refine ⟨hi.notMem_vindex, h1, by rw [h3]; simp, fun v hv => ?_, fun v => ?_, fun u v => by rw [hi.addVertex_adj]⟩
  · have : v ≠ g.vindex := fun e => hi.notMem_vindex (e ▸ hv)
    rw [h3, h4]; simp [this]
  · rw [h2]; simp

/-- The history: three vertices, two Hadamard edges, a third edge, removal of the first vertex. -/
example : ∃ g : Graph, Reach g ∧ g.verts = {1, 2} ∧ g.nedges = 1 := by
  have h1 : Reach _ := Reach.step (.addVertex .boundary 0) Reach.empty trivial rfl
  have h2 : Reach _ := Reach.step (.addVertex .Z 0) h1 trivial rfl
  have h3 : Reach _ := Reach.step (.addVertex .Z 0) h2 trivial rfl
  have h4 : Reach _ := Reach.step (.addEdges [(0, 1), (0, 2)] .had) h3 (by
    simp [GOp.Allowed, SamePair, Graph.addVertex, Graph.addVertex0, Graph.setType, Graph.empty]) rfl
  have h5 : Reach _ := Reach.step (.addEdge 2 1 .simple) h4 (by simp [GOp.Allowed]) rfl
  have h6 : Reach _ := Reach.step (.removeVertices [0]) h5 trivial rfl
  exact ⟨_, h6, by decide, by decide⟩

/-- The restriction on `add_edges` is needed: on a pair that is already connected it counts the edge twice. -/
theorem addEdges_overcounts : ∃ g g' : Graph, Reach g ∧ g.addEdges [(0, 1)] .simple = some g' ∧ ¬ g'.Inv := by
  refine ⟨_, _, Reach.step (.addEdges [(0, 1)] .simple) (Reach.step (.addVertex .Z 0)
      (Reach.step (.addVertex .Z 0) Reach.empty trivial rfl) trivial rfl) ?_ rfl, rfl, ?_⟩
  · simp [GOp.Allowed, Graph.addVertex, Graph.addVertex0, Graph.setType, Graph.empty]
  · intro h
    have := h.count
    revert this
    decide

/-- The restriction on self-loops is needed: after adding one, `remove_vertex` raises. -/
theorem selfloop_remove_raises : ∃ g g' : Graph, Reach g ∧ g.addEdge 0 0 .simple = some g' ∧ g'.removeVertices [0] = none := by
  refine ⟨_, _, Reach.step (.addVertex .Z 0) Reach.empty trivial rfl, rfl, rfl⟩

/-! ### C11 -/

/-- Specification: the diagram `g` with one more edge of type `e` between `s` and `t`, also if they are connected already. The
new edge is drawn through a fresh arity-2 Z-spider of phase 0, which is an identity wire. -/
def withEdge (g : Graph) (w s t : ℕ) (e : EType) : Graph :=
  { g with
    verts := insert w g.verts
    adj := fun a b => if (a = w ∧ b = s) ∨ (a = s ∧ b = w) then some .simple
      else if (a = w ∧ b = t) ∨ (a = t ∧ b = w) then some e else g.adj a b
    nedges := g.nedges + 2
    vindex := max g.vindex (w + 1)
    ty := Function.update g.ty w .Z
    phase := Function.update g.phase w 0 }

theorem withEdge_wf {g : Graph} (hg : g.WF) {w s t : ℕ} {e : EType} (hw : w ∉ g.verts) (hs : s ∈ g.verts) (ht : t ∈ g.verts)
    (hst : s ≠ t) (he : e ≠ .wio) : (withEdge g w s t e).WF := by
  have hsw : s ≠ w := fun h => hw (h ▸ hs)
  have htw : t ≠ w := fun h => hw (h ▸ ht)
  have hnone : ∀ a b, a = w ∨ b = w → g.adj a b = none := by
    intro a b h
    by_contra hne
    rcases h with rfl | rfl
    · exact hw (hg.mem _ _ hne)
    · exact hw (hg.toInv.mem' hne)
  have hsymm : ∀ u v, (withEdge g w s t e).adj u v = (withEdge g w s t e).adj v u := by
    intro u v
    simp only [withEdge]
    rw [hg.symm u v]
    by_cases h1 : (u = w ∧ v = s) ∨ (u = s ∧ v = w)
    · rw [if_pos h1, if_pos (by tauto)]
    · rw [if_neg h1, if_neg (by tauto : ¬ ((v = w ∧ u = s) ∨ (v = s ∧ u = w)))]
      by_cases h2 : (u = w ∧ v = t) ∨ (u = t ∧ v = w)
      · rw [if_pos h2, if_pos (by tauto)]
      · rw [if_neg h2, if_neg (by tauto)]
  refine { symm := ?_, mem := ?_, lt := ?_, inp := ?_, out := ?_, loopless := ?_, count := ?_, noWio := ?_, types := ?_, io := ?_ }
  · exact hsymm
  · intro u v hne
    simp only [withEdge] at hne ⊢
    split_ifs at hne with h1 h2
    · rcases h1 with ⟨rfl, -⟩ | ⟨rfl, -⟩ <;> simp [hs]
    · rcases h2 with ⟨rfl, -⟩ | ⟨rfl, -⟩ <;> simp [ht]
    · exact Finset.mem_insert_of_mem (hg.mem u v hne)
  · intro v hv
    simp only [withEdge, Finset.mem_insert] at hv ⊢
    rcases hv with rfl | hv
    · omega
    · have := hg.lt v hv; omega
  · intro v hv; exact Finset.mem_insert_of_mem (hg.inp v hv)
  · intro v hv; exact Finset.mem_insert_of_mem (hg.out v hv)
  · intro v
    simp only [withEdge]
    rw [if_neg, if_neg, hg.loopless]
    · rintro (⟨rfl, h⟩ | ⟨h, rfl⟩) <;> exact htw h.symm
    · rintro (⟨rfl, h⟩ | ⟨h, rfl⟩) <;> exact hsw h.symm
  · show g.nedges + 2 = pairSum (insert w g.verts) _
    rw [pairSum_insert hw, hg.count, add_comm]
    · congr 1
      · rw [Finset.sum_eq_add_of_mem s t hs ht hst]
        · simp [withEdge, hst.symm, hsw, htw]
        · rintro c hc ⟨h1, h2⟩
          have hcw : c ≠ w := fun h => hw (h ▸ hc)
          simp [withEdge, h1, h2, hnone w c (Or.inl rfl), hcw, hsw.symm, htw.symm]
      · refine pairSum_congr fun a ha b hb _ => ?_
        have haw : a ≠ w := fun h => hw (h ▸ ha)
        have hbw : b ≠ w := fun h => hw (h ▸ hb)
        simp [withEdge, haw, hbw]
    · intro a b
      rw [hsymm a b]
  · intro u v
    simp only [withEdge]
    split_ifs
    · simp
    · simpa using he
    · exact hg.noWio u v
  · intro v hv
    by_cases h : v = w
    · subst h; simp [withEdge]
    · have hv : v ∈ g.verts := by simpa [withEdge, h] using hv
      simpa [withEdge, h] using hg.types v hv
  · intro v hv
    have hvw : v ≠ w := by
      rintro rfl
      rcases hv with hv | hv
      · exact hw (hg.inp _ hv)
      · exact hw (hg.out _ hv)
    simpa [withEdge, hvw] using hg.io v hv

/-- C11: whatever `add_edge` does (a new edge, fusing, a phase flip, or the removal of both edges), its result denotes exactly
the diagram with the additional edge, scalar included. -/
theorem addEdge_exact {g g' : Graph} (hg : g.WF) {w s t : ℕ} {e : EType} (hw : w ∉ g.verts) (ht : t ∈ g.verts) (hst : s ≠ t)
    (he : e ≠ .wio) (h : g.addEdge s t e = some g') (b : ℕ → Bool) : g'.sem b = (withEdge g w s t e).sem b := by
  have hs : s ∈ g.verts := by
    by_contra hs; simp [Graph.addEdge, hs] at h
  have hwf := withEdge_wf hg hw hs ht hst he
  have hsw : s ≠ w := fun h => hw (h ▸ hs)
  have htw : t ≠ w := fun h => hw (h ▸ ht)
  have hg' : g'.WF := hg.addEdge h hst he
  have hf := addEdge_frame h
  set G := withEdge g w s t e with hG
  have hGX : G.isX s = g.isX s ∧ G.isX t = g.isX t ∧ G.isX w = false := by
    simp [hG, withEdge, isX, hsw, htw]
  rw [sem_eq_amp hg', sem_eq_amp hwf]
  refine amp_of_removed (g := G) (R := {w}) ?_ ?_ ?_ ?_ b
  · intro v hv
    rw [Finset.mem_singleton] at hv
    subst hv
    exact Finset.mem_filter.mpr ⟨Finset.mem_insert_self _ _, by simp [hG, withEdge]⟩
  · rw [hf.verts]
    show _ = insert w g.verts \ {w}
    rw [Finset.insert_sdiff_of_mem _ (Finset.mem_singleton_self w), Finset.sdiff_singleton_eq_erase, Finset.erase_eq_of_notMem hw]
  · intro v hv
    rw [hf.verts] at hv
    have : v ≠ w := fun h => hw (h ▸ hv)
    rw [hf.ty]
    simp [hG, withEdge, this]
  · intro x
    have hone : ∀ c, G.vwt w c = 1 := by
      intro c
      have : G.vval w = 1 := by simp [hG, withEdge, vval, ph_zero]
      unfold vwt; split <;> simp [this]
    have hk : ∀ y, G.weight y = (kern (G.eff w s .simple) (y w) (y s) * kern (G.eff w t e) (y w) (y t)) * g.wOn g.verts y := by
      intro y
      rw [weight_eq_wOn]
      show G.wOn (insert w g.verts) y = _
      rw [wOn_insert hwf.symm hw, hone, one_mul]
      congr 1
      · rw [Finset.prod_eq_mul_of_mem s t hs ht hst]
        · rw [edgeK_some (e := .simple) (by simp [hG, withEdge]), edgeK_some (e := e) (by simp [hG, withEdge, hst.symm, hsw.symm, htw])]
        · rintro c hc ⟨h1, h2⟩
          have hcw : c ≠ w := fun h => hw (h ▸ hc)
          refine edgeK_none ?_
          simp only [hG, withEdge]
          rw [if_neg (by tauto), if_neg (by tauto)]
          by_contra hne
          exact hw (hg.mem _ _ hne)
      · refine wOn_congr rfl ?_ ?_
        · intro v hv
          have : v ≠ w := fun h => hw (h ▸ hv)
          simp [hG, withEdge, vval, this]
        · intro u hu v hv _
          have h1 : u ≠ w := fun h => hw (h ▸ hu)
          have h2 : v ≠ w := fun h => hw (h ▸ hv)
          simp [hG, withEdge, edgeK, eff, isX, h1, h2]
    have hset : ({w} : Finset ℕ) = insert w ∅ := by simp
    rw [hset, psum_insert (by simp), psum_empty, hk, hk, weight_eq_wOn, hf.verts, wOn_addEdge h hg.symm hs ht hst]
    have h1 : ∀ c, g.wOn g.verts (Function.update x w c) = g.wOn g.verts x := fun c =>
      wOn_congr_env fun v hv => Function.update_of_ne (fun (h : v = w) => hw (h ▸ hv)) _ _
    rw [h1, h1]
    simp only [Function.update_self, Function.update_of_ne hsw, Function.update_of_ne htw]
    have h2 := kern_comp (G.eff w s .simple) (G.eff w t e) (x s) (x t)
    have h3 : (G.eff w s .simple ^^ G.eff w t e) = g.eff s t e := by
      unfold eff
      rw [hGX.1, hGX.2.1, hGX.2.2]
      cases e <;> cases g.isX s <;> cases g.isX t <;> rfl
    rw [h3] at h2
    rw [← h2]
    ring

/-- C11: between two spiders `add_edge` never raises. -/
theorem addEdge_defined {g : Graph} (hg : g.WF) {s t : ℕ} {e : EType} (hs : s ∈ g.verts) (ht : t ∈ g.verts) (hst : s ≠ t)
    (he : e ≠ .wio) (h1 : (g.ty s).zxLike) (h2 : (g.ty t).zxLike) : ∃ g', g.addEdge s t e = some g' :=
  addEdge_isSome hg hs ht hst he (Or.inr ⟨h1, h2⟩)

/-- A Z-spider and an X-spider connected by a Hadamard edge; a second edge of either type can be added. -/
example : ∃ g : Graph, g.WF ∧ 2 ∉ g.verts ∧ 1 ∈ g.verts ∧ (g.ty 0).zxLike ∧ (g.ty 1).zxLike ∧ g.adj 0 1 = some .had :=
  ⟨mkG [.Z, .X] [1 / 4, 1 / 2] [(0, 1, .had)] [] [], mkG_wf (by decide), by decide, by decide, rfl, rfl, rfl⟩

end Props
end PyZX
