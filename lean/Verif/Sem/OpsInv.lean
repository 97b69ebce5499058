import Verif.Sem.Ops

/-!
# Preservation of the bookkeeping invariant and of well-formedness by the elementary operations
-/

namespace PyZX

open Finset

namespace Graph

theorem Inv.mem' {g : Graph} (h : g.Inv) {u v : ℕ} (hn : g.adj u v ≠ none) : v ∈ g.verts :=
  h.mem v u (by rw [h.symm]; exact hn)

/-- The invariant only depends on these fields. -/
theorem Inv.congr {g g' : Graph} (h : g.Inv) (hv : g'.verts = g.verts) (ha : g'.adj = g.adj)
    (hi : g'.vindex = g.vindex) (hn : g'.nedges = g.nedges) (hin : g'.inputs = g.inputs)
    (hout : g'.outputs = g.outputs) : g'.Inv := by
  constructor
  · rw [ha]; exact h.symm
  · rw [ha, hv]; exact h.mem
  · rw [hv, hi]; exact h.lt
  · rw [hin, hv]; exact h.inp
  · rw [hout, hv]; exact h.out
  · rw [ha]; exact h.loopless
  · rw [hn, hv, ha]; exact h.count

theorem Inv.setAdj {g : Graph} (h : g.Inv) {s t : ℕ} (hs : s ∈ g.verts) (ht : t ∈ g.verts) (hst : s ≠ t)
    (e : Option EType) (c : ℤ)
    (hc : (if e.isSome then (1 : ℤ) else 0) = (if (g.adj s t).isSome then (1 : ℤ) else 0) + c) :
    ({ g.setAdj s t e with nedges := g.nedges + c } : Graph).Inv := by
  refine ⟨setAdj_symm h.symm s t e, ?_, h.lt, h.inp, h.out, ?_, ?_⟩
  · intro u v huv
    by_cases h1 : u = s ∧ v = t
    · rw [h1.1]; exact hs
    · by_cases h2 : u = t ∧ v = s
      · rw [h2.1]; exact ht
      · refine h.mem u v ?_
        rw [← setAdj_adj_other g e h1 h2]; exact huv
  · intro v
    show (g.setAdj s t e).adj v v = none
    rw [setAdj_adj_other g e (by rintro ⟨rfl, rfl⟩; exact hst rfl) (by rintro ⟨rfl, rfl⟩; exact hst rfl)]
    exact h.loopless v
  · show g.nedges + c = _
    rw [h.count]
    symm
    refine pairSum_single hs ht hst ?_ ?_ ?_ ?_
    · intro a b; rw [h.symm]
    · intro a b; show (if ((g.setAdj s t e).adj a b).isSome = true then _ else _) = _; rw [setAdj_symm h.symm]
    · show (if ((g.setAdj s t e).adj s t).isSome = true then _ else _) = _
      rw [setAdj_adj_self]; exact hc
    · intro u w h1 h2
      show (if ((g.setAdj s t e).adj u w).isSome = true then _ else _) = _
      rw [setAdj_adj_other g e h1 h2]

theorem Inv.addEdge {g g' : Graph} (hg : g.Inv) {s t : ℕ} {e : EType} (h : g.addEdge s t e = some g') (hst : s ≠ t) :
    g'.Inv := by
  obtain ⟨hs, ⟨hn, ht, rfl⟩ | ⟨e1, hn, -, -, ⟨-, -, rfl⟩ | ⟨-, f, -, -, rfl⟩ | ⟨-, -, -, rfl⟩⟩⟩ := addEdge_cases h
  · exact hg.setAdj hs ht hst (some e) 1 (by simp [hn])
  · exact hg
  · have ht : t ∈ g.verts := hg.mem' (u := s) (by simp [hn])
    have := hg.setAdj hs ht hst (some f) 0 (by simp [hn])
    refine this.congr ?_ ?_ ?_ ?_ ?_ ?_ <;> split <;> simp [Graph.addPower, setLabel, addToPhase, Graph.setAdj]
  · have ht : t ∈ g.verts := hg.mem' (u := s) (by simp [hn])
    have := hg.setAdj hs ht hst none (-1) (by simp [hn])
    exact this.congr rfl rfl rfl rfl rfl rfl

theorem WF.congr {g g' : Graph} (h : g.WF) (hi : g'.Inv) (hv : g'.verts = g.verts) (ha : g'.adj = g.adj)
    (ht : g'.ty = g.ty) (hin : g'.inputs = g.inputs) (hout : g'.outputs = g.outputs) : g'.WF :=
  { hi with
    noWio := by rw [ha]; exact h.noWio
    types := by rw [hv, ht]; exact h.types
    io := by rw [hin, hout, ht]; exact h.io }

theorem WF.addEdge {g g' : Graph} (hg : g.WF) {s t : ℕ} {e : EType} (h : g.addEdge s t e = some g') (hst : s ≠ t)
    (he : e ≠ .wio) : g'.WF := by
  refine { hg.toInv.addEdge h hst with noWio := ?_, types := ?_, io := ?_ }
  · have key : ∀ f : Option EType, f ≠ some .wio → ∀ u v, (g.setAdj s t f).adj u v ≠ some .wio := by
      intro f hf u v
      simp only [Graph.setAdj]
      split
      · exact hf
      · exact hg.noWio u v
    obtain ⟨hs, ⟨hn, ht, rfl⟩ | ⟨e1, hn, -, -, ⟨-, -, rfl⟩ | ⟨-, f, hf, -, rfl⟩ | ⟨-, -, -, rfl⟩⟩⟩ := addEdge_cases h
    · exact key _ (by simpa using he)
    · exact hg.noWio
    · intro u v
      have := key (some f) (by simpa using hf) u v
      split <;> exact this
    · exact key none (by simp)
  · rw [(addEdge_frame h).verts, (addEdge_frame h).ty]; exact hg.types
  · rw [(addEdge_frame h).inputs, (addEdge_frame h).outputs, (addEdge_frame h).ty]; exact hg.io

theorem removeEdge_eq {g g' : Graph} {s t : ℕ} (h : g.removeEdge s t = some g') :
    g.adj s t ≠ none ∧ s ≠ t ∧ g' = { g.setAdj s t none with nedges := g.nedges - 1 } := by
  unfold removeEdge at h
  split at h
  · simp at h
  · next h1 => push Not at h1; exact ⟨h1.1, h1.2, (Option.some.inj h).symm⟩

theorem Inv.removeEdge {g g' : Graph} (hg : g.Inv) {s t : ℕ} (h : g.removeEdge s t = some g') : g'.Inv := by
  obtain ⟨h1, h2, rfl⟩ := removeEdge_eq h
  have hs : (g.adj s t).isSome = true := by
    cases hh : g.adj s t with
    | none => exact absurd hh h1
    | some e => rfl
  exact hg.setAdj (hg.mem _ _ h1) (hg.mem' h1) h2 none (-1) (by simp [hs])

theorem WF.removeEdge {g g' : Graph} (hg : g.WF) {s t : ℕ} (h : g.removeEdge s t = some g') : g'.WF := by
  refine { hg.toInv.removeEdge h with noWio := ?_, types := ?_, io := ?_ }
  · obtain ⟨h1, h2, rfl⟩ := removeEdge_eq h
    intro u v
    show (g.setAdj s t none).adj u v ≠ _
    simp only [Graph.setAdj]
    split
    · simp
    · exact hg.noWio u v
  · obtain ⟨h1, h2, rfl⟩ := removeEdge_eq h
    exact hg.types
  · obtain ⟨h1, h2, rfl⟩ := removeEdge_eq h
    exact hg.io

theorem removeEdge_frame {g g' : Graph} {s t : ℕ} (h : g.removeEdge s t = some g') : SameFrame g g' := by
  obtain ⟨h1, h2, rfl⟩ := removeEdge_eq h
  exact ⟨rfl, rfl, rfl, rfl, rfl⟩

/-- Removing an edge divides out its kernel. -/
theorem wOn_removeEdge {g g' : Graph} {s t : ℕ} (h : g.removeEdge s t = some g')
    (hg : ∀ u v, g.adj u v = g.adj v u) {S : Finset ℕ} (hs : s ∈ S) (ht : t ∈ S) (x : ℕ → Bool) :
    g'.wOn S x * g.edgeK x s t = g.wOn S x := by
  obtain ⟨h1, hst, rfl⟩ := removeEdge_eq h
  have hg1s : ∀ u v, (g.setAdj s t none).adj u v = (g.setAdj s t none).adj v u := setAdj_symm hg s t _
  have hback : (g.setAdj s t none).setAdj s t (g.adj s t) = g := by
    have : ((g.setAdj s t none).setAdj s t (g.adj s t)).adj = g.adj := by
      funext a b
      simp only [Graph.setAdj]
      split
      · next hab =>
        rcases hab with ⟨rfl, rfl⟩ | ⟨rfl, rfl⟩
        · rfl
        · rw [hg]
      · rfl
    have h0 : (g.setAdj s t none).setAdj s t (g.adj s t) = { g with adj := ((g.setAdj s t none).setAdj s t (g.adj s t)).adj } := rfl
    rw [h0, this]
  have hw := wOn_setAdj (g := g.setAdj s t none) hg1s hs ht hst (g.adj s t) x (c := g.edgeK x s t) (by
    rw [edgeK_none (setAdj_adj_self g s t none), hback, one_mul])
  rw [hback] at hw
  rw [hw]
  rfl

/-! ### Adding and removing vertices -/

theorem removeVertex1_eq {g g' : Graph} {v : ℕ} (h : g.removeVertex1 v = some g') :
    v ∈ g.verts ∧ g' = { g with
      verts := g.verts.erase v
      adj := fun a b => if a = v ∨ b = v then none else g.adj a b
      nedges := g.nedges - (g.nbrs v).card
      inputs := g.inputs.filter (· ≠ v)
      outputs := g.outputs.filter (· ≠ v) } := by
  unfold removeVertex1 at h
  split at h
  · simp at h
  · next h1 => push Not at h1; exact ⟨h1.1, (Option.some.inj h).symm⟩

theorem removeVertex1_isSome {g : Graph} (hg : g.Inv) {v : ℕ} (hv : v ∈ g.verts) : ∃ g', g.removeVertex1 v = some g' := by
  unfold removeVertex1
  rw [if_neg (by simp [hv, hg.loopless])]
  exact ⟨_, rfl⟩

theorem sum_isSome_nbrs {g : Graph} (hg : g.Inv) (v : ℕ) :
    ∑ w ∈ g.verts.erase v, (if (g.adj v w).isSome then (1 : ℤ) else 0) = (g.nbrs v).card := by
  rw [Finset.sum_ite, Finset.sum_const_zero, add_zero, Finset.sum_const, nsmul_eq_mul, mul_one]
  congr 2
  unfold nbrs
  ext w
  simp only [Finset.mem_filter, Finset.mem_erase]
  constructor
  · rintro ⟨⟨-, h⟩, h'⟩; exact ⟨h, h'⟩
  · rintro ⟨h, h'⟩
    refine ⟨⟨?_, h⟩, h'⟩
    rintro rfl
    rw [hg.loopless] at h'; simp at h'

theorem Inv.removeVertex1 {g g' : Graph} (hg : g.Inv) {v : ℕ} (h : g.removeVertex1 v = some g') : g'.Inv := by
  obtain ⟨hv, rfl⟩ := removeVertex1_eq h
  constructor
  · intro a b
    show (if a = v ∨ b = v then none else g.adj a b) = (if b = v ∨ a = v then none else g.adj b a)
    rw [hg.symm a b]
    simp only [or_comm]
  · intro a b hab
    have hab : (if a = v ∨ b = v then none else g.adj a b) ≠ none := hab
    split at hab
    · exact absurd rfl hab
    · next h1 =>
      push Not at h1
      exact Finset.mem_erase.mpr ⟨h1.1, hg.mem a b hab⟩
  · intro w hw; exact hg.lt w (Finset.mem_of_mem_erase hw)
  · intro w hw
    have hw : w ∈ g.inputs.filter (· ≠ v) := hw
    simp only [List.mem_filter, decide_eq_true_eq] at hw
    exact Finset.mem_erase.mpr ⟨hw.2, hg.inp w hw.1⟩
  · intro w hw
    have hw : w ∈ g.outputs.filter (· ≠ v) := hw
    simp only [List.mem_filter, decide_eq_true_eq] at hw
    exact Finset.mem_erase.mpr ⟨hw.2, hg.out w hw.1⟩
  · intro w
    show (if w = v ∨ w = v then none else g.adj w w) = none
    split
    · rfl
    · exact hg.loopless w
  · show g.nedges - (g.nbrs v).card = pairSum (g.verts.erase v)
      (fun a b => if (if a = v ∨ b = v then none else g.adj a b).isSome = true then (1 : ℤ) else 0)
    rw [hg.count, pairSum_erase hv (by intro a b; rw [hg.symm]), sum_isSome_nbrs hg]
    rw [add_sub_cancel_left]
    refine pairSum_congr fun a ha b hb _ => ?_
    have hn : ¬ (a = v ∨ b = v) := not_or.mpr ⟨(Finset.mem_erase.mp ha).1, (Finset.mem_erase.mp hb).1⟩
    simp only [hn, if_false]

theorem WF.removeVertex1 {g g' : Graph} (hg : g.WF) {v : ℕ} (h : g.removeVertex1 v = some g') : g'.WF := by
  refine { hg.toInv.removeVertex1 h with noWio := ?_, types := ?_, io := ?_ }
  · obtain ⟨hv, rfl⟩ := removeVertex1_eq h
    intro a b
    show (if a = v ∨ b = v then none else g.adj a b) ≠ _
    split
    · simp
    · exact hg.noWio a b
  · obtain ⟨hv, rfl⟩ := removeVertex1_eq h
    intro w hw
    exact hg.types w (Finset.mem_of_mem_erase hw)
  · obtain ⟨hv, rfl⟩ := removeVertex1_eq h
    intro w hw
    refine hg.io w ?_
    simp only [List.mem_filter] at hw
    tauto

theorem wOn_removeVertex1 {g g' : Graph} {v : ℕ} (h : g.removeVertex1 v = some g') {S : Finset ℕ} (hS : v ∉ S)
    (x : ℕ → Bool) : g'.wOn S x = g.wOn S x := by
  obtain ⟨hv, rfl⟩ := removeVertex1_eq h
  refine wOn_congr rfl (fun _ _ => rfl) fun a ha b hb _ => ?_
  have h1 : ¬ (a = v ∨ b = v) := by
    rintro (rfl | rfl)
    · exact hS ha
    · exact hS hb
  unfold edgeK
  simp only [h1, if_false]
  rfl

theorem Inv.reindex {g : Graph} (hg : g.Inv) : ({ g with vindex := g.verts.sup id + 1 } : Graph).Inv :=
  { hg with lt := fun _ hv => Nat.lt_succ_of_le (Finset.le_sup (f := id) hv) }

/-- What `remove_vertices` does, in terms of the set of removed vertices. -/
structure Removed (g g' : Graph) (R : Finset ℕ) : Prop where
  verts : g'.verts = g.verts \ R
  ty : g'.ty = g.ty
  phase : g'.phase = g.phase
  label : g'.label = g.label
  adj : ∀ a b, a ∉ R → b ∉ R → g'.adj a b = g.adj a b
  wOn : ∀ S : Finset ℕ, Disjoint S R → ∀ x, g'.wOn S x = g.wOn S x
  inputs : g'.inputs = g.inputs.filter (· ∉ R)
  outputs : g'.outputs = g.outputs.filter (· ∉ R)

theorem foldlM_removeVertex1 {g g' : Graph} {vs : List ℕ} (h : vs.foldlM Graph.removeVertex1 g = some g') :
    Removed g g' vs.toFinset ∧ (∀ v ∈ vs, v ∈ g.verts) ∧ (g.Inv → g'.Inv) ∧ (g.WF → g'.WF) := by
  induction vs generalizing g with
  | nil =>
    simp only [List.foldlM_nil, Option.pure_def, Option.some.injEq] at h
    subst h
    exact ⟨⟨by simp, rfl, rfl, rfl, fun _ _ _ _ => rfl, fun _ _ _ => rfl, by simp, by simp⟩, by simp, id, id⟩
  | cons v vs ih =>
    simp only [List.foldlM_cons, Option.bind_eq_bind] at h
    obtain ⟨g1, h1, h2⟩ := Option.bind_eq_some_iff.mp h
    obtain ⟨hr, hm, hi, hw⟩ := ih h2
    obtain ⟨hv, he⟩ := removeVertex1_eq h1
    refine ⟨⟨?_, ?_, ?_, ?_, ?_, ?_, ?_, ?_⟩, ?_, fun hg => hi (hg.removeVertex1 h1), fun hg => hw (hg.removeVertex1 h1)⟩
    · rw [hr.verts, he]
      ext w
      simp only [List.toFinset_cons, Finset.mem_sdiff, Finset.mem_erase, Finset.mem_insert]
      tauto
    · rw [hr.ty, he]
    · rw [hr.phase, he]
    · rw [hr.label, he]
    · intro a b ha hb
      simp only [List.toFinset_cons, Finset.mem_insert, not_or] at ha hb
      rw [hr.adj a b ha.2 hb.2, he]
      simp [ha.1, hb.1]
    · intro S hS x
      simp only [List.toFinset_cons, Finset.disjoint_insert_right] at hS
      rw [hr.wOn S hS.2 x, wOn_removeVertex1 h1 hS.1]
    · rw [hr.inputs, he]
      simp only [List.filter_filter]
      refine List.filter_congr fun w _ => ?_
      simp [Bool.and_comm]
    · rw [hr.outputs, he]
      simp only [List.filter_filter]
      refine List.filter_congr fun w _ => ?_
      simp [Bool.and_comm]
    · intro w hw'
      rcases List.mem_cons.mp hw' with rfl | hw'
      · exact hv
      · have := hm w hw'
        rw [he] at this
        exact Finset.mem_of_mem_erase this

theorem removeVertices_spec {g g' : Graph} {vs : List ℕ} (h : g.removeVertices vs = some g') :
    Removed g g' vs.toFinset ∧ (∀ v ∈ vs, v ∈ g.verts) ∧ (g.Inv → g'.Inv) ∧ (g.WF → g'.WF) := by
  unfold removeVertices at h
  obtain ⟨g1, h1, rfl⟩ := Option.map_eq_some_iff.mp h
  obtain ⟨hr, hm, hi, hw⟩ := foldlM_removeVertex1 h1
  refine ⟨⟨hr.verts, hr.ty, hr.phase, hr.label, hr.adj, hr.wOn, hr.inputs, hr.outputs⟩, hm,
    fun hg => (hi hg).reindex, fun hg => ?_⟩
  exact (hw hg).congr (hi hg.toInv).reindex rfl rfl rfl rfl rfl

theorem removeVertices_isSome {g : Graph} (hg : g.Inv) {vs : List ℕ} (hn : vs.Nodup) (hv : ∀ v ∈ vs, v ∈ g.verts) :
    ∃ g', g.removeVertices vs = some g' := by
  have key : ∃ g', vs.foldlM Graph.removeVertex1 g = some g' := by
    induction vs generalizing g with
    | nil => exact ⟨g, rfl⟩
    | cons v vs ih =>
      obtain ⟨g1, h1⟩ := removeVertex1_isSome hg (hv v (by simp))
      obtain ⟨g', h'⟩ := ih (hg.removeVertex1 h1) (List.nodup_cons.mp hn).2 (by
        intro w hw
        obtain ⟨-, rfl⟩ := removeVertex1_eq h1
        refine Finset.mem_erase.mpr ⟨?_, hv w (by simp [hw])⟩
        rintro rfl
        exact (List.nodup_cons.mp hn).1 hw)
      exact ⟨g', by simp [List.foldlM_cons, h1, h']⟩
  obtain ⟨g', h'⟩ := key
  exact ⟨_, by unfold removeVertices; rw [h']; rfl⟩

/-- `add_vertex` makes a fresh isolated vertex. -/
theorem addVertex_fields (g : Graph) (t : VType) (p : ℚ) :
    (g.addVertex t p).verts = insert g.vindex g.verts ∧
    (g.addVertex t p).adj = (fun a b => if a = g.vindex ∨ b = g.vindex then none else g.adj a b) ∧
    (g.addVertex t p).ty = Function.update g.ty g.vindex t ∧
    (g.addVertex t p).phase = Function.update g.phase g.vindex (mod2 p) ∧
    (g.addVertex t p).label = Function.update g.label g.vindex 1 ∧
    (g.addVertex t p).vindex = g.vindex + 1 ∧
    (g.addVertex t p).nedges = g.nedges ∧
    (g.addVertex t p).scalar = g.scalar ∧
    (g.addVertex t p).inputs = g.inputs ∧ (g.addVertex t p).outputs = g.outputs := by
  unfold addVertex
  by_cases hp : p = 0
  · subst hp
    simp [addVertex0, setType, mod2_zero]
  · simp [addVertex0, setType, setPhase, hp]

theorem Inv.notMem_vindex {g : Graph} (hg : g.Inv) : g.vindex ∉ g.verts := fun h => lt_irrefl _ (hg.lt _ h)

theorem Inv.adj_vindex {g : Graph} (hg : g.Inv) {a b : ℕ} (h : a = g.vindex ∨ b = g.vindex) : g.adj a b = none := by
  by_contra hn
  rcases h with rfl | rfl
  · exact hg.notMem_vindex (hg.mem _ _ hn)
  · exact hg.notMem_vindex (hg.mem' hn)

theorem Inv.addVertex_adj {g : Graph} (hg : g.Inv) (t : VType) (p : ℚ) : (g.addVertex t p).adj = g.adj := by
  rw [(addVertex_fields g t p).2.1]
  funext a b
  split
  · next h => exact (hg.adj_vindex h).symm
  · rfl

theorem Inv.insertVertex {g g' : Graph} (hg : g.Inv) {v : ℕ} (hv : v ∉ g.verts) (h1 : g'.verts = insert v g.verts)
    (h2 : g'.adj = g.adj) (h3 : g'.nedges = g.nedges) (h4 : ∀ w ∈ g'.verts, w < g'.vindex)
    (h5 : g'.inputs = g.inputs) (h6 : g'.outputs = g.outputs) : g'.Inv := by
  constructor
  · rw [h2]; exact hg.symm
  · intro a b hab; rw [h1]; rw [h2] at hab; exact Finset.mem_insert_of_mem (hg.mem a b hab)
  · exact h4
  · rw [h5, h1]; intro w hw; exact Finset.mem_insert_of_mem (hg.inp w hw)
  · rw [h6, h1]; intro w hw; exact Finset.mem_insert_of_mem (hg.out w hw)
  · rw [h2]; exact hg.loopless
  · rw [h3, h1, h2, hg.count, pairSum_insert hv (by intro a b; rw [hg.symm])]
    rw [Finset.sum_eq_zero, zero_add]
    intro w _
    have : g.adj v w = none := by
      by_contra hn; exact hv (hg.mem _ _ hn)
    simp [this]

theorem Inv.addVertex {g : Graph} (hg : g.Inv) (t : VType) (p : ℚ) : (g.addVertex t p).Inv := by
  obtain ⟨h1, h2, h3, h4, h5, h6, h7, h8, h9, h10⟩ := addVertex_fields g t p
  refine hg.insertVertex hg.notMem_vindex h1 (hg.addVertex_adj t p) h7 ?_ h9 h10
  rw [h1, h6]
  intro w hw
  rcases Finset.mem_insert.mp hw with rfl | hw
  · exact Nat.lt_succ_self _
  · exact Nat.lt_succ_of_lt (hg.lt w hw)

theorem Inv.addVertexIndexed {g g' : Graph} (hg : g.Inv) {v : ℕ} (h : g.addVertexIndexed v = some g') : g'.Inv := by
  unfold Graph.addVertexIndexed at h
  split at h
  · simp at h
  · next hv =>
    have h := Option.some.inj h
    subst h
    refine hg.insertVertex hv rfl ?_ rfl ?_ rfl rfl
    · funext a b
      show (if a = v ∨ b = v then none else g.adj a b) = g.adj a b
      split
      · next h =>
        symm
        by_contra hn
        rcases h with rfl | rfl
        · exact hv (hg.mem _ _ hn)
        · exact hv (hg.mem' hn)
      · rfl
    · intro w hw
      have hw : w ∈ insert v g.verts := hw
      show w < if v ≥ g.vindex then v + 1 else g.vindex
      rcases Finset.mem_insert.mp hw with rfl | hw
      · split <;> omega
      · have := hg.lt w hw
        split <;> omega

theorem WF.addVertex {g : Graph} (hg : g.WF) {t : VType} (ht : t = .boundary ∨ t = .Z ∨ t = .X ∨ t = .zbox) (p : ℚ) :
    (g.addVertex t p).WF := by
  obtain ⟨h1, h2, h3, h4, h5, h6, h7, h8, h9, h10⟩ := addVertex_fields g t p
  refine { hg.toInv.addVertex t p with noWio := ?_, types := ?_, io := ?_ }
  · rw [hg.toInv.addVertex_adj]; exact hg.noWio
  · rw [h1, h3]
    intro v hv
    by_cases h : v = g.vindex
    · subst h; simpa using ht
    · rw [Function.update_of_ne h]
      exact hg.types v (by simpa [h] using hv)
  · rw [h9, h10, h3]
    intro v hv
    have hne : v ≠ g.vindex := by
      rintro rfl
      exact hg.notMem_vindex (hv.elim (hg.inp _) (hg.out _))
    rw [Function.update_of_ne hne]
    exact hg.io v hv

theorem wOn_addVertex {g : Graph} (hg : g.Inv) (t : VType) (p : ℚ) {S : Finset ℕ} (hS : g.vindex ∉ S) (x : ℕ → Bool) :
    (g.addVertex t p).wOn S x = g.wOn S x := by
  obtain ⟨h1, h2, h3, h4, h5, h6, h7, h8, h9, h10⟩ := addVertex_fields g t p
  have hne : ∀ v ∈ S, v ≠ g.vindex := by rintro v hv rfl; exact hS hv
  refine wOn_congr (by rw [h8]) ?_ ?_
  · intro v hv
    exact vval_update_ne (hne v hv) (by rw [h3]; simp [hne v hv]) (by rw [h4]; simp [hne v hv]) (by rw [h5]; simp [hne v hv])
  · intro u hu v hv _
    unfold edgeK eff isX
    rw [hg.addVertex_adj, h3, Function.update_of_ne (hne u hu), Function.update_of_ne (hne v hv)]

end Graph
end PyZX
