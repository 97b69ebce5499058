import Verif.Proofs.ExtGad
import Verif.Proofs.ExtSem3

/-!
# Circuit extraction: the CNOTs
-/

namespace PyZX
namespace Extract

open Finset Graph Simplify

/-! ### `connectivity_from_biadj` -/

/-- The diagrams only differ in their edges. -/
structure EdgesOnly (g g' : Graph) : Prop where
  wf : g'.WF
  verts : g'.verts = g.verts
  ty : g'.ty = g.ty
  phase : g'.phase = g.phase
  label : g'.label = g.label
  scalar : g'.scalar = g.scalar
  inputs : g'.inputs = g.inputs
  outputs : g'.outputs = g.outputs

theorem EdgesOnly.trans {g g' g'' : Graph} (h : EdgesOnly g g') (h' : EdgesOnly g' g'') : EdgesOnly g g'' :=
  ⟨h'.wf, h'.verts.trans h.verts, h'.ty.trans h.ty, h'.phase.trans h.phase, h'.label.trans h.label, h'.scalar.trans h.scalar,
    h'.inputs.trans h.inputs, h'.outputs.trans h.outputs⟩

/-- Setting or clearing an edge. -/
theorem connStep_spec {g g' : Graph} (hg : g.WF) {m : Mat2.Data} {ns fs : List ℕ} {p : ℕ × ℕ} (hne : fs.getD p.1 0 ≠ ns.getD p.2 0)
    (hhad : g.adj (fs.getD p.1 0) (ns.getD p.2 0) ≠ none → g.adj (fs.getD p.1 0) (ns.getD p.2 0) = some .had)
    (e : connStep m ns fs g p = some g') :
    EdgesOnly g g' ∧ g'.adj (fs.getD p.1 0) (ns.getD p.2 0) = (if Mat2.get m p.1 p.2 = true then some .had else none) ∧
      ∀ a b, ¬ SamePair (a, b) (fs.getD p.1 0, ns.getD p.2 0) → g'.adj a b = g.adj a b := by
  unfold connStep at e
  simp only at e
  generalize fs.getD p.1 0 = r at *
  generalize ns.getD p.2 0 = l at *
  by_cases hm : Mat2.get m p.1 p.2 = true
  · rw [if_pos hm] at e ⊢
    by_cases hn : g.adj r l = none
    · rw [if_pos hn] at e
      obtain ⟨-, e2⟩ := addEdge_new2 e hn
      have hw := hg.addEdge e hne (by simp)
      refine ⟨⟨hw, ?_, ?_, ?_, ?_, ?_, ?_, ?_⟩, ?_, ?_⟩
      all_goals first
        | (rw [e2]; rfl)
        | skip
      · rw [e2]; exact if_pos (Or.inl ⟨rfl, rfl⟩)
      · intro a b hab
        rw [e2]
        exact if_neg hab
    · rw [if_neg hn, Option.some.injEq] at e
      subst e
      exact ⟨⟨hg, rfl, rfl, rfl, rfl, rfl, rfl, rfl⟩, hhad hn, fun _ _ _ => rfl⟩
  · rw [if_neg hm] at e ⊢
    by_cases hn : g.adj r l = none
    · rw [if_pos hn, Option.some.injEq] at e
      subst e
      exact ⟨⟨hg, rfl, rfl, rfl, rfl, rfl, rfl, rfl⟩, hn, fun _ _ _ => rfl⟩
    · rw [if_neg hn] at e
      obtain ⟨-, -, e2⟩ := removeEdge_eq e
      have hw := hg.removeEdge e
      refine ⟨⟨hw, ?_, ?_, ?_, ?_, ?_, ?_, ?_⟩, ?_, ?_⟩
      all_goals first
        | (rw [e2]; rfl)
        | skip
      · rw [e2]; exact if_pos (Or.inl ⟨rfl, rfl⟩)
      · intro a b hab
        rw [e2]
        exact if_neg hab

theorem getD_mem {l : List ℕ} {i : ℕ} (h : i < l.length) : l.getD i 0 ∈ l := by
  rw [List.getD_eq_getElem _ _ h]; exact List.getElem_mem h

theorem getD_inj {l : List ℕ} (hl : l.Nodup) {i j : ℕ} (hi : i < l.length) (hj : j < l.length) (e : l.getD i 0 = l.getD j 0) : i = j := by
  rw [List.getD_eq_getElem _ _ hi, List.getD_eq_getElem _ _ hj] at e
  exact (hl.getElem_inj_iff).mp e

theorem getD_of_mem {l : List ℕ} {a : ℕ} (h : a ∈ l) : ∃ i, i < l.length ∧ l.getD i 0 = a := by
  obtain ⟨i, hi, e⟩ := List.getElem_of_mem h
  exact ⟨i, hi, by rw [List.getD_eq_getElem _ _ hi]; exact e⟩

theorem connectivity_spec {g g' : Graph} (hg : g.WF) {m : Mat2.Data} {ns fs : List ℕ} (hf : fs.Nodup) (hn : ns.Nodup)
    (hd : ∀ j ∈ ns, j ∉ fs) (hhad : ∀ f ∈ fs, ∀ j ∈ ns, g.adj f j ≠ none → g.adj f j = some .had)
    (e : connectivity g m ns fs = some g') :
    EdgesOnly g g' ∧
      (∀ i < fs.length, ∀ j < ns.length, g'.adj (fs.getD i 0) (ns.getD j 0) = (if Mat2.get m i j = true then some .had else none)) ∧
      ∀ a b, (∀ i < fs.length, ∀ j < ns.length, ¬ SamePair (a, b) (fs.getD i 0, ns.getD j 0)) → g'.adj a b = g.adj a b := by
  have key : ∀ (l : List (ℕ × ℕ)) {h h' : Graph}, l.Nodup → (∀ p ∈ l, p.1 < fs.length ∧ p.2 < ns.length) → h.WF →
      (∀ p ∈ l, h.adj (fs.getD p.1 0) (ns.getD p.2 0) ≠ none → h.adj (fs.getD p.1 0) (ns.getD p.2 0) = some .had) →
      l.foldlM (connStep m ns fs) h = some h' →
      EdgesOnly h h' ∧ (∀ p ∈ l, h'.adj (fs.getD p.1 0) (ns.getD p.2 0) = (if Mat2.get m p.1 p.2 = true then some .had else none)) ∧
        ∀ a b, (∀ p ∈ l, ¬ SamePair (a, b) (fs.getD p.1 0, ns.getD p.2 0)) → h'.adj a b = h.adj a b := by
    intro l
    induction l with
    | nil =>
      intro h h' _ _ hw _ e
      rw [List.foldlM_nil] at e
      obtain rfl := Option.some.inj e
      exact ⟨⟨hw, rfl, rfl, rfl, rfl, rfl, rfl, rfl⟩, by simp, fun _ _ _ => rfl⟩
    | cons p l ih =>
      intro h h' hnd hl hw hh e
      rw [List.foldlM_cons] at e
      obtain ⟨h1, e1, e2⟩ := Option.bind_eq_some_iff.mp e
      obtain ⟨n1, n2⟩ := List.nodup_cons.mp hnd
      obtain ⟨p1, p2⟩ := hl p (by simp)
      have hne : fs.getD p.1 0 ≠ ns.getD p.2 0 := fun e => hd _ (getD_mem p2) (by rw [← e]; exact getD_mem p1)
      obtain ⟨s1, s2, s3⟩ := connStep_spec hw hne (hh p (by simp)) e1
      have hsp : ∀ q ∈ l, ¬ SamePair (fs.getD q.1 0, ns.getD q.2 0) (fs.getD p.1 0, ns.getD p.2 0) := by
        intro q hq hsp
        obtain ⟨q1, q2⟩ := hl q (by simp [hq])
        rcases hsp with ⟨c1, c2⟩ | ⟨c1, c2⟩ <;> simp only at c1 c2
        · have := getD_inj hf q1 p1 c1
          have := getD_inj hn q2 p2 c2
          exact n1 (by rw [show p = q from Prod.ext (by omega) (by omega)]; exact hq)
        · exact hd _ (getD_mem p2) (by rw [← c1]; exact getD_mem q1)
      obtain ⟨i1, i2, i3⟩ := ih n2 (fun q hq => hl q (by simp [hq])) s1.wf (fun q hq => by
        rw [s3 _ _ (hsp q hq)]; exact hh q (by simp [hq])) e2
      refine ⟨s1.trans i1, fun q hq => ?_, fun a b hab => ?_⟩
      · rcases List.mem_cons.mp hq with rfl | hq
        · rw [i3 _ _ (fun r hr hc => hsp r hr hc.symm), s2]
        · exact i2 q hq
      · rw [i3 a b (fun q hq => hab q (by simp [hq])), s3 a b (hab p (by simp))]
  have hnd : (List.range fs.length ×ˢ List.range ns.length).Nodup := List.nodup_range.product List.nodup_range
  have hmem : ∀ p : ℕ × ℕ, p ∈ List.range fs.length ×ˢ List.range ns.length ↔ p.1 < fs.length ∧ p.2 < ns.length := fun p => by
    rw [List.mem_product, List.mem_range, List.mem_range]
  obtain ⟨k1, k2, k3⟩ := key _ hnd (fun p hp => (hmem p).mp hp) hg (fun p hp => by
    obtain ⟨p1, p2⟩ := (hmem p).mp hp
    exact hhad _ (getD_mem p1) _ (getD_mem p2)) e
  exact ⟨k1, fun i hi j hj => k2 (i, j) ((hmem _).mpr ⟨hi, hj⟩), fun a b hab => k3 a b fun p hp => hab p.1 ((hmem p).mp hp).1 p.2 ((hmem p).mp hp).2⟩

/-! ### The CNOTs and the matrix -/

/-- The qubit and the output of a vertex of the frontier. -/
def outOf (g : Graph) (qmap : ℕ → Option ℕ) (f : ℕ) : ℕ := ((qmap f).bind (g.outputs[·]?)).getD 0

theorem outOf_eq {g : Graph} {qmap : ℕ → Option ℕ} {f q o : ℕ} (h : qmap f = some q) (ho : g.outputs[q]? = some o) : outOf g qmap f = o := by
  simp [outOf, h, ho]

theorem cnotGates_cons {qmap : ℕ → Option ℕ} {fs : List ℕ} {c : ℕ × ℕ} {cs : List (ℕ × ℕ)} {l : List Gate}
    (h : cnotGates qmap fs (c :: cs) = some l) : ∃ a b l', fs[c.1]?.bind qmap = some a ∧ fs[c.2]?.bind qmap = some b ∧
      cnotGates qmap fs cs = some l' ∧ l = .cnot a b :: l' := by
  unfold cnotGates at h ⊢
  rw [List.mapM_cons] at h
  obtain ⟨a, h1, h⟩ := Option.bind_eq_some_iff.mp h
  obtain ⟨l', h2, h3⟩ := Option.bind_eq_some_iff.mp h
  obtain ⟨x, hx, h1⟩ := Option.bind_eq_some_iff.mp h1
  obtain ⟨y, hy, rfl⟩ := Option.map_eq_some_iff.mp h1
  exact ⟨x, y, l', hx, hy, h2, (Option.some.inj h3).symm⟩

/-- The CNOTs undo the row operations. -/
theorem theta_cnots {g : Graph} (hio : g.IO) {qmap : ℕ → Option ℕ} {fs ns : List ℕ} (hf : fs.Nodup)
    (h : FrontForm g fs.toFinset ns.toFinset (outOf g qmap)) (hq : ∀ f ∈ fs, ∃ q o, qmap f = some q ∧ g.outputs[q]? = some o)
    (x : ℕ → Bool) (cs : List (ℕ × ℕ)) (hc : ∀ c ∈ cs, c.1 ≠ c.2) : ∀ {m : Mat2.Data} {l : List Gate}, Mat2.Rect fs.length ns.length m →
    cnotGates qmap fs cs = some l →
    (∀ a ∈ l, (a.adjointOK = true ∧ a.qubits.Nodup) ∧ ∀ q ∈ a.qubits, q < g.outputs.length) ∧ Mat2.Rect fs.length ns.length (addRows m cs) ∧
    (fun y => theta g fs ns (outOf g qmap) m (g.bval x y)) =
      semGates l.reverse (fun y => theta g fs ns (outOf g qmap) (addRows m cs) (g.bval x y)) := by
  induction cs with
  | nil =>
    intro m l hm e
    have : l = [] := by simpa [cnotGates] using e.symm
    subst this
    exact ⟨by simp, hm, rfl⟩
  | cons c cs ih =>
    intro m l hm e
    obtain ⟨a, b, l', e1, e2, e3, rfl⟩ := cnotGates_cons e
    obtain ⟨fa, ha, e1⟩ := Option.bind_eq_some_iff.mp e1
    obtain ⟨fb, hb, e2⟩ := Option.bind_eq_some_iff.mp e2
    obtain ⟨la, rfl⟩ := List.getElem?_eq_some_iff.mp ha
    obtain ⟨lb, rfl⟩ := List.getElem?_eq_some_iff.mp hb
    have hne : c.1 ≠ c.2 := hc c (by simp)
    obtain ⟨q1, o1, k1, k2⟩ := hq _ (List.getElem_mem la)
    obtain ⟨q2, o2, k3, k4⟩ := hq _ (List.getElem_mem lb)
    rw [e1, Option.some.injEq] at k1
    rw [e2, Option.some.injEq] at k3
    subst k1
    subst k3
    have w1 : outOf g qmap (fs.getD c.1 0) = o1 := by rw [List.getD_eq_getElem _ _ la]; exact outOf_eq e1 k2
    have w2 : outOf g qmap (fs.getD c.2 0) = o2 := by rw [List.getD_eq_getElem _ _ lb]; exact outOf_eq e2 k4
    have hoo : o1 ≠ o2 := by
      intro e
      rw [← w1, ← w2] at e
      exact hne (getD_inj hf la lb (h.inj (List.mem_toFinset.mpr (getD_mem la)) (List.mem_toFinset.mpr (getD_mem lb)) e))
    have hab : a ≠ b := by
      rintro rfl
      rw [k2] at k4
      exact hoo (Option.some.inj k4)
    obtain ⟨i1, i2, i3⟩ := ih (fun c hc' => hc c (by simp [hc'])) (hm.rowAdd lb la) e3
    refine ⟨?_, i2, ?_⟩
    · intro d hd
      rcases List.mem_cons.mp hd with rfl | hd
      · refine ⟨⟨rfl, by simpa [Gate.qubits] using hab⟩, fun q hq => ?_⟩
        simp only [Gate.qubits, List.mem_cons, List.not_mem_nil, or_false] at hq
        rcases hq with rfl | rfl
        · exact (List.getElem?_eq_some_iff.mp k2).1
        · exact (List.getElem?_eq_some_iff.mp k4).1
      · exact i1 d hd
    · rw [List.reverse_cons, semGates_append]
      show _ = ctrl (mat2 0 1 1 0) a b (semGates l'.reverse _)
      have e4 : addRows m (c :: cs) = addRows (Mat2.rowAdd c.2 c.1 m) cs := rfl
      rw [e4, ← i3]
      funext y
      rw [cnot_apply]
      have e5 : g.bval x (cxBits a b y) = Function.update (g.bval x y) o2 (xor (g.bval x y o2) (g.bval x y o1)) := by
        rw [cxBits, bval_update hio k4, bval_out hio k2, bval_out hio k4]
      rw [theta_rowAdd hm hf h la lb hne, w1, w2, e5, Function.update_self, Function.update_of_ne hoo, Function.update_idem]
      congr 1
      funext u
      by_cases hu : u = o2
      · subst hu; simp
      · rw [Function.update_of_ne hu]

/-! ### The state after the CNOTs -/

/-- What is known about the state before `apply_cnots`. -/
structure FS (g0 : Graph) (s : State) (ns : List ℕ) : Prop where
  inv : LoopInv g0 s
  form : FrontForm s.g s.frontier.toFinset ns.toFinset (outOf s.g s.qmap)
  nodup : ns.Nodup
  gad : ∀ j ∈ ns, j ∉ s.gadgets
  touch : ∀ j ∈ ns, ∃ v ∈ s.frontier, s.g.adj v j ≠ none

theorem NI.fs {g0 : Graph} {s : State} {p : NbrState} (h : NI g0 s s.frontier p) (hsub : ∀ v ∈ p.frontier, v ∈ s.frontier) {ns : List ℕ}
    (hn : ns.Nodup) (hns : ns.toFinset = p.set)
    (hg : ∀ w ∈ p.set, w ∈ s.gadgets → ∀ v ∈ p.frontier, p.g.adj w v = none) : FS g0 { s with g := p.g, frontier := p.frontier } ns := by
  have hgl := h.inv.gl
  have hw := hgl.zx.wf
  simp only at hgl hw
  have hmem : ∀ j, j ∈ ns ↔ j ∈ p.set := fun j => by rw [← hns, List.mem_toFinset]
  refine ⟨h.inv, ⟨?_, ?_, ?_, ?_, ?_, ?_, ?_, ?_⟩, hn, ?_, ?_⟩
  · intro f hf
    obtain ⟨h1, q, o, h2, h3, h4⟩ := h.inv.front.each f (List.mem_toFinset.mp hf)
    rw [outOf_eq h2 h3]
    exact hgl.leaf (hw.io o (Or.inr (List.mem_of_getElem? h3))) h4
  · intro f hf
    obtain ⟨h1, q, o, h2, h3, h4⟩ := h.inv.front.each f (List.mem_toFinset.mp hf)
    rw [outOf_eq h2 h3]
    exact (h.clean f (List.mem_toFinset.mp hf)).2 o (List.mem_of_getElem? h3) h4
  · intro f hf
    exact (h.inv.front.each f (List.mem_toFinset.mp hf)).1
  · intro f hf
    exact (h.clean f (List.mem_toFinset.mp hf)).1
  · intro f hf u hu
    obtain ⟨h1, q, o, h2, h3, h4⟩ := h.inv.front.each f (List.mem_toFinset.mp hf)
    have hf := List.mem_toFinset.mp hf
    rw [outOf_eq h2 h3, hns]
    rcases h.nb f hf (hsub f hf) u hu with h5 | h5
    · exact Or.inl (hgl.out1 f u o h5 (List.mem_of_getElem? h3) hu h4)
    · exact Or.inr h5
  · intro j hj
    rw [hns] at hj
    obtain ⟨h1, h2, v, h3, h4⟩ := h.set j hj
    exact ⟨hw.toInv.mem' h4, h1⟩
  · intro j hj hc
    rw [hns] at hj
    exact (h.set j hj).2.1 (List.mem_toFinset.mp hc)
  · intro f hf j hj hne
    rw [hns] at hj
    exact hgl.zh f j (h.inv.front.each f (List.mem_toFinset.mp hf)).1 (h.set j hj).1 hne
  · intro j hj hc
    obtain ⟨h1, h2, v, h3, h4⟩ := h.set j ((hmem j).mp hj)
    exact h4 (by rw [hw.symm]; exact hg j ((hmem j).mp hj) hc v h3)
  · intro j hj
    obtain ⟨h1, h2, v, h3, h4⟩ := h.set j ((hmem j).mp hj)
    exact ⟨v, h3, h4⟩

/-- The state after the CNOTs have been moved to the circuit: the connectivity is given by a matrix. -/
structure FM (g0 : Graph) (s : State) (ns : List ℕ) (m : Mat2.Data) : Prop where
  inv : LoopInv g0 s
  form : FrontForm s.g s.frontier.toFinset ns.toFinset (outOf s.g s.qmap)
  gad : ∀ j ∈ ns, j ∉ s.gadgets
  rect : Mat2.Rect s.frontier.length ns.length m
  conn : ∀ i < s.frontier.length, ∀ j < ns.length, s.g.adj (s.frontier.getD i 0) (ns.getD j 0) = (if Mat2.get m i j = true then some .had else none)

theorem cnots_spec {g0 : Graph} {s : State} {ns : List ℕ} (h : FS g0 s ns) {cs : List (ℕ × ℕ)} (hc : ∀ c ∈ cs, c.1 ≠ c.2) {l : List Gate}
    (hl : cnotGates s.qmap s.frontier cs = some l) {g1 : Graph}
    (e : (if cs = [] then some s.g else connectivity s.g (addRows (GFlow.biAdj s.g ns s.frontier) cs) ns s.frontier) = some g1) :
    FM g0 { s with g := g1, gates := s.gates ++ l } ns (addRows (GFlow.biAdj s.g ns s.frontier) cs) := by
  have hgl := h.inv.gl
  have hw := hgl.zx.wf
  have hfn := h.inv.front.nodup
  have hrect := biAdj_rect s.g ns s.frontier
  have hq : ∀ f ∈ s.frontier, ∃ q o, s.qmap f = some q ∧ s.g.outputs[q]? = some o := fun f hf => by
    obtain ⟨-, q, o, h1, h2, -⟩ := h.inv.front.each f hf
    exact ⟨q, o, h1, h2⟩
  have hT := fun x => theta_cnots hgl.io hfn h.form hq x cs hc hrect hl
  by_cases hcs : cs = []
  · subst hcs
    rw [if_pos rfl, Option.some.injEq] at e
    subst e
    have : l = [] := by simpa [cnotGates] using hl.symm
    subst this
    refine ⟨?_, h.form, h.gad, hrect, ?_⟩
    · simpa using h.inv
    · intro i hi j hj
      show s.g.adj _ _ = (if Mat2.get (GFlow.biAdj s.g ns s.frontier) i j = true then _ else _)
      have hi : i < s.frontier.length := hi
      rw [get_biAdj _ _ _ hi hj, hw.symm]
      by_cases hn : s.g.adj (ns.getD j 0) (s.frontier.getD i 0) = none
      · rw [hn]; rfl
      · rw [if_pos (by rw [decide_eq_true_eq]; exact hn), hw.symm]
        exact h.form.had _ (List.mem_toFinset.mpr (getD_mem hi)) _ (List.mem_toFinset.mpr (getD_mem hj)) (by rw [hw.symm]; exact hn)
  · rw [if_neg hcs] at e
    have hdisj : ∀ j ∈ ns, j ∉ s.frontier := fun j hj hc =>
      h.form.nbF j (List.mem_toFinset.mpr hj) (List.mem_toFinset.mpr hc)
    obtain ⟨k1, k2, k3⟩ := connectivity_spec hw hfn h.nodup hdisj (fun f hf j hj =>
      h.form.had f (List.mem_toFinset.mpr hf) j (List.mem_toFinset.mpr hj)) e
    generalize hm' : addRows (GFlow.biAdj s.g ns s.frontier) cs = m' at *
    -- edges that do not change
    have hsame : ∀ a b, ¬ (a ∈ s.frontier ∧ b ∈ ns) → ¬ (a ∈ ns ∧ b ∈ s.frontier) → g1.adj a b = s.g.adj a b := by
      intro a b h1 h2
      refine k3 a b fun i hi j hj hsp => ?_
      rcases hsp with ⟨c1, c2⟩ | ⟨c1, c2⟩ <;> simp only at c1 c2
      · exact h1 ⟨by rw [c1]; exact getD_mem hi, by rw [c2]; exact getD_mem hj⟩
      · exact h2 ⟨by rw [c1]; exact getD_mem hj, by rw [c2]; exact getD_mem hi⟩
    have hsame1 : ∀ a, a ∉ s.frontier → a ∉ ns → ∀ b, g1.adj a b = s.g.adj a b := fun a h1 h2 b =>
      hsame a b (fun c => h1 c.1) (fun c => h2 c.1)
    have hnZ : ∀ j ∈ ns, s.g.ty j = .Z := fun j hj => (h.form.nbZ j (List.mem_toFinset.mpr hj)).2
    have hfZ : ∀ f ∈ s.frontier, s.g.ty f = .Z := fun f hf => (h.inv.front.each f hf).1
    have hbnd : ∀ b, s.g.ty b = .boundary → ∀ u, g1.adj b u = s.g.adj b u := fun b hb u => by
      refine hsame1 b (fun hc => ?_) (fun hc => ?_) u
      · rw [hfZ b hc] at hb; simp at hb
      · rw [hnZ b hc] at hb; simp at hb
    have hbnd' : ∀ b, s.g.ty b = .boundary → ∀ u, g1.adj u b = s.g.adj u b := fun b hb u => by
      rw [k1.wf.symm, hw.symm]; exact hbnd b hb u
    have hzh : g1.ZHad := by
      intro a b ta tb hab
      rw [k1.ty] at ta tb
      by_cases c1 : a ∈ s.frontier ∧ b ∈ ns
      · obtain ⟨i, hi, e1⟩ := getD_of_mem c1.1
        obtain ⟨j, hj, e2⟩ := getD_of_mem c1.2
        have := k2 i hi j hj
        rw [e1, e2] at this
        rw [this] at hab ⊢
        by_cases hm : Mat2.get m' i j = true
        · rw [if_pos hm]
        · rw [if_neg hm] at hab; simp at hab
      · by_cases c2 : a ∈ ns ∧ b ∈ s.frontier
        · obtain ⟨i, hi, e1⟩ := getD_of_mem c2.2
          obtain ⟨j, hj, e2⟩ := getD_of_mem c2.1
          have := k2 i hi j hj
          rw [e1, e2] at this
          rw [k1.wf.symm, this] at hab ⊢
          by_cases hm : Mat2.get m' i j = true
          · rw [if_pos hm]
          · rw [if_neg hm] at hab; simp at hab
        · rw [hsame a b c1 c2] at hab ⊢
          exact hgl.zh a b ta tb hab
    have hout : outOf g1 s.qmap = outOf s.g s.qmap := by
      funext f; unfold outOf; rw [k1.outputs]
    have hform : FrontForm g1 s.frontier.toFinset ns.toFinset (outOf g1 s.qmap) := by
      rw [hout]
      refine ⟨?_, ?_, ?_, ?_, ?_, ?_, h.form.nbF, ?_⟩
      · intro f hf
        have hl := h.form.leaf f hf
        exact ⟨by rw [k1.verts]; exact hl.mem, by rw [k1.ty]; exact hl.bnd, by rw [hbnd _ hl.bnd]; exact hl.adj, fun u hu => hl.only u (by rw [← hbnd _ hl.bnd]; exact hu)⟩
      · intro f hf
        rw [hbnd' _ (h.form.leaf f hf).bnd]; exact h.form.simple f hf
      · intro f hf; rw [k1.ty]; exact h.form.ty f hf
      · intro f hf; rw [k1.phase]; exact h.form.ph f hf
      · intro f hf u hu
        by_cases c1 : u ∈ ns
        · exact Or.inr (List.mem_toFinset.mpr c1)
        · rw [hsame f u (fun c => c1 c.2) (fun c => hdisj f c.1 (List.mem_toFinset.mp hf))] at hu
          exact h.form.nb f hf u hu
      · intro j hj
        rw [k1.verts, k1.ty]; exact h.form.nbZ j hj
      · intro f hf j hj hne
        exact hzh f j (by rw [k1.ty]; exact h.form.ty f hf) (by rw [k1.ty]; exact (h.form.nbZ j hj).2) hne
    -- semantics
    have hE : GExt s.g g1 l := by
      obtain ⟨z, hz, e1⟩ := sem_theta hw hfn h.nodup h.form
      obtain ⟨z', hz', e2⟩ := sem_theta k1.wf hfn h.nodup hform
      have e3 : ∀ b, theta g1 s.frontier ns (outOf g1 s.qmap) (GFlow.biAdj g1 ns s.frontier) b =
          theta s.g s.frontier ns (outOf s.g s.qmap) m' b := by
        intro b
        rw [hout]
        unfold theta
        have hint : g1.interior = s.g.interior := by unfold Graph.interior; rw [k1.verts, k1.ty]
        rw [hint]
        congr 1
        funext x
        congr 1
        · have hrest : restOf g1 s.frontier.toFinset (outOf s.g s.qmap) = restOf s.g s.frontier.toFinset (outOf s.g s.qmap) := by
            unfold restOf; rw [k1.verts]
          rw [hrest]
          refine wOn_congr (by rw [k1.scalar]) (fun u hu => ?_) fun u hu v hv _ => ?_
          · unfold vval; rw [k1.ty, k1.phase, k1.label]
          · have n1 : u ∉ s.frontier := fun hc => (Finset.mem_sdiff.mp hu).2 (Finset.mem_union_left _ (List.mem_toFinset.mpr hc))
            have n2 : v ∉ s.frontier := fun hc => (Finset.mem_sdiff.mp hv).2 (Finset.mem_union_left _ (List.mem_toFinset.mpr hc))
            unfold edgeK eff isX
            rw [hsame u v (fun c => n1 c.1) (fun c => n2 c.2), k1.ty]
        · unfold mSign
          refine Finset.prod_congr rfl fun i hi => Finset.prod_congr rfl fun j hj => ?_
          have hi := Finset.mem_range.mp hi
          have hj := Finset.mem_range.mp hj
          rw [get_biAdj _ _ _ hi hj, k1.wf.symm, k2 i hi j hj]
          cases Mat2.get m' i j <;> simp
      refine ⟨k1.inputs, k1.outputs, (hT fun _ => false).1, z * z'⁻¹, mul_ne_zero hz (inv_ne_zero hz'), fun x => ?_⟩
      obtain ⟨-, -, e4⟩ := hT x
      have e5 : g1.mat x = fun y => z' * theta s.g s.frontier ns (outOf s.g s.qmap) m' (s.g.bval x y) := by
        funext y
        show g1.sem _ = _
        rw [e2, e3, bval_congr k1.inputs k1.outputs]
      funext y
      show s.g.sem _ = _
      rw [e1, e5, semGates_smul]
      rw [congrFun e4 y]
      field_simp
    -- the invariant
    have hoff : ∀ w ∈ s.gadgets, w ∉ s.frontier ∧ w ∉ ns := fun w hw' => ⟨(h.inv.gad w hw').off, fun hc => h.gad w hc hw'⟩
    refine ⟨⟨?_, h.inv.onto.ext hE, h.inv.ext.trans hE, ?_, ?_⟩, hform, h.gad, (hT fun _ => false).2.1, k2⟩
    · exact hgl.of k1.wf k1.verts k1.ty k1.inputs k1.outputs (by
        show ∀ v ∈ s.g.verts, Reduced (g1.phase v)
        rw [k1.phase]; exact hgl.zx.phases) (fun b u hb => by
        show g1.adj b u = none ↔ _
        rw [hbnd b hb]) hzh
    · refine ⟨hfn, fun v hv => ?_, fun v hv o ho ha => ?_⟩
      · obtain ⟨h1, q, o, h2, h3, h4⟩ := h.inv.front.each v hv
        refine ⟨by show g1.ty v = _; rw [k1.ty]; exact h1, q, o, h2, by show g1.outputs[q]? = _; rw [k1.outputs]; exact h3, ?_⟩
        show g1.adj v o ≠ none
        rw [hbnd' o (hw.io o (Or.inr (List.mem_of_getElem? h3)))]; exact h4
      · have hv : g1.ty v = .Z := hv
        have ho : o ∈ g1.outputs := ho
        have ha : g1.adj v o ≠ none := ha
        rw [k1.ty] at hv
        rw [k1.outputs] at ho
        rw [hbnd' o (hw.io o (Or.inr ho))] at ha
        rcases h.inv.front.cover v hv o ho ha with h1 | h1
        · exact Or.inl h1
        · by_cases hvf : v ∈ s.frontier
          · exact Or.inl hvf
          · right
            intro u hu
            have hu : g1.adj v u ≠ none := hu
            show g1.ty u = _
            rw [k1.ty]
            have hvn : v ∉ ns := by
              intro hc
              obtain ⟨f, hf, hfa⟩ := h.touch v hc
              have := h1 f (by rw [hw.symm]; exact hfa)
              rw [hfZ f hf] at this; simp at this
            rw [hsame1 v hvf hvn] at hu
            exact h1 u hu
    · intro w hw'
      have hG := h.inv.gad w hw'
      refine hG.of (fun u _ => by show g1.ty u = _; rw [k1.ty]) (by show g1.phase w = _; rw [k1.phase]) ?_
      intro u hu x
      show g1.adj u x = none ↔ _
      have : u ∉ s.frontier ∧ u ∉ ns := by
        rcases hu with rfl | ⟨hu1, hu2⟩
        · exact hoff u hw'
        · refine ⟨fun hc => ?_, fun hc => ?_⟩
          · obtain ⟨-, q, o, -, h3, h4⟩ := h.inv.front.each u hc
            have h5 := hu2 o h4
            have h6 := hw.io o (Or.inr (List.mem_of_getElem? h3))
            rw [h5, hG.ty] at h6; simp at h6
          · obtain ⟨f, hf, hfa⟩ := h.touch u hc
            have := hu2 f (by rw [hw.symm]; exact hfa)
            exact hG.off (this ▸ hf)
      rw [hsame1 u this.1 this.2]

end Extract
end PyZX
