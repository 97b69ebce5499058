import Verif.Proofs.ExtInv

/-!
# `clean_frontier`: the CZ gates
-/

namespace PyZX
namespace Extract

open Finset Graph Simplify

/-- The invariant of the loop that collects the edges of the frontier. -/
structure CzI (s : State) (p : Graph × (ℕ → ℕ → Bool)) : Prop where
  frame : SameFrame s.g p.1
  phase : p.1.phase = s.g.phase
  wf : p.1.WF
  sub : ∀ u v, p.1.adj u v ≠ none → p.1.adj u v = s.g.adj u v
  off : ∀ u, u ∉ s.frontier → ∀ x, p.1.adj u x = s.g.adj u x
  sym : SymTab p.2
  tab : ∀ v ∈ s.frontier, ∀ w ∈ s.frontier, ∀ qv qw, s.qmap v = some qv → s.qmap w = some qw → p.2 qv qw = true → p.1.adj v w = none
  sem : ∃ z : ℂ, z ≠ 0 ∧ ∀ x y, s.g.mat x y = z * (dsign s.g.outputs.length p.2 y * p.1.mat x y)

theorem CzI.bnd {s : State} {p : Graph × (ℕ → ℕ → Bool)} (h : CzI s p) {g0 : Graph} (hs : LoopInv g0 s) {b : ℕ} (hb : s.g.ty b = .boundary)
    (u : ℕ) : p.1.adj b u = s.g.adj b u := by
  refine h.off b (fun hc => ?_) u
  have := (hs.front.each b hc).1
  rw [hb] at this
  simp at this

theorem CzI.io {s : State} {p : Graph × (ℕ → ℕ → Bool)} (h : CzI s p) {g0 : Graph} (hs : LoopInv g0 s) : p.1.IO :=
  ⟨by rw [h.frame.inputs]; exact hs.gl.io.nodupIn, by rw [h.frame.outputs]; exact hs.gl.io.nodupOut,
    by rw [h.frame.inputs, h.frame.outputs]; exact hs.gl.io.disj,
    by rw [h.frame.verts, h.frame.ty, h.frame.inputs, h.frame.outputs]; exact hs.gl.io.all⟩

theorem czEdge_spec {g0 : Graph} {s : State} (hs : LoopInv g0 s) (hcl : Clean s.g s.frontier) {v : ℕ} (hv : v ∈ s.frontier)
    {p p' : Graph × (ℕ → ℕ → Bool)} (h : CzI s p) {w : ℕ} (e : czEdge s v p w = some p') :
    CzI s p' ∧ (w ∈ s.frontier → p'.1.adj v w = none) ∧ ∀ u x, p'.1.adj u x ≠ none → p.1.adj u x ≠ none := by
  unfold czEdge at e
  by_cases hw : w ∈ s.frontier
  swap
  · rw [if_neg hw] at e
    obtain rfl := Option.some.inj e
    exact ⟨h, fun hc => absurd hc hw, fun _ _ hx => hx⟩
  rw [if_pos hw] at e
  obtain ⟨hz, q, b, hq, hb, hab⟩ := hs.front.each v hv
  obtain ⟨hz', q', b', hq', hb', hab'⟩ := hs.front.each w hw
  rw [hq, hq', Option.bind_some, Option.bind_some, Option.map_eq_some_iff] at e
  obtain ⟨g', hr, rfl⟩ := e
  obtain ⟨r1, r2, r3⟩ := removeEdge_eq hr
  have hf := removeEdge_frame hr
  have hwf := h.wf.removeEdge hr
  have hbt : s.g.ty b = .boundary := hs.gl.zx.wf.io b (Or.inr (List.mem_of_getElem? hb))
  have hbt' : s.g.ty b' = .boundary := hs.gl.zx.wf.io b' (Or.inr (List.mem_of_getElem? hb'))
  have hadj : ∀ u x, g'.adj u x = if (u = v ∧ x = w) ∨ (u = w ∧ x = v) then none else p.1.adj u x := by
    intro u x; rw [r3]; rfl
  have hbv : p.1.adj v b = s.g.adj v b := by rw [h.wf.symm, h.bnd hs hbt, hs.gl.zx.wf.symm]
  have hbw : p.1.adj w b' = s.g.adj w b' := by rw [h.wf.symm, h.bnd hs hbt', hs.gl.zx.wf.symm]
  have hl : Leaf p.1 b v := by
    have := hs.gl.leaf hbt hab
    exact ⟨by rw [h.frame.verts]; exact this.mem, by rw [h.frame.ty]; exact hbt, by rw [h.bnd hs hbt]; exact this.adj,
      fun x hx => this.only x (by rw [← h.bnd hs hbt]; exact hx)⟩
  have hl' : Leaf p.1 b' w := by
    have := hs.gl.leaf hbt' hab'
    exact ⟨by rw [h.frame.verts]; exact this.mem, by rw [h.frame.ty]; exact hbt', by rw [h.bnd hs hbt']; exact this.adj,
      fun x hx => this.only x (by rw [← h.bnd hs hbt']; exact hx)⟩
  have hqq : q ≠ q' := by
    rintro rfl
    rw [hb] at hb'
    obtain rfl := Option.some.inj hb'
    exact r2 (hl'.only v hl.adj)
  have hqn : q < s.g.outputs.length := (List.getElem?_eq_some_iff.mp hb).1
  have hqn' : q' < s.g.outputs.length := (List.getElem?_eq_some_iff.mp hb').1
  have hm : p.2 q q' = false := by
    rcases hc : p.2 q q' with _ | _
    · rfl
    · exact absurd (h.tab v hv w hw q q' hq hq' hc) r1
  have hsem := Graph.sem_cz h.wf hl hl' (by rw [h.frame.ty]; exact hz) (by rw [h.frame.ty]; exact hz')
    (by rw [hbv]; exact (hcl v hv).2 b (List.mem_of_getElem? hb) hab) (by rw [hbw]; exact (hcl w hw).2 b' (List.mem_of_getElem? hb') hab')
    (by rw [h.sub v w r1]; exact hs.gl.zh v w hz hz' (by rw [← h.sub v w r1]; exact r1)) hr
  refine ⟨⟨h.frame.trans hf, by rw [r3]; exact h.phase, hwf, ?_, ?_, h.sym.set hqq true, ?_, ?_⟩, ?_, ?_⟩
  · intro u x hx
    show g'.adj u x = _
    have hx : g'.adj u x ≠ none := hx
    rw [hadj] at hx ⊢
    by_cases hc : (u = v ∧ x = w) ∨ (u = w ∧ x = v)
    · rw [if_pos hc] at hx; exact absurd rfl hx
    · rw [if_neg hc] at hx ⊢; exact h.sub u x hx
  · intro u hu x
    show g'.adj u x = _
    rw [hadj, if_neg, h.off u hu]
    rintro (⟨rfl, -⟩ | ⟨rfl, -⟩)
    · exact hu hv
    · exact hu hw
  · intro a ha c hc qa qc hqa hqc ht
    show g'.adj a c = none
    rw [hadj]
    by_cases hcc : (a = v ∧ c = w) ∨ (a = w ∧ c = v)
    · rw [if_pos hcc]
    · rw [if_neg hcc]
      have hinj : ∀ f ∈ s.frontier, ∀ f' ∈ s.frontier, s.qmap f = s.qmap f' → f = f' := by
        intro f hf f' hf' e
        obtain ⟨-, q1, o1, h1, h2, h3⟩ := hs.front.each f hf
        obtain ⟨-, q2, o2, h1', h2', h3'⟩ := hs.front.each f' hf'
        rw [h1, h1'] at e
        obtain rfl := Option.some.inj e
        rw [h2] at h2'
        obtain rfl := Option.some.inj h2'
        have hbt1 := hs.gl.zx.wf.io o1 (Or.inr (List.mem_of_getElem? h2))
        exact (hs.gl.leaf hbt1 h3').only f (by rw [hs.gl.zx.wf.symm]; exact h3)
      refine h.tab a ha c hc qa qc hqa hqc ?_
      simp only [setPair] at ht
      rwa [if_neg] at ht
      rintro (⟨rfl, rfl⟩ | ⟨rfl, rfl⟩)
      · exact hcc (Or.inl ⟨hinj a ha v hv (hqa.trans hq.symm), hinj c hc w hw (hqc.trans hq'.symm)⟩)
      · exact hcc (Or.inr ⟨hinj a ha w hw (hqa.trans hq'.symm), hinj c hc v hv (hqc.trans hq.symm)⟩)
  · obtain ⟨z, hz0, hz1⟩ := h.sem
    refine ⟨z * sq2⁻¹, mul_ne_zero hz0 (inv_ne_zero sq2_ne_zero), fun x y => ?_⟩
    have hb1 : p.1.outputs[q]? = some b := by rw [h.frame.outputs]; exact hb
    have hb2 : p.1.outputs[q']? = some b' := by rw [h.frame.outputs]; exact hb'
    have e1 : p.1.mat x y = hmat (y q) (y q') * g'.mat x y := by
      show p.1.sem _ = _ * g'.sem _
      rw [hsem, bval_out (h.io hs) hb1, bval_out (h.io hs) hb2, bval_congr hf.inputs hf.outputs]
    rw [hz1, e1, dsign_set hqn hqn' hqq h.sym hm]
    have e2 : hmat (y q) (y q') = sq2⁻¹ * bsgn (y q && y q') := by
      cases y q <;> cases y q' <;> simp [hmat, bsgn]
    rw [e2]
    ring
  · intro _
    show g'.adj v w = none
    rw [hadj, if_pos (Or.inl ⟨rfl, rfl⟩)]
  · intro u x hx
    have hx : g'.adj u x ≠ none := hx
    rw [hadj] at hx
    by_cases hc : (u = v ∧ x = w) ∨ (u = w ∧ x = v)
    · rw [if_pos hc] at hx; exact absurd rfl hx
    · rw [if_neg hc] at hx; exact hx

theorem czEdges_spec {g0 : Graph} {s : State} (hs : LoopInv g0 s) (hcl : Clean s.g s.frontier) {v : ℕ} (hv : v ∈ s.frontier) :
    ∀ (l : List ℕ) {p p' : Graph × (ℕ → ℕ → Bool)}, CzI s p → l.foldlM (czEdge s v) p = some p' →
    CzI s p' ∧ (∀ w ∈ l, w ∈ s.frontier → p'.1.adj v w = none) ∧ ∀ u x, p'.1.adj u x ≠ none → p.1.adj u x ≠ none := by
  intro l
  induction l with
  | nil =>
    intro p p' h e
    rw [List.foldlM_nil] at e
    obtain rfl := Option.some.inj e
    exact ⟨h, by simp, fun _ _ h => h⟩
  | cons w l ih =>
    intro p p' h e
    rw [List.foldlM_cons] at e
    obtain ⟨p1, e1, e2⟩ := Option.bind_eq_some_iff.mp e
    obtain ⟨h1, h2, h3⟩ := czEdge_spec hs hcl hv h e1
    obtain ⟨q1, q2, q3⟩ := ih h1 e2
    refine ⟨q1, fun u hu huf => ?_, fun u x hx => h3 u x (q3 u x hx)⟩
    rcases List.mem_cons.mp hu with rfl | hu
    · by_contra hc
      exact q3 v u hc (h2 huf)
    · exact q2 u hu huf

theorem czCollect_spec {o : Orders} (ho : o.OK) {g0 : Graph} {s : State} (hs : LoopInv g0 s) (hcl : Clean s.g s.frontier)
    {p : Graph × (ℕ → ℕ → Bool)} (e : czCollect o s = some p) :
    CzI s p ∧ ∀ v ∈ s.frontier, ∀ w ∈ s.frontier, p.1.adj v w = none := by
  have key : ∀ (l : List ℕ) {p p' : Graph × (ℕ → ℕ → Bool)}, (∀ v ∈ l, v ∈ s.frontier) → CzI s p →
      l.foldlM (fun p v => (o.nbr p.1 v).foldlM (czEdge s v) p) p = some p' →
      CzI s p' ∧ (∀ v ∈ l, ∀ w ∈ s.frontier, p'.1.adj v w = none) ∧ ∀ u x, p'.1.adj u x ≠ none → p.1.adj u x ≠ none := by
    intro l
    induction l with
    | nil =>
      intro p p' _ h e
      rw [List.foldlM_nil] at e
      obtain rfl := Option.some.inj e
      exact ⟨h, by simp, fun _ _ h => h⟩
    | cons v l ih =>
      intro p p' hl h e
      rw [List.foldlM_cons] at e
      obtain ⟨p1, e1, e2⟩ := Option.bind_eq_some_iff.mp e
      obtain ⟨h1, h2, h3⟩ := czEdges_spec hs hcl (hl v (by simp)) _ h e1
      obtain ⟨q1, q2, q3⟩ := ih (fun u hu => hl u (by simp [hu])) h1 e2
      refine ⟨q1, fun u hu w hw => ?_, fun u x hx => h3 u x (q3 u x hx)⟩
      rcases List.mem_cons.mp hu with rfl | hu
      · by_contra hc
        have hc1 := q3 u w hc
        have hc2 := h3 u w hc1
        refine hc1 (h2 w ?_ hw)
        rw [← List.mem_toFinset, (ho.nbr p.1 u (h.wf.mem _ _ hc2)).2, mem_nbrs h.wf.toInv]
        exact hc2
      · exact q2 u hu w hw
  have h0 : CzI s (s.g, fun _ _ => false) :=
    ⟨SameFrame.refl _, rfl, hs.gl.zx.wf, fun _ _ _ => rfl, fun _ _ _ => rfl, ⟨fun _ _ => rfl, fun _ => rfl⟩, fun _ _ _ _ _ _ _ _ h => by simp at h,
      1, one_ne_zero, fun x y => by rw [dsign_zero, one_mul, one_mul]⟩
  obtain ⟨h1, h2, -⟩ := key s.frontier (fun _ h => h) h0 e
  exact ⟨h1, h2⟩

/-- What is known after `clean_frontier`. -/
theorem cleanFrontier_spec {o : Orders} (ho : o.OK) {g0 : Graph} {opt : Bool} {fuel : ℕ} {s s' : State} (hs : LoopInv g0 s)
    (e : cleanFrontier o opt fuel s = .ok s') :
    LoopInv g0 s' ∧ s'.frontier = s.frontier ∧ Clean s'.g s'.frontier ∧ ∀ v ∈ s'.frontier, ∀ w ∈ s'.frontier, s'.g.adj v w = none := by
  unfold cleanFrontier at e
  rcases h1 : s.frontier.foldlM (cleanVertex o) s with _ | s1
  · rw [h1] at e; simp [ofOption, Out.bind] at e
  rw [h1] at e
  simp only [ofOption, Out.bind] at e
  obtain ⟨k1, k2, k3⟩ := cleanVertices_spec ho s.frontier (T := []) hs (fun _ h => h) (by simp) (by intro v hv; simp at hv) h1
  rw [List.append_nil, ← k2] at k3
  rcases h2 : czCollect o s1 with _ | p
  · rw [h2] at e; simp at e
  rw [h2] at e
  simp only at e
  obtain ⟨q1, q2⟩ := czCollect_spec ho k1 k3 h2
  obtain ⟨r, hr⟩ : ∃ r, r = (if opt then (if s1.g.outputs.length = 0 then .raised else czOptimize s1.g.outputs.length fuel p.2 s1.gates)
    else .ok (p.2, s1.gates) : Out ((ℕ → ℕ → Bool) × List Gate)) := ⟨_, rfl⟩
  rw [← hr] at e
  rcases r with _ | _ | r
  · simp at e
  · simp at e
  simp only [Out.ok.injEq] at e
  have hopt : ∃ ds : List Gate, r.2 = s1.gates ++ ds ∧ (∀ a ∈ ds, (a.adjointOK = true ∧ a.qubits.Nodup) ∧ ∀ q ∈ a.qubits, q < s1.g.outputs.length) ∧
      ∀ (ψ : QState) y, dsign s1.g.outputs.length p.2 y * ψ y = semGates ds.reverse (fun y => dsign s1.g.outputs.length r.1 y * ψ y) y := by
    cases opt with
    | false =>
      simp only [Bool.false_eq_true, if_false, Out.ok.injEq] at hr
      subst hr
      exact ⟨[], by simp, by simp, fun ψ y => by rw [List.reverse_nil, semGates_nil]⟩
    | true =>
      simp only [if_true] at hr
      by_cases hn : s1.g.outputs.length = 0
      · rw [if_pos hn] at hr; simp at hr
      · rw [if_neg hn] at hr
        exact czOptimize_spec fuel q1.sym (m' := r.1) (c' := r.2) hr.symm
  obtain ⟨ds, hd1, hd2, hd3⟩ := hopt
  obtain ⟨z, hz, hsem⟩ := q1.sem
  have hE : GExt s1.g p.1 (ds ++ czRest s1.g.outputs.length r.1) := by
    refine ⟨q1.frame.inputs, q1.frame.outputs, fun a ha => ?_, z, hz, fun x => ?_⟩
    · rcases List.mem_append.mp ha with ha | ha
      · exact hd2 a ha
      · simp only [czRest, List.mem_map, List.mem_filter] at ha
        obtain ⟨pr, ⟨hp, -⟩, rfl⟩ := ha
        obtain ⟨p1, p2, p3⟩ := mem_upairs.mp hp
        simp [Gate.adjointOK, Gate.qubits, p1, p2, p3.ne]
    · funext y
      rw [hsem, List.reverse_append, semGates_append, hd3]
      congr 2
      funext y'
      rw [czRest_apply]
  subst e
  refine ⟨⟨?_, k1.onto.ext hE, ?_, ?_, ?_⟩, k2, ?_, q2⟩
  · refine k1.gl.of q1.wf q1.frame.verts q1.frame.ty q1.frame.inputs q1.frame.outputs ?_ (fun b u hb => by rw [q1.bnd k1 hb]) ?_
    · intro v hv; rw [q1.phase]; exact k1.gl.zx.phases v hv
    · intro u v h1 h2 h3
      rw [q1.sub u v h3]
      rw [q1.frame.ty] at h1 h2
      exact k1.gl.zh u v h1 h2 (by rw [← q1.sub u v h3]; exact h3)
  · show GExt g0 p.1 (r.2 ++ _)
    rw [hd1, List.append_assoc]
    exact k1.ext.trans hE
  · refine k1.front.of k1.gl.zx.wf q1.wf q1.frame.ty q1.frame.outputs (fun b u hb => by rw [q1.bnd k1 hb]) ?_
    intro v hv u hu
    exact hv u (by rw [← q1.sub v u hu]; exact hu)
  · intro w hw
    have hgw := k1.gad w hw
    refine hgw.of (fun u _ => by rw [q1.frame.ty]) (by rw [q1.phase]) ?_
    intro u hu x
    have huf : u ∉ s1.frontier := by
      rcases hu with rfl | ⟨-, hu⟩
      · exact hgw.off
      · intro hc
        obtain ⟨-, q, b, -, hb, hab⟩ := k1.front.each u hc
        have := hu b hab
        subst this
        have := k1.gl.zx.wf.io b (Or.inr (List.mem_of_getElem? hb))
        rw [hgw.ty] at this
        simp at this
    show p.1.adj u x = none ↔ _
    rw [q1.off u huf]
  · intro v hv
    obtain ⟨c1, c2⟩ := k3 v hv
    refine ⟨by show p.1.phase v = 0; rw [q1.phase]; exact c1, fun b hb hab => ?_⟩
    have hb : b ∈ s1.g.outputs := by rw [← q1.frame.outputs]; exact hb
    show p.1.adj v b = _
    have hab : p.1.adj v b ≠ none := hab
    have e1 := q1.sub v b hab
    rw [e1]
    exact c2 b hb (by rw [← e1]; exact hab)

end Extract
end PyZX
