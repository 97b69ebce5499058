import Verif.Proofs.SimpRules

/-!
# The rewrite rules do not change the phases stored at boundaries
-/

namespace PyZX
namespace Graph

theorem addEdge_bph {g g' : Graph} {s t : ℕ} {e : EType} (h : g.addEdge s t e = some g') {v : ℕ} (hv : g.ty v = .boundary) :
    g'.phase v = g.phase v := by
  obtain ⟨hs, ⟨hn, ht, rfl⟩ | ⟨e1, hn, z1, z2, ⟨-, -, rfl⟩ | ⟨-, f, -, -, rfl⟩ | ⟨-, -, -, rfl⟩⟩⟩ := addEdge_cases h
  · rfl
  · rfl
  · split
    · rfl
    · show Function.update g.phase s _ v = _
      rw [Function.update_of_ne]
      rintro rfl
      rw [hv] at z1; simp [VType.zxLike, VType.zLike] at z1
  · rfl

theorem addEdgeN_bph {g g' : Graph} {s t n : ℕ} {e : EType} (h : g.addEdgeN s t e n = some g') {v : ℕ} (hv : g.ty v = .boundary) :
    g'.phase v = g.phase v := by
  induction n generalizing g with
  | zero => simp only [addEdgeN, Option.some.injEq] at h; rw [← h]
  | succ n ih =>
    simp only [addEdgeN] at h
    obtain ⟨g1, h1, h2⟩ := Option.bind_eq_some_iff.mp h
    rw [ih h2 (by rw [(addEdge_frame h1).ty]; exact hv), addEdge_bph h1 hv]

theorem addEdgeTable_bph {g g' : Graph} {t : ETab} (h : g.addEdgeTable t = some g') {v : ℕ} (hv : g.ty v = .boundary) :
    g'.phase v = g.phase v := by
  induction t generalizing g with
  | nil => simp only [addEdgeTable, List.foldlM_nil, Option.pure_def, Option.some.injEq] at h; rw [← h]
  | cons e t ih =>
    obtain ⟨g1, g2, h1, h2, h3⟩ := addEdgeTable_cons h
    have e1 := (addEdgeN_ty h1).1
    have e2 := (addEdgeN_ty h2).1
    rw [ih h3 (by rw [e2, e1]; exact hv), addEdgeN_bph h2 (by rw [e1]; exact hv), addEdgeN_bph h1 hv]

theorem finish_bph {s : RewriteState} {g' : Graph} (h : s.finish = some g') {v : ℕ} (hv : s.g.ty v = .boundary) :
    g'.phase v = s.g.phase v := by
  unfold RewriteState.finish at h
  obtain ⟨g1, h1, h⟩ := Option.bind_eq_some_iff.mp h
  obtain ⟨g2, h2, h3⟩ := Option.bind_eq_some_iff.mp h
  obtain ⟨hr, -, -, -⟩ := removeVertices_spec h3
  obtain ⟨-, -, b3, -⟩ := removeEdges_same h2
  rw [hr.phase, b3, addEdgeTable_bph h1 hv]

/-! ### The rules -/

theorem removeIds_bph {g g' : Graph} {ms : List Rules.IdMatch} (h : IdsOK g ms) (hf : (Rules.removeIds g ms).finish = some g') :
    BPh g g' := by
  intro v _ hv
  have h1 := (ids_fold g ms h).1
  rw [finish_bph hf (by rw [h1]; exact hv), h1]

theorem lcompLoop_other (a : ℚ) (ns : List ℕ) {w : ℕ} (hw : w ∉ ns) : ∀ (g : Graph) (t : ETab),
    (Rules.lcompLoop a g t ns).1.phase w = g.phase w := by
  induction ns with
  | nil => intro g t; rfl
  | cons n ns ih =>
    intro g t
    have h1 := ih (fun h => hw (by simp [h])) (g.addToPhase n (-a)) (Rules.lcompInner t n ns)
    refine Eq.trans h1 ?_
    show Function.update g.phase n _ w = _
    rw [Function.update_of_ne]
    rintro rfl
    exact hw (by simp)

theorem lcomp_bph {g g' : Graph} {ms : List Rules.LcompMatch} (h : LcompOK g ms) (hf : (Rules.lcomp g ms).finish = some g') : BPh g g' := by
  intro v _ hv
  have hs := (lcomp_fold ms h).1
  rw [finish_bph hf (by rw [hs.ty]; exact hv)]
  have key : ∀ (l : List Rules.LcompMatch) (s : RewriteState), (∀ m ∈ l, v ∉ m.vn) → (l.foldl Rules.lcompStep s).g.phase v = s.g.phase v := by
    intro l
    induction l with
    | nil => intro s _; rfl
    | cons m l ih =>
      intro s hl
      rw [List.foldl_cons, ih _ fun m hm => hl m (by simp [hm])]
      set g1 := if (s.g.phase m.v).num = 1 then s.g.addScalarPhase (1 / 4) else s.g.addScalarPhase (7 / 4) with hg1
      set g2 := g1.addPower ((((m.vn.length : ℤ) - 2) * ((m.vn.length : ℤ) - 1)) / 2) with hg2
      have hstep : (Rules.lcompStep s m).g = (Rules.lcompLoop (s.g.phase m.v) g2 s.etab m.vn).1 := rfl
      have hp2 : g2.phase = s.g.phase := by show g1.phase = _; rw [hg1]; split <;> rfl
      rw [hstep, lcompLoop_other _ _ (hl m (by simp)), hp2]
  refine key ms _ fun m hm hvm => ?_
  have := (h.nty m hm v hvm).1
  rw [hv] at this; simp at this

theorem spider_bph {P : ℚ → Prop} (hP : PhaseSet P) {g g' : Graph} (hg : g.ZX P) {ord : ℕ → List ℕ} {row0 : ℕ → Bool}
    {ms : List (ℕ × ℕ)} (h : SpiderOK g (ms.map (Rules.spiderPair row0))) (hf : (Rules.spider row0 ord g ms).finish = some g') : BPh g g' := by
  intro v _ hv
  set ps := ms.map (Rules.spiderPair row0) with hps
  have hmv : ∀ p ∈ ps, p.2 ∈ g.verts ∧ p.1 ∈ g.verts := fun p hp =>
    ⟨hg.wf.toInv.mem' (u := p.1) (by rw [h.adj p hp]; simp), hg.wf.mem _ p.2 (by rw [h.adj p hp]; simp)⟩
  obtain ⟨e1, -, -⟩ := spiderFold_same hP hg ord hmv ps (RewriteState.start g) (fun _ h => h) rfl rfl rfl hg.phases
  rw [finish_bph hf (by rw [show (Rules.spider row0 ord g ms).g.ty = _ from e1]; exact hv)]
  have nz : ∀ v ∈ g.verts, g.ty v ≠ .zbox := by
    intro v hv e
    rcases hg.types v hv with h | h | h <;> rw [h] at e <;> simp at e
  have key : ∀ (l : List (ℕ × ℕ)) (s : RewriteState), (∀ p ∈ l, p ∈ ps) → (∀ p ∈ l, v ≠ p.1) → s.g.ty = g.ty →
      (l.foldl (Rules.spiderStep ord) s).g.phase v = s.g.phase v := by
    intro l
    induction l with
    | nil => intro s _ _ _; rfl
    | cons p l ih =>
      intro s hps hl hty
      obtain ⟨q2, q1⟩ := hmv p (hps p (by simp))
      have hstep : (Rules.spiderStep ord s p).g = s.g.addToPhase p.1 (s.g.phase p.2) := by
        show Rules.spiderPhase s.g p.1 p.2 = _
        unfold Rules.spiderPhase
        rw [if_neg]
        rw [hty]
        rintro (e | e)
        · exact nz _ q1 e
        · exact nz _ q2 e
      rw [List.foldl_cons, ih _ (fun m hm => hps m (by simp [hm])) (fun m hm => hl m (by simp [hm])) (by rw [hstep]; exact hty), hstep]
      show Function.update s.g.phase p.1 _ v = _
      rw [Function.update_of_ne (hl p (by simp))]
  refine key ps _ (fun _ h => h) (fun p hp e => ?_) rfl
  rw [e] at hv
  rcases h.ty p hp with ⟨q, -⟩ | ⟨q, -⟩ <;> rw [hv] at q <;> simp [VType.zLike] at q

theorem addToPhases_other {a : ℚ} (vs : List ℕ) {w : ℕ} (hw : w ∉ vs) : ∀ (g : Graph), (Rules.addToPhases g vs a).phase w = g.phase w := by
  induction vs with
  | nil => intro g; rfl
  | cons v vs ih =>
    intro g
    refine (ih (fun h => hw (by simp [h])) (g.addToPhase v a)).trans ?_
    show Function.update g.phase v _ w = _
    rw [Function.update_of_ne]
    rintro rfl
    exact hw (by simp)

theorem pivotPhases_other {g : Graph} {v w : ℕ} {l l' : List ℕ} (h : w ∉ l) (h' : w ∉ l') : (Rules.pivotPhases g v l l').phase w = g.phase w := by
  unfold Rules.pivotPhases
  simp only
  split
  · rfl
  · show (Rules.addToPhases (Rules.addToPhases g l (g.phase v)) l' (g.phase v)).phase w = _
    rw [addToPhases_other _ h', addToPhases_other _ h]

theorem pivotStep_other {lst : Finset ℕ → List ℕ} (hlst : Rules.SetOrder lst) {s : RewriteState} {m : Rules.PivotMatch} {w : ℕ}
    (h0 : w ∉ Rules.pivotNbrs s.g m.v0 m.v1 m.b0) (h1 : w ∉ Rules.pivotNbrs s.g m.v1 m.v0 m.b1) :
    (Rules.pivotStep lst s m).g.phase w = s.g.phase w := by
  have hl : ∀ S : Finset ℕ, w ∉ S → w ∉ lst S := fun S hS h => hS (by rw [← (hlst S).2]; simpa using h)
  unfold Rules.pivotStep
  simp only [pivotBoundary_g]
  have q2 := hl (Rules.pivotNbrs s.g m.v0 m.v1 m.b0 ∩ Rules.pivotNbrs s.g m.v1 m.v0 m.b1) fun h => h0 (Finset.mem_inter.mp h).1
  have q0 := hl (Rules.pivotNbrs s.g m.v0 m.v1 m.b0 \ (Rules.pivotNbrs s.g m.v0 m.v1 m.b0 ∩ Rules.pivotNbrs s.g m.v1 m.v0 m.b1))
    fun h => h0 (Finset.mem_sdiff.mp h).1
  have q1 := hl (Rules.pivotNbrs s.g m.v1 m.v0 m.b1 \ (Rules.pivotNbrs s.g m.v0 m.v1 m.b0 ∩ Rules.pivotNbrs s.g m.v1 m.v0 m.b1))
    fun h => h1 (Finset.mem_sdiff.mp h).1
  revert q2 q0 q1
  generalize lst (Rules.pivotNbrs s.g m.v0 m.v1 m.b0 ∩ Rules.pivotNbrs s.g m.v1 m.v0 m.b1) = l2
  generalize lst (Rules.pivotNbrs s.g m.v0 m.v1 m.b0 \ (Rules.pivotNbrs s.g m.v0 m.v1 m.b0 ∩ Rules.pivotNbrs s.g m.v1 m.v0 m.b1)) = l0
  generalize lst (Rules.pivotNbrs s.g m.v1 m.v0 m.b1 \ (Rules.pivotNbrs s.g m.v0 m.v1 m.b0 ∩ Rules.pivotNbrs s.g m.v1 m.v0 m.b1)) = l1
  intro q2 q0 q1
  set g1 := s.g.addPower ((l0.length : ℤ) * l2.length + l1.length * l2.length + l0.length * l1.length) with hg1
  set g2 := Rules.addToPhases g1 l2 1 with hg2
  set g3 := (if g2.phase m.v0 ≠ 0 ∧ g2.phase m.v1 ≠ 0 then g2.addScalarPhase 1 else g2) with hg3
  have e2 : g2.phase w = s.g.phase w := addToPhases_other l2 q2 g1
  have e3 : g3.phase w = s.g.phase w := by rw [hg3]; split <;> exact e2
  generalize (if m.b0 = none ∧ m.b1 = none then -((l0.length : ℤ) + l1.length + 2 * l2.length - 1)
    else if m.b0 = none then -((l1.length : ℤ) + l2.length) else -((l0.length : ℤ) + l2.length)) = n
  rw [pivotPhases_other q0 q2, pivotPhases_other q1 q2]
  exact e3

theorem pivot_bph {g g' : Graph} (hg : g.WF) {lst : Finset ℕ → List ℕ} (hlst : Rules.SetOrder lst) {ms : List Rules.PivotMatch}
    (h : PivotOK g ms) (hf : (Rules.pivot lst g ms).finish = some g') : BPh g g' := by
  intro v _ hv
  have hs := (pivot_fold hg hlst ms h rfl).1
  rw [finish_bph hf (by rw [hs.ty]; exact hv)]
  have key : ∀ (l : List Rules.PivotMatch) (s : RewriteState), (∀ m ∈ l, PivotOK1 g m) → SameBut g s.g →
      (l.foldl (Rules.pivotStep lst) s).g.phase v = s.g.phase v := by
    intro l
    induction l with
    | nil => intro s _ _; rfl
    | cons m l ih =>
      intro s hl hs
      have hm := hl m (by simp)
      rw [List.foldl_cons, ih _ (fun m hm => hl m (by simp [hm])) (pivotStep_ge hg hlst hm hs hv).2]
      refine pivotStep_other hlst ?_ ?_
      · unfold Rules.pivotNbrs
        rw [hs.nbrs, Finset.mem_filter, Finset.mem_erase, mem_nbrs hg.toInv]
        rintro ⟨⟨-, h1⟩, h2⟩
        rcases hm.n0 v h1 with q | ⟨q, -⟩
        · exact h2 q
        · rw [hv] at q; simp at q
      · unfold Rules.pivotNbrs
        rw [hs.nbrs, Finset.mem_filter, Finset.mem_erase, mem_nbrs hg.toInv]
        rintro ⟨⟨-, h1⟩, h2⟩
        rcases hm.n1 v h1 with q | ⟨q, -⟩
        · exact h2 q
        · rw [hv] at q; simp at q
  exact key ms _ h.each (SameBut.refl g)

theorem toGH_bph {g : Graph} (hg : g.WF) {ord : ℕ → List ℕ} (ho : Rules.NbrOrder g ord) {vs : List ℕ} (hvs : vs.toFinset = g.verts) :
    BPh g (Simplify.toGH g ord vs) := by
  have hr : Recolored g (Simplify.toGH g ord vs) := by
    rw [Simplify.toGH_eq]
    exact Simplify.toRG_sound ord _ vs g hg ho fun v hv => by rw [← hvs]; simpa using hv
  exact fun v _ _ => by rw [hr.phase]

end Graph
end PyZX
