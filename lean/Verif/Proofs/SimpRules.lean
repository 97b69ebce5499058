import Verif.Proofs.Simp

/-!
# The rewrite rules keep ZX-diagrams
-/

namespace PyZX
namespace Graph

variable {P : ℚ → Prop}

/-! ### Identity removal -/

theorem removeIds_zx (hP : PhaseSet P) {g : Graph} (hg : g.ZX P) {ms : List Rules.IdMatch} (h : IdsOK g ms) :
    ∃ g', (Rules.removeIds g ms).finish = some g' ∧ Preserves g g' ∧ g'.ZX P ∧ g'.ty = g.ty ∧ g'.verts = g.verts \ (ms.map (·.v)).toFinset := by
  obtain ⟨g', hfin, hp, hbd, hv⟩ := removeIds_total hg.wf hg.bdeg h
  obtain ⟨h1, h2, h3, h4, -⟩ := ids_fold g ms h
  refine ⟨g', hfin, hp, ?_, ?_, hv⟩
  · refine zx_of_finish hP hg hfin hp hbd (by rw [h1]) (by rw [h1]) (by rw [h1]) (by rw [h1]; exact hg.phases) (by rw [h2]; exact h4)
      (by rw [h3]; simp) ?_
    intro b hbv hbt z hz hrem
    rw [h2, h3] at hrem
    simp only [List.not_mem_nil, false_and, exists_false, or_false, List.mem_map] at hrem
    obtain ⟨m, hm, rfl⟩ := hrem
    have hbm : b = m.v0 ∨ b = m.v1 := by
      rw [hg.wf.symm, ← mem_nbrs hg.wf.toInv, h.nbrs m hm] at hz
      simpa using hz
    refine tcount_fold_pos (I := fun _ => True) ms (fun _ _ _ _ => trivial) ?_ hm ?_ _ trivial
    · intro m' _ s _
      have := tcount_upd_ge s.etab (m'.v0, m'.v1) (f := fun p => if m'.et = .simple then (p.1 + 1, p.2) else (p.1, p.2 + 1)) (c := 1)
        (fun p => by beta_reduce; split <;> simp <;> omega) b
      simp only [Rules.idStep]
      omega
    · intro s _
      have := tcount_upd_ge s.etab (m.v0, m.v1) (f := fun p => if m.et = .simple then (p.1 + 1, p.2) else (p.1, p.2 + 1)) (c := 1)
        (fun p => by beta_reduce; split <;> simp <;> omega) b
      rw [if_pos hbm] at this
      simp only [Rules.idStep]
      omega
  · have := (finish_phases hP hfin (by rw [h1]; exact hg.phases)).1
    rw [this, h1]

/-! ### Local complementation -/

theorem lcompLoop_phases (hP : PhaseSet P) {a : ℚ} (ha : P a) (ns : List ℕ) : ∀ (g : Graph) (t : ETab), (∀ w ∈ g.verts, P (g.phase w)) →
    ∀ w ∈ g.verts, P ((Rules.lcompLoop a g t ns).1.phase w) := by
  induction ns with
  | nil => intro g t h; exact h
  | cons n ns ih =>
    intro g t h
    refine ih (g.addToPhase n (-a)) _ ?_
    intro w hw
    show P (Function.update g.phase n _ w)
    by_cases e : w = n
    · subst e
      rw [Function.update_self, ← sub_eq_add_neg]
      exact hP.sub _ _ (h w hw) ha
    · rw [Function.update_of_ne e]; exact h w hw

theorem lcompLoop_verts (a : ℚ) (ns : List ℕ) : ∀ (g : Graph) (t : ETab), (Rules.lcompLoop a g t ns).1.verts = g.verts := by
  induction ns with
  | nil => intro g t; rfl
  | cons n ns ih => intro g t; exact (ih _ _).trans rfl

theorem lcomp_phases (hP : PhaseSet P) {g : Graph} (hg : ∀ w ∈ g.verts, P (g.phase w)) {ms : List Rules.LcompMatch}
    (h : ∀ m ∈ ms, m.v ∈ g.verts) : ∀ w ∈ g.verts, P ((Rules.lcomp g ms).g.phase w) := by
  have key : ∀ (l : List Rules.LcompMatch) (s : RewriteState), (∀ m ∈ l, m.v ∈ g.verts) → s.g.verts = g.verts →
      (∀ w ∈ g.verts, P (s.g.phase w)) → ∀ w ∈ g.verts, P ((l.foldl Rules.lcompStep s).g.phase w) := by
    intro l
    induction l with
    | nil => intro s _ _ hs; exact hs
    | cons m l ih =>
      intro s hl hv hs
      rw [List.foldl_cons]
      set g1 := if (s.g.phase m.v).num = 1 then s.g.addScalarPhase (1 / 4) else s.g.addScalarPhase (7 / 4) with hg1
      set g2 := g1.addPower ((((m.vn.length : ℤ) - 2) * ((m.vn.length : ℤ) - 1)) / 2) with hg2
      have hstep : (Rules.lcompStep s m).g = (Rules.lcompLoop (s.g.phase m.v) g2 s.etab m.vn).1 := rfl
      have hv2 : g2.verts = g.verts := by
        rw [← hv]; show g1.verts = _; rw [hg1]; split <;> rfl
      have hp2 : g2.phase = s.g.phase := by show g1.phase = _; rw [hg1]; split <;> rfl
      refine ih _ (fun m hm => hl m (by simp [hm])) (by rw [hstep, lcompLoop_verts, hv2]) ?_
      intro w hw
      rw [hstep]
      refine lcompLoop_phases hP (hs _ (hl m (by simp))) m.vn g2 s.etab ?_ w (by rw [hv2]; exact hw)
      rw [hv2, hp2]; exact hs
  exact key ms _ h rfl hg

theorem lcomp_zx (hP : PhaseSet P) {g : Graph} (hg : g.ZX P) {ms : List Rules.LcompMatch} (h : LcompOK g ms) :
    ∃ g', (Rules.lcomp g ms).finish = some g' ∧ Preserves g g' ∧ g'.ZX P ∧ g'.ty = g.ty ∧ g'.verts = g.verts \ (ms.map (·.v)).toFinset := by
  obtain ⟨g', hfin, hp, hbd, hv⟩ := lcomp_total hg.wf hg.bdeg h
  obtain ⟨h1, h2, h3, h4, -⟩ := lcomp_fold ms h
  have hph := lcomp_phases hP hg.phases h.mem
  refine ⟨g', hfin, hp, ?_, ?_, hv⟩
  · refine zx_of_finish hP hg hfin hp hbd h1.adj h1.ty h1.verts hph (by rw [h2]; exact h4) (by rw [h3]; simp) ?_
    intro b hbv hbt z hz hrem
    rw [h2, h3] at hrem
    simp only [List.not_mem_nil, false_and, exists_false, or_false, List.mem_map] at hrem
    obtain ⟨m, hm, rfl⟩ := hrem
    rw [hg.wf.symm, ← mem_nbrs hg.wf.toInv, ← (h.nbrs m hm).2, List.mem_toFinset] at hz
    have := (h.nty m hm b hz).1
    rw [hbt] at this
    simp at this
  · have := (finish_phases hP hfin (by rw [h1.verts]; exact hph)).1
    rw [this, h1.ty]

/-! ### Spider fusion -/

theorem spiderFold_same (hP : PhaseSet P) {g : Graph} (hg : g.ZX P) (ord : ℕ → List ℕ) {ps : List (ℕ × ℕ)}
    (h : ∀ p ∈ ps, p.2 ∈ g.verts ∧ p.1 ∈ g.verts) : ∀ (l : List (ℕ × ℕ)) (s : RewriteState), (∀ p ∈ l, p ∈ ps) → s.g.verts = g.verts →
      s.g.ty = g.ty → s.g.adj = g.adj → (∀ w ∈ g.verts, P (s.g.phase w)) →
      (l.foldl (Rules.spiderStep ord) s).g.ty = g.ty ∧ (l.foldl (Rules.spiderStep ord) s).g.adj = g.adj ∧
        ∀ w ∈ g.verts, P ((l.foldl (Rules.spiderStep ord) s).g.phase w) := by
  intro l
  induction l with
  | nil => intro s _ _ h1 h2 h3; exact ⟨h1, h2, h3⟩
  | cons p l ih =>
    intro s hl hv h1 h2 h3
    rw [List.foldl_cons]
    obtain ⟨q2, q1⟩ := h p (hl p (by simp))
    have nz : ∀ v ∈ g.verts, g.ty v ≠ .zbox := by
      intro v hv e
      rcases hg.types v hv with h | h | h <;> rw [h] at e <;> simp at e
    have hstep : (Rules.spiderStep ord s p).g = s.g.addToPhase p.1 (s.g.phase p.2) := by
      show Rules.spiderPhase s.g p.1 p.2 = _
      unfold Rules.spiderPhase
      rw [if_neg]
      rw [h1]
      rintro (e | e)
      · exact nz _ q1 e
      · exact nz _ q2 e
    refine ih _ (fun p hp => hl p (by simp [hp])) (by rw [hstep]; exact hv) (by rw [hstep]; exact h1) (by rw [hstep]; exact h2) ?_
    rw [hstep, ← hv]
    exact addToPhase_phases hP (h3 _ q2) (by rw [hv]; exact h3)

theorem spiderTab_ge {g : Graph} {v0 v1 b : ℕ} {ns : List ℕ} (hb : b ≠ v0) (t : ETab) :
    tcount t b + (if b ∈ ns then 1 else 0) ≤ tcount (Rules.spiderTab g v0 v1 ns t) b := by
  unfold Rules.spiderTab
  rw [tcount_upd_other _ _ (by simp [touch, hb])]
  induction ns generalizing t with
  | nil => simp
  | cons w ns ih =>
    rw [List.foldl_cons]
    refine le_trans ?_ (ih _)
    have := tcount_upd_ge t (v0, w) (f := fun p => if (g.adj v1 w).getD .simple = .simple then (p.1 + 1, p.2) else (p.1, p.2 + 1)) (c := 1)
      (fun p => by beta_reduce; split <;> simp <;> omega) b
    have this : tcount t b + (if touch b (v0, w) then 1 else 0) ≤ tcount (ETab.incr t (v0, w) ((g.adj v1 w).getD .simple)) b := this
    by_cases hw : b = w
    · rw [if_pos (Or.inr hw)] at this
      rw [if_pos (by rw [hw]; simp)]
      omega
    · rw [if_neg (by simp [touch, hb, hw])] at this
      have : (b ∈ w :: ns) ↔ b ∈ ns := by simp [hw]
      simp only [this]
      omega

theorem spider_zx (hP : PhaseSet P) {g : Graph} (hg : g.ZX P) {ord : ℕ → List ℕ} (hord : Rules.NbrOrder g ord) {row0 : ℕ → Bool}
    {ms : List (ℕ × ℕ)} (h : SpiderOK g (ms.map (Rules.spiderPair row0))) :
    ∃ g', (Rules.spider row0 ord g ms).finish = some g' ∧ Preserves g g' ∧ g'.ZX P ∧ g'.ty = g.ty ∧
      g'.verts = g.verts \ (ms.map fun m => (Rules.spiderPair row0 m).2).toFinset := by
  obtain ⟨g', hfin, hp, hbd, hv⟩ := spider_total hg.wf hg.bdeg hord h
  set ps := ms.map (Rules.spiderPair row0) with hps
  obtain ⟨-, h1, -, -, -, h5, h6, h7, -⟩ := spider_fold hg.wf hord ps h
  have hmv : ∀ p ∈ ps, p.2 ∈ g.verts ∧ p.1 ∈ g.verts := fun p hp =>
    ⟨hg.wf.toInv.mem' (u := p.1) (by rw [h.adj p hp]; simp), hg.wf.mem _ p.2 (by rw [h.adj p hp]; simp)⟩
  obtain ⟨e1, e2, e3⟩ := spiderFold_same hP hg ord hmv ps (RewriteState.start g) (fun _ h => h) rfl rfl rfl hg.phases
  refine ⟨g', hfin, hp, ?_, ?_, hv⟩
  · refine zx_of_finish hP hg hfin hp hbd e2 e1 h1 e3 (by rw [show (Rules.spider row0 ord g ms).remVerts = _ from h5]; exact h7)
      (by rw [show (Rules.spider row0 ord g ms).remEdges = _ from h6]; simp) ?_
    intro b hbv hbt z hz hrem
    rw [show (Rules.spider row0 ord g ms).remVerts = _ from h5, show (Rules.spider row0 ord g ms).remEdges = _ from h6] at hrem
    simp only [List.not_mem_nil, false_and, exists_false, or_false] at hrem
    obtain ⟨p, hpm, rfl⟩ := List.mem_map.mp hrem
    have hbne : ∀ p ∈ ps, b ≠ p.1 := by
      intro p hp e
      rw [e] at hbt
      rcases h.ty p hp with ⟨q, -⟩ | ⟨q, -⟩ <;> rw [hbt] at q <;> simp [VType.zLike] at q
    refine tcount_fold_pos (step := Rules.spiderStep ord) (I := fun _ => True) ps (fun _ _ _ _ => trivial) ?_ hpm ?_ _ trivial
    · intro q hq s _
      have := spiderTab_ge (g := s.g) (v1 := q.2) (ns := ord q.2) (hbne q hq) s.etab
      exact le_trans (Nat.le_add_right _ _) this
    · intro s _
      have := spiderTab_ge (g := s.g) (v1 := p.2) (ns := ord p.2) (hbne p hpm) s.etab
      rw [if_pos ((NbrOrder.mem hg.wf hord (hmv p hpm).1).mpr (by rw [hg.wf.symm]; exact hz))] at this
      have h0 : (Rules.spiderStep ord s p).etab = Rules.spiderTab s.g p.1 p.2 (ord p.2) s.etab := rfl
      rw [h0]
      omega
  · have := (finish_phases hP hfin (by rw [show (Rules.spider row0 ord g ms).g.verts = _ from h1]; exact e3)).1
    rw [this]; exact e1

/-! ### Pivoting -/

theorem addToPhases_phases (hP : PhaseSet P) {a : ℚ} (ha : P a) (vs : List ℕ) : ∀ (g : Graph), (∀ w ∈ g.verts, P (g.phase w)) →
    (Rules.addToPhases g vs a).verts = g.verts ∧ ∀ w ∈ g.verts, P ((Rules.addToPhases g vs a).phase w) := by
  induction vs with
  | nil => intro g h; exact ⟨rfl, h⟩
  | cons v vs ih =>
    intro g h
    exact ih (g.addToPhase v a) (addToPhase_phases hP ha h)

theorem pivotPhases_phases (hP : PhaseSet P) {g : Graph} {v : ℕ} (hv : v ∈ g.verts) (l l' : List ℕ) (h : ∀ w ∈ g.verts, P (g.phase w)) :
    (Rules.pivotPhases g v l l').verts = g.verts ∧ ∀ w ∈ g.verts, P ((Rules.pivotPhases g v l l').phase w) := by
  unfold Rules.pivotPhases
  simp only
  split
  · exact ⟨rfl, h⟩
  · obtain ⟨a1, a2⟩ := addToPhases_phases hP (h v hv) l g h
    obtain ⟨b1, b2⟩ := addToPhases_phases hP (h v hv) l' (Rules.addToPhases g l (g.phase v)) (by rw [a1]; exact a2)
    rw [a1] at b1 b2
    exact ⟨b1, b2⟩

theorem pivotBoundary_g (s : RewriteState) (v o : ℕ) (b : Option ℕ) : (Rules.pivotBoundary s v o b).g = s.g := by
  cases b <;> rfl

theorem pivotStep_phases (hP : PhaseSet P) (lst : Finset ℕ → List ℕ) {s : RewriteState} {m : Rules.PivotMatch} (h0 : m.v0 ∈ s.g.verts)
    (h1 : m.v1 ∈ s.g.verts) (h : ∀ w ∈ s.g.verts, P (s.g.phase w)) :
    (Rules.pivotStep lst s m).g.verts = s.g.verts ∧ ∀ w ∈ s.g.verts, P ((Rules.pivotStep lst s m).g.phase w) := by
  unfold Rules.pivotStep
  simp only [pivotBoundary_g]
  generalize lst (Rules.pivotNbrs s.g m.v0 m.v1 m.b0 ∩ Rules.pivotNbrs s.g m.v1 m.v0 m.b1) = l2
  generalize lst (Rules.pivotNbrs s.g m.v0 m.v1 m.b0 \ (Rules.pivotNbrs s.g m.v0 m.v1 m.b0 ∩ Rules.pivotNbrs s.g m.v1 m.v0 m.b1)) = l0
  generalize lst (Rules.pivotNbrs s.g m.v1 m.v0 m.b1 \ (Rules.pivotNbrs s.g m.v0 m.v1 m.b0 ∩ Rules.pivotNbrs s.g m.v1 m.v0 m.b1)) = l1
  set g1 := s.g.addPower ((l0.length : ℤ) * l2.length + l1.length * l2.length + l0.length * l1.length) with hg1
  set g2 := Rules.addToPhases g1 l2 1 with hg2
  set g3 := (if g2.phase m.v0 ≠ 0 ∧ g2.phase m.v1 ≠ 0 then g2.addScalarPhase 1 else g2) with hg3
  obtain ⟨a1, a2⟩ := addToPhases_phases hP hP.one l2 g1 h
  have v3 : g3.verts = s.g.verts := by rw [hg3]; split <;> exact a1
  have p3 : ∀ w ∈ s.g.verts, P (g3.phase w) := by rw [hg3]; split <;> exact a2
  generalize (if m.b0 = none ∧ m.b1 = none then -((l0.length : ℤ) + l1.length + 2 * l2.length - 1)
    else if m.b0 = none then -((l1.length : ℤ) + l2.length) else -((l0.length : ℤ) + l2.length)) = n
  obtain ⟨b1, b2⟩ := pivotPhases_phases hP (g := g3.addPower n) (v := m.v0) (by show _ ∈ g3.verts; rw [v3]; exact h0) l1 l2
    (by show ∀ w ∈ g3.verts, _; rw [v3]; exact p3)
  have b1 : (Rules.pivotPhases (g3.addPower n) m.v0 l1 l2).verts = s.g.verts := b1.trans v3
  have b2 : ∀ w ∈ s.g.verts, P ((Rules.pivotPhases (g3.addPower n) m.v0 l1 l2).phase w) := fun w hw => b2 w (by
    show _ ∈ g3.verts; rw [v3]; exact hw)
  obtain ⟨c1, c2⟩ := pivotPhases_phases hP (g := Rules.pivotPhases (g3.addPower n) m.v0 l1 l2) (v := m.v1) (by rw [b1]; exact h1) l0 l2
    (by rw [b1]; exact b2)
  rw [b1] at c1 c2
  exact ⟨c1, c2⟩

theorem pivot_phases (hP : PhaseSet P) (lst : Finset ℕ → List ℕ) {g : Graph} (hg : ∀ w ∈ g.verts, P (g.phase w)) {ms : List Rules.PivotMatch}
    (h : ∀ m ∈ ms, m.v0 ∈ g.verts ∧ m.v1 ∈ g.verts) : ∀ w ∈ g.verts, P ((Rules.pivot lst g ms).g.phase w) := by
  have key : ∀ (l : List Rules.PivotMatch) (s : RewriteState), (∀ m ∈ l, m.v0 ∈ g.verts ∧ m.v1 ∈ g.verts) → s.g.verts = g.verts →
      (∀ w ∈ g.verts, P (s.g.phase w)) → ∀ w ∈ g.verts, P ((l.foldl (Rules.pivotStep lst) s).g.phase w) := by
    intro l
    induction l with
    | nil => intro s _ _ hs; exact hs
    | cons m l ih =>
      intro s hl hv hs
      rw [List.foldl_cons]
      obtain ⟨a, b⟩ := pivotStep_phases hP lst (s := s) (m := m) (by rw [hv]; exact (hl m (by simp)).1)
        (by rw [hv]; exact (hl m (by simp)).2) (by rw [hv]; exact hs)
      rw [hv] at a b
      exact ih _ (fun m hm => hl m (by simp [hm])) a b
  exact key ms _ h rfl hg

theorem pivot_kept {g : Graph} (hg : g.WF) {ms : List Rules.PivotMatch} (h : PivotOK g ms) {U : Finset ℕ}
    (hUdef : U = g.verts \ unions ms pivotG) : ∀ v ∈ U ∪ unions ms pivotK, v ∈ g.verts \ (ms.flatMap pivotRem).toFinset := by
  have hmem : ∀ m ∈ ms, m.v0 ∈ g.verts ∧ m.v1 ∈ g.verts ∧ m.v0 ≠ m.v1 := by
    intro m hm
    have hk := h.each m hm
    refine ⟨hg.mem _ _ (by rw [hk.adj]; simp), hg.toInv.mem' (u := m.v0) (by rw [hk.adj]; simp), ?_⟩
    intro e; have := hk.adj; rw [e, hg.loopless] at this; simp at this
  have hgrp : ms.Pairwise fun i j => ∀ v ∈ pivotG i, v ∉ pivotG j := by
    refine h.indep.imp fun {i j} hij v hv hw => ?_
    simp only [pivotG, Finset.mem_insert, Finset.mem_singleton] at hv hw
    exact (hij v hv v hw).1 rfl
  have hremG : ∀ m : Rules.PivotMatch, ∀ v ∈ pivotRem m, v ∈ pivotG m := by
    intro m v hv
    simp only [pivotRem, List.mem_append] at hv
    simp only [pivotG, Finset.mem_insert, Finset.mem_singleton]
    rcases hv with hv | hv <;> split at hv <;> simp_all
  have hKR : ∀ m ∈ ms, ∀ v ∈ pivotK m, v ∈ pivotG m ∧ v ∉ pivotRem m := by
    intro m hm v hv
    have hne := (hmem m hm).2.2
    unfold pivotK at hv
    split_ifs at hv with c1 c2
    · simp only [Finset.mem_singleton] at hv
      subst hv
      refine ⟨by simp, ?_⟩
      simp only [pivotRem, c1, if_false, List.nil_append]
      split <;> simp [hne.symm]
    · simp only [Finset.mem_singleton] at hv
      subst hv
      refine ⟨by simp, ?_⟩
      simp only [pivotRem, c2, if_false, List.append_nil]
      split <;> simp [hne]
    · simp at hv
  have hGpair : ∀ m ∈ ms, ∀ m' ∈ ms, ∀ v, v ∈ pivotG m → v ∈ pivotG m' → m = m' := by
    intro m hm m' hm' v hv hv'
    have hp := List.pairwise_iff_getElem.mp hgrp
    obtain ⟨i, hi, rfl⟩ := List.getElem_of_mem hm
    obtain ⟨j, hj, rfl⟩ := List.getElem_of_mem hm'
    rcases lt_trichotomy i j with hlt | rfl | hlt
    · exact absurd hv' (hp i j hi hj hlt v hv)
    · rfl
    · exact absurd hv (hp j i hj hi hlt v hv')
  intro v hv
  simp only [Finset.mem_sdiff, List.mem_toFinset, List.mem_flatMap, not_exists, not_and]
  rcases Finset.mem_union.mp hv with hv | hv
  · rw [hUdef, Finset.mem_sdiff] at hv
    exact ⟨hv.1, fun m hm hin => hv.2 (mem_unions.mpr ⟨m, hm, hremG m v hin⟩)⟩
  · obtain ⟨m, hm, hv⟩ := mem_unions.mp hv
    obtain ⟨q1, q2⟩ := hKR m hm v hv
    refine ⟨?_, fun m' hm' hin => ?_⟩
    · simp only [pivotG, Finset.mem_insert, Finset.mem_singleton] at q1
      rcases q1 with rfl | rfl
      · exact (hmem m hm).1
      · exact (hmem m hm).2.1
    · obtain rfl := hGpair m hm m' hm' v q1 (hremG m' v hin)
      exact q2 hin

theorem pivotBoundary_ge {s : RewriteState} {v o : ℕ} {b : Option ℕ}
    (hb : ∀ w, b = some w → s.g.adj v w = some .simple ∨ s.g.adj v w = some .had) (c : ℕ) :
    tcount s.etab c + (if b = some c then 1 else 0) ≤ tcount (Rules.pivotBoundary s v o b).etab c := by
  cases b with
  | none => simp [Rules.pivotBoundary]
  | some w =>
    have := tcount_upd_ge s.etab (o, w) (f := fun p => if s.g.adj v w = some .simple then (p.1, p.2 + 1)
      else if s.g.adj v w = some .had then (p.1 + 1, p.2) else p) (c := 1) (fun p => by
        rcases hb w rfl with h | h
        · beta_reduce; rw [if_pos h]; simp [Nat.add_assoc]
        · beta_reduce; rw [if_neg (by rw [h]; simp), if_pos h]; dsimp; omega) c
    by_cases hc : w = c
    · rw [if_pos (by rw [hc])]
      rw [if_pos (Or.inr hc.symm)] at this
      exact this
    · rw [if_neg (by simpa using hc)]
      exact le_trans (Nat.le_add_right _ _) this

theorem pivotStep_ge {g : Graph} (hg : g.WF) {lst : Finset ℕ → List ℕ} (hlst : Rules.SetOrder lst) {m : Rules.PivotMatch}
    (h : PivotOK1 g m) {s : RewriteState} (hs : SameBut g s.g) {c : ℕ} (hc : g.ty c = .boundary) :
    tcount s.etab c + (if m.b0 = some c ∨ m.b1 = some c then 1 else 0) ≤ tcount (Rules.pivotStep lst s m).etab c ∧
      SameBut g (Rules.pivotStep lst s m).g := by
  have hadj : ∀ v w, g.adj v w ≠ none → g.adj v w = some .simple ∨ g.adj v w = some .had := by
    intro v w hne
    have := hg.noWio v w
    rcases e : g.adj v w with _ | x
    · exact absurd e hne
    · rw [e] at this
      cases x <;> simp_all
  have n0 : ∀ w ∈ Rules.pivotNbrs s.g m.v0 m.v1 m.b0, g.ty w = .Z := by
    intro w hw
    simp only [Rules.pivotNbrs, hs.nbrs, Finset.mem_filter, Finset.mem_erase, mem_nbrs hg.toInv] at hw
    rcases h.n0 w hw.1.2 with e | e
    · exact absurd e hw.2
    · exact e.1
  have n1 : ∀ w ∈ Rules.pivotNbrs s.g m.v1 m.v0 m.b1, g.ty w = .Z := by
    intro w hw
    simp only [Rules.pivotNbrs, hs.nbrs, Finset.mem_filter, Finset.mem_erase, mem_nbrs hg.toInv] at hw
    rcases h.n1 w hw.1.2 with e | e
    · exact absurd e hw.2
    · exact e.1
  have ml : ∀ N w, w ∈ lst N → w ∈ N := by intro N w hw; rw [← (hlst N).2]; simpa using hw
  unfold Rules.pivotStep
  simp only
  have z2 : ∀ w ∈ lst (Rules.pivotNbrs s.g m.v0 m.v1 m.b0 ∩ Rules.pivotNbrs s.g m.v1 m.v0 m.b1), g.ty w = .Z := fun w hw =>
    n0 w (Finset.mem_inter.mp (ml _ w hw)).1
  have z0 : ∀ w ∈ lst (Rules.pivotNbrs s.g m.v0 m.v1 m.b0 \ (Rules.pivotNbrs s.g m.v0 m.v1 m.b0 ∩ Rules.pivotNbrs s.g m.v1 m.v0 m.b1)),
      g.ty w = .Z := fun w hw => n0 w (Finset.mem_sdiff.mp (ml _ w hw)).1
  have z1 : ∀ w ∈ lst (Rules.pivotNbrs s.g m.v1 m.v0 m.b1 \ (Rules.pivotNbrs s.g m.v0 m.v1 m.b0 ∩ Rules.pivotNbrs s.g m.v1 m.v0 m.b1)),
      g.ty w = .Z := fun w hw => n1 w (Finset.mem_sdiff.mp (ml _ w hw)).1
  revert z0 z1 z2
  generalize lst (Rules.pivotNbrs s.g m.v0 m.v1 m.b0 ∩ Rules.pivotNbrs s.g m.v1 m.v0 m.b1) = l2
  generalize lst (Rules.pivotNbrs s.g m.v0 m.v1 m.b0 \ (Rules.pivotNbrs s.g m.v0 m.v1 m.b0 ∩ Rules.pivotNbrs s.g m.v1 m.v0 m.b1)) = l0
  generalize lst (Rules.pivotNbrs s.g m.v1 m.v0 m.b1 \ (Rules.pivotNbrs s.g m.v0 m.v1 m.b0 ∩ Rules.pivotNbrs s.g m.v1 m.v0 m.b1)) = l1
  intro z2 z0 z1
  set g1 := s.g.addPower ((l0.length : ℤ) * l2.length + l1.length * l2.length + l0.length * l1.length) with hg1
  set g2 := Rules.addToPhases g1 l2 1 with hg2
  set g3 := (if g2.phase m.v0 ≠ 0 ∧ g2.phase m.v1 ≠ 0 then g2.addScalarPhase 1 else g2) with hg3
  generalize (if m.b0 = none ∧ m.b1 = none then -((l0.length : ℤ) + l1.length + 2 * l2.length - 1)
    else if m.b0 = none then -((l1.length : ℤ) + l2.length) else -((l0.length : ℤ) + l2.length)) = n
  have sb2 : SameBut g g2 := (hs.trans (sameBut_addPower _ _)).trans (addToPhases_spec l2 1 g1).1
  have sb3 : SameBut g g3 := by
    rw [hg3]; split
    · exact sb2.trans (sameBut_addScalarPhase _ _)
    · exact sb2
  have sbp : ∀ (g0 : Graph) v l, SameBut g g0 → SameBut g (Rules.pivotPhases g0 v l l2) := by
    intro g0 v l h0
    unfold Rules.pivotPhases
    simp only
    split
    · exact h0
    · exact (h0.trans (addToPhases_spec _ _ _).1).trans (addToPhases_spec _ _ _).1
  have sb5 := sbp (g3.addPower n) m.v0 l1 (sb3.trans (sameBut_addPower _ _))
  set g5 := Rules.pivotPhases (g3.addPower n) m.v0 l1 l2 with hg5
  have e1 := pivotBoundary_ge (s := { s with g := g5 }) (v := m.v0) (o := m.v1) (b := m.b0) (fun w hw => by
    show g5.adj _ _ = _ ∨ _; rw [sb5.adj]; exact hadj _ _ (h.b0 w hw).1) c
  set s5 := Rules.pivotBoundary { s with g := g5 } m.v0 m.v1 m.b0 with hs5
  have hs5g : s5.g = g5 := pivotBoundary_g _ _ _ _
  have sb6 := sbp s5.g m.v1 l0 (by rw [hs5g]; exact sb5)
  have e2 := pivotBoundary_ge (s := { s5 with g := Rules.pivotPhases s5.g m.v1 l0 l2 }) (v := m.v1) (o := m.v0) (b := m.b1) (fun w hw => by
    show (Rules.pivotPhases s5.g m.v1 l0 l2).adj _ _ = _ ∨ _; rw [sb6.adj]; exact hadj _ _ (h.b1 w hw).1) c
  rw [tcount_setHads]
  · refine ⟨?_, ?_⟩
    · simp only at e1 e2
      by_cases c0 : m.b0 = some c
      · rw [if_pos (Or.inl c0)]; rw [if_pos c0] at e1; omega
      · by_cases c1 : m.b1 = some c
        · rw [if_pos (Or.inr c1)]; rw [if_pos c1] at e2; omega
        · rw [if_neg (by simp [c0, c1])]; omega
    · rw [pivotBoundary_g]; exact sb6
  · intro e he
    have hz : g.ty e.1 = .Z ∧ g.ty e.2 = .Z := by
      obtain ⟨x, y⟩ := e
      simp only [Rules.pivotPairs, List.mem_append] at he
      rcases he with (q | q) | q <;> obtain ⟨q1, q2⟩ := List.pair_mem_product.mp q
      · exact ⟨z0 _ q1, z1 _ q2⟩
      · exact ⟨z1 _ q1, z2 _ q2⟩
      · exact ⟨z0 _ q1, z2 _ q2⟩
    rintro (e | e)
    · rw [e, hz.1] at hc; simp at hc
    · rw [e, hz.2] at hc; simp at hc

theorem pivot_zx (hP : PhaseSet P) {g : Graph} (hg : g.ZX P) {lst : Finset ℕ → List ℕ} (hlst : Rules.SetOrder lst)
    {ms : List Rules.PivotMatch} (h : PivotOK g ms) :
    ∃ g', (Rules.pivot lst g ms).finish = some g' ∧ Preserves g g' ∧ g'.ZX P ∧ g'.ty = g.ty ∧
      g'.verts = g.verts \ (ms.flatMap pivotRem).toFinset := by
  obtain ⟨g', hfin, hp, hbd, hv⟩ := pivot_total hg.wf hg.bdeg hlst h
  obtain ⟨h1, -, h3, h4, -, h5, -⟩ := pivot_fold hg.wf hlst ms h rfl
  have hkept := pivot_kept hg.wf h rfl
  have hmem : ∀ m ∈ ms, m.v0 ∈ g.verts ∧ m.v1 ∈ g.verts := by
    intro m hm
    have hk := h.each m hm
    exact ⟨hg.wf.mem _ _ (by rw [hk.adj]; simp), hg.wf.toInv.mem' (u := m.v0) (by rw [hk.adj]; simp)⟩
  have hph := pivot_phases hP lst hg.phases hmem
  refine ⟨g', hfin, hp, ?_, ?_, hv⟩
  · refine zx_of_finish hP hg hfin hp hbd h1.adj h1.ty h1.verts hph (by
      rw [h3]
      exact fun e he _ => ⟨hkept _ (h5 e he).1.1, hkept _ (h5 e he).1.2.1, (h5 e he).1.2.2⟩) ?_ ?_
    · rw [h3, h4]
      intro e he
      exact Or.inl (pivotRemE_mem h e he).1
    · intro b hbv hbt z hz hrem
      rw [h3, h4] at hrem
      have hex : ∃ m ∈ ms, m.b0 = some b ∨ m.b1 = some b := by
        have hcase : ∀ m ∈ ms, z = m.v0 ∨ z = m.v1 → m.b0 = some b ∨ m.b1 = some b := by
          intro m hm hzz
          have hk := h.each m hm
          rcases hzz with rfl | rfl
          · rcases hk.n0 b (by rw [hg.wf.symm]; exact hz) with e | e
            · exact Or.inl e
            · rw [hbt] at e; simp at e
          · rcases hk.n1 b (by rw [hg.wf.symm]; exact hz) with e | e
            · exact Or.inr e
            · rw [hbt] at e; simp at e
        rcases hrem with hrem | ⟨e, he, hsp⟩
        · obtain ⟨m, hm, hr⟩ := List.mem_flatMap.mp hrem
          refine ⟨m, hm, hcase m hm ?_⟩
          simp only [pivotRem, List.mem_append] at hr
          rcases hr with hr | hr
          · by_cases hb0 : m.b0 = none
            · rw [if_pos hb0] at hr; right; simpa using hr
            · rw [if_neg hb0] at hr; simp at hr
          · by_cases hb0 : m.b1 = none
            · rw [if_pos hb0] at hr; left; simpa using hr
            · rw [if_neg hb0] at hr; simp at hr
        · obtain ⟨-, m, hm, hh⟩ := pivotRemE_mem h e he
          refine ⟨m, hm, ?_⟩
          have hk := h.each m hm
          rcases hsp with ⟨p1, p2⟩ | ⟨p1, p2⟩ <;> simp only at p1 p2
          · exfalso
            rcases hh with ⟨q1, -⟩ | ⟨q1, -⟩
            · rw [p1, q1, hk.ty0] at hbt; simp at hbt
            · rw [p1, q1, hk.ty1] at hbt; simp at hbt
          · rcases hh with ⟨-, q2⟩ | ⟨-, q2⟩
            · left; rw [q2, p1]
            · right; rw [q2, p1]
      obtain ⟨m, hm, hmb⟩ := hex
      refine tcount_fold_pos (step := Rules.pivotStep lst) (I := fun s => SameBut g s.g) ms ?_ ?_ hm ?_ _ (SameBut.refl g)
      · exact fun m' hm' s hs => (pivotStep_ge hg.wf hlst (h.each m' hm') hs hbt).2
      · exact fun m' hm' s hs => le_trans (Nat.le_add_right _ _) (pivotStep_ge hg.wf hlst (h.each m' hm') hs hbt).1
      · intro s hs
        have := (pivotStep_ge hg.wf hlst (h.each m hm) hs hbt).1
        rw [if_pos hmb] at this
        omega
  · have := (finish_phases hP hfin (by rw [h1.verts]; exact hph)).1
    rw [this, h1.ty]

/-! ### Isolated vertices and colour changes -/

theorem ZX.isoOK (hP : PhaseSet P) {g : Graph} (hg : g.ZX P) : g.IsoOK := by
  have hb : ∀ v ∈ g.verts, g.ty v = .boundary → g.nbrs v ≠ ∅ := by
    intro v hv ht
    obtain ⟨z, hz⟩ := hg.badj v hv ht
    exact Finset.ne_empty_of_mem ((mem_nbrs hg.wf.toInv).mpr hz)
  refine ⟨hb, fun v hi => ?_, fun v hi => hP.reduced _ (hg.phases v hi.1)⟩
  rcases hg.types v hi.1 with h | h | h
  · exfalso
    rcases hi.2 with h2 | ⟨w, h2⟩
    · exact hb v hi.1 h h2
    · exact h2.2.2.2.2.1 h
  · exact Or.inl h
  · exact Or.inr h

theorem removeIsolated_zx (hP : PhaseSet P) {g : Graph} (hg : g.ZX P) {ord : ℕ → List ℕ} (ho : Rules.NbrOrder g ord) {vs : List ℕ}
    (hn : vs.Nodup) (hvs : vs.toFinset = g.verts) :
    ∃ g', g.removeIsolated ord vs = some g' ∧ Keeps P g g' ∧ g'.ZX P ∧ g'.ty = g.ty ∧ g'.verts ⊆ g.verts := by
  have hok := hg.isoOK hP
  obtain ⟨g', h1, hup⟩ := Props.removeIsolated_upTo hg.wf hok ho hn hvs
  obtain ⟨hv, ht, hp, hadj, -⟩ := Props.removeIsolated_removes hg.wf hok ho hn hvs h1
  have hsub : g'.verts ⊆ g.verts := fun v hv' => ((hv v).mp hv').1
  have hadj' : ∀ a b, g'.adj a b ≠ none → g.adj a b ≠ none := by
    intro a b hab
    rw [← hadj a (hup.wf.mem _ _ hab) b (hup.wf.toInv.mem' hab)]
    exact hab
  refine ⟨g', h1, ⟨hup, fun hq => ?_, fun v _ _ => by rw [hp]⟩, ⟨hup.wf, ?_, ?_, ?_, ?_⟩, ht, hsub⟩
  · obtain ⟨g2, e, hpr⟩ := Props.removeIsolated_partial hg.wf hok
      (Props.isoBranch_of_quarter hok fun v hi => (hq _ (hg.phases v hi.1)).2) ho hn hvs
    rw [h1, Option.some.injEq] at e
    rw [e]; exact hpr
  · intro b hb hbt u w hu hw
    exact hg.bdeg b (hsub hb) (by rw [← ht]; exact hbt) u w (hadj' _ _ hu) (hadj' _ _ hw)
  · intro b hb hbt
    rw [ht] at hbt
    obtain ⟨z, hz⟩ := hg.badj b (hsub hb) hbt
    refine ⟨z, ?_⟩
    have hzv : z ∈ g'.verts := by
      rw [hv]
      refine ⟨hg.wf.toInv.mem' hz, ?_⟩
      rintro ⟨-, h2 | ⟨w, h2⟩⟩
      · have : b ∈ g.nbrs z := (mem_nbrs hg.wf.toInv).mpr (by rw [hg.wf.symm]; exact hz)
        rw [h2] at this; simp at this
      · have : b ∈ g.nbrs z := (mem_nbrs hg.wf.toInv).mpr (by rw [hg.wf.symm]; exact hz)
        rw [h2.2.2.1, Finset.mem_singleton] at this
        rw [← this] at h2
        exact h2.2.2.2.2.2 hbt
    rw [hadj b hb z hzv]; exact hz
  · intro v hv'
    rw [ht]; exact hg.types v (hsub hv')
  · intro v hv'
    rw [hp]; exact hg.phases v (hsub hv')

theorem toGH_zx {g : Graph} (hg : g.ZX P) {ord : ℕ → List ℕ} (ho : Rules.NbrOrder g ord) {vs : List ℕ} (hvs : vs.toFinset = g.verts) :
    Preserves g (Simplify.toGH g ord vs) ∧ (Simplify.toGH g ord vs).ZX P ∧ (Simplify.toGH g ord vs).verts = g.verts ∧
      ∀ v ∈ g.verts, (Simplify.toGH g ord vs).ty v = .boundary ∨ (Simplify.toGH g ord vs).ty v = .Z := by
  have hty := Simplify.toGH_ty ord vs g
  have hr : Recolored g (Simplify.toGH g ord vs) := by
    rw [Simplify.toGH_eq]
    exact Simplify.toRG_sound ord _ vs g hg.wf ho fun v hv => by rw [← hvs]; simpa using hv
  have hmem : ∀ w, w ∈ vs ↔ w ∈ g.verts := fun w => by rw [← hvs]; simp
  have hadj : ∀ a b, (Simplify.toGH g ord vs).adj a b ≠ none ↔ g.adj a b ≠ none := by
    intro a b
    have := hr.conn a b
    rw [← Option.isSome_iff_ne_none, ← Option.isSome_iff_ne_none, this]
  have hb : ∀ v, (Simplify.toGH g ord vs).ty v = .boundary → g.ty v = .boundary := by
    intro v h
    rw [hty] at h
    by_cases hc : v ∈ vs ∧ g.ty v = .X
    · rw [if_pos hc] at h; simp at h
    · rw [if_neg hc] at h; exact h
  have htz : ∀ v ∈ g.verts, (Simplify.toGH g ord vs).ty v = .boundary ∨ (Simplify.toGH g ord vs).ty v = .Z := by
    intro v hv
    rw [hty]
    by_cases hc : v ∈ vs ∧ g.ty v = .X
    · rw [if_pos hc]; exact Or.inr rfl
    · rw [if_neg hc]
      rcases hg.types v hv with h | h | h
      · exact Or.inl h
      · exact Or.inr h
      · exact absurd ⟨(hmem v).mpr hv, h⟩ hc
  refine ⟨hr.pres, ⟨hr.pres.wf, ?_, ?_, ?_, ?_⟩, hr.verts, htz⟩
  · intro b hbv hbt u w hu hw
    rw [hr.verts] at hbv
    exact hg.bdeg b hbv (hb b hbt) u w ((hadj _ _).mp hu) ((hadj _ _).mp hw)
  · intro b hbv hbt
    rw [hr.verts] at hbv
    obtain ⟨z, hz⟩ := hg.badj b hbv (hb b hbt)
    exact ⟨z, (hadj _ _).mpr hz⟩
  · intro v hv
    rw [hr.verts] at hv
    rcases htz v hv with h | h
    · exact Or.inl h
    · exact Or.inr (Or.inl h)
  · intro v hv
    rw [hr.verts] at hv
    rw [hr.phase]; exact hg.phases v hv

end Graph
end PyZX
