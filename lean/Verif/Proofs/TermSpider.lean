import Verif.Proofs.TermWeight

/-! # The potential and spider fusion -/

namespace PyZX
namespace Graph

set_option linter.unusedSectionVars false

variable {P : ℚ → Prop} [Heavy]

theorem pl_add {g g' : Graph} {a b c : ℕ} {k : ℤ} (h : g'.phase c = g.phase a + g.phase b + k) (ha : g.Pl a) : g'.Pl c ↔ g.Pl b := by
  obtain ⟨l, hl⟩ := ha
  constructor
  · rintro ⟨m, hm⟩
    exact ⟨m - l - k, by push_cast; rw [← hm, h, hl]; ring⟩
  · rintro ⟨m, hm⟩
    exact ⟨l + m + k, by push_cast; rw [h, hl, hm]⟩

theorem cl_add {g g' : Graph} {a b c : ℕ} {k : ℤ} (h : g'.phase c = g.phase a + g.phase b + k) (ha : g.Cl a) (hb : g.Cl b) : g'.Cl c := by
  obtain ⟨l, hl⟩ := ha
  obtain ⟨m, hm⟩ := hb
  exact ⟨l + m + 2 * k, by push_cast; rw [h, ← hl, ← hm]; ring⟩

/-- The phases after fusing pairs. -/
theorem spider_phase {g : Graph} (ord : ℕ → List ℕ) {ps : List (ℕ × ℕ)} (h : SpiderOK g ps) (hz : ∀ p ∈ ps, g.ty p.1 ≠ .zbox ∧ g.ty p.2 ≠ .zbox)
    (hne : ∀ p ∈ ps, ∀ q ∈ ps, p.1 ≠ q.2) :
    (∀ p ∈ ps, ∃ k : ℤ, (ps.foldl (Rules.spiderStep ord) (RewriteState.start g)).g.phase p.1 = g.phase p.1 + g.phase p.2 + k) ∧
    ∀ v, (∀ p ∈ ps, v ≠ p.1) → (ps.foldl (Rules.spiderStep ord) (RewriteState.start g)).g.phase v = g.phase v := by
  have key : ∀ (l : List (ℕ × ℕ)) (s : RewriteState), l.Nodup → (∀ p ∈ l, p ∈ ps) → s.g.ty = g.ty →
      (∀ p ∈ l, s.g.phase p.1 = g.phase p.1) → (∀ p ∈ ps, s.g.phase p.2 = g.phase p.2) →
      (∀ p ∈ l, ∃ k : ℤ, (l.foldl (Rules.spiderStep ord) s).g.phase p.1 = g.phase p.1 + g.phase p.2 + k) ∧
      ∀ v, (∀ p ∈ l, v ≠ p.1) → (l.foldl (Rules.spiderStep ord) s).g.phase v = s.g.phase v := by
    intro l
    induction l with
    | nil => intro s _ _ _ _ _; exact ⟨by simp, fun _ _ => rfl⟩
    | cons p l ih =>
      intro s hnd hl ht h1 h2
      have hp := hl p (by simp)
      have hnd' := List.nodup_cons.mp hnd
      have hstep : (Rules.spiderStep ord s p).g = s.g.addToPhase p.1 (s.g.phase p.2) := by
        show Rules.spiderPhase s.g p.1 p.2 = _
        unfold Rules.spiderPhase
        rw [if_neg]
        rw [ht]
        exact fun q => q.elim (hz p hp).1 (hz p hp).2
      have hother : ∀ v, v ≠ p.1 → (Rules.spiderStep ord s p).g.phase v = s.g.phase v := by
        intro v hv
        rw [hstep]
        exact Function.update_of_ne hv ..
      have hp1 : ∀ q ∈ l, q.1 ≠ p.1 := by
        intro q hq e
        have hpq : p ≠ q := by rintro rfl; exact hnd'.1 hq
        exact (h.indep p hp q (hl q (by simp [hq])) hpq).1 e.symm
      obtain ⟨i1, i2⟩ := ih (Rules.spiderStep ord s p) hnd'.2 (fun q hq => hl q (by simp [hq])) (by rw [hstep]; exact ht)
        (fun q hq => by rw [hother _ (hp1 q hq)]; exact h1 q (by simp [hq]))
        (fun q hq => by rw [hother _ (hne p hp q hq).symm]; exact h2 q hq)
      rw [List.foldl_cons]
      refine ⟨fun q hq => ?_, fun v hv => ?_⟩
      · rcases List.mem_cons.mp hq with rfl | hq
        · rw [i2 q.1 fun r hr => (hp1 r hr).symm, hstep]
          have : (s.g.addToPhase q.1 (s.g.phase q.2)).phase q.1 = mod2 (s.g.phase q.1 + s.g.phase q.2) := Function.update_self ..
          rw [this, h1 q (by simp), h2 q hp]
          exact mod2_int _
        · exact i1 q hq
      · rw [i2 v fun q hq => hv q (by simp [hq]), hother v (hv p (by simp))]
  exact key ps _ h.nodup (fun _ h => h) rfl (fun _ _ => rfl) fun _ _ => rfl

/-- The pairs in the edge table. -/
theorem spider_keys {g : Graph} (hg : g.WF) {ord : ℕ → List ℕ} (hord : Rules.NbrOrder g ord) {ps : List (ℕ × ℕ)} (h : SpiderOK g ps) :
    ∀ e ∈ (ps.foldl (Rules.spiderStep ord) (RewriteState.start g)).etab, ∃ p ∈ ps, e.1.1 = p.1 ∧ g.adj p.2 e.1.2 ≠ none := by
  have tab : ∀ (G : Graph) (p : ℕ × ℕ), p ∈ ps → ∀ (ns : List ℕ), (∀ w ∈ ns, g.adj p.2 w ≠ none) → ∀ t : ETab,
      (∀ e ∈ t, ∃ p ∈ ps, e.1.1 = p.1 ∧ g.adj p.2 e.1.2 ≠ none) →
      ∀ e ∈ ns.foldl (fun t w => ETab.incr t (p.1, w) ((G.adj p.2 w).getD .simple)) t, ∃ p ∈ ps, e.1.1 = p.1 ∧ g.adj p.2 e.1.2 ≠ none := by
    intro G p hp ns
    induction ns with
    | nil => intro _ t ht; exact ht
    | cons w ns ih =>
      intro hns t ht
      refine ih (fun w hw => hns w (by simp [hw])) _ ?_
      exact forall_upd (P := fun k _ => ∃ p ∈ ps, k.1 = p.1 ∧ g.adj p.2 k.2 ≠ none) ht ⟨p, hp, rfl, hns w (by simp)⟩ fun _ hh => hh
  have key : ∀ (l : List (ℕ × ℕ)) (s : RewriteState), (∀ p ∈ l, p ∈ ps) → (∀ e ∈ s.etab, ∃ p ∈ ps, e.1.1 = p.1 ∧ g.adj p.2 e.1.2 ≠ none) →
      ∀ e ∈ (l.foldl (Rules.spiderStep ord) s).etab, ∃ p ∈ ps, e.1.1 = p.1 ∧ g.adj p.2 e.1.2 ≠ none := by
    intro l
    induction l with
    | nil => intro s _ hs; exact hs
    | cons p l ih =>
      intro s hl hs
      have hp := hl p (by simp)
      have ha : g.adj p.2 p.1 ≠ none := by rw [hg.symm, h.adj p hp]; simp
      refine ih (Rules.spiderStep ord s p) (fun q hq => hl q (by simp [hq])) ?_
      refine forall_upd (P := fun k _ => ∃ p ∈ ps, k.1 = p.1 ∧ g.adj p.2 k.2 ≠ none) (tab s.g p hp _ ?_ _ hs) ⟨p, hp, rfl, ha⟩ fun _ hh => hh
      intro w hw
      exact (NbrOrder.mem hg hord (hg.mem _ _ ha)).mp hw
  exact key ps _ (fun _ h => h) (by simp [RewriteState.start])

/-- Spider fusion does not increase the potential. -/
theorem spider_rel (hP : PhaseSet P) {g g' g'' : Graph} (hg : g.ZX P) (hzo : g.ZOnly) {ord : ℕ → List ℕ} (hord : Rules.NbrOrder g ord)
    {row0 : ℕ → Bool} {ms : List (ℕ × ℕ)} (h : SpiderOK g (ms.map (Rules.spiderPair row0))) (hne : ms ≠ [])
    (hfin : (Rules.spider row0 ord g ms).finish = some g') (hc : Cut g' g'') (hni : ∀ v ∈ g''.verts, ¬ g'.Isolated v) : Rel g g'' := by
  obtain ⟨g1, hfin1, hpr, hzx, hty, hverts⟩ := spider_zx hP hg hord h
  rw [hfin] at hfin1
  cases hfin1
  have hmap : (ms.map fun m => (Rules.spiderPair row0 m).2) = (ms.map (Rules.spiderPair row0)).map (·.2) := by rw [List.map_map]; rfl
  rw [hmap] at hverts
  have hps : ms.map (Rules.spiderPair row0) ≠ [] := by simpa using hne
  unfold Rules.spider at hfin
  generalize ms.map (Rules.spiderPair row0) = ps at h hfin hverts hps
  clear hmap hne
  obtain ⟨-, h1, -, -, -, h5, h6, h7, -⟩ := spider_fold hg.wf hord ps h
  have hwf := hg.wf
  have hwf' := hzx.wf
  have hmv : ∀ p ∈ ps, p.2 ∈ g.verts ∧ p.1 ∈ g.verts := fun p hp =>
    ⟨hwf.toInv.mem' (u := p.1) (by rw [h.adj p hp]; simp), hwf.mem _ p.2 (by rw [h.adj p hp]; simp)⟩
  obtain ⟨hsty, hsadj, -⟩ := spiderFold_same hP hg ord hmv ps (RewriteState.start g) (fun _ h => h) rfl rfl rfl hg.phases
  have hkeys := spider_keys hwf hord h
  have hcross : ∀ p ∈ ps, ∀ q ∈ ps, p.1 ≠ q.2 := by
    intro p hp q hq
    by_cases hpq : p = q
    · subst hpq
      intro e
      have := h.adj p hp
      rw [e, hwf.loopless] at this; simp at this
    · exact (h.indep p hp q hq hpq).2.1
  have hZ : ∀ p ∈ ps, g.ty p.1 = .Z ∧ g.ty p.2 = .Z := by
    intro p hp
    have c1 := hzo p.1 (hmv p hp).2
    have c2 := hzo p.2 (hmv p hp).1
    rcases h.ty p hp with ⟨q1, q2⟩ | ⟨q1, q2⟩
    · rw [q1] at c1; simp at c1
    · refine ⟨c1.resolve_left fun e => ?_, c2.resolve_left fun e => ?_⟩
      · rw [e] at q1; simp [VType.zLike] at q1
      · rw [e] at q2; simp [VType.zLike] at q2
  obtain ⟨hph1, hph2⟩ := spider_phase ord h (fun p hp => by rw [(hZ p hp).1, (hZ p hp).2]; simp) hcross
  generalize hs : ps.foldl (Rules.spiderStep ord) (RewriteState.start g) = s at *
  have huniq1 : ∀ p ∈ ps, ∀ q ∈ ps, p.1 = q.1 → p = q := fun p hp q hq e => by
    by_contra hpq
    exact (h.indep p hp q hq hpq).1 e
  have huniq2 : ∀ p ∈ ps, ∀ q ∈ ps, p.2 = q.2 → p = q := fun p hp q hq e => by
    by_contra hpq
    exact (h.indep p hp q hq hpq).2.2.1 e
  have hrem : ∀ v, v ∈ s.remVerts ↔ ∃ p ∈ ps, p.2 = v := fun v => by rw [h5, List.mem_map]
  have inV' : ∀ v, v ∈ g'.verts ↔ v ∈ g.verts ∧ ¬ ∃ p ∈ ps, p.2 = v := fun v => by
    rw [hverts, Finset.mem_sdiff, List.mem_toFinset, List.mem_map]
  have hshift := finish_shift hfin
  -- phases
  have ph1 : ∀ p ∈ ps, ∃ k : ℤ, g'.phase p.1 = g.phase p.1 + g.phase p.2 + k := by
    intro p hp
    obtain ⟨k, hk⟩ := hph1 p hp
    obtain ⟨l, hl⟩ := hshift p.1
    exact ⟨k + l, by rw [hl, hk]; push_cast; ring⟩
  have ph2 : ∀ v, (∀ p ∈ ps, v ≠ p.1) → (g'.Cl v ↔ g.Cl v) ∧ (g'.Pl v ↔ g.Pl v) := by
    intro v hv
    have e := hph2 v hv
    have c1 := hshift.cl (v := v)
    have c2 := hshift.pl (v := v)
    unfold Cl at c1 ⊢
    unfold Pl at c2 ⊢
    rw [e] at c1 c2
    exact ⟨c1, c2⟩
  have bnotk : ∀ b, g.ty b = .boundary → (∀ p ∈ ps, b ≠ p.1) ∧ ∀ p ∈ ps, b ≠ p.2 := by
    intro b hb
    refine ⟨?_, ?_⟩
    · rintro p hp rfl; rw [(hZ p hp).1] at hb; cases hb
    · rintro p hp rfl; rw [(hZ p hp).2] at hb; cases hb
  have hk2 : ∀ e ∈ s.etab, ∀ c, (∀ p ∈ ps, c ≠ p.1) → touch c e.1 → ∃ p ∈ ps, e.1.1 = p.1 ∧ e.1.2 = c ∧ g.adj p.2 c ≠ none := by
    intro e he c hck ht
    obtain ⟨p, hp, e1, e2⟩ := hkeys e he
    rcases ht with ht | ht
    · exact absurd (ht.trans e1) (hck p hp)
    · exact ⟨p, hp, e1, ht.symm, by rw [ht]; exact e2⟩
  -- edges that move from a removed vertex to its partner
  have hmove : ∀ p ∈ ps, ∀ c, (∀ q ∈ ps, c ≠ q.1) → (∀ w, g.adj c w ≠ none → w = p.2) → g.adj p.2 c ≠ none →
      (∃ e ∈ s.etab, e.2 ≠ (0, 0) ∧ e.1 = (p.1, c)) ∧ tcount s.etab c ≤ 1 := by
    intro p hp c hck hcn hpc
    have hpos : tcount s.etab c ≠ 0 := by
      rw [← hs]
      refine tcount_fold_pos (step := Rules.spiderStep ord) (I := fun _ => True) ps (fun _ _ _ _ => trivial) ?_ hp ?_ _ trivial
      · intro q hq s _
        exact le_trans (Nat.le_add_right _ _) (spiderTab_ge (g := s.g) (v1 := q.2) (ns := ord q.2) (hck q hq) s.etab)
      · intro s _
        have := spiderTab_ge (g := s.g) (v1 := p.2) (ns := ord p.2) (hck p hp) s.etab
        rw [if_pos ((NbrOrder.mem hwf hord (hmv p hp).1).mpr hpc)] at this
        have h0 : (Rules.spiderStep ord s p).etab = Rules.spiderTab s.g p.1 p.2 (ord p.2) s.etab := rfl
        rw [h0]
        omega
    constructor
    · obtain ⟨e, he, hz, ht⟩ := tcount_ne hpos
      obtain ⟨q, hq, e1, e2, e3⟩ := hk2 e he c hck ht
      rw [hwf.symm] at e3
      have := huniq2 q hq p hp (hcn _ e3)
      subst this
      exact ⟨e, he, hz, Prod.ext e1 e2⟩
    · have hle := tcount_fold (step := Rules.spiderStep ord) (b := c) (c := fun p => if c ∈ ord p.2 then 1 else 0) ps (by
        intro p hp s
        exact tcount_spiderTab (hord p.2 (hmv p hp).1).1 (hck p hp) _) (RewriteState.start g)
      rw [show tcount (RewriteState.start g).etab c = 0 from rfl, zero_add, hs] at hle
      refine hle.trans (sum_le_one (f := fun p => p.2) (z := p.2) ?_ (fun m _ => by split <;> simp) fun q hq hqc => ?_)
      · rw [List.nodup_map_iff_inj_on h.nodup]
        exact huniq2
      · have hin : c ∈ ord q.2 := by simpa using hqc
        refine hcn _ ?_
        rw [hwf.symm]
        exact (NbrOrder.mem hwf hord (hmv q hq).1).mp hin
  -- boundaries
  have hbd1 : ∀ v ∈ g'.verts, (∀ p ∈ ps, v ≠ p.1) → (g'.Bd v ↔ g.Bd v) := by
    intro v hv hvk
    constructor
    · rintro ⟨b, hb, hbt⟩
      rw [hty] at hbt
      obtain ⟨-, -, -, hcase⟩ := finish_adj hfin hwf'.toInv hb
      rcases hcase with hcase | ⟨e, he, -, hsp⟩
      · rw [hsadj] at hcase; exact ⟨b, hcase, hbt⟩
      · obtain ⟨p, hp, e1, -⟩ := hkeys e he
        rcases hsp with ⟨q, -⟩ | ⟨-, q⟩
        · exact absurd (q.trans e1) (hvk p hp)
        · exact absurd (q.trans e1) ((bnotk b hbt).1 p hp)
    · rintro ⟨b, hb, hbt⟩
      refine ⟨b, ?_, by rw [hty]; exact hbt⟩
      rw [hwf'.symm]
      refine finish_bnd hfin (by rw [hsty]; exact hbt) ?_ (fun hr => ((inV' v).mp hv).2 ((hrem v).mp hr)) (by rw [h6]; simp)
        (Or.inl (by rw [hsadj, hwf.symm]; exact hb))
      rw [hrem]
      rintro ⟨p, hp, e⟩
      exact (bnotk b hbt).2 p hp e.symm
  have hkept : ∀ p ∈ ps, p.1 ∉ s.remVerts := by
    intro p hp
    rw [hrem]
    rintro ⟨q, hq, e⟩
    exact hcross p hp q hq e.symm
  have hbd2 : ∀ p ∈ ps, (g'.Bd p.1 ↔ g.Bd p.1 ∨ g.Bd p.2) := by
    intro p hp
    constructor
    · rintro ⟨b, hb, hbt⟩
      rw [hty] at hbt
      obtain ⟨-, -, -, hcase⟩ := finish_adj hfin hwf'.toInv hb
      rcases hcase with hcase | ⟨e, he, -, hsp⟩
      · rw [hsadj] at hcase; exact Or.inl ⟨b, hcase, hbt⟩
      · obtain ⟨q, hq, e1, e2⟩ := hkeys e he
        rcases hsp with ⟨r, r'⟩ | ⟨-, r⟩
        · simp only at r r'
          have := huniq1 p hp q hq (r.trans e1)
          subst this
          exact Or.inr ⟨b, by rw [r']; exact e2, hbt⟩
        · exact absurd (r.trans e1) ((bnotk b hbt).1 q hq)
    · have hbr : ∀ b, g.ty b = .boundary → b ∉ s.remVerts := by
        intro b hbt
        rw [hrem]
        rintro ⟨p, hp, e⟩
        exact (bnotk b hbt).2 p hp e.symm
      rintro (⟨b, hb, hbt⟩ | ⟨b, hb, hbt⟩)
      · refine ⟨b, ?_, by rw [hty]; exact hbt⟩
        rw [hwf'.symm]
        exact finish_bnd hfin (by rw [hsty]; exact hbt) (hbr b hbt) (hkept p hp) (by rw [h6]; simp) (Or.inl (by rw [hsadj, hwf.symm]; exact hb))
      · refine ⟨b, ?_, by rw [hty]; exact hbt⟩
        rw [hwf'.symm]
        obtain ⟨e, he, e1, e2⟩ := (hmove p hp b (bnotk b hbt).1 (fun w hw => hg.bdeg b (hwf.toInv.mem' hb) hbt _ _ hw (by rw [hwf.symm]; exact hb)) hb).1
        exact finish_bnd hfin (by rw [hsty]; exact hbt) (hbr b hbt) (hkept p hp) (by rw [h6]; simp)
          (Or.inr ⟨e, he, e1, by rw [e2]; exact Or.inr ⟨rfl, rfl⟩⟩)
  -- leaves
  have hlf : ∀ v ∈ g'.verts, ∀ x, g.Lf x v → (∀ p ∈ ps, p.1 = v → x ≠ p.2) → g'.Lf x v ∧ ∀ p ∈ ps, x ≠ p.1 := by
    intro v hv x hx hxp
    have hvr := ((inV' v).mp hv).2
    have hxk : ∀ p ∈ ps, x ≠ p.1 := by
      rintro p hp rfl
      exact hvr ⟨p, hp, (hx.2 p.2).mp (by rw [h.adj p hp]; simp)⟩
    refine ⟨finish_leaf hfin hwf'.toInv hsadj hty hx ?_ (fun hr => hvr ((hrem v).mp hr)) ?_ (by rw [h6]; simp), hxk⟩
    · rw [hrem]
      rintro ⟨p, hp, rfl⟩
      exact hxp p hp ((hx.2 p.1).mp (by rw [hwf.symm, h.adj p hp]; simp)) rfl
    · intro e he _ ht
      obtain ⟨p, hp, -, -, e3⟩ := hk2 e he x hxk ht
      rw [hwf.symm] at e3
      exact hvr ⟨p, hp, (hx.2 _).mp e3⟩
  have hlm : ∀ p ∈ ps, ∀ x, g.Lf x p.2 → x ≠ p.1 → g'.Lf x p.1 ∧ ∀ q ∈ ps, x ≠ q.1 := by
    intro p hp x hx hxp
    have hxk : ∀ q ∈ ps, x ≠ q.1 := by
      rintro q hq rfl
      have := huniq2 q hq p hp ((hx.2 q.2).mp (by rw [h.adj q hq]; simp))
      rw [this] at hxp
      exact hxp rfl
    have hxr : x ∉ s.remVerts := by
      rw [hrem]
      rintro ⟨q, hq, rfl⟩
      exact hcross q hq p hp ((hx.2 q.1).mp (by rw [hwf.symm, h.adj q hq]; simp))
    obtain ⟨⟨e, he, e1, e2⟩, hle⟩ := hmove p hp x hxk (fun w hw => (hx.2 w).mp hw) (by rw [hwf.symm]; exact (hx.2 _).mpr rfl)
    have hnew : g'.adj p.1 x ≠ none := finish_new hfin hxr (hkept p hp) hle he e1 e2 (by
      rw [hsadj]
      by_contra hcon
      rw [hwf.symm] at hcon
      exact hcross p hp p hp ((hx.2 _).mp hcon)) (by rw [h6]; simp)
    refine ⟨⟨by rw [hty]; exact hx.1, fun w => ⟨fun hw => ?_, ?_⟩⟩, hxk⟩
    · obtain ⟨-, r2, -, hcase⟩ := finish_adj hfin hwf'.toInv hw
      rcases hcase with hcase | ⟨f, hf, -, hsp⟩
      · rw [hsadj] at hcase
        exact absurd ((hrem w).mpr ⟨p, hp, ((hx.2 w).mp hcase).symm⟩) r2
      · have ht : touch x f.1 := by
          rcases hsp with ⟨q, -⟩ | ⟨q, -⟩
          · exact Or.inl q
          · exact Or.inr q
        obtain ⟨q, hq, f1, f2, f3⟩ := hk2 f hf x hxk ht
        rw [hwf.symm] at f3
        have := huniq2 q hq p hp ((hx.2 _).mp f3)
        subst this
        rcases hsp with ⟨r, -⟩ | ⟨-, r⟩
        · exact absurd (r.trans f1) (hxk q hq)
        · exact r.trans f1
    · rintro rfl
      rw [hwf'.symm]
      exact hnew
  -- the weight of a fused vertex
  have hnopair : ∀ p ∈ ps, p.1 ∈ g''.verts → ¬ (g.Lf p.1 p.2 ∧ g.Lf p.2 p.1) := by
    rintro p hp hv ⟨l1, l2⟩
    refine hni p.1 hv (isolated_of hwf'.toInv (hc.sub hv) fun n => ?_)
    by_contra hn
    obtain ⟨-, r2, -, hcase⟩ := finish_adj hfin hwf'.toInv hn
    rcases hcase with hcase | ⟨e, he, hz, hsp⟩
    · rw [hsadj] at hcase
      exact r2 ((hrem n).mpr ⟨p, hp, ((l1.2 n).mp hcase).symm⟩)
    · obtain ⟨q, hq, e1, e2⟩ := hkeys e he
      have hloop := (h7 e he hz).2.2
      rcases hsp with ⟨r, -⟩ | ⟨r, -⟩
      · simp only at r
        have := huniq1 p hp q hq (r.trans e1)
        subst this
        exact hloop (e1.trans ((l2.2 _).mp e2).symm)
      · simp only at r
        rw [← r, hwf.symm] at e2
        have := huniq2 q hq p hp ((l1.2 _).mp e2)
        subst this
        exact hloop (e1.trans r)
  have hfused : ∀ p ∈ ps, p.1 ∈ g''.verts → g''.wt p.1 ≤ g.wt p.1 + g.wt p.2 ∧
      (g.wt p.1 = 0 ∨ g.wt p.2 = 0 ∨ g''.wt p.1 < g.wt p.1 + g.wt p.2) := by
    intro p hp hv
    rw [hc.wt hv]
    obtain ⟨k, hk⟩ := ph1 p hp
    have hv' := hc.sub hv
    by_cases c1 : g.Cl p.1
    swap
    · rw [wt_notCl (hZ p hp).1 c1]
      have := wt_le_N g' p.1
      omega
    by_cases c2 : g.Cl p.2
    swap
    · rw [wt_notCl (hZ p hp).2 c2]
      have := wt_le_N g' p.1
      omega
    have c' : g'.Cl p.1 := cl_add hk c1 c2
    by_cases b1 : g.Bd p.1
    · have := wt_le_2 c' ((hbd2 p hp).mpr (Or.inl b1))
      rw [wt_bd (hZ p hp).1 c1 b1]
      omega
    by_cases b2 : g.Bd p.2
    · have := wt_le_2 c' ((hbd2 p hp).mpr (Or.inr b2))
      rw [wt_bd (hZ p hp).2 c2 b2]
      omega
    have b' : ¬ g'.Bd p.1 := fun hh => ((hbd2 p hp).mp hh).elim b1 b2
    have t' : g'.ty p.1 = .Z := by rw [hty]; exact (hZ p hp).1
    have w4 := wt_le_4 c'
    have hl1 : ∀ x, g.Lf x p.1 → x ≠ p.2 → g'.Lf x p.1 ∧ ∀ q ∈ ps, x ≠ q.1 := fun x hx hxp =>
      hlf p.1 hv' x hx fun q hq e => by rw [huniq1 q hq p hp e]; exact hxp
    rcases wt_cases g p.1 with w | w | w | w | w | w
    · exact absurd (hZ p hp).1 w.1
    · exact absurd c1 w.2.1
    · exact absurd w.2.2.1 b1
    · obtain ⟨⟨-, -, -, x, x1, x2⟩, w0⟩ := w
      by_cases hx : x = p.2
      · subst hx
        have : g.wt p.2 = 4 := wt_lone (hZ p hp).2 c2 b2 (by
          rintro ⟨y, hy⟩
          have hyp : y = p.1 := by
            have := (hy.2 p.2).mpr rfl
            rw [hwf.symm] at this
            exact (x1.2 y).mp this
          subst hyp
          exact hnopair p hp hv ⟨hy, x1⟩)
        omega
      · obtain ⟨l1, l2⟩ := hl1 x x1 hx
        have := wt_ctr (g := g') (v := p.1) ⟨t', c', b', x, l1, (ph2 x l2).1.mpr x2⟩
        omega
    · obtain ⟨-, -, -, w4', ⟨x, x1⟩, w1⟩ := w
      have hxp : x ≠ p.2 := by
        rintro rfl
        exact w4' ⟨_, x1, c2⟩
      have := wt_le_1 c' b' ⟨x, (hl1 x x1 hxp).1⟩
      omega
    · have w1 := w.2.2.2.2
      omega
  -- everything together
  set φ : ℕ → ℕ := fun v => match ps.find? (fun p => p.2 = v) with | some p => p.1 | none => v with hφ
  have φ_rem : ∀ p ∈ ps, φ p.2 = p.1 := by
    intro p hp
    simp only [hφ]
    cases hfd : ps.find? (fun q => q.2 = p.2) with
    | none =>
      have := List.find?_eq_none.mp hfd p hp
      simp at this
    | some q =>
      have h1 := List.find?_some hfd
      have h2 := List.mem_of_find?_eq_some hfd
      simp only [decide_eq_true_eq] at h1
      simp only
      rw [huniq2 q h2 p hp h1]
  have φ_id : ∀ v, (¬ ∃ p ∈ ps, p.2 = v) → φ v = v := by
    intro v hv
    simp only [hφ]
    rw [List.find?_eq_none.mpr (fun p hp => by simp only [decide_eq_true_eq]; exact fun e => hv ⟨p, hp, e⟩)]
  have hself : ∀ v ∈ g''.verts, v ∈ g.verts ∧ φ v = v ∧ ¬ ∃ p ∈ ps, p.2 = v := by
    intro v hv
    have := (inV' v).mp (hc.sub hv)
    exact ⟨this.1, φ_id v this.2, this.2⟩
  have hw0 : ∀ v ∈ g''.verts, (∀ p ∈ ps, v ≠ p.1) → g''.wt v ≤ g.wt v := by
    intro v hv hvk
    rw [hc.wt hv]
    have hv' := hc.sub hv
    refine wt_le (by rw [hty]) (ph2 v hvk).1.mpr (hbd1 v hv' hvk).mpr (hbd1 v hv' hvk).mp fun x hx => ?_
    obtain ⟨l1, l2⟩ := hlf v hv' x hx fun p hp e => absurd e.symm (hvk p hp)
    exact ⟨l1, (ph2 x l2).1.mpr⟩
  have hfib : ∀ p ∈ ps, g.wt p.1 + g.wt p.2 ≤ g.fib φ p.1 := fun p hp =>
    le_fib2 (hmv p hp).2 (φ_id _ fun ⟨q, hq, e⟩ => hcross p hp q hq e.symm) (hmv p hp).1 (φ_rem p hp) (hcross p hp p hp)
  obtain ⟨p1, p2⟩ := pot_le (g := g) (g' := g'') φ (fun v hv => by
    obtain ⟨s1, s2, s3⟩ := hself v hv
    by_cases hk : ∃ p ∈ ps, v = p.1
    · obtain ⟨p, hp, rfl⟩ := hk
      exact (hfused p hp hv).1.trans (hfib p hp)
    · push Not at hk
      exact (hw0 v hv hk).trans (le_fib s1 s2))
  refine Rel.of p1 fun heq hJ => ?_
  obtain ⟨q1, q2⟩ := p2 heq
  have hzero : ∀ p ∈ ps, g.wt p.1 = 0 ∨ g.wt p.2 = 0 := by
    intro p hp
    by_cases hv : p.1 ∈ g''.verts
    · have e1 := q1 p.1 hv
      have e2 := hfib p hp
      rcases (hfused p hp hv).2 with e | e | e
      · exact Or.inl e
      · exact Or.inr e
      · omega
    · exact Or.inr (q2 p.2 (hmv p hp).1 (by rw [φ_rem p hp]; exact hv))
  refine ⟨fun v hv hctr => ?_, ?_, fun hall => ?_⟩
  · obtain ⟨s1, s2, s3⟩ := hself v hv
    have hz := q1 v hv
    rw [wt_ctr hctr] at hz
    by_cases hk : ∃ p ∈ ps, v = p.1
    · obtain ⟨p, hp, rfl⟩ := hk
      have := hfib p hp
      have e1 := hJ p.1 (hmv p hp).2 (wt_zero (by omega))
      have e2 := hJ p.2 (hmv p hp).1 (wt_zero (by omega))
      obtain ⟨k, hk⟩ := ph1 p hp
      exact hc.pl.mpr ((pl_add hk e1).mpr e2)
    · push Not at hk
      have := le_fib (g := g) (f := φ) s1 s2
      exact hc.pl.mpr ((ph2 v hk).2.mpr (hJ v s1 (wt_zero (by omega))))
  · rintro ⟨y, hy, hyh⟩
    have hpos := wt_half_pos hJ hy hyh
    by_cases hk1 : ∃ p ∈ ps, y = p.1 ∨ y = p.2
    · obtain ⟨p, hp, hyp⟩ := hk1
      have hv : p.1 ∈ g''.verts := by
        by_contra hv
        have : g.wt y = 0 := by
          refine q2 y hy ?_
          rcases hyp with rfl | rfl
          · rw [φ_id _ fun ⟨q, hq, e⟩ => hcross p hp q hq e.symm]; exact hv
          · rw [φ_rem p hp]; exact hv
        omega
      obtain ⟨k, hk⟩ := ph1 p hp
      refine ⟨p.1, hv, by rw [hc.ty, hty]; exact (hZ p hp).1, hc.cl.mpr ?_, fun hpl => ?_, fun hb => ?_⟩
      · rcases hyp with rfl | rfl
        · have := wt_zero ((hzero p hp).resolve_left (by omega))
          exact cl_add hk hyh.2.1 this.2.1
        · have := wt_zero ((hzero p hp).resolve_right (by omega))
          exact cl_add hk this.2.1 hyh.2.1
      · have hpl := hc.pl.mp hpl
        rcases hyp with rfl | rfl
        · have := hJ p.2 (hmv p hp).1 (wt_zero ((hzero p hp).resolve_left (by omega)))
          rw [add_comm (g.phase p.1)] at hk
          exact hyh.2.2.1 ((pl_add hk this).mp hpl)
        · have := hJ p.1 (hmv p hp).2 (wt_zero ((hzero p hp).resolve_right (by omega)))
          exact hyh.2.2.1 ((pl_add hk this).mp hpl)
      · have hb := (hbd2 p hp).mp ((hc.bd hv).mp hb)
        rcases hyp with rfl | rfl
        · have := wt_zero ((hzero p hp).resolve_left (by omega))
          exact hb.elim hyh.2.2.2 this.2.2.1
        · have := wt_zero ((hzero p hp).resolve_right (by omega))
          exact hb.elim this.2.2.1 hyh.2.2.2
    · push Not at hk1
      have hyn : ¬ ∃ p ∈ ps, p.2 = y := fun ⟨p, hp, e⟩ => (hk1 p hp).2 e.symm
      have hv : y ∈ g''.verts := by
        by_contra hv
        have := q2 y hy (by rw [φ_id y hyn]; exact hv)
        omega
      have hyk : ∀ p ∈ ps, y ≠ p.1 := fun p hp => (hk1 p hp).1
      exact ⟨y, hv, by rw [hc.ty, hty]; exact hyh.1, hc.cl.mpr ((ph2 y hyk).1.mpr hyh.2.1), fun hpl => hyh.2.2.1 ((ph2 y hyk).2.mp (hc.pl.mp hpl)),
        fun hb => hyh.2.2.2 ((hbd1 y (hc.sub hv) hyk).mp ((hc.bd hv).mp hb))⟩
  · obtain ⟨p, hp⟩ := List.exists_mem_of_ne_nil ps hps
    rcases hzero p hp with e | e
    · exact hall _ (hmv p hp).2 (wt_zero e)
    · exact hall _ (hmv p hp).1 (wt_zero e)

end Graph
end PyZX
