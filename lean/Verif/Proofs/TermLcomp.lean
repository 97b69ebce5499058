import Verif.Proofs.TermWeight

/-! # The potential and local complementation -/

namespace PyZX
namespace Graph

set_option linter.unusedSectionVars false

variable {P : ℚ → Prop} [Heavy]

theorem lcompInner_forall {Q : ℕ × ℕ → Prop} {t : ETab} {a : ℕ} {js : List ℕ} (ht : ∀ e ∈ t, Q e.1) (h : ∀ b ∈ js, Q (a, b)) :
    ∀ e ∈ Rules.lcompInner t a js, Q e.1 := by
  induction js generalizing t with
  | nil => exact ht
  | cons b js ih =>
    exact ih (forall_upd (P := fun k _ => Q k) ht (h b (by simp)) fun _ hh => hh) fun b hb => h b (by simp [hb])

theorem lcompLoop_forall {Q : ℕ × ℕ → Prop} {a : ℚ} {ns : List ℕ} (hnd : ns.Nodup) {g : Graph} {t : ETab} (ht : ∀ e ∈ t, Q e.1)
    (h : ∀ x ∈ ns, ∀ y ∈ ns, x ≠ y → Q (x, y)) : ∀ e ∈ (Rules.lcompLoop a g t ns).2, Q e.1 := by
  induction ns generalizing g t with
  | nil => exact ht
  | cons n ns ih =>
    have hn := List.nodup_cons.mp hnd
    refine ih hn.2 (lcompInner_forall ht fun b hb => h n (by simp) b (by simp [hb]) ?_) fun x hx y hy => h x (by simp [hx]) y (by simp [hy])
    rintro rfl
    exact hn.1 hb

theorem lcompLoop_phase {a : ℚ} {ns : List ℕ} (hnd : ns.Nodup) (g : Graph) (t : ETab) (v : ℕ) :
    ∃ k : ℤ, (Rules.lcompLoop a g t ns).1.phase v = g.phase v + (if v ∈ ns then -a else 0) + k := by
  induction ns generalizing g t with
  | nil => exact ⟨0, by simp [Rules.lcompLoop]⟩
  | cons n ns ih =>
    have hn := List.nodup_cons.mp hnd
    obtain ⟨k, hk⟩ := ih hn.2 (g.addToPhase n (-a)) (Rules.lcompInner t n ns)
    simp only [Rules.lcompLoop]
    rw [hk]
    by_cases e : v = n
    · subst e
      rw [if_neg hn.1, if_pos (by simp)]
      have : (g.addToPhase v (-a)).phase v = mod2 (g.phase v + -a) := Function.update_self ..
      obtain ⟨l, hl⟩ := mod2_int (g.phase v + -a)
      rw [this, hl]
      exact ⟨l + k, by push_cast; ring⟩
    · have : (g.addToPhase n (-a)).phase v = g.phase v := Function.update_of_ne e ..
      rw [this]
      simp only [List.mem_cons, e, false_or]
      exact ⟨k, rfl⟩

theorem lcompStep_phase {s : RewriteState} {m : Rules.LcompMatch} (hnd : m.vn.Nodup) (hp : s.g.phase m.v = 1 / 2 ∨ s.g.phase m.v = 3 / 2) (v : ℕ) :
    ∃ k : ℤ, (Rules.lcompStep s m).g.phase v = s.g.phase v + (if v ∈ m.vn then 1 / 2 else 0) + k := by
  unfold Rules.lcompStep
  simp only
  obtain ⟨k, hk⟩ := lcompLoop_phase (a := s.g.phase m.v) hnd (((if (s.g.phase m.v).num = 1 then s.g.addScalarPhase (1 / 4) else
    s.g.addScalarPhase (7 / 4))).addPower ((((m.vn.length : ℤ) - 2) * ((m.vn.length : ℤ) - 1)) / 2)) s.etab v
  rw [hk]
  have : (((if (s.g.phase m.v).num = 1 then s.g.addScalarPhase (1 / 4) else
    s.g.addScalarPhase (7 / 4))).addPower ((((m.vn.length : ℤ) - 2) * ((m.vn.length : ℤ) - 1)) / 2)).phase v = s.g.phase v := by
    split <;> rfl
  rw [this]
  split
  · rcases hp with h | h <;> rw [h]
    · exact ⟨k - 1, by push_cast; ring⟩
    · exact ⟨k - 2, by push_cast; ring⟩
  · exact ⟨k, rfl⟩

theorem lcompStep_phase_same {s : RewriteState} {m : Rules.LcompMatch} {v : ℕ} (hv : v ∉ m.vn) : (Rules.lcompStep s m).g.phase v = s.g.phase v := by
  have key : ∀ (a : ℚ) (ns : List ℕ) (g : Graph) (t : ETab), v ∉ ns → (Rules.lcompLoop a g t ns).1.phase v = g.phase v := by
    intro a ns
    induction ns with
    | nil => intro g t _; rfl
    | cons n ns ih =>
      intro g t h
      simp only [List.mem_cons, not_or] at h
      simp only [Rules.lcompLoop]
      rw [ih _ _ h.2]
      exact Function.update_of_ne h.1 ..
  unfold Rules.lcompStep
  simp only
  rw [key _ _ _ _ hv]
  split <;> rfl

/-- The phases after local complementations: every neighbour gains π/2 up to multiples of π. -/
theorem lcomp_phase {g : Graph} {ms : List Rules.LcompMatch} (h : LcompOK g ms) (v : ℕ) :
    ∃ k : ℤ, (Rules.lcomp g ms).g.phase v = g.phase v + (ms.countP (fun m => decide (v ∈ m.vn)) : ℕ) / 2 + k := by
  have key : ∀ (l : List Rules.LcompMatch) (s : RewriteState), (∀ m ∈ l, m ∈ ms) → (∀ m ∈ ms, s.g.phase m.v = g.phase m.v) →
      ∃ k : ℤ, (l.foldl Rules.lcompStep s).g.phase v = s.g.phase v + (l.countP (fun m => decide (v ∈ m.vn)) : ℕ) / 2 + k := by
    intro l
    induction l with
    | nil => intro s _ _; exact ⟨0, by simp⟩
    | cons m l ih =>
      intro s hl hs
      have hm := hl m (by simp)
      obtain ⟨k, hk⟩ := ih (Rules.lcompStep s m) (fun m hm => hl m (by simp [hm]))
        (fun m' hm' => by rw [lcompStep_phase_same (h.indep m hm m' hm')]; exact hs m' hm')
      obtain ⟨k', hk'⟩ := lcompStep_phase (s := s) (h.nbrs m hm).1 (by rw [hs m hm]; exact h.phase m hm) v
      rw [List.foldl_cons, hk, hk', List.countP_cons]
      by_cases e : v ∈ m.vn
      · simp only [e, if_true, decide_true]
        exact ⟨k' + k, by push_cast; ring⟩
      · simp only [e, if_false, decide_false, Bool.false_eq_true]
        exact ⟨k' + k, by push_cast; ring⟩
  exact key ms _ (fun _ h => h) fun _ _ => rfl

/-- The pairs in the edge table are pairs of neighbours of one match. -/
theorem lcomp_keys {g : Graph} {ms : List Rules.LcompMatch} (h : LcompOK g ms) :
    ∀ e ∈ (Rules.lcomp g ms).etab, ∃ m ∈ ms, e.1.1 ∈ m.vn ∧ e.1.2 ∈ m.vn ∧ e.1.1 ≠ e.1.2 := by
  have key : ∀ (l : List Rules.LcompMatch) (s : RewriteState), (∀ m ∈ l, m ∈ ms) →
      (∀ e ∈ s.etab, ∃ m ∈ ms, e.1.1 ∈ m.vn ∧ e.1.2 ∈ m.vn ∧ e.1.1 ≠ e.1.2) →
      ∀ e ∈ (l.foldl Rules.lcompStep s).etab, ∃ m ∈ ms, e.1.1 ∈ m.vn ∧ e.1.2 ∈ m.vn ∧ e.1.1 ≠ e.1.2 := by
    intro l
    induction l with
    | nil => intro s _ hs; exact hs
    | cons m l ih =>
      intro s hl hs
      refine ih (Rules.lcompStep s m) (fun m hm => hl m (by simp [hm])) ?_
      exact lcompLoop_forall (Q := fun k => ∃ m ∈ ms, k.1 ∈ m.vn ∧ k.2 ∈ m.vn ∧ k.1 ≠ k.2) (h.nbrs m (hl m (by simp))).1 hs
        fun x hx y hy hne => ⟨m, hl m (by simp), hx, hy, hne⟩
  exact key ms _ (fun _ h => h) (by simp [RewriteState.start])

open Classical in
/-- Local complementations do not increase the potential. -/
theorem lcomp_rel (hP : PhaseSet P) {g g' g'' : Graph} (hg : g.ZX P) {ms : List Rules.LcompMatch} (h : LcompOK g ms) (hne : ms ≠ [])
    (hfin : (Rules.lcomp g ms).finish = some g') (hc : Cut g' g'') (hni : ∀ v ∈ g''.verts, ¬ g'.Isolated v) : Rel g g'' := by
  obtain ⟨g1, hfin1, hpr, hzx, hty, hverts⟩ := lcomp_zx hP hg h
  rw [hfin] at hfin1
  cases hfin1
  obtain ⟨f1, f2, f3, -, -⟩ := lcomp_fold ms h
  have hkeys := lcomp_keys h
  have hwf := hg.wf
  have hwf' := hzx.wf
  -- neighbours of matches
  have mnbr : ∀ m ∈ ms, ∀ w, w ∈ m.vn ↔ g.adj m.v w ≠ none := fun m hm w => by
    rw [← mem_nbrs hwf.toInv, ← (h.nbrs m hm).2, List.mem_toFinset]
  have hrem : ∀ v, v ∈ (Rules.lcomp g ms).remVerts ↔ ∃ m ∈ ms, m.v = v := fun v => by rw [f2, List.mem_map]
  have inV' : ∀ v, v ∈ g'.verts ↔ v ∈ g.verts ∧ ¬ ∃ m ∈ ms, m.v = v := fun v => by
    rw [hverts, Finset.mem_sdiff, List.mem_toFinset, List.mem_map]
  have vnot : ∀ m ∈ ms, ∀ w ∈ m.vn, ¬ ∃ m' ∈ ms, m'.v = w := by
    rintro m hm w hw ⟨m', hm', rfl⟩
    exact h.indep m hm m' hm' hw
  -- phases
  have hphase : ∀ v, ∃ k : ℤ, g'.phase v = g.phase v + (ms.countP (fun m => decide (v ∈ m.vn)) : ℕ) / 2 + k := by
    intro v
    obtain ⟨k, hk⟩ := lcomp_phase h v
    obtain ⟨l, hl⟩ := finish_shift hfin v
    exact ⟨k + l, by rw [hl, hk]; push_cast; ring⟩
  have hcl : ∀ v, g'.Cl v ↔ g.Cl v := by
    intro v
    obtain ⟨k, hk⟩ := hphase v
    constructor
    · rintro ⟨l, hl⟩
      exact ⟨l - ms.countP (fun m => decide (v ∈ m.vn)) - 2 * k, by push_cast; rw [← hl, hk]; ring⟩
    · rintro ⟨l, hl⟩
      exact ⟨l + ms.countP (fun m => decide (v ∈ m.vn)) + 2 * k, by push_cast; rw [← hl, hk]; ring⟩
  have hpl0 : ∀ v, (∀ m ∈ ms, v ∉ m.vn) → (g'.Pl v ↔ g.Pl v) := by
    intro v hv
    obtain ⟨k, hk⟩ := hphase v
    rw [show ms.countP (fun m => decide (v ∈ m.vn)) = 0 from List.countP_eq_zero.mpr fun m hm => by simpa using hv m hm] at hk
    constructor
    · rintro ⟨l, hl⟩
      exact ⟨l - k, by push_cast; rw [← hl, hk]; simp⟩
    · rintro ⟨l, hl⟩
      exact ⟨l + k, by push_cast; rw [← hl, hk]; simp⟩
  -- boundaries
  have hbd : ∀ v ∈ g'.verts, (g'.Bd v ↔ g.Bd v) := by
    intro v hv
    constructor
    · rintro ⟨b, hb, hbt⟩
      rw [hty] at hbt
      obtain ⟨-, -, -, hcase⟩ := finish_adj hfin hwf'.toInv hb
      rcases hcase with hcase | ⟨e, he, -, hsp⟩
      · rw [f1.adj] at hcase; exact ⟨b, hcase, hbt⟩
      · obtain ⟨m, hm, e1, e2, -⟩ := hkeys e he
        have : g.ty b = .Z := by
          rcases hsp with ⟨-, q⟩ | ⟨-, q⟩
          · simp only at q; rw [q]; exact (h.nty m hm _ e2).1
          · simp only at q; rw [q]; exact (h.nty m hm _ e1).1
        rw [this] at hbt; cases hbt
    · rintro ⟨b, hb, hbt⟩
      refine ⟨b, ?_, by rw [hty]; exact hbt⟩
      have hbt' : ∀ m ∈ ms, b ∉ m.vn := by
        intro m hm hbm
        rw [(h.nty m hm b hbm).1] at hbt; cases hbt
      rw [hwf'.symm, finish_quiet hfin (x := b) (y := v), f1.adj, hwf.symm]
      · exact hb
      · rw [hrem]; rintro ⟨m, hm, rfl⟩
        rw [h.ty m hm] at hbt; cases hbt
      · rintro e he - (p | p)
        · obtain ⟨m, hm, e1, -, -⟩ := hkeys e he
          exact hbt' m hm (p ▸ e1)
        · obtain ⟨m, hm, -, e2, -⟩ := hkeys e he
          exact hbt' m hm (p ▸ e2)
      · rw [f3]; simp
      · rw [hrem]; exact ((inV' v).mp hv).2
  -- leaves
  have hleaf : ∀ v ∈ g'.verts, ∀ x, g.Lf x v → (¬ ∃ m ∈ ms, m.v = x) → g'.Lf x v := by
    intro v hv x hx hxm
    have hxn : ∀ m ∈ ms, x ∉ m.vn := by
      intro m hm hxm
      have := (mnbr m hm x).mp hxm
      rw [hwf.symm] at this
      exact ((inV' v).mp hv).2 ⟨m, hm, (hx.2 _).mp this⟩
    refine finish_leaf hfin hwf'.toInv f1.adj hty hx (by rw [hrem]; exact hxm) (by rw [hrem]; exact ((inV' v).mp hv).2) ?_ (by rw [f3]; simp)
    rintro e he - (p | p)
    · obtain ⟨m, hm, e1, -, -⟩ := hkeys e he
      exact hxn m hm (p ▸ e1)
    · obtain ⟨m, hm, -, e2, -⟩ := hkeys e he
      exact hxn m hm (p ▸ e2)
  -- the map
  set φ : ℕ → ℕ := fun x => if hx : (∃ m ∈ ms, m.v = x) ∧ ∃ c, g.Lf x c then hx.2.choose else x with hφ
  have φ_leaf : ∀ m ∈ ms, ∀ c, g.Lf m.v c → φ m.v = c := by
    intro m hm c hl
    have hx : (∃ m' ∈ ms, m'.v = m.v) ∧ ∃ c, g.Lf m.v c := ⟨⟨m, hm, rfl⟩, c, hl⟩
    simp only [hφ]
    rw [dif_pos hx]
    exact (hl.2 _).mp ((hx.2.choose_spec.2 _).mpr rfl)
  have φ_id : ∀ v, (¬ ∃ m ∈ ms, m.v = v) → φ v = v := by
    intro v hv
    simp only [hφ]
    rw [dif_neg fun hh => hv hh.1]
  have φ_not : ∀ m ∈ ms, (¬ ∃ c, g.Lf m.v c) → φ m.v = m.v := by
    intro m hm hn
    simp only [hφ]
    rw [dif_neg fun hh => hn hh.2]
  -- matched vertices
  have mcl : ∀ m ∈ ms, g.Cl m.v ∧ ¬ g.Pl m.v := by
    intro m hm
    rcases h.phase m hm with hp | hp
    · refine ⟨⟨1, by rw [hp]; norm_num⟩, ?_⟩
      rintro ⟨k, hk⟩
      rw [hp] at hk
      have h2 : ((2 * k : ℤ) : ℚ) = ((1 : ℤ) : ℚ) := by push_cast; rw [← hk]; norm_num
      have h3 := Int.cast_injective h2
      omega
    · refine ⟨⟨3, by rw [hp]; norm_num⟩, ?_⟩
      rintro ⟨k, hk⟩
      rw [hp] at hk
      have h2 : ((2 * k : ℤ) : ℚ) = ((3 : ℤ) : ℚ) := by push_cast; rw [← hk]; norm_num
      have h3 := Int.cast_injective h2
      omega
  have mbd : ∀ m ∈ ms, ¬ g.Bd m.v := by
    rintro m hm ⟨b, hb, hbt⟩
    rw [(h.nty m hm b ((mnbr m hm b).mpr hb)).1] at hbt; cases hbt
  have mwt : ∀ m ∈ ms, ∀ c ∈ g''.verts, g.Lf m.v c → g.wt m.v = 4 := by
    intro m hm c hcv hl
    refine wt_lone (h.ty m hm) (mcl m hm).1 (mbd m hm) ?_
    rintro ⟨y, hy⟩
    have hyc : y = c := by
      have := (hy.2 m.v).mpr rfl
      rw [hwf.symm] at this
      exact (hl.2 y).mp this
    subst hyc
    refine hni y hcv (isolated_of hwf'.toInv (hc.sub hcv) fun n => ?_)
    by_contra hn
    obtain ⟨-, nr, -, hcase⟩ := finish_adj hfin hwf'.toInv hn
    rcases hcase with hcase | ⟨e, he, -, hsp⟩
    · rw [f1.adj, hy.2 n] at hcase
      exact nr ((hrem n).mpr ⟨m, hm, hcase.symm⟩)
    · obtain ⟨m', hm', e1, e2, e3⟩ := hkeys e he
      have hym : y ∈ m'.vn := by
        rcases hsp with ⟨q, -⟩ | ⟨q, -⟩
        · simp only at q; rw [q]; exact e1
        · simp only at q; rw [q]; exact e2
      have hmm : m'.v = m.v := by
        have := (mnbr m' hm' y).mp hym
        rw [hwf.symm] at this
        exact (hy.2 _).mp this
      have only : ∀ w ∈ m'.vn, w = y := by
        intro w hw
        have := (mnbr m' hm' w).mp hw
        rw [hmm] at this
        exact (hl.2 w).mp this
      exact e3 ((only _ e1).trans (only _ e2).symm)
  -- weights
  have hw0 : ∀ v ∈ g''.verts, (∀ m ∈ ms, ¬ g.Lf m.v v) → g''.wt v ≤ g.wt v := by
    intro v hv hnl
    rw [hc.wt hv]
    have hv' := hc.sub hv
    refine wt_le (by rw [hty]) (hcl v).mpr (hbd v hv').mpr (hbd v hv').mp fun x hx => ⟨hleaf v hv' x hx ?_, (hcl x).mpr⟩
    rintro ⟨m, hm, rfl⟩
    exact hnl m hm hx
  have hcl'' : ∀ v, g.Cl v → g''.Cl v := fun v hv => hc.cl.mpr ((hcl v).mpr hv)
  have hself : ∀ v ∈ g''.verts, v ∈ g.verts ∧ φ v = v ∧ ¬ ∃ m ∈ ms, m.v = v := by
    intro v hv
    have := (inV' v).mp (hc.sub hv)
    exact ⟨this.1, φ_id v this.2, this.2⟩
  obtain ⟨p1, p2⟩ := pot_le (g := g) (g' := g'') φ (fun v hv => by
    obtain ⟨s1, s2, s3⟩ := hself v hv
    by_cases hl : ∃ m ∈ ms, g.Lf m.v v
    · obtain ⟨m, hm, hl⟩ := hl
      have h2 := le_fib2 (g := g) (f := φ) s1 s2 (h.mem m hm) (φ_leaf m hm v hl) (fun e => s3 ⟨m, hm, e.symm⟩)
      rw [mwt m hm v hv hl] at h2
      by_cases hcv : g.Cl v
      · have := wt_le_4 (hcl'' v hcv)
        omega
      · have := wt_le_N g'' v
        have h3 : g.wt v = Heavy.N ∨ g.wt v = 1 := by
          by_cases hz : g.ty v = .Z
          · exact Or.inl (wt_notCl hz hcv)
          · exact Or.inr (wt_notZ hz)
        rcases h3 with h3 | h3
        · omega
        · have hz : g''.ty v ≠ .Z := by
            rw [hc.ty, hty]; intro hz; rw [wt_notCl hz hcv] at h3; have := Heavy.le; omega
          rw [wt_notZ hz]; omega
    · push Not at hl
      exact (hw0 v hv hl).trans (le_fib s1 s2))
  refine Rel.of p1 fun heq hJ => ?_
  obtain ⟨q1, q2⟩ := p2 heq
  have mpos : ∀ m ∈ ms, g.wt m.v ≠ 0 := fun m hm e => (mcl m hm).2 (hJ m.v (h.mem m hm) (wt_zero e))
  -- every match is the leaf of a centre
  have hctr : ∀ m ∈ ms, ∃ c ∈ g''.verts, g.Lf m.v c := by
    intro m hm
    by_cases hl : ∃ c, g.Lf m.v c
    · obtain ⟨c, hl⟩ := hl
      refine ⟨c, ?_, hl⟩
      by_contra hcv
      exact mpos m hm (q2 m.v (h.mem m hm) (by rw [φ_leaf m hm c hl]; exact hcv))
    · exfalso
      refine mpos m hm (q2 m.v (h.mem m hm) ?_)
      rw [φ_not m hm hl]
      exact fun hv => (hself _ hv).2.2 ⟨m, hm, rfl⟩
  have hc0 : ∀ m ∈ ms, ∀ c ∈ g''.verts, g.Lf m.v c → g.Ctr c ∧ ∀ m' ∈ ms, c ∈ m'.vn → m'.v = m.v := by
    intro m hm c hcv hl
    obtain ⟨s1, s2, s3⟩ := hself c hcv
    have h2 := le_fib2 (g := g) (f := φ) s1 s2 (h.mem m hm) (φ_leaf m hm c hl) (fun e => s3 ⟨m, hm, e.symm⟩)
    rw [mwt m hm c hcv hl, ← q1 c hcv] at h2
    have hcc : g.Cl c := by
      by_contra hcc
      have := wt_le_N g'' c
      have hz : g.ty c = .Z := (h.nty m hm c ((mnbr m hm c).mpr ((hl.2 c).mpr rfl))).1
      rw [wt_notCl hz hcc] at h2
      omega
    have h4 := wt_le_4 (hcl'' c hcc)
    refine ⟨wt_zero (by omega), fun m' hm' hcm => ?_⟩
    by_contra hmm
    obtain ⟨c', hcv', hl'⟩ := hctr m' hm'
    have hcc' : c' = c := ((hl'.2 c).mp ((mnbr m' hm' c).mp hcm)).symm
    subst hcc'
    have h5 := le_fib2 (g := g) (f := φ) (h.mem m' hm') (φ_leaf m' hm' _ hl') (h.mem m hm) (φ_leaf m hm _ hl) hmm
    rw [mwt m hm _ hcv hl, mwt m' hm' _ hcv hl', ← q1 _ hcv] at h5
    omega
  refine ⟨fun v hv hctrv => ?_, fun _ => ?_, fun hall => ?_⟩
  · obtain ⟨s1, s2, s3⟩ := hself v hv
    have hz := q1 v hv
    rw [wt_ctr hctrv] at hz
    have hv0 := le_fib (g := g) (f := φ) s1 s2
    have hvc : g.Ctr v := wt_zero (by omega)
    refine hc.pl.mpr ((hpl0 v fun m hm hvm => ?_).mpr (hJ v s1 hvc))
    obtain ⟨c, hcv, hl⟩ := hctr m hm
    have hcc : v = c := (hl.2 v).mp ((mnbr m hm v).mp hvm)
    subst hcc
    have := le_fib (g := g) (f := φ) (h.mem m hm) (φ_leaf m hm _ hl)
    exact mpos m hm (by omega)
  · obtain ⟨m, hm⟩ := List.exists_mem_of_ne_nil ms hne
    obtain ⟨c, hcv, hl⟩ := hctr m hm
    obtain ⟨hcc, huniq⟩ := hc0 m hm c hcv hl
    obtain ⟨s1, s2, s3⟩ := hself c hcv
    refine ⟨c, hcv, by rw [hc.ty, hty]; exact hcc.1, hcl'' c hcc.2.1, fun hpl => ?_, fun hb => hcc.2.2.1 ((hbd c (hc.sub hcv)).mp ((hc.bd hcv).mp hb))⟩
    have hcm : c ∈ m.vn := (mnbr m hm c).mpr ((hl.2 c).mpr rfl)
    have hcount : ms.countP (fun m => decide (c ∈ m.vn)) = 1 := by
      have hmm : ∀ m' ∈ ms, c ∈ m'.vn → m' = m := fun m' hm' hcm' =>
        List.inj_on_of_nodup_map h.nodup hm' hm (huniq m' hm' hcm')
      rw [show ms.countP (fun m => decide (c ∈ m.vn)) = ms.countP (fun m' => decide (m' = m)) from List.countP_congr fun m' hm' => by
        simp only [decide_eq_true_eq]
        exact ⟨hmm m' hm', fun e => e ▸ hcm⟩]
      have : ms.countP (fun m' => decide (m' = m)) = ms.count m := by
        rw [List.count]
        exact List.countP_congr fun _ _ => by simp
      rw [this]
      exact List.count_eq_one_of_mem (List.Nodup.of_map _ h.nodup) hm
    obtain ⟨k, hk⟩ := hphase c
    rw [hcount] at hk
    obtain ⟨a, ha⟩ := hJ c s1 hcc
    obtain ⟨b, hb⟩ := hc.pl.mp hpl
    rw [ha, hb] at hk
    have h2 : ((2 * b : ℤ) : ℚ) = ((2 * a + 1 + 2 * k : ℤ) : ℚ) := by push_cast; rw [hk]; push_cast; ring
    have h3 := Int.cast_injective h2
    omega
  · obtain ⟨m, hm⟩ := List.exists_mem_of_ne_nil ms hne
    obtain ⟨c, hcv, hl⟩ := hctr m hm
    exact hall c (hself c hcv).1 (hc0 m hm c hcv hl).1

end Graph
end PyZX
