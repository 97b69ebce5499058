import Verif.Proofs.TermWeight

/-! # The potential and identity removal -/

namespace PyZX
namespace Graph

set_option linter.unusedSectionVars false

variable {P : ℚ → Prop} [Heavy]

/-- The pairs in the edge table. -/
theorem ids_keys {g : Graph} (ms : List Rules.IdMatch) :
    ∀ e ∈ (Rules.removeIds g ms).etab, ∃ m ∈ ms, e.1 = (m.v0, m.v1) := by
  have key : ∀ (l : List Rules.IdMatch) (s : RewriteState), (∀ m ∈ l, m ∈ ms) → (∀ e ∈ s.etab, ∃ m ∈ ms, e.1 = (m.v0, m.v1)) →
      ∀ e ∈ (l.foldl Rules.idStep s).etab, ∃ m ∈ ms, e.1 = (m.v0, m.v1) := by
    intro l
    induction l with
    | nil => intro s _ hs; exact hs
    | cons m l ih =>
      intro s hl hs
      refine ih (Rules.idStep s m) (fun q hq => hl q (by simp [hq])) ?_
      exact forall_upd (P := fun k _ => ∃ m ∈ ms, k = (m.v0, m.v1)) hs ⟨m, hl m (by simp), rfl⟩ fun _ hh => hh
  exact key ms _ (fun _ h => h) (by simp [RewriteState.start])

/-- Every match has an edge in the table at each of its ends. -/
theorem ids_pos {g : Graph} {ms : List Rules.IdMatch} {m : Rules.IdMatch} (hm : m ∈ ms) {b : ℕ} (hb : b = m.v0 ∨ b = m.v1) :
    tcount (Rules.removeIds g ms).etab b ≠ 0 := by
  refine tcount_fold_pos (I := fun _ => True) ms (fun _ _ _ _ => trivial) ?_ hm ?_ _ trivial
  · intro m' _ s _
    have := tcount_upd_ge s.etab (m'.v0, m'.v1) (f := fun p => if m'.et = .simple then (p.1 + 1, p.2) else (p.1, p.2 + 1)) (c := 1)
      (fun p => by beta_reduce; split <;> simp <;> omega) b
    simp only [Rules.idStep]
    omega
  · intro s _
    have := tcount_upd_ge s.etab (m.v0, m.v1) (f := fun p => if m.et = .simple then (p.1 + 1, p.2) else (p.1, p.2 + 1)) (c := 1)
      (fun p => by beta_reduce; split <;> simp <;> omega) b
    rw [if_pos hb] at this
    simp only [Rules.idStep]
    omega

open Classical in
/-- Identity removal does not increase the potential. -/
theorem ids_rel (hP : PhaseSet P) {g g' : Graph} (hg : g.ZX P) (hzo : g.ZOnly) {ms : List Rules.IdMatch} (h : IdsOK g ms) (hne : ms ≠ [])
    (hfin : (Rules.removeIds g ms).finish = some g') : Rel g g' := by
  obtain ⟨g1, hfin1, hpr, hzx, hty, hverts⟩ := removeIds_zx hP hg h
  rw [hfin] at hfin1
  cases hfin1
  obtain ⟨f1, f2, f3, f4, -⟩ := ids_fold g ms h
  have hkeys := ids_keys (g := g) ms
  have hwf := hg.wf
  have hwf' := hzx.wf
  have hZ : ∀ m ∈ ms, g.ty m.v = .Z := fun m hm => by
    rcases h.ty m hm with e | e
    · exact e
    · have := hzo m.v (h.mem m hm)
      rw [e] at this; simp at this
  have mnbr : ∀ m ∈ ms, ∀ w, g.adj m.v w ≠ none ↔ w = m.v0 ∨ w = m.v1 := fun m hm w => by
    rw [← mem_nbrs hwf.toInv, h.nbrs m hm]; simp
  have hrem : ∀ v, v ∈ (Rules.removeIds g ms).remVerts ↔ ∃ m ∈ ms, m.v = v := fun v => by rw [f2, List.mem_map]
  have inV' : ∀ v, v ∈ g'.verts ↔ v ∈ g.verts ∧ ¬ ∃ m ∈ ms, m.v = v := fun v => by
    rw [hverts, Finset.mem_sdiff, List.mem_toFinset, List.mem_map]
  have hsh : Shift g g' := by
    have := finish_shift hfin
    rwa [f1] at this
  have endV : ∀ m ∈ ms, ∀ w, w = m.v0 ∨ w = m.v1 → w ∈ g'.verts := by
    intro m hm w hw
    refine (inV' w).mpr ⟨hwf.toInv.mem' ((mnbr m hm w).mpr hw), ?_⟩
    rintro ⟨m', hm', rfl⟩
    exact hw.elim (h.indep m hm m' hm').1 (h.indep m hm m' hm').2
  -- a match between a boundary and another vertex
  have hbm : ∀ m ∈ ms, ∀ b v, (b = m.v0 ∧ v = m.v1) ∨ (b = m.v1 ∧ v = m.v0) → g.ty b = .boundary → g'.adj v b ≠ none := by
    intro m hm b v hbv hbt
    have hbv' : b = m.v0 ∨ b = m.v1 := hbv.imp And.left And.left
    have hvv' : v = m.v0 ∨ v = m.v1 := (hbv.imp And.right And.right).symm
    rw [hwf'.symm]
    refine finish_bnd hfin (by rw [f1]; exact hbt) (fun hr => ((inV' b).mp (endV m hm b hbv')).2 ((hrem b).mp hr))
      (fun hr => ((inV' v).mp (endV m hm v hvv')).2 ((hrem v).mp hr)) (by rw [f3]; simp) (Or.inr ?_)
    obtain ⟨e, he, hz, ht⟩ := tcount_ne (ids_pos (g := g) hm hbv')
    refine ⟨e, he, hz, ?_⟩
    obtain ⟨m', hm', e1⟩ := hkeys e he
    have hb' : b = m'.v0 ∨ b = m'.v1 := by rw [e1] at ht; exact ht
    have hmm : m' = m := by
      refine List.inj_on_of_nodup_map h.nodup hm' hm ?_
      refine hg.bdeg b ((inV' b).mp (endV m hm b hbv')).1 hbt _ _ ?_ ?_
      · rw [hwf.symm]; exact (mnbr m' hm' b).mpr hb'
      · rw [hwf.symm]; exact (mnbr m hm b).mpr hbv'
    subst hmm
    rw [e1]
    exact hbv
  have hbd1 : ∀ v ∈ g'.verts, g.Bd v → g'.Bd v := by
    rintro v hv ⟨b, hb, hbt⟩
    refine ⟨b, ?_, by rw [hty]; exact hbt⟩
    rw [hwf'.symm]
    refine finish_bnd hfin (by rw [f1]; exact hbt) ?_ (fun hr => ((inV' v).mp hv).2 ((hrem v).mp hr)) (by rw [f3]; simp)
      (Or.inl (by rw [f1, hwf.symm]; exact hb))
    rw [hrem]
    rintro ⟨m, hm, rfl⟩
    rw [hZ m hm] at hbt; cases hbt
  have hbd2 : ∀ v, g'.Bd v → g.Bd v ∨ ∃ m ∈ ms, ∃ b, ((b = m.v0 ∧ v = m.v1) ∨ (b = m.v1 ∧ v = m.v0)) ∧ g.ty b = .boundary := by
    rintro v ⟨b, hb, hbt⟩
    rw [hty] at hbt
    obtain ⟨-, -, -, hcase⟩ := finish_adj hfin hwf'.toInv hb
    rcases hcase with hcase | ⟨e, he, -, hsp⟩
    · rw [f1] at hcase; exact Or.inl ⟨b, hcase, hbt⟩
    · obtain ⟨m, hm, e1⟩ := hkeys e he
      refine Or.inr ⟨m, hm, b, ?_, hbt⟩
      rw [e1] at hsp
      rcases hsp with ⟨q1, q2⟩ | ⟨q1, q2⟩
      · exact Or.inr ⟨q2, q1⟩
      · exact Or.inl ⟨q2, q1⟩
  have hleaf : ∀ v ∈ g'.verts, ∀ x, g.Lf x v → g'.Lf x v := by
    intro v hv x hx
    have hvr := ((inV' v).mp hv).2
    have hxm : ∀ m ∈ ms, m.v ≠ x := by
      rintro m hm rfl
      exact h.ne m hm (((hx.2 _).mp ((mnbr m hm _).mpr (Or.inl rfl))).trans ((hx.2 _).mp ((mnbr m hm _).mpr (Or.inr rfl))).symm)
    refine finish_leaf hfin hwf'.toInv (by rw [f1]) hty hx ?_ (fun hr => hvr ((hrem v).mp hr)) ?_ (by rw [f3]; simp)
    · rw [hrem]
      rintro ⟨m, hm, e⟩
      exact hxm m hm e
    · intro e he _ ht
      obtain ⟨m, hm, e1⟩ := hkeys e he
      rw [e1] at ht
      have := (mnbr m hm x).mpr ht
      rw [hwf.symm] at this
      exact hvr ⟨m, hm, (hx.2 _).mp this⟩
  -- the map
  set φ : ℕ → ℕ := fun x => if hx : ∃ m ∈ ms, m.v = x then (if g.ty hx.choose.v0 = .boundary then hx.choose.v1 else
    if g.ty hx.choose.v1 = .boundary then hx.choose.v0 else x) else x with hφ
  have φ_m : ∀ m ∈ ms, φ m.v = if g.ty m.v0 = .boundary then m.v1 else if g.ty m.v1 = .boundary then m.v0 else m.v := by
    intro m hm
    have hx : ∃ m' ∈ ms, m'.v = m.v := ⟨m, hm, rfl⟩
    have hch : hx.choose = m := List.inj_on_of_nodup_map h.nodup hx.choose_spec.1 hm hx.choose_spec.2
    simp only [hφ]
    rw [dif_pos hx, hch]
  have φ_id : ∀ v, (¬ ∃ m ∈ ms, m.v = v) → φ v = v := by
    intro v hv
    simp only [hφ]
    rw [dif_neg hv]
  have hself : ∀ v ∈ g'.verts, v ∈ g.verts ∧ φ v = v ∧ ¬ ∃ m ∈ ms, m.v = v := by
    intro v hv
    have := (inV' v).mp hv
    exact ⟨this.1, φ_id v this.2, this.2⟩
  have mcl : ∀ m ∈ ms, g.Pl m.v := fun m hm => ⟨0, by rw [h.phase m hm]; simp⟩
  have mwt : ∀ m ∈ ms, ∀ b, b = m.v0 ∨ b = m.v1 → g.ty b = .boundary → g.wt m.v = 2 := fun m hm b hb hbt =>
    wt_bd (hZ m hm) (mcl m hm).cl ⟨b, (mnbr m hm b).mpr hb, hbt⟩
  have hgrow : ∀ m ∈ ms, ∀ v, φ m.v = v → v ∈ g'.verts → g.wt v + 2 ≤ g.fib φ v ∧ g'.Bd v := by
    intro m hm v hφv hv
    obtain ⟨s1, s2, s3⟩ := hself v hv
    have h2 := le_fib2 (g := g) (f := φ) s1 s2 (h.mem m hm) hφv (fun e => s3 ⟨m, hm, e.symm⟩)
    rw [φ_m m hm] at hφv
    split at hφv
    · next hb =>
      rw [mwt m hm _ (Or.inl rfl) hb] at h2
      exact ⟨h2, m.v0, hbm m hm m.v0 v (Or.inl ⟨rfl, hφv.symm⟩) hb, by rw [hty]; exact hb⟩
    · split at hφv
      · next hb =>
        rw [mwt m hm _ (Or.inr rfl) hb] at h2
        exact ⟨h2, m.v1, hbm m hm m.v1 v (Or.inr ⟨rfl, hφv.symm⟩) hb, by rw [hty]; exact hb⟩
      · exact absurd ⟨m, hm, hφv⟩ s3
  have hquiet : ∀ v ∈ g'.verts, (g'.Bd v → g.Bd v) → g'.wt v ≤ g.wt v := fun v hv hb =>
    wt_le (by rw [hty]) hsh.cl.mpr (hbd1 v hv) hb fun x hx => ⟨hleaf v hv x hx, hsh.cl.mpr⟩
  -- a spider that becomes adjacent to a boundary
  have hnewb : ∀ v ∈ g'.verts, g.ty v = .Z → g'.Bd v → g.Bd v ∨ ∃ m ∈ ms, φ m.v = v := by
    intro v hv hvt hb
    rcases hbd2 v hb with hb | ⟨m, hm, b, hbv, hbt⟩
    · exact Or.inl hb
    · refine Or.inr ⟨m, hm, ?_⟩
      rw [φ_m m hm]
      rcases hbv with ⟨rfl, rfl⟩ | ⟨rfl, rfl⟩
      · rw [if_pos hbt]
      · rw [if_neg (by rw [hvt]; simp), if_pos hbt]
  obtain ⟨p1, p2⟩ := pot_le (g := g) (g' := g') φ (fun v hv => by
    obtain ⟨s1, s2, s3⟩ := hself v hv
    by_cases hvt : g.ty v = .Z
    swap
    · rw [wt_notZ (g := g') (by rw [hty]; exact hvt), ← wt_notZ hvt]
      exact le_fib s1 s2
    by_cases hb : g'.Bd v → g.Bd v
    · exact (hquiet v hv hb).trans (le_fib s1 s2)
    · push Not at hb
      obtain ⟨m, hm, hφv⟩ := (hnewb v hv hvt hb.1).resolve_left hb.2
      have h2 := (hgrow m hm v hφv hv).1
      by_cases hcl : g.Cl v
      · have := wt_le_2 (hsh.cl.mpr hcl) hb.1
        omega
      · have := wt_le_N g' v
        rw [wt_notCl hvt hcl] at h2
        omega)
  refine Rel.of p1 fun heq hJ => ?_
  obtain ⟨q1, q2⟩ := p2 heq
  have hctr : ∀ m ∈ ms, ∀ v, φ m.v = v → v ∈ g'.verts → g.Ctr v := by
    intro m hm v hφv hv
    obtain ⟨h2, hb⟩ := hgrow m hm v hφv hv
    rw [← q1 v hv] at h2
    refine wt_zero ?_
    by_cases hvt : g.ty v = .Z
    · by_cases hcl : g.Cl v
      · have := wt_le_2 (hsh.cl.mpr hcl) hb
        omega
      · have := wt_le_N g' v
        rw [wt_notCl hvt hcl] at h2
        omega
    · rw [wt_notZ (g := g') (by rw [hty]; exact hvt)] at h2
      omega
  refine ⟨fun v hv hc => ?_, ?_, fun hall => ?_⟩
  · obtain ⟨s1, s2, s3⟩ := hself v hv
    have hz := q1 v hv
    rw [wt_ctr hc] at hz
    have := le_fib (g := g) (f := φ) s1 s2
    exact hsh.pl.mpr (hJ v s1 (wt_zero (by omega)))
  · rintro ⟨y, hy, hyh⟩
    have hyv : y ∈ g'.verts := by
      refine (inV' y).mpr ⟨hy, ?_⟩
      rintro ⟨m, hm, rfl⟩
      exact hyh.2.2.1 (mcl m hm)
    refine ⟨y, hyv, by rw [hty]; exact hyh.1, hsh.cl.mpr hyh.2.1, fun hpl => hyh.2.2.1 (hsh.pl.mp hpl), fun hb => ?_⟩
    obtain ⟨m, hm, hφv⟩ := (hnewb y hyv hyh.1 hb).resolve_left hyh.2.2.2
    exact hyh.2.2.1 (hJ y hy (hctr m hm y hφv hyv))
  · obtain ⟨m, hm⟩ := List.exists_mem_of_ne_nil ms hne
    by_cases hv : φ m.v ∈ g'.verts
    · exact hall _ (hself _ hv).1 (hctr m hm _ rfl hv)
    · exact hall _ (h.mem m hm) (wt_zero (q2 m.v (h.mem m hm) hv))

end Graph
end PyZX
