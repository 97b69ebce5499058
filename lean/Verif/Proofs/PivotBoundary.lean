import Verif.Proofs.PivotGadget

/-!
# `match_pivot_boundary` returns an equivalent graph and matches that can be pivoted together
-/

namespace PyZX
namespace Graph

theorem boundaryScan_spec {g : Graph} {ord : ℕ → List ℕ} {dead : ℕ → Bool} {ns : List ℕ} {wb r : Option (ℕ × ℕ)}
    (h : ns.foldlM (Rules.boundaryScan1 g ord dead) wb = some r) :
    (∀ n ∈ ns, g.ty n = .Z ∧ g.degree n ≠ 1 ∧ dead n = false) ∧
      ∀ w b, r = some (w, b) → wb = some (w, b) ∨
        (w ∈ ns ∧ (b ∈ ord w ∧ g.ty b = .boundary ∧ ∀ u ∈ ord w, u = b ∨ g.ty u = .Z)) := by
  induction ns generalizing wb with
  | nil =>
    simp only [List.foldlM_nil] at h
    have h : wb = r := Option.some.inj h
    subst h
    exact ⟨by simp, fun w b e => Or.inl e⟩
  | cons n ns ih =>
    rw [List.foldlM_cons] at h
    obtain ⟨wb', h1, h2⟩ := Option.bind_eq_some_iff.mp h
    obtain ⟨i1, i2⟩ := ih h2
    unfold Rules.boundaryScan1 at h1
    by_cases hc : g.ty n ≠ .Z ∨ g.degree n = 1 ∨ dead n = true ∨ dead 0 = true
    · rw [if_pos hc] at h1; simp at h1
    rw [if_neg hc] at h1
    simp only [not_or, ne_eq, not_not] at hc
    have hbase : wb' = wb ∨ ∃ b, wb' = some (n, b) ∧ b ∈ ord n ∧ g.ty b = .boundary ∧ ∀ u ∈ ord n, u = b ∨ g.ty u = .Z := by
      split at h1
      · next b hl =>
        by_cases h3 : ∀ u ∈ ord n, g.ty u = .boundary ∨ g.ty u = .Z
        swap
        · rw [if_pos h3] at h1; exact Or.inl (Option.some.inj h1).symm
        rw [if_neg (not_not.mpr h3)] at h1
        have hb : b ∈ (ord n).filter fun b => decide (g.ty b = .boundary) := by rw [hl]; simp
        rw [List.mem_filter] at hb
        have hall : ∀ u ∈ ord n, u = b ∨ g.ty u = .Z := by
          intro u hu
          rcases h3 u hu with h | h
          · left
            have : u ∈ (ord n).filter fun b => decide (g.ty b = .boundary) := List.mem_filter.mpr ⟨hu, by simpa using h⟩
            rw [hl] at this; simpa using this
          · exact Or.inr h
        by_cases h4 : g.phase n ≠ 0 ∧ (g.phase n).den = 2
        · rw [if_pos h4] at h1
          exact Or.inr ⟨b, (Option.some.inj h1).symm, hb.1, by simpa using hb.2, hall⟩
        rw [if_neg h4] at h1
        cases wb with
        | none => exact Or.inr ⟨b, (Option.some.inj h1).symm, hb.1, by simpa using hb.2, hall⟩
        | some wb0 =>
          simp only at h1
          split_ifs at h1
          · exact Or.inr ⟨b, (Option.some.inj h1).symm, hb.1, by simpa using hb.2, hall⟩
          · exact Or.inl (Option.some.inj h1).symm
      · exact Or.inl (Option.some.inj h1).symm
    refine ⟨?_, ?_⟩
    · intro n' hn'
      rcases List.mem_cons.mp hn' with rfl | hn'
      · exact ⟨hc.1, hc.2.1, by simpa using hc.2.2.1⟩
      · exact i1 n' hn'
    · intro w b e
      rcases i2 w b e with h | ⟨hw, h⟩
      · rcases hbase with e' | ⟨b', e', hrest⟩
        · exact Or.inl (e' ▸ h)
        · rw [h] at e'
          simp only [Option.some.injEq, Prod.mk.injEq] at e'
          obtain ⟨rfl, rfl⟩ := e'
          exact Or.inr ⟨by simp, hrest⟩
      · exact Or.inr ⟨List.mem_cons_of_mem _ hw, h⟩

/-- What is known about one match and its two new vertices `p.1`, `p.2`: in the original graph `g` and in the live graph
`G`. -/
structure BndOK1 (g G : Graph) (m : Rules.PivotMatch) (p : ℕ × ℕ) (b : ℕ) : Prop where
  b0 : m.b0 = none
  b1 : m.b1 = some b
  fresh1 : p.1 ∉ g.verts
  fresh2 : p.2 ∉ g.verts
  ne : p.1 ≠ p.2
  mem1 : p.1 ∈ G.verts
  mem2 : p.2 ∈ G.verts
  ty1' : G.ty p.1 = .Z
  ty2' : G.ty p.2 = .Z
  phase1 : G.phase p.1 = mod2 (g.phase m.v1)
  phase2 : G.phase p.2 = 0
  adj : g.adj m.v0 m.v1 ≠ none
  ty0 : g.ty m.v0 = .Z
  ty1 : g.ty m.v1 = .Z
  ph0 : Rules.isPauli (g.phase m.v0)
  ph1' : G.phase m.v1 = 0
  n0 : ∀ n, g.adj m.v0 n ≠ none → g.ty n = .Z ∧ g.degree n ≠ 1
  n1 : ∀ n, g.adj m.v1 n ≠ none → n = b ∨ g.ty n = .Z
  badj : g.adj m.v1 b ≠ none
  bty : g.ty b = .boundary

/-- Invariant of the loop of `match_pivot_boundary`; `ns` lists the matches with their new vertices. -/
structure BndInv (g : Graph) (s : Rules.GState (ℕ → Bool)) (ns : List (Rules.PivotMatch × ℕ × ℕ)) : Prop where
  wf : s.g.WF
  adj : s.g.adj = g.adj
  sub : g.verts ⊆ s.g.verts
  news : ∀ v ∈ s.g.verts, v ∉ g.verts → s.g.ty v = .Z ∧ ∃ n ∈ ns, v = n.2.1 ∨ v = n.2.2
  ty : ∀ v ∈ g.verts, s.g.ty v = g.ty v
  phase : ∀ v ∈ g.verts, (∀ m ∈ s.ms, v ≠ m.v1) → s.g.phase v = g.phase v
  ms : s.ms = ns.map Prod.fst
  el : s.el = ns.flatMap fun n => [(n.1.v1, n.2.2), (n.2.1, n.2.2)]
  each : ∀ n ∈ ns, ∃ b, BndOK1 g s.g n.1 n.2 b
  nodup : ns.Pairwise fun n n' => n.2.1 ≠ n'.2.1 ∧ n.2.1 ≠ n'.2.2 ∧ n.2.2 ≠ n'.2.1 ∧ n.2.2 ≠ n'.2.2
  dead : ∀ m ∈ s.ms, ∀ c, s.dead c = false → g.adj m.v0 c = none ∧ g.adj m.v1 c = none
  indep : s.ms.Pairwise fun m m' => ∀ v, v = m.v0 ∨ v = m.v1 → ∀ w, w = m'.v0 ∨ w = m'.v1 → v ≠ w ∧ g.adj v w = none
  pres : Preserves g (s.g.plain s.el .had)

theorem bndInv_start {g : Graph} (hg : g.WF) : BndInv g ⟨g, [], [], fun _ => false⟩ [] where
  wf := hg
  adj := rfl
  sub := fun _ h => h
  news := fun v h1 h2 => absurd h1 h2
  ty := fun _ _ => rfl
  phase := fun _ _ _ => rfl
  ms := rfl
  el := rfl
  each := by simp
  nodup := by simp
  dead := by simp
  indep := by simp
  pres := by show Preserves g (g.plain [] .had); rw [plain_nil]; exact Preserves.refl hg

theorem bndInv_step {g : Graph} (hg : g.WF) {ord : ℕ → List ℕ} (hord : Rules.NbrOrder g ord) {s : Rules.GState (ℕ → Bool)}
    {ns : List (Rules.PivotMatch × ℕ × ℕ)} (hs : BndInv g s ns) {v : ℕ} (hv : v ∈ g.verts) :
    ∃ ns', BndInv g (Rules.boundaryStep ord s v) ns' := by
  unfold Rules.boundaryStep
  split
  · exact ⟨ns, hs⟩
  rename_i hdead
  have hdead : s.dead v = false := by simpa using hdead
  split
  · exact ⟨ns, hs⟩
  rename_i hvc
  simp only [not_or, ne_eq, not_not] at hvc
  obtain ⟨htv, hpv⟩ := hvc
  split
  · exact ⟨ns, hs⟩
  · exact ⟨ns, hs⟩
  rename_i w b hscan
  obtain ⟨hall, hwb⟩ := boundaryScan_spec hscan
  obtain ⟨hw, hbo, hbt, hwn⟩ := (hwb w b rfl).resolve_left (by simp)
  have hordm : ∀ {u n}, u ∈ g.verts → (n ∈ ord u ↔ g.adj u n ≠ none) := fun hu => NbrOrder.mem hg hord hu
  have hadjvw : g.adj v w ≠ none := (hordm hv).mp hw
  have hwv : w ∈ g.verts := hg.mem _ _ (by rw [hg.symm]; exact hadjvw)
  have hbadj : g.adj w b ≠ none := (hordm hwv).mp hbo
  have hbv : b ∈ g.verts := hg.mem _ _ (by rw [hg.symm]; exact hbadj)
  obtain ⟨hwt, -, hwd⟩ := hall w hw
  have hnb : ∀ v n, n ∈ s.g.nbrs v ↔ g.adj v n ≠ none := fun v n => by rw [mem_nbrs hs.wf.toInv, hs.adj]
  have hdeg' : ∀ v, s.g.degree v = g.degree v := by
    intro v; unfold degree; congr 1; ext n; rw [hnb, mem_nbrs hg.toInv]
  have hdis : ∀ m ∈ s.ms, ∀ u, u = m.v0 ∨ u = m.v1 → ∀ u', u' = v ∨ u' = w → u ≠ u' ∧ g.adj u u' = none := by
    intro m hm u hu u' hu'
    have hm' := hm
    rw [hs.ms] at hm'
    obtain ⟨n, hn, rfl⟩ := List.mem_map.mp hm'
    obtain ⟨b', hok⟩ := hs.each n hn
    have d1 := hs.dead _ hm v hdead
    have d2 := hs.dead _ hm w hwd
    exact pair_disjoint hg (a := (n.1.v0, n.1.v1)) (b := (v, w)) hok.adj ⟨d1.1, d2.1, d1.2, d2.2⟩ u hu u' hu'
  have hphv : s.g.phase v = g.phase v := hs.phase v hv fun m hm e => (hdis m hm m.v1 (Or.inr rfl) v (Or.inl rfl)).1 e.symm
  have hphw : s.g.phase w = g.phase w := hs.phase w hwv fun m hm e => (hdis m hm m.v1 (Or.inr rfl) w (Or.inr rfl)).1 e.symm
  -- the two new vertices
  obtain ⟨f1, f2, f3, f4, f5, f6, f7, f8, f9, f10⟩ := addVertex_fields s.g .Z (s.g.phase w)
  set g1 := s.g.addVertex .Z (s.g.phase w) with hg1
  have hg1wf : g1.WF := hs.wf.addVertex (Or.inr (Or.inl rfl)) _
  obtain ⟨k1, k2, k3, k4, k5, k6, k7, k8, k9, k10⟩ := addVertex_fields g1 .Z 0
  set g2 := g1.addVertex .Z 0 with hg2
  have hg2wf : g2.WF := hg1wf.addVertex (Or.inr (Or.inl rfl)) _
  have hg2adj : g2.adj = g.adj := by
    rw [hg2, hg1wf.toInv.addVertex_adj, hg1, hs.wf.toInv.addVertex_adj, hs.adj]
  rw [f6] at k1 k3 k4 k5
  set a := s.g.vindex with ha
  have hnewa : a ∉ s.g.verts := hs.wf.notMem_vindex
  have hnewb : a + 1 ∉ s.g.verts := fun h => by have := hs.wf.lt _ h; omega
  have hga : a ∉ g.verts := fun h => hnewa (hs.sub h)
  have hgb : a + 1 ∉ g.verts := fun h => hnewb (hs.sub h)
  have hverts : g2.verts = insert a (insert (a + 1) s.g.verts) := by rw [k1, f1, Finset.insert_comm]
  have hty2 : ∀ u, u ≠ a → u ≠ a + 1 → g2.ty u = s.g.ty u := by
    intro u h1 h2; rw [k3, Function.update_of_ne h2, f3, Function.update_of_ne h1]
  have hne : ∀ u ∈ s.g.verts, u ≠ a ∧ u ≠ a + 1 := fun u hu => ⟨fun e => hnewa (e ▸ hu), fun e => hnewb (e ▸ hu)⟩
  set g3 := g2.setPhase w 0 with hg3
  have hg3wf : g3.WF := setPhase_wf hg2wf _ _
  have hph3 : ∀ u, u ≠ w → u ≠ a → u ≠ a + 1 → g3.phase u = s.g.phase u := by
    intro u h1 h2 h3
    show Function.update g2.phase w (mod2 0) u = _
    rw [Function.update_of_ne h1, k4, Function.update_of_ne h3, f4, Function.update_of_ne h2]
  have hwne := hne w (hs.sub hwv)
  have hph3w : g3.phase w = 0 := by
    show Function.update g2.phase w (mod2 0) w = _
    rw [Function.update_self, mod2_zero]
  have hph3a : g3.phase a = mod2 (g.phase w) := by
    show Function.update g2.phase w (mod2 0) a = _
    rw [Function.update_of_ne hwne.1.symm, k4, Function.update_of_ne (by omega), f4, Function.update_self, hphw]
  have hph3b : g3.phase (a + 1) = 0 := by
    show Function.update g2.phase w (mod2 0) (a + 1) = _
    rw [Function.update_of_ne hwne.2.symm, k4, Function.update_self, mod2_zero]
  have hty3a : g3.ty a = .Z := by
    show g2.ty a = _
    rw [k3, Function.update_of_ne (by omega), f3, Function.update_self]
  have hty3b : g3.ty (a + 1) = .Z := by
    show g2.ty (a + 1) = _
    rw [k3, Function.update_self]
  have hsub3 : s.g.verts ⊆ g3.verts := by
    intro u hu; show u ∈ g2.verts; rw [hverts]; simp [hu]
  have hma : a ∈ g3.verts := by show a ∈ g2.verts; rw [hverts]; simp
  have hmb : a + 1 ∈ g3.verts := by show a + 1 ∈ g2.verts; rw [hverts]; simp
  set m : Rules.PivotMatch := ⟨v, w, none, some b⟩ with hm
  have hmwdis : ∀ n ∈ ns, n.1.v1 ≠ w := by
    intro n hn
    exact (hdis n.1 (by rw [hs.ms]; exact List.mem_map_of_mem hn) n.1.v1 (Or.inr rfl) w (Or.inr rfl)).1
  have heach : ∀ n ∈ ns ++ [(m, a, a + 1)], ∃ b, BndOK1 g g3 n.1 n.2 b := by
    intro n hn
    rcases List.mem_append.mp hn with hn | hn
    · obtain ⟨b', hok⟩ := hs.each n hn
      obtain ⟨n1a, n1b⟩ := hne _ hok.mem1
      obtain ⟨n2a, n2b⟩ := hne _ hok.mem2
      have hv1v : n.1.v1 ∈ g.verts := hg.mem _ _ (by rw [hg.symm]; exact hok.adj)
      refine ⟨b', { hok with mem1 := hsub3 hok.mem1, mem2 := hsub3 hok.mem2, ty1' := ?_, ty2' := ?_, phase1 := ?_, phase2 := ?_,
                             ph1' := ?_ }⟩
      · show g2.ty _ = _; rw [hty2 _ n1a n1b]; exact hok.ty1'
      · show g2.ty _ = _; rw [hty2 _ n2a n2b]; exact hok.ty2'
      · rw [hph3 _ (fun e => hok.fresh1 (by rw [show n.2.1 = w from e]; exact hwv)) n1a n1b]; exact hok.phase1
      · rw [hph3 _ (fun e => hok.fresh2 (by rw [show n.2.2 = w from e]; exact hwv)) n2a n2b]; exact hok.phase2
      · rw [hph3 _ (hmwdis n hn) (hne _ (hs.sub hv1v)).1 (hne _ (hs.sub hv1v)).2]; exact hok.ph1'
    · simp only [List.mem_singleton] at hn
      subst hn
      refine ⟨b, { b0 := rfl, b1 := rfl, fresh1 := hga, fresh2 := hgb, ne := by simp, mem1 := hma, mem2 := hmb, ty1' := hty3a,
                   ty2' := hty3b, phase1 := hph3a, phase2 := hph3b, adj := hadjvw, ty0 := ?_, ty1 := ?_, ph0 := ?_, ph1' := hph3w
                   n0 := ?_, n1 := ?_, badj := hbadj, bty := ?_ }⟩
      · show g.ty v = .Z; rw [← hs.ty v hv]; exact htv
      · show g.ty w = .Z; rw [← hs.ty w hwv]; exact hwt
      · show Rules.isPauli (g.phase v); rw [← hphv]; exact hpv
      · intro n hn
        have hn : g.adj v n ≠ none := hn
        obtain ⟨h1, h2, -⟩ := hall n ((hordm hv).mpr hn)
        rw [hs.ty n (hg.mem _ _ (by rw [hg.symm]; exact hn))] at h1
        rw [hdeg'] at h2
        exact ⟨h1, h2⟩
      · intro n hn
        have hn : g.adj w n ≠ none := hn
        have := hwn n ((hordm hwv).mpr hn)
        rw [hs.ty n (hg.mem _ _ (by rw [hg.symm]; exact hn))] at this
        exact this
      · rw [← hs.ty b hbv]; exact hbt
  have hnodup : (ns ++ [(m, a, a + 1)]).Pairwise fun n n' => n.2.1 ≠ n'.2.1 ∧ n.2.1 ≠ n'.2.2 ∧ n.2.2 ≠ n'.2.1 ∧ n.2.2 ≠ n'.2.2 := by
    rw [List.pairwise_append]
    refine ⟨hs.nodup, by simp, ?_⟩
    intro n hn n' hn'
    simp only [List.mem_singleton] at hn'
    subst hn'
    obtain ⟨b', hok⟩ := hs.each n hn
    exact ⟨(hne _ hok.mem1).1, (hne _ hok.mem1).2, (hne _ hok.mem2).1, (hne _ hok.mem2).2⟩
  have hel : s.el ++ [(w, a + 1), (a, a + 1)] = (ns ++ [(m, a, a + 1)]).flatMap fun n => [(n.1.v1, n.2.2), (n.2.1, n.2.2)] := by
    rw [List.flatMap_append, ← hs.el]; rfl
  have hplain : (g3.plain (s.el ++ [(w, a + 1), (a, a + 1)]) .had).WF := by
    rw [hel]
    refine plain_wf hg3wf (by simp) ?_ ?_
    · intro p hp
      obtain ⟨n, hn, hp⟩ := List.mem_flatMap.mp hp
      obtain ⟨b', hok⟩ := heach n hn
      have hv1v : n.1.v1 ∈ g.verts := hg.mem _ _ (by rw [hg.symm]; exact hok.adj)
      have hadj2 : ∀ z, g3.adj z n.2.2 = none := by
        intro z
        show g2.adj z n.2.2 = none
        rw [hg2adj]; by_contra hne; exact hok.fresh2 (hg.mem _ _ (by rw [hg.symm]; exact hne))
      simp only [List.mem_cons, List.not_mem_nil, or_false] at hp
      rcases hp with rfl | rfl
      · exact ⟨hsub3 (hs.sub hv1v), hok.mem2, fun e => hok.fresh2 (by rw [← show n.1.v1 = n.2.2 from e]; exact hv1v), hadj2 _⟩
      · exact ⟨hok.mem1, hok.mem2, hok.ne, hadj2 _⟩
    · rw [List.pairwise_flatMap]
      refine ⟨?_, ?_⟩
      · intro n hn
        obtain ⟨b', hok⟩ := heach n hn
        have hv1v : n.1.v1 ∈ g.verts := hg.mem _ _ (by rw [hg.symm]; exact hok.adj)
        simp only [List.pairwise_cons, List.mem_singleton, forall_eq, List.not_mem_nil, false_imp_iff, implies_true,
          List.Pairwise.nil, and_true]
        rintro (⟨e, -⟩ | ⟨e, -⟩)
        · exact hok.fresh1 (by rw [← show n.1.v1 = n.2.1 from e]; exact hv1v)
        · exact hok.fresh2 (by rw [← show n.1.v1 = n.2.2 from e]; exact hv1v)
      · refine List.Pairwise.imp_of_mem ?_ hnodup
        intro n n' hn hn' hne x hx y hy hsp
        obtain ⟨b', hok⟩ := heach n hn
        obtain ⟨b'', hok'⟩ := heach n' hn'
        have hv1v : n.1.v1 ∈ g.verts := hg.mem _ _ (by rw [hg.symm]; exact hok.adj)
        have hv1v' : n'.1.v1 ∈ g.verts := hg.mem _ _ (by rw [hg.symm]; exact hok'.adj)
        obtain ⟨q1, q2, q3, q4⟩ := hne
        simp only [List.mem_cons, List.not_mem_nil, or_false] at hx hy
        have hx2 : x.2 = n.2.2 := by rcases hx with rfl | rfl <;> rfl
        have hy2 : y.2 = n'.2.2 := by rcases hy with rfl | rfl <;> rfl
        rcases hsp with ⟨-, e⟩ | ⟨-, e⟩
        · rw [hx2, hy2] at e; exact q4 e
        · rw [hx2] at e
          rcases hy with rfl | rfl
          · exact hok.fresh2 (by rw [show n.2.2 = n'.1.v1 from e]; exact hv1v')
          · exact q3 e
  have hstep : Preserves (s.g.plain s.el .had) (g3.plain (s.el ++ [(w, a + 1), (a, a + 1)]) .had) := by
    refine hang_had hs.pres.wf hplain (v := a) (u := a + 1) (w := w) hnewa hnewb (by simp) (hs.sub hwv) hwt hverts ?_ ?_ hty3a hty3b ?_
      hph3b hph3w ?_ ?_ (k8.trans f8) (k9.trans f9) (k10.trans f10)
    · intro c d
      simp only [plain]
      rw [show g3.adj c d = s.g.adj c d by show g2.adj c d = _; rw [hg2adj, hs.adj]]
      by_cases h1 : SamePair (c, d) (w, a + 1) ∨ SamePair (c, d) (a, a + 1)
      · rw [if_pos h1, if_pos]
        rcases h1 with h1 | h1
        · exact ⟨_, List.mem_append_right _ (by simp), h1⟩
        · exact ⟨_, List.mem_append_right _ (by simp), h1⟩
      · rw [if_neg h1]
        by_cases h2 : ∃ p ∈ s.el, SamePair (c, d) p
        · rw [if_pos h2, if_pos]
          obtain ⟨p, hp, h⟩ := h2
          exact ⟨p, List.mem_append_left _ hp, h⟩
        · rw [if_neg h2, if_neg]
          rintro ⟨p, hp, h⟩
          rcases List.mem_append.mp hp with hp | hp
          · exact h2 ⟨p, hp, h⟩
          · simp only [List.mem_cons, List.not_mem_nil, or_false] at hp
            rcases hp with rfl | rfl
            · exact h1 (Or.inl h)
            · exact h1 (Or.inr h)
    · intro u hu; exact hty2 u (hne u hu).1 (hne u hu).2
    · show ph (g3.phase a) = ph (s.g.phase w); rw [hph3a, ph_mod2, hphw]
    · intro u hu huw
      exact hph3 u huw (hne u hu).1 (hne u hu).2
    · intro u hu
      show g2.label u = s.g.label u
      rw [k5, Function.update_of_ne (hne u hu).2, f5, Function.update_of_ne (hne u hu).1]
  refine ⟨ns ++ [(m, a, a + 1)],
    { wf := hg3wf, adj := hg2adj, sub := fun u hu => hsub3 (hs.sub hu), news := ?_, ty := ?_, phase := ?_, ms := ?_, el := hel
      each := heach, nodup := hnodup, dead := ?_, indep := ?_, pres := hs.pres.trans hstep }⟩
  · intro u hu hug
    have hu : u ∈ g2.verts := hu
    rw [hverts, Finset.mem_insert, Finset.mem_insert] at hu
    rcases hu with rfl | rfl | hu
    · exact ⟨hty3a, _, List.mem_append_right _ (List.mem_singleton.mpr rfl), Or.inl rfl⟩
    · exact ⟨hty3b, _, List.mem_append_right _ (List.mem_singleton.mpr rfl), Or.inr rfl⟩
    · obtain ⟨h1, n, hn, h2⟩ := hs.news u hu hug
      exact ⟨by show g2.ty u = _; rw [hty2 u (hne u hu).1 (hne u hu).2]; exact h1, n, List.mem_append_left _ hn, h2⟩
  · intro u hu
    show g2.ty u = g.ty u
    rw [hty2 u (hne u (hs.sub hu)).1 (hne u (hs.sub hu)).2, hs.ty u hu]
  · intro u hu hne'
    rw [show g3.phase u = s.g.phase u from
      hph3 u (hne' _ (List.mem_append_right _ (List.mem_singleton.mpr rfl))) (hne u (hs.sub hu)).1 (hne u (hs.sub hu)).2]
    exact hs.phase u hu fun m hm => hne' m (List.mem_append_left _ hm)
  · rw [List.map_append, ← hs.ms]; rfl
  · intro m' hm' c hc'
    simp only [Bool.or_eq_false_iff, List.contains_eq_mem, decide_eq_false_iff_not] at hc'
    rcases List.mem_append.mp hm' with hm' | hm'
    · exact hs.dead m' hm' c hc'.1.1
    · simp only [List.mem_singleton] at hm'
      subst hm'
      refine ⟨?_, ?_⟩
      · by_contra h; exact hc'.1.2 ((hordm hv).mpr h)
      · by_contra h; exact hc'.2 ((hordm hwv).mpr h)
  · rw [List.pairwise_append]
    refine ⟨hs.indep, by simp, ?_⟩
    intro m1 hm1 m' hm'
    simp only [List.mem_singleton] at hm'
    subst hm'
    exact hdis m1 hm1

theorem bndInv_fold {g : Graph} (hg : g.WF) {ord : ℕ → List ℕ} (hord : Rules.NbrOrder g ord) {cands : List ℕ}
    (hc : ∀ c ∈ cands, c ∈ g.verts) {s : Rules.GState (ℕ → Bool)} {ns : List (Rules.PivotMatch × ℕ × ℕ)} (hs : BndInv g s ns) :
    ∃ ns', BndInv g (cands.foldl (Rules.boundaryStep ord) s) ns' := by
  induction cands generalizing s ns with
  | nil => exact ⟨ns, hs⟩
  | cons c cs ih =>
    obtain ⟨ns', hs'⟩ := bndInv_step hg hord hs (hc c (by simp))
    exact ih (fun c' h => hc c' (List.mem_cons_of_mem _ h)) hs'

/-- Result of `match_pivot_boundary`. -/
theorem matchPivotBoundary_ok {g : Graph} (hg : g.WF) (hb : g.BDeg) (hz : g.ZHad) {ord : ℕ → List ℕ} (hord : Rules.NbrOrder g ord)
    {cands : List ℕ} (hc : ∀ c ∈ cands, c ∈ g.verts) :
    ∃ s ns, BndInv g s ns ∧ (cands.foldl (Rules.boundaryStep ord) ⟨g, [], [], fun _ => false⟩ = s) ∧
      Rules.matchPivotBoundary g ord cands = some (s.g.plain s.el .had, s.ms) ∧
      (s.g.plain s.el .had).BDeg ∧ PivotOK (s.g.plain s.el .had) s.ms := by
  obtain ⟨ns, hs⟩ := bndInv_fold hg hord hc (bndInv_start hg)
  set s := cands.foldl (Rules.boundaryStep ord) ⟨g, [], [], fun _ => false⟩ with hsdef
  have hmv : ∀ n ∈ ns, n.1.v1 ∈ g.verts ∧ n.1.v0 ∈ g.verts := by
    intro n hn
    obtain ⟨b, hok⟩ := hs.each n hn
    exact ⟨hg.mem _ _ (by rw [hg.symm]; exact hok.adj), hg.mem _ _ hok.adj⟩
  have hent : ∀ p ∈ s.el, ∃ n ∈ ns, p = (n.1.v1, n.2.2) ∨ p = (n.2.1, n.2.2) := by
    intro p hp
    rw [hs.el] at hp
    obtain ⟨n, hn, hp⟩ := List.mem_flatMap.mp hp
    exact ⟨n, hn, by simpa using hp⟩
  have hadd : s.g.addEdges s.el .had = some (s.g.plain s.el .had) := by
    refine addEdges_eq _ fun p hp => ?_
    obtain ⟨n, hn, h⟩ := hent p hp
    obtain ⟨b, hok⟩ := hs.each n hn
    rcases h with rfl | rfl
    · exact ⟨hs.sub (hmv n hn).1, hok.mem2⟩
    · exact ⟨hok.mem1, hok.mem2⟩
  have hA : ∀ a b, a ∈ g.verts → b ∈ g.verts → (s.g.plain s.el .had).adj a b = g.adj a b := by
    intro a b ha hb
    simp only [plain]
    rw [if_neg, hs.adj]
    rintro ⟨p, hp, hsp⟩
    obtain ⟨n, hn, h⟩ := hent p hp
    obtain ⟨b', hok⟩ := hs.each n hn
    have hp2 : p.2 = n.2.2 := by rcases h with rfl | rfl <;> rfl
    rcases hsp with ⟨-, e⟩ | ⟨e, -⟩
    · rw [hp2] at e; exact hok.fresh2 ((show b = n.2.2 from e) ▸ hb)
    · rw [hp2] at e; exact hok.fresh2 ((show a = n.2.2 from e) ▸ ha)
  -- a new vertex adjacent to an old one is the axle of its gadget
  have hA' : ∀ a b, a ∈ g.verts → b ∉ g.verts → (s.g.plain s.el .had).adj a b ≠ none →
      ∃ n ∈ ns, b = n.2.2 ∧ a = n.1.v1 ∧ (s.g.plain s.el .had).adj a b = some .had := by
    intro a b ha hb hne
    simp only [plain] at hne ⊢
    by_cases h : ∃ p ∈ s.el, SamePair (a, b) p
    · rw [if_pos h]
      obtain ⟨p, hp, hsp⟩ := h
      obtain ⟨n, hn, h⟩ := hent p hp
      obtain ⟨b', hok⟩ := hs.each n hn
      rcases h with rfl | rfl
      · rcases hsp with ⟨e1, e2⟩ | ⟨e1, e2⟩
        · exact ⟨n, hn, e2, e1, rfl⟩
        · exact absurd ((show b = n.1.v1 from e2) ▸ (hmv n hn).1) hb
      · rcases hsp with ⟨e1, e2⟩ | ⟨e1, e2⟩
        · exact absurd ((show a = n.2.1 from e1) ▸ ha) hok.fresh1
        · exact absurd ((show a = n.2.2 from e1) ▸ ha) hok.fresh2
    · rw [if_neg h, hs.adj] at hne
      exact absurd (hg.mem b a (by rw [hg.symm]; exact hne)) hb
  have hty : ∀ v ∈ g.verts, (s.g.plain s.el .had).ty v = g.ty v := hs.ty
  have hmem : ∀ m ∈ s.ms, ∃ n ∈ ns, n.1 = m := by
    intro m hm
    rw [hs.ms] at hm
    obtain ⟨n, hn, rfl⟩ := List.mem_map.mp hm
    exact ⟨n, hn, rfl⟩
  refine ⟨s, ns, hs, rfl, ?_, ?_, ?_⟩
  · unfold Rules.matchPivotBoundary
    simp only [← hsdef, hadd, Option.map_some]
  · intro b hbv hbt u w hu hw
    have hbg : b ∈ g.verts := by
      by_contra hbg
      rw [show (s.g.plain s.el .had).ty b = .Z from (hs.news b hbv hbg).1] at hbt
      simp at hbt
    have hbt' : g.ty b = .boundary := by rw [← hty b hbg]; exact hbt
    have hnb : ∀ u, (s.g.plain s.el .had).adj b u ≠ none → g.adj b u ≠ none := by
      intro u hu
      by_cases hug : u ∈ g.verts
      · rw [hA b u hbg hug] at hu; exact hu
      · obtain ⟨n, hn, -, e, -⟩ := hA' b u hbg hug hu
        obtain ⟨b', hok⟩ := hs.each n hn
        have := hok.ty1
        rw [← e, hbt'] at this; simp at this
    exact hb b hbg hbt' u w (hnb u hu) (hnb w hw)
  · refine ⟨fun m hm => ?_, ?_⟩
    · obtain ⟨n, hn, rfl⟩ := hmem m hm
      obtain ⟨b, hok⟩ := hs.each n hn
      obtain ⟨h1v, h0v⟩ := hmv n hn
      have hsym := fun (p q : Rules.PivotMatch) (h : ∀ v, v = p.v0 ∨ v = p.v1 → ∀ w, w = q.v0 ∨ w = q.v1 → v ≠ w ∧ g.adj v w = none)
        v (hv : v = q.v0 ∨ v = q.v1) w (hw : w = p.v0 ∨ w = p.v1) => (⟨((h w hw v hv).1).symm, by rw [hg.symm]; exact (h w hw v hv).2⟩ : v ≠ w ∧ g.adj v w = none)
      have hbv : b ∈ g.verts := hg.mem _ _ (by rw [hg.symm]; exact hok.badj)
      have h01 : n.1.v0 ≠ n.1.v1 := fun e => hok.adj (by rw [e]; exact hg.loopless _)
      have hnot : ∀ n' ∈ ns, n.1.v0 ≠ n'.1.v1 := by
        intro n' hn' e
        by_cases hmm : n.1 = n'.1
        · exact h01 (by rw [e, hmm])
        · have := pairwise_both hs.indep hsym n.1 hm n'.1 (by rw [hs.ms]; exact List.mem_map_of_mem hn') hmm
          exact (this n.1.v0 (Or.inl rfl) n'.1.v1 (Or.inr rfl)).1 e
      refine
        { adj := ?_, ty0 := ?_, ty1 := ?_, ph0 := ?_, ph1 := Or.inl hok.ph1', n0 := ?_, n1 := ?_, b0 := ?_, b1 := ?_
          one := Or.inl hok.b0 }
      · rw [hA _ _ h0v h1v]; exact hz _ _ hok.ty0 hok.ty1 hok.adj
      · rw [hty _ h0v]; exact hok.ty0
      · rw [hty _ h1v]; exact hok.ty1
      · have : (s.g.plain s.el .had).phase n.1.v0 = g.phase n.1.v0 := by
          refine hs.phase _ h0v fun m' hm' e => ?_
          obtain ⟨n', hn', rfl⟩ := hmem m' hm'
          exact hnot n' hn' e
        rw [this]; exact hok.ph0
      · intro w hw
        by_cases hwg : w ∈ g.verts
        · rw [hA _ _ h0v hwg] at hw
          have ht := (hok.n0 w hw).1
          exact Or.inr ⟨by rw [hty w hwg]; exact ht, by rw [hA _ _ h0v hwg]; exact hz _ _ hok.ty0 ht hw⟩
        · obtain ⟨n', hn', -, e2, -⟩ := hA' _ w h0v hwg hw
          exact absurd e2 (hnot n' hn')
      · intro w hw
        by_cases hwg : w ∈ g.verts
        · rw [hA _ _ h1v hwg] at hw
          rcases hok.n1 w hw with e | ht
          · left; rw [e]; exact hok.b1
          · exact Or.inr ⟨by rw [hty w hwg]; exact ht, by rw [hA _ _ h1v hwg]; exact hz _ _ hok.ty1 ht hw⟩
        · obtain ⟨n', hn', e1, e2, e3⟩ := hA' _ w h1v hwg hw
          obtain ⟨b', hok'⟩ := hs.each n' hn'
          refine Or.inr ⟨?_, e3⟩
          rw [e1]; exact hok'.ty2'
      · intro w hw; rw [hok.b0] at hw; simp at hw
      · intro w hw
        rw [hok.b1] at hw
        have hw := (Option.some.inj hw).symm
        subst hw
        refine ⟨?_, ?_, ?_, ?_⟩
        · rw [hA _ _ h1v hbv]; exact hok.badj
        · rw [hty _ hbv, hok.bty]; simp
        · intro e
          have := hok.ty0
          rw [← e, hok.bty] at this; simp at this
        · rw [hA _ _ h0v hbv]
          by_contra hne
          have := (hok.n0 _ hne).1
          rw [hok.bty] at this; simp at this
    · refine List.Pairwise.imp_of_mem ?_ hs.indep
      intro m m' hm hm' h v hv w hw
      obtain ⟨h1, h2⟩ := h v hv w hw
      refine ⟨h1, ?_⟩
      obtain ⟨n, hn, rfl⟩ := hmem m hm
      obtain ⟨n', hn', rfl⟩ := hmem m' hm'
      rw [hA, h2]
      · rcases hv with rfl | rfl
        · exact (hmv n hn).2
        · exact (hmv n hn).1
      · rcases hw with rfl | rfl
        · exact (hmv n' hn').2
        · exact (hmv n' hn').1

end Graph
end PyZX
