import Verif.Proofs.HZero
import Verif.Proofs.HParFull
import Verif.Props.HFuse

/-!
# C66 and C67: H-boxes without phase and parallel H-boxes

`zero_hbox` and `par_hbox` keep the tensor, scalar included.
-/

namespace PyZX
namespace Props

open Graph HRules

/-- **C66.** `zero_hbox` on H-boxes with phase 0 whose neighbours are white: it returns, keeps the tensor exactly and removes the given H-boxes. -/
theorem zeroHbox_preserves {g : Graph} (hg : g.HWF) {ms : List ℕ} (hn : ms.Nodup) (hm : ∀ v ∈ ms, v ∈ g.verts) (ht : ∀ v ∈ ms, g.ty v = .hbox)
    (hp : ∀ v ∈ ms, g.phase v = 0) (hw : ∀ v ∈ ms, ∀ n ∈ g.nbrs v, g.White v n) :
    ∃ g', zeroHbox g ms = some g' ∧ HPreserves g g' ∧ g'.verts = g.verts \ ms.toFinset :=
  HRules.zero_sound hg hn hm ht hp hw

/-- **C66.** The matcher returns exactly the H-boxes with phase 0; removing them keeps the tensor if their neighbours are white. Afterwards no H-box
with phase 0 is left. -/
theorem zero_round {g : Graph} (hg : g.HWF) {vs : List ℕ} (hn : vs.Nodup) (hv : vs.toFinset = g.verts)
    (hw : ∀ v ∈ g.verts, g.ty v = .hbox → g.phase v = 0 → ∀ n ∈ g.nbrs v, g.White v n) :
    ∃ g', zeroHbox g (matchZero g vs) = some g' ∧ HPreserves g g' ∧ (∀ v, v ∈ g'.verts ↔ v ∈ g.verts ∧ ¬ (g.ty v = .hbox ∧ g.phase v = 0)) ∧
      ∀ v ∈ g'.verts, g'.ty v = .hbox → g'.phase v ≠ 0 := by
  have hm : ∀ v, v ∈ matchZero g vs ↔ v ∈ g.verts ∧ g.ty v = .hbox ∧ g.phase v = 0 := by
    intro v
    rw [← hv]
    simp [matchZero]
  obtain ⟨g', h1, h2, h3⟩ := HRules.zero_sound hg (ms := matchZero g vs) (hn.filter _) (fun v h => ((hm v).mp h).1) (fun v h => ((hm v).mp h).2.1)
    (fun v h => ((hm v).mp h).2.2) (fun v h => hw v ((hm v).mp h).1 ((hm v).mp h).2.1 ((hm v).mp h).2.2)
  have h4 : ∀ v, v ∈ g'.verts ↔ v ∈ g.verts ∧ ¬ (g.ty v = .hbox ∧ g.phase v = 0) := by
    intro v
    rw [h3, Finset.mem_sdiff, List.mem_toFinset, hm]
    tauto
  refine ⟨g', h1, h2, h4, ?_⟩
  intro v hv' ht hp
  obtain ⟨hr, -, -, -⟩ := removeVertices_spec h1
  rw [hr.ty] at ht
  rw [hr.phase] at hp
  exact ((h4 v).mp hv').2 ⟨ht, hp⟩

/-- An H-box with phase 0 between a Z-spider and an X-spider with a Hadamard edge; another H-box on the Z-spider. -/
noncomputable def exZero : Graph := mkG [.Z, .hbox, .X, .hbox, .boundary] [1/4, 0, 1/2, 1, 0] [(0, 1, .simple), (1, 2, .had), (0, 3, .had), (0, 4, .simple)] [] [4]

example : exZero.HWF ∧ ∀ v ∈ exZero.verts, exZero.ty v = .hbox → exZero.phase v = 0 → ∀ n ∈ exZero.nbrs v, exZero.White v n := by
  refine ⟨mkG_hwf (by decide) (by decide), ?_⟩
  have hi : exZero.Inv := (mkG_hwf (by decide) (by decide) : exZero.HWF).toInv
  intro v hv ht hp n hn
  have hv : v < 5 := Finset.mem_range.mp hv
  have hnm : n < 5 := Finset.mem_range.mp (Finset.mem_filter.mp hn).1
  rw [mem_nbrs hi] at hn
  interval_cases v <;> simp [exZero, mkG] at ht hp
  interval_cases n <;> simp [exZero, mkG, White] at hn ⊢

/-- An H-box with phase 0 next to an X-spider. -/
noncomputable def exZeroX : Graph := mkG [.hbox, .X] [0, 0] [(0, 1, .simple)] [] []

/-- The condition on the neighbours is needed, as the docstring says: next to an X-spider the tensor √2 becomes 2. -/
theorem zero_not_sound : exZeroX.HWF ∧ matchZero exZeroX [0, 1] = [0] ∧
    ∃ g', zeroHbox exZeroX [0] = some g' ∧ ∀ b, exZeroX.sem b = sq2 ∧ g'.sem b = 2 := by
  have hw : exZeroX.HWF := mkG_hwf (by decide) (by decide)
  obtain ⟨g', h3⟩ := removeVertices_isSome hw.toInv (vs := [0]) (by decide) (by simp [exZeroX, mkG])
  refine ⟨hw, by simp [matchZero, exZeroX, mkG], g', h3, fun b => ⟨?_, ?_⟩⟩
  · have hv : exZeroX.verts = insert 0 (insert 1 ∅) := by ext v; simp [exZeroX, mkG]; omega
    have hi : exZeroX.interior = insert 0 (insert 1 ∅) := by
      ext v
      rw [Graph.interior, Finset.mem_filter, hv]
      constructor
      · exact fun h => h.1
      · intro h
        refine ⟨h, ?_⟩
        simp only [Finset.mem_insert, Finset.notMem_empty, or_false] at h
        rcases h with rfl | rfl <;> simp [exZeroX, mkG]
    rw [sem_eq_wH hw.toInv hw.noW, hi]
    have hwt : ∀ x, exZeroX.wH exZeroX.verts x = (if x 0 then 0 else 1) * contr .simple (legT .hbox (x 0)) (legT .X (x 1)) := by
      intro x
      rw [hv]
      unfold wH
      rw [pairProd_insert (by simp) (edgeH_comm hw.symm x), pairProd_insert (by simp) (edgeH_comm hw.symm x), pairProd_empty]
      have ty0 : exZeroX.ty 0 = .hbox := by simp [exZeroX, mkG]
      have ty1 : exZeroX.ty 1 = .X := by simp [exZeroX, mkG]
      have e01 : exZeroX.edgeH x 0 1 = contr .simple (legT .hbox (x 0)) (legT .X (x 1)) := by
        rw [edgeH_some (e := .simple) (by simp [exZeroX, mkG]), ty0, ty1]
      have hs : exZeroX.scalar.toNumber = 1 := by simp [exZeroX, mkG, Scalar.new, Scalar.toNumber]
      have w0 : exZeroX.wtH 0 (x 0) = if x 0 then 0 else 1 := by
        unfold wtH wtT; rw [ty0]; simp [exZeroX, mkG]
      have w1 : exZeroX.wtH 1 (x 1) = 1 := by
        unfold wtH wtT; rw [ty1]; simp [exZeroX, mkG]
      simp [e01, w0, w1, hs]
    simp only [psum_insert_env (show (0 : ℕ) ∉ insert 1 (∅ : Finset ℕ) by simp), psum_insert_env (show (1 : ℕ) ∉ (∅ : Finset ℕ) by simp)]
    simp only [psum_empty, hwt]
    have hs := sq2_mul_self
    have hne : sq2 ≠ 0 := by intro h; rw [h] at hs; norm_num at hs
    simp [contr, legT, edgeMat, hmat, dmat]
    field_simp
    linear_combination -hs
  · obtain ⟨hr, -, hi, -⟩ := removeVertices_spec h3
    have hv : g'.verts = insert 1 ∅ := by
      rw [hr.verts]
      ext v; simp [exZeroX, mkG]; omega
    have ty1 : g'.ty 1 = .X := by rw [hr.ty]; simp [exZeroX, mkG]
    have hint : g'.interior = insert 1 ∅ := by
      ext v
      rw [Graph.interior, Finset.mem_filter, hv]
      constructor
      · exact fun h => h.1
      · intro h
        refine ⟨h, ?_⟩
        simp only [Finset.mem_insert, Finset.notMem_empty, or_false] at h
        rw [h, ty1]; decide
    have hnw : ∀ v ∈ g'.verts, g'.ty v ≠ .winput ∧ g'.ty v ≠ .woutput := by
      intro v h
      rw [hv] at h
      simp only [Finset.mem_insert, Finset.notMem_empty, or_false] at h
      rw [h, ty1]; decide
    rw [sem_eq_wH (hi hw.toInv) hnw, hint]
    have hwt : ∀ x, g'.wH g'.verts x = 1 := by
      intro x
      rw [hv]
      unfold wH
      rw [pairProd_insert (by simp) (edgeH_comm (hi hw.toInv).symm x), pairProd_empty]
      have hs : g'.scalar.toNumber = 1 := by rw [removeVertices_scalar h3]; simp [exZeroX, mkG, Scalar.new, Scalar.toNumber]
      have w1 : g'.wtH 1 (x 1) = 1 := by
        unfold wtH wtT; rw [ty1, hr.phase]; simp [exZeroX, mkG]
      simp [w1, hs]
    simp only [psum_insert_env (show (1 : ℕ) ∉ (∅ : Finset ℕ) by simp)]
    simp only [psum_empty, hwt]
    norm_num

/-- What is left of the groups `ms` of H-boxes of `g` in `g'`: of each group at most the first H-box, with the sum of the phases, and nothing if the sum is
a multiple of 2π. -/
def ParResult (g g' : Graph) (ms : List (List ℕ × List ℕ × List ℕ)) : Prop :=
  ∀ m ∈ ms, ∀ h tl, m.1 = h :: tl → (∀ a ∈ tl, a ∉ g'.verts) ∧ (h ∈ g'.verts ↔ mod2 (m.1.map g.phase).sum ≠ 0) ∧
    (h ∈ g'.verts → g'.phase h = mod2 (m.1.map g.phase).sum)

/-- **C67.** For groups of parallel H-boxes, the rewrite returns and keeps the tensor exactly. It removes only H-boxes of the groups and their NOT gates, and of
each group leaves at most the first H-box, with the sum of the phases. -/
theorem parHbox_preserves {g : Graph} (hg : g.HWF) {ms : List (List ℕ × List ℕ × List ℕ)} {R N : ℕ → Finset ℕ} {t : ℕ → ℕ} (h : ParOK g ms R N t) :
    ∃ g', (parHbox g ms).finish = some g' ∧ HPreserves g g' ∧ ParResult g g' ms ∧
      (∀ v ∈ g.verts, (∀ m ∈ ms, ∀ a ∈ m.1, v ≠ a ∧ v ∉ N a) → v ∈ g'.verts ∧ g'.phase v = g.phase v) ∧ g'.verts ⊆ g.verts := by
  obtain ⟨g', hfin⟩ := HRules.par_total hg h
  obtain ⟨h1, h2⟩ := HRules.par_sound hg h hfin
  have hr := (removeVertices_spec (show Graph.removeVertices { g with phase := parPhases g ms g.phase } (ms.flatMap (parRem g)) = some g' by
    rw [par_eq h] at hfin
    simpa [RewriteState.finish, addEdgeTable, removeEdges] using hfin)).1
  have hne : ∀ m ∈ ms, m.1 ≠ [] := fun m hm => by obtain ⟨a, tl, e, -⟩ := h.cons hm; rw [e]; simp
  have hfam := h.fam hg
  have hmA : ∀ {m a}, m ∈ ms → a ∈ m.1 → a ∈ ms.flatMap (fun m => m.1) := fun hm ha => List.mem_flatMap.mpr ⟨_, hm, ha⟩
  refine ⟨g', hfin, h1, ?_, ?_, ?_⟩
  · intro m hm a tl e
    have hnd := h.nd hm
    have hh : m.1.headD 0 = a := by rw [e]; rfl
    have ha : a ∈ m.1 := by rw [e]; simp
    rw [e, List.nodup_cons] at hnd
    have hin : a ∈ g'.verts ↔ mod2 (m.1.map g.phase).sum ≠ 0 := by
      rw [h2, Finset.mem_sdiff, List.mem_toFinset, mem_rem h]
      constructor
      · rintro ⟨-, hc⟩ h0
        exact hc ⟨m, hm, Or.inr ⟨h0, Or.inl hh.symm⟩⟩
      · intro h0
        refine ⟨h.mem m hm a ha, ?_⟩
        rintro ⟨m', hm', ⟨b, hb, hbn, ho⟩ | ⟨h0', ho⟩⟩
        · have := fam_same hg hfam (hmA hm ha) (hmA hm' hb) (Or.inl rfl) ho
          subst this
          have := h.uniq hm hm' ha hb
          subst this
          exact hbn hh.symm
        · have := fam_same hg hfam (hmA hm ha) (hmA hm' (h.headD hm')) (Or.inl rfl) ho
          have := h.uniq hm hm' ha (by rw [this]; exact h.headD hm')
          subst this
          exact h0 h0'
    refine ⟨?_, hin, ?_⟩
    · intro b hb hc
      rw [h2, Finset.mem_sdiff, List.mem_toFinset, mem_rem h] at hc
      refine hc.2 ⟨m, hm, Or.inl ⟨b, by rw [e]; exact List.mem_cons_of_mem _ hb, ?_, Or.inl rfl⟩⟩
      rw [hh]
      rintro rfl
      exact hnd.1 hb
    · intro hc
      rw [hr.phase, ← hh]
      have := parPhases_head g ms g.phase h.nodup hne hm (hin.mp hc)
      refine this.trans ?_
      exact mod2_mod2 _
  · intro v hv hc
    refine ⟨?_, ?_⟩
    · rw [h2, Finset.mem_sdiff, List.mem_toFinset, mem_rem h]
      refine ⟨hv, ?_⟩
      rintro ⟨m, hm, ⟨b, hb, -, ho⟩ | ⟨-, ho⟩⟩
      · exact ho.elim (hc m hm b hb).1 (hc m hm b hb).2
      · exact ho.elim (hc m hm _ (h.headD hm)).1 (hc m hm _ (h.headD hm)).2
    · rw [hr.phase]
      exact parPhases_other g ms g.phase v fun m hm e => (hc m hm _ (h.headD hm)).1 e.symm
  · rw [h2]; exact Finset.sdiff_subset

/-- **C67.** The matcher returns groups of at least two parallel H-boxes: the H-boxes of a group have the same white neighbours and are connected by NOT gates to
the same spiders. -/
theorem matchPar_parallel {g : Graph} (hg : g.HWF) {ord : ℕ → List ℕ} (ho : Rules.NbrOrder g ord) {cands : List ℕ} (hn : cands.Nodup)
    (hc : ∀ v ∈ cands, v ∈ g.verts) : ∃ R N t, ParOK g (matchPar g ord cands) R N t :=
  ⟨_, _, _, HRules.matchPar_ok hg ho hn hc⟩

/-- **C67.** The matcher is complete: two candidates with the same white spiders as neighbours that are connected by NOT gates to the same spiders are in a common
group. -/
theorem matchPar_complete {g : Graph} (hg : g.HWF) {ord : ℕ → List ℕ} (ho : Rules.NbrOrder g ord) {cands : List ℕ} (hc : ∀ v ∈ cands, v ∈ g.verts)
    {h h' : ℕ} {R N N' : Finset ℕ} {t t' : ℕ → ℕ} (h1 : h ∈ cands) (h2 : h' ∈ cands) (hne : h ≠ h') (l1 : HLegs g h R N t) (l2 : HLegs g h' R N' t')
    (hR : ∀ r ∈ R, g.ty r = .Z ∨ g.ty r = .X) (hN : N.image t = N'.image t') : ∃ m ∈ matchPar g ord cands, h ∈ m.1 ∧ h' ∈ m.1 :=
  HRules.matchPar_full hg ho hc h1 h2 hne l1 l2 hR hN

/-- **C67.** Matching and rewriting, for every order of the candidates and of the neighbours: the rewrite returns and keeps the tensor exactly; of each group
at most one H-box is left, with the sum of the phases. With any match the diagram gets smaller. -/
theorem par_round {g : Graph} (hg : g.HWF) {ord : ℕ → List ℕ} (ho : Rules.NbrOrder g ord) {cands : List ℕ} (hn : cands.Nodup)
    (hc : ∀ v ∈ cands, v ∈ g.verts) : ∃ g', (parHbox g (matchPar g ord cands)).finish = some g' ∧ HPreserves g g' ∧
      ParResult g g' (matchPar g ord cands) ∧ (matchPar g ord cands ≠ [] → g'.verts.card < g.verts.card) := by
  have h := HRules.matchPar_ok hg ho hn hc
  obtain ⟨g', h1, h2, h3, -, h5⟩ := parHbox_preserves hg h
  refine ⟨g', h1, h2, h3, fun hne => ?_⟩
  obtain ⟨m, hm⟩ := List.exists_mem_of_ne_nil _ hne
  obtain ⟨a, tl, e, htl⟩ := h.cons hm
  obtain ⟨b, hb⟩ := List.exists_mem_of_ne_nil _ htl
  refine Finset.card_lt_card ⟨h5, fun hs => (h3 m hm a tl e).1 b hb (hs (h.mem m hm b ?_))⟩
  rw [e]; exact List.mem_cons_of_mem _ hb

/-- Two H-boxes 2 and 3 on the spiders 0 and 1, the second leg of each through a NOT gate (an X-spider and a Z-spider with Hadamard edges). -/
noncomputable def exPar : Graph := mkG [.Z, .Z, .hbox, .hbox, .X, .Z] [0, 1/4, 1/2, 1, 1, 1]
  [(0, 2, .simple), (0, 3, .simple), (2, 4, .simple), (4, 1, .simple), (3, 5, .had), (5, 1, .had)] [] []

/-- Neighbours of `exPar`. -/
def exParOrd : ℕ → List ℕ
  | 0 => [2, 3] | 1 => [4, 5] | 2 => [0, 4] | 3 => [0, 5] | 4 => [2, 1] | 5 => [3, 1] | _ => []

theorem exPar_match : exPar.HWF ∧ Rules.NbrOrder exPar exParOrd ∧ matchPar exPar exParOrd [0, 1, 2, 3, 4, 5] = [([2, 3], [4], [5])] := by
  have ho : Rules.NbrOrder exPar exParOrd := by
    intro v hv
    have hv : v < 6 := Finset.mem_range.mp hv
    interval_cases v <;> refine ⟨by decide, ?_⟩ <;> simp only [exPar, mkG, Graph.nbrs, exParOrd] <;> decide
  have d : ∀ v, v < 6 → exPar.degree v = (exParOrd v).length := by
    intro v hv
    have := ho v (Finset.mem_range.mpr hv)
    unfold Graph.degree
    rw [← this.2, List.toFinset_card_of_nodup this.1]
  have d4 : exPar.degree 4 = 2 := d 4 (by norm_num)
  have d5 : exPar.degree 5 = 2 := d 5 (by norm_num)
  refine ⟨mkG_hwf (by decide) (by decide), ho, ?_⟩
  have t : exPar.ty 0 = .Z ∧ exPar.ty 1 = .Z ∧ exPar.ty 2 = .hbox ∧ exPar.ty 3 = .hbox ∧ exPar.ty 4 = .X ∧ exPar.ty 5 = .Z := by simp [exPar, mkG]
  have p : exPar.phase 4 = 1 ∧ exPar.phase 5 = 1 := by simp [exPar, mkG]
  have a : exPar.adj 0 2 = some .simple ∧ exPar.adj 0 3 = some .simple ∧ exPar.adj 4 2 = some .simple ∧ exPar.adj 4 1 = some .simple ∧
      exPar.adj 5 3 = some .had ∧ exPar.adj 5 1 = some .had := by simp [exPar, mkG]
  obtain ⟨t0, t1, t2, t3, t4, t5⟩ := t
  obtain ⟨p4, p5⟩ := p
  obtain ⟨a1, a2, a3, a4, a5, a6⟩ := a
  have s2 : parScan exPar exParOrd 2 = some ⟨{0}, {1}, [4]⟩ := by
    simp [parScan, exParOrd, parNbr, parNot, t0, t1, t4, p4, a1, a3, a4, d4]
  have s3 : parScan exPar exParOrd 3 = some ⟨{0}, {1}, [5]⟩ := by
    simp [parScan, exParOrd, parNbr, parNot, t0, t1, t5, p5, a2, a5, a6, d5]
  simp [matchPar, parTry, t0, t1, t2, t3, t4, t5, s2, s3, parInsert]

example : ∃ R N t, ParOK exPar [([2, 3], [4], [5])] R N t := by
  obtain ⟨h1, h2, h3⟩ := exPar_match
  rw [← h3]
  exact matchPar_parallel h1 h2 (by decide) (by intro v hv; simp [exPar, mkG]; simp at hv; omega)

end Props
end PyZX
