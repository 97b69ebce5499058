import Verif.Proofs.SimpPivot

/-!
# The edge that a pivot moves, and the edges between Z-spiders
-/

namespace PyZX
namespace Graph

/-! ### Number of table edges at a vertex -/

theorem tcount_upd_eq (t : ETab) (k : ℕ × ℕ) {f : ℕ × ℕ → ℕ × ℕ} {c : ℕ} (hf : ∀ p, (f p).1 + (f p).2 = p.1 + p.2 + c) (b : ℕ) :
    tcount (ETab.upd t k f) b = tcount t b + if touch b k then c else 0 := by
  have h1 := tcount_upd_ge t k (f := f) (c := c) (fun p => (hf p).ge) b
  by_cases h : touch b k
  · have h2 := tcount_upd_le t k (f := f) (c := c) (fun p => (hf p).le) b
    rw [if_pos h] at h1 ⊢
    omega
  · rw [tcount_upd_other t f h, if_neg h]; rfl

theorem pivotBoundary_tcount {s : RewriteState} {v o : ℕ} {b : Option ℕ}
    (hb : ∀ w, b = some w → s.g.adj v w = some .simple ∨ s.g.adj v w = some .had) {c : ℕ} (hc : c ≠ o) :
    tcount (Rules.pivotBoundary s v o b).etab c = tcount s.etab c + if b = some c then 1 else 0 := by
  cases b with
  | none => simp [Rules.pivotBoundary]
  | some w =>
    have := tcount_upd_eq s.etab (o, w) (f := fun p => if s.g.adj v w = some .simple then (p.1, p.2 + 1)
      else if s.g.adj v w = some .had then (p.1 + 1, p.2) else p) (c := 1) (fun p => by
        rcases hb w rfl with h | h
        · beta_reduce; rw [if_pos h]; simp [Nat.add_assoc]
        · beta_reduce; rw [if_neg (by rw [h]; simp), if_pos h]; dsimp; omega) c
    refine this.trans ?_
    congr 1
    by_cases hw : w = c
    · rw [if_pos (Or.inr hw.symm), if_pos (by rw [hw])]
    · rw [if_neg (by rintro (e | e); exacts [hc e, hw e.symm]), if_neg (by simpa using hw)]

theorem pivotStep_tcount {g : Graph} (hg : g.WF) {lst : Finset ℕ → List ℕ} (hlst : Rules.SetOrder lst) {m : Rules.PivotMatch}
    (h : PivotOK1 g m) {s : RewriteState} (hs : SameBut g s.g) {c : ℕ} (hc0 : c ≠ m.v0) (hc1 : c ≠ m.v1) (hcA : c ∉ pivotA g m) :
    tcount (Rules.pivotStep lst s m).etab c = tcount s.etab c + pivotCnt c m ∧ SameBut g (Rules.pivotStep lst s m).g := by
  have hadj : ∀ v w, g.adj v w ≠ none → g.adj v w = some .simple ∨ g.adj v w = some .had := by
    intro v w hne
    have := hg.noWio v w
    rcases e : g.adj v w with _ | x
    · exact absurd e hne
    · rw [e] at this
      cases x <;> simp_all
  have hn0 : Rules.pivotNbrs s.g m.v0 m.v1 m.b0 = Rules.pivotNbrs g m.v0 m.v1 m.b0 := by unfold Rules.pivotNbrs; rw [hs.nbrs]
  have hn1 : Rules.pivotNbrs s.g m.v1 m.v0 m.b1 = Rules.pivotNbrs g m.v1 m.v0 m.b1 := by unfold Rules.pivotNbrs; rw [hs.nbrs]
  have ml : ∀ N w, w ∈ lst N → w ∈ N := by intro N w hw; rw [← (hlst N).2]; simpa using hw
  unfold Rules.pivotStep
  simp only [hn0, hn1]
  have z2 : ∀ w ∈ lst (Rules.pivotNbrs g m.v0 m.v1 m.b0 ∩ Rules.pivotNbrs g m.v1 m.v0 m.b1), w ∈ pivotA g m := fun w hw =>
    Finset.mem_union_left _ (Finset.mem_inter.mp (ml _ w hw)).1
  have z0 : ∀ w ∈ lst (Rules.pivotNbrs g m.v0 m.v1 m.b0 \ (Rules.pivotNbrs g m.v0 m.v1 m.b0 ∩ Rules.pivotNbrs g m.v1 m.v0 m.b1)),
      w ∈ pivotA g m := fun w hw => Finset.mem_union_left _ (Finset.mem_sdiff.mp (ml _ w hw)).1
  have z1 : ∀ w ∈ lst (Rules.pivotNbrs g m.v1 m.v0 m.b1 \ (Rules.pivotNbrs g m.v0 m.v1 m.b0 ∩ Rules.pivotNbrs g m.v1 m.v0 m.b1)),
      w ∈ pivotA g m := fun w hw => Finset.mem_union_right _ (Finset.mem_sdiff.mp (ml _ w hw)).1
  revert z0 z1 z2
  generalize lst (Rules.pivotNbrs g m.v0 m.v1 m.b0 ∩ Rules.pivotNbrs g m.v1 m.v0 m.b1) = l2
  generalize lst (Rules.pivotNbrs g m.v0 m.v1 m.b0 \ (Rules.pivotNbrs g m.v0 m.v1 m.b0 ∩ Rules.pivotNbrs g m.v1 m.v0 m.b1)) = l0
  generalize lst (Rules.pivotNbrs g m.v1 m.v0 m.b1 \ (Rules.pivotNbrs g m.v0 m.v1 m.b0 ∩ Rules.pivotNbrs g m.v1 m.v0 m.b1)) = l1
  intro z2 z0 z1
  set g1 := s.g.addPower ((l0.length : ℤ) * l2.length + l1.length * l2.length + l0.length * l1.length) with hg1
  set g2 := Rules.addToPhases g1 l2 1 with hg2
  set g3 := (if g2.phase m.v0 ≠ 0 ∧ g2.phase m.v1 ≠ 0 then g2.addScalarPhase 1 else g2) with hg3
  generalize (if m.b0 = none ∧ m.b1 = none then -((l0.length : ℤ) + l1.length + 2 * l2.length - 1)
    else if m.b0 = none then -((l1.length : ℤ) + l2.length) else -((l0.length : ℤ) + l2.length)) = n
  have sb2 : SameBut g g2 := (hs.trans (sameBut_addPower _ _)).trans (addToPhases_spec l2 1 g1).1
  have sb3 : SameBut g g3 := by
    rw [hg3]; split
    · exact sb2.trans (sameBut_addScalarPhase _ _)
    · exact sb2
  have sbp : ∀ (g0 : Graph) v l, SameBut g g0 → SameBut g (Rules.pivotPhases g0 v l l2) := by
    intro g0 v l h0
    unfold Rules.pivotPhases
    simp only
    split
    · exact h0
    · exact (h0.trans (addToPhases_spec _ _ _).1).trans (addToPhases_spec _ _ _).1
  have sb5 := sbp (g3.addPower n) m.v0 l1 (sb3.trans (sameBut_addPower _ _))
  set g5 := Rules.pivotPhases (g3.addPower n) m.v0 l1 l2 with hg5
  have e1 := pivotBoundary_tcount (s := { s with g := g5 }) (v := m.v0) (o := m.v1) (b := m.b0) (fun w hw => by
    show g5.adj _ _ = _ ∨ _; rw [sb5.adj]; exact hadj _ _ (h.b0 w hw).1) hc1
  set s5 := Rules.pivotBoundary { s with g := g5 } m.v0 m.v1 m.b0 with hs5
  have hs5g : s5.g = g5 := pivotBoundary_g _ _ _ _
  have sb6 := sbp s5.g m.v1 l0 (by rw [hs5g]; exact sb5)
  have e2 := pivotBoundary_tcount (s := { s5 with g := Rules.pivotPhases s5.g m.v1 l0 l2 }) (v := m.v1) (o := m.v0) (b := m.b1) (fun w hw => by
    show (Rules.pivotPhases s5.g m.v1 l0 l2).adj _ _ = _ ∨ _; rw [sb6.adj]; exact hadj _ _ (h.b1 w hw).1) hc0
  rw [tcount_setHads]
  · refine ⟨?_, by rw [pivotBoundary_g]; exact sb6⟩
    simp only at e1 e2
    rw [e2, e1]
    unfold pivotCnt
    omega
  · intro e he
    have hz : e.1 ∈ pivotA g m ∧ e.2 ∈ pivotA g m := by
      obtain ⟨x, y⟩ := e
      simp only [Rules.pivotPairs, List.mem_append] at he
      rcases he with (q | q) | q <;> obtain ⟨q1, q2⟩ := List.pair_mem_product.mp q
      · exact ⟨z0 _ q1, z1 _ q2⟩
      · exact ⟨z1 _ q1, z2 _ q2⟩
      · exact ⟨z0 _ q1, z2 _ q2⟩
    rintro (e | e)
    · exact hcA (e ▸ hz.1)
    · exact hcA (e ▸ hz.2)

theorem pivot_tcount {g : Graph} (hg : g.WF) {lst : Finset ℕ → List ℕ} (hlst : Rules.SetOrder lst) {ms : List Rules.PivotMatch}
    (h : ∀ m ∈ ms, PivotOK1 g m) {c : ℕ} (hc : ∀ m ∈ ms, c ≠ m.v0 ∧ c ≠ m.v1 ∧ c ∉ pivotA g m) :
    tcount (Rules.pivot lst g ms).etab c = (ms.map (pivotCnt c)).sum := by
  have key : ∀ (l : List Rules.PivotMatch) (s : RewriteState), (∀ m ∈ l, m ∈ ms) → SameBut g s.g →
      tcount (l.foldl (Rules.pivotStep lst) s).etab c = tcount s.etab c + (l.map (pivotCnt c)).sum := by
    intro l
    induction l with
    | nil => intro s _ _; simp
    | cons m l ih =>
      intro s hl hs
      have hm := hl m (by simp)
      obtain ⟨q1, q2, q3⟩ := hc m hm
      obtain ⟨e1, e2⟩ := pivotStep_tcount hg hlst (h m hm) hs q1 q2 q3
      rw [List.foldl_cons, ih _ (fun m hm => hl m (by simp [hm])) e2, e1, List.map_cons, List.sum_cons]
      omega
  have := key ms (RewriteState.start g) (fun _ h => h) (SameBut.refl g)
  refine this.trans ?_
  simp [RewriteState.start, tcount]

theorem PivotOK.sep {g : Graph} (hg : g.WF) {ms : List Rules.PivotMatch} (h : PivotOK g ms) {m m' : Rules.PivotMatch} (hm : m ∈ ms) (hm' : m' ∈ ms) :
    m = m' ∨ ∀ v, v = m.v0 ∨ v = m.v1 → ∀ w, w = m'.v0 ∨ w = m'.v1 → v ≠ w ∧ g.adj v w = none := by
  have hp := List.pairwise_iff_getElem.mp h.indep
  obtain ⟨i, hi, rfl⟩ := List.getElem_of_mem hm
  obtain ⟨j, hj, rfl⟩ := List.getElem_of_mem hm'
  rcases lt_trichotomy i j with hlt | rfl | hlt
  · exact Or.inr (hp i j hi hj hlt)
  · exact Or.inl rfl
  · right
    intro v hv w hw
    have := hp j i hj hi hlt w hw v hv
    exact ⟨fun e => this.1 e.symm, by rw [hg.symm]; exact this.2⟩

theorem PivotOK.v1_nodup {g : Graph} {ms : List Rules.PivotMatch} (h : PivotOK g ms) : (ms.map (·.v1)).Nodup := by
  rw [List.Nodup, List.pairwise_map]
  exact h.indep.imp fun {i j} hij => (hij i.v1 (Or.inr rfl) j.v1 (Or.inr rfl)).1

/-! ### The edge that is moved -/

/-- If the only neighbour of `c` is the second vertex of a pivot, then `c` is connected to the first vertex afterwards, and to nothing
else. -/
theorem pivot_transfer {g : Graph} (hg : g.WF) {lst : Finset ℕ → List ℕ} (hlst : Rules.SetOrder lst) {ms : List Rules.PivotMatch}
    (h : PivotOK g ms) {g' : Graph} (hf : (Rules.pivot lst g ms).finish = some g') (hw : g'.WF) {m : Rules.PivotMatch} (hm : m ∈ ms)
    {c : ℕ} (hb0 : m.b0 = none) (hb1 : m.b1 = some c) (hc : ∀ z, g.adj c z ≠ none → z = m.v1) :
    g'.adj m.v0 c ≠ none ∧ ∀ x, g'.adj c x ≠ none → x = m.v0 := by
  obtain ⟨f1, -, f3, f4, -⟩ := pivot_fold hg hlst ms h rfl
  have hk := h.each m hm
  obtain ⟨k1, k2, k3, k4⟩ := hk.b1 c hb1
  have hne : m.v0 ≠ m.v1 := by intro e; have := hk.adj; rw [e, hg.loopless] at this; simp at this
  have hnv : ∀ m' ∈ ms, c ≠ m'.v0 ∧ c ≠ m'.v1 := by
    intro m' hm'
    have hk' := h.each m' hm'
    have hs := h.sep hg hm hm'
    constructor
    · intro e
      have := hc m'.v1 (by rw [e, hk'.adj]; simp)
      rcases hs with rfl | hs
      · exact k3 e
      · exact (hs m.v1 (Or.inr rfl) m'.v1 (Or.inr rfl)).1 this.symm
    · intro e
      have := hc m'.v0 (by rw [e, hg.symm, hk'.adj]; simp)
      rcases hs with rfl | hs
      · exact hne this
      · exact (hs m.v1 (Or.inr rfl) m'.v0 (Or.inl rfl)).1 this.symm
  have hcA : ∀ m' ∈ ms, c ∉ pivotA g m' := by
    intro m' hm' hA
    have hs := h.sep hg hm hm'
    rcases mem_pivotA hg hA with ⟨q1, q2, q3⟩ | ⟨q1, q2, q3⟩
    · have e := hc m'.v0 (by rw [hg.symm]; exact q1)
      rcases hs with rfl | hs
      · exact hne e
      · exact (hs m.v1 (Or.inr rfl) m'.v0 (Or.inl rfl)).1 e.symm
    · have e := hc m'.v1 (by rw [hg.symm]; exact q1)
      rcases hs with rfl | hs
      · exact q3 hb1
      · exact (hs m.v1 (Or.inr rfl) m'.v1 (Or.inr rfl)).1 e.symm
  have hcnt : ∀ m' ∈ ms, pivotCnt c m' ≠ 0 → m' = m := by
    intro m' hm' hne'
    have hk' := h.each m' hm'
    have hs := h.sep hg hm hm'
    by_cases c0 : m'.b0 = some c
    · have e := hc m'.v0 (by rw [hg.symm]; exact (hk'.b0 c c0).1)
      rcases hs with rfl | hs
      · rfl
      · exact absurd e.symm (hs m.v1 (Or.inr rfl) m'.v0 (Or.inl rfl)).1
    · by_cases c1 : m'.b1 = some c
      · have e := hc m'.v1 (by rw [hg.symm]; exact (hk'.b1 c c1).1)
        rcases hs with rfl | hs
        · rfl
        · exact absurd e.symm (hs m.v1 (Or.inr rfl) m'.v1 (Or.inr rfl)).1
      · exact absurd (by simp [pivotCnt, c0, c1]) hne'
  have hcm : pivotCnt c m = 1 := by simp [pivotCnt, hb0, hb1]
  have htc := pivot_tcount hg hlst h.each (c := c) fun m' hm' => ⟨(hnv m' hm').1, (hnv m' hm').2, hcA m' hm'⟩
  have hle : (ms.map (pivotCnt c)).sum ≤ 1 := sum_le_one h.v1_nodup (z := m.v1) (fun m' hm' => by
      by_cases e : pivotCnt c m' = 0
      · omega
      · rw [hcnt m' hm' e, hcm]) fun m' hm' hne' => by rw [hcnt m' hm' hne']
  have hge : 1 ≤ (ms.map (pivotCnt c)).sum := by
    rw [← hcm]; exact List.single_le_sum (by simp) _ (List.mem_map_of_mem hm)
  have hkeys := pivot_keys hg hlst h.each
  have hkey : ∀ e ∈ (Rules.pivot lst g ms).etab, touch c e.1 → e.1 = (m.v0, c) := by
    intro e he ht
    obtain ⟨m', hm', hcase⟩ := hkeys e he
    rcases hcase with ⟨q1, q2⟩ | ⟨w, hw, q⟩ | ⟨w, hw, q⟩
    · rcases ht with t | t
      · exact absurd (t ▸ q1) (hcA m' hm')
      · exact absurd (t ▸ q2) (hcA m' hm')
    · rw [q] at ht
      rcases ht with t | t
      · exact absurd t (hnv m' hm').2
      · have t : c = w := t
        rw [← t] at hw
        have := hcnt m' hm' (by simp [pivotCnt, hw])
        rw [this, hb0] at hw; simp at hw
    · rw [q] at ht
      rcases ht with t | t
      · exact absurd t (hnv m' hm').1
      · have t : c = w := t
        rw [← t] at hw
        have := hcnt m' hm' (by simp [pivotCnt, hw])
        rw [q, this, t]
  refine ⟨?_, fun x hx => ?_⟩
  · obtain ⟨e, he, hz, ht⟩ := tcount_ne (b := c) (t := (Rules.pivot lst g ms).etab) (by omega)
    have hek := hkey e he ht
    unfold RewriteState.finish at hf
    obtain ⟨g1, h1, hf⟩ := Option.bind_eq_some_iff.mp hf
    obtain ⟨g2, h2, h3⟩ := Option.bind_eq_some_iff.mp hf
    obtain ⟨hr, -, -, -⟩ := removeVertices_spec h3
    obtain ⟨-, -, -, b4⟩ := removeEdges_same h2
    rw [f3] at hr
    rw [f4] at b4
    have hrem : ∀ v, v ∈ ms.flatMap pivotRem → ∃ m' ∈ ms, (v = m'.v1 ∧ m'.b0 = none) ∨ (v = m'.v0 ∧ m'.b1 = none) := by
      intro v hv
      obtain ⟨m', hm', hh⟩ := List.mem_flatMap.mp hv
      refine ⟨m', hm', ?_⟩
      simp only [pivotRem, List.mem_append] at hh
      rcases hh with hh | hh <;> split at hh <;> simp at hh
      · next c0 => exact Or.inl ⟨hh, c0⟩
      · next c0 => exact Or.inr ⟨hh, c0⟩
    have hv0 : m.v0 ∉ ms.flatMap pivotRem := by
      intro hv
      obtain ⟨m', hm', ⟨e', -⟩ | ⟨e', e2⟩⟩ := hrem _ hv
      · rcases h.sep hg hm hm' with rfl | hs
        · exact hne e'
        · exact (hs m.v0 (Or.inl rfl) m'.v1 (Or.inr rfl)).1 e'
      · rcases h.sep hg hm hm' with rfl | hs
        · rw [hb1] at e2; simp at e2
        · exact (hs m.v0 (Or.inl rfl) m'.v0 (Or.inl rfl)).1 e'
    have hcr : c ∉ ms.flatMap pivotRem := by
      intro hv
      obtain ⟨m', hm', ⟨e', -⟩ | ⟨e', e2⟩⟩ := hrem _ hv
      · exact (hnv m' hm').2 e'
      · exact (hnv m' hm').1 e'
    rw [hr.adj m.v0 c (by simpa using hv0) (by simpa using hcr), b4 m.v0 c]
    · have := addEdgeTable_single h1 (c := c) (by omega) he hz ht (by rw [hek, f1.adj]; exact k4)
      rw [hek] at this
      exact this
    · intro e' he' hsp
      obtain ⟨-, m', hm', hh⟩ := pivotRemE_mem h e' he'
      rcases hh with ⟨q1, q2⟩ | ⟨q1, q2⟩ <;> rcases hsp with ⟨p1, p2⟩ | ⟨p1, p2⟩ <;> simp only at p1 p2
      · rcases h.sep hg hm hm' with rfl | hs
        · rw [hb0] at q2; simp at q2
        · exact (hs m.v0 (Or.inl rfl) m'.v0 (Or.inl rfl)).1 (p1.trans q1)
      · exact (hnv m' hm').1 (p2.trans q1)
      · rcases h.sep hg hm hm' with rfl | hs
        · exact hne (p1.trans q1)
        · exact (hs m.v0 (Or.inl rfl) m'.v1 (Or.inr rfl)).1 (p1.trans q1)
      · exact (hnv m' hm').2 (p2.trans q1)
  · obtain ⟨-, a2, -, a4⟩ := finish_adj hf hw.toInv hx
    rcases a4 with a4 | ⟨e, he, -, hsp⟩
    · rw [f1.adj] at a4
      have e := hc x a4
      rw [f3] at a2
      exact absurd (List.mem_flatMap.mpr ⟨m, hm, by rw [e]; simp [pivotRem, hb0]⟩) a2
    · have hek := hkey e he (by
        rcases hsp with ⟨p, -⟩ | ⟨p, -⟩
        · exact Or.inl p
        · exact Or.inr p)
      rw [hek] at hsp
      rcases hsp with ⟨p1, p2⟩ | ⟨p1, p2⟩ <;> simp only at p1 p2
      · exact absurd p1 k3
      · exact p2

/-! ### Edges between Z-spiders -/

/-- All edges between Z-spiders outside of `R` are Hadamard edges. -/
def ZHadOff (R : ℕ → Prop) (g : Graph) : Prop :=
  ∀ u v, ¬ R u → ¬ R v → g.ty u = .Z → g.ty v = .Z → g.adj u v ≠ none → g.adj u v = some .had

theorem addEdge_zHad {R : ℕ → Prop} {g g' : Graph} {s t : ℕ} {e : EType} (h : g.addEdge s t e = some g')
    (he : g.ty s = .Z → g.ty t = .Z → e = .had) (hz : ZHadOff R g) : ZHadOff R g' := by
  have hty := (addEdge_frame h).ty
  intro u v hu hv tu tv hne
  rw [hty] at tu tv
  by_cases hsp : SamePair (u, v) (s, t)
  · have hst : ¬ R s ∧ ¬ R t ∧ g.ty s = .Z ∧ g.ty t = .Z := by
      rcases hsp with ⟨p1, p2⟩ | ⟨p1, p2⟩ <;> simp only at p1 p2 <;> subst p1 <;> subst p2
      · exact ⟨hu, hv, tu, tv⟩
      · exact ⟨hv, hu, tv, tu⟩
    obtain ⟨hs, ht, ts, tt⟩ := hst
    have he := he ts tt
    subst he
    have heff : g.eff s t .had = true := by simp [eff, isX, ts, tt]
    obtain ⟨-, ⟨hn, -, rfl⟩ | ⟨e1, hn, -, -, hcase⟩⟩ := addEdge_cases h
    · exact if_pos hsp
    · have h1 := hz s t hs ht ts tt (by rw [hn]; simp)
      rw [h1, Option.some.injEq] at hn
      subst hn
      rcases hcase with ⟨q, -⟩ | ⟨q, -⟩ | ⟨-, -, -, rfl⟩
      · rw [heff] at q; simp at q
      · rw [heff] at q; simp at q
      · exact absurd (if_pos hsp) hne
  · rw [addEdge_adj_other h hsp] at hne ⊢
    exact hz u v hu hv tu tv hne

theorem addEdgeN_zHad {R : ℕ → Prop} {g g' : Graph} {s t n : ℕ} {e : EType} (h : g.addEdgeN s t e n = some g')
    (he : g.ty s = .Z → g.ty t = .Z → n = 0 ∨ e = .had) (hz : ZHadOff R g) : ZHadOff R g' ∧ g'.ty = g.ty := by
  induction n generalizing g with
  | zero => simp only [addEdgeN, Option.some.injEq] at h; rw [← h]; exact ⟨hz, rfl⟩
  | succ n ih =>
    simp only [addEdgeN] at h
    obtain ⟨g1, h1, h2⟩ := Option.bind_eq_some_iff.mp h
    have hty := (addEdge_frame h1).ty
    have he' : g.ty s = .Z → g.ty t = .Z → e = .had := fun a b => (he a b).resolve_left (by omega)
    obtain ⟨i1, i2⟩ := ih h2 (by rw [hty]; exact fun a b => Or.inr (he' a b)) (addEdge_zHad h1 he' hz)
    exact ⟨i1, i2.trans hty⟩

theorem addEdgeTable_zHad {R : ℕ → Prop} {g g' : Graph} {t : ETab} (h : g.addEdgeTable t = some g')
    (he : ∀ e ∈ t, g.ty e.1.1 = .Z → g.ty e.1.2 = .Z → e.2.1 = 0) (hz : ZHadOff R g) : ZHadOff R g' ∧ g'.ty = g.ty := by
  induction t generalizing g with
  | nil => simp only [addEdgeTable, List.foldlM_nil, Option.pure_def, Option.some.injEq] at h; rw [← h]; exact ⟨hz, rfl⟩
  | cons e t ih =>
    obtain ⟨g1, g2, h1, h2, h3⟩ := addEdgeTable_cons h
    obtain ⟨a1, a2⟩ := addEdgeN_zHad h1 (fun p q => Or.inl (he e (by simp) p q)) hz
    obtain ⟨b1, b2⟩ := addEdgeN_zHad h2 (fun _ _ => Or.inr rfl) a1
    have hty := b2.trans a2
    obtain ⟨c1, c2⟩ := ih h3 (by rw [hty]; exact fun e' he' => he e' (by simp [he'])) b1
    exact ⟨c1, c2.trans hty⟩

/-- Pivots keep the property that the edges between Z-spiders are Hadamard edges. -/
theorem pivot_zHad {g : Graph} (hg : g.WF) {lst : Finset ℕ → List ℕ} (hlst : Rules.SetOrder lst) {ms : List Rules.PivotMatch}
    (h : PivotOK g ms) {g' : Graph} (hf : (Rules.pivot lst g ms).finish = some g') (hw : g'.WF)
    (hz : ZHadOff (fun v => v ∈ ms.flatMap pivotRem) g)
    (hb0 : ∀ m ∈ ms, ∀ w, m.b0 = some w → g.ty w = .Z → g.adj m.v0 w = some .simple)
    (hb1 : ∀ m ∈ ms, ∀ w, m.b1 = some w → g.ty w = .Z → g.adj m.v1 w = some .simple) : g'.ZHad := by
  obtain ⟨f1, -, f3, f4, -⟩ := pivot_fold hg hlst ms h rfl
  have hQ := pivot_forall hg hlst h.each (Q := fun k p => g.ty k.1 = .Z → g.ty k.2 = .Z → p.1 = 0)
    (fun m hm a ha b hb => ⟨fun _ _ => rfl, fun _ _ _ _ => rfl⟩)
    (fun m hm w hw => ⟨fun _ t => by
        show (pivotBf g m.v0 w (0, 0)).1 = 0
        unfold pivotBf; rw [if_pos (hb0 m hm w hw t)], fun p hp s t => by
        show (pivotBf g m.v0 w p).1 = 0
        unfold pivotBf; rw [if_pos (hb0 m hm w hw t)]; exact hp s t⟩)
    (fun m hm w hw => ⟨fun _ t => by
        show (pivotBf g m.v1 w (0, 0)).1 = 0
        unfold pivotBf; rw [if_pos (hb1 m hm w hw t)], fun p hp s t => by
        show (pivotBf g m.v1 w p).1 = 0
        unfold pivotBf; rw [if_pos (hb1 m hm w hw t)]; exact hp s t⟩)
  have hfin := hf
  unfold RewriteState.finish at hf
  obtain ⟨g1, h1, hf⟩ := Option.bind_eq_some_iff.mp hf
  obtain ⟨g2, h2, h3⟩ := Option.bind_eq_some_iff.mp hf
  obtain ⟨hr, -, -, -⟩ := removeVertices_spec h3
  obtain ⟨b2, -, -, b4⟩ := removeEdges_same h2
  rw [f3] at hr
  obtain ⟨z1, z2⟩ := addEdgeTable_zHad h1 (by rw [f1.ty]; exact hQ)
    (R := fun v => v ∈ ms.flatMap pivotRem) (fun u v hu hv tu tv => by rw [f1.ty] at tu tv; rw [f1.adj]; exact hz u v hu hv tu tv)
  intro u v tu tv hne
  obtain ⟨q1, q2, q3, -⟩ := finish_adj hfin hw.toInv hne
  rw [f3] at q1 q2
  rw [hr.ty, b2] at tu tv
  rw [hr.adj u v (by simpa using q1) (by simpa using q2), b4 u v q3] at hne ⊢
  exact z1 u v q1 q2 tu tv hne

end Graph
end PyZX
