import Verif.Proofs.SimpBPhase

/-!
# The simplification loops terminate and keep the tensor
-/

namespace PyZX
namespace Simplify

open Graph Rules

variable {P : ℚ → Prop}

/-- What every pass of the loops that only remove vertices does. -/
structure Shrinks (P : ℚ → Prop) (g g' : Graph) : Prop where
  keeps : Keeps P g g'
  ty : g'.ty = g.ty
  verts : g'.verts ⊆ g.verts

theorem Shrinks.refl {g : Graph} (h : g.WF) : Shrinks P g g := ⟨Keeps.refl h, rfl, Finset.Subset.refl _⟩

theorem Shrinks.trans {g g' g'' : Graph} (h : Shrinks P g g') (h' : Shrinks P g' g'') : Shrinks P g g'' :=
  ⟨h.keeps.trans h'.keeps, h'.ty.trans h.ty, h'.verts.trans h.verts⟩

/-- The specification of a pass with normal form `N`. -/
def RoundOK (P : ℚ → Prop) (N : Graph → Prop) (o : Orders) (r : Orders → Graph → Option (Bool × Graph)) : Prop :=
  ∀ g, g.ZX P → ∃ c g', r o g = some (c, g') ∧ g'.ZX P ∧ Shrinks P g g' ∧ (c = true → g'.verts.card < g.verts.card) ∧
    (c = false → g' = g ∧ (o.Full → N g))

/-! ### One pass -/

theorem afterRewrite_false {o : Orders} {g g' : Graph} {s : RewriteState} (hf : s.finish = some g') (hp : Preserves g g') (hz : g'.ZX P)
    (ht : g'.ty = g.ty) (hv : g'.verts ⊆ g.verts) (hb : BPh g g') :
    afterRewrite o false s = some (true, g') ∧ g'.ZX P ∧ Shrinks P g g' := by
  refine ⟨?_, hz, hp.keeps hb, ht, hv⟩
  simp [afterRewrite, hf]

theorem afterRewrite_true (hP : PhaseSet P) {o : Orders} (ho : o.OK) {g g' : Graph} {s : RewriteState} (hf : s.finish = some g')
    (hp : Preserves g g') (hz : g'.ZX P) (ht : g'.ty = g.ty) (hv : g'.verts ⊆ g.verts) (hb : BPh g g') :
    ∃ g'', afterRewrite o true s = some (true, g'') ∧ g''.ZX P ∧ Shrinks P g g'' ∧ g''.verts ⊆ g'.verts := by
  obtain ⟨g'', h1, h2, h3, h4, h5⟩ := removeIsolated_zx hP hz (ho.nbr g') (ho.all g').1 (ho.all g').2
  refine ⟨g'', ?_, h3, ⟨(hp.keeps hb).trans h2, h4.trans ht, h5.trans hv⟩, h5⟩
  simp [afterRewrite, hf, h1]

theorem card_sdiff_lt {s t : Finset ℕ} {v : ℕ} (hv : v ∈ s) (ht : v ∈ t) : (s \ t).card < s.card :=
  Finset.card_lt_card ⟨Finset.sdiff_subset, fun h => (Finset.mem_sdiff.mp (h hv)).2 ht⟩

theorem idRound_ok (hP : PhaseSet P) {o : Orders} (ho : o.OK) : RoundOK P NoIds o idRound := by
  intro g hg
  have hok := matchIds_ok hg.wf (ho.nbr g) (ho.vcand g).1 (ho.vcand g).2 (-1)
  unfold idRound
  simp only
  by_cases hm : matchIds g (o.nbr g) (-1) (o.vcand g) = []
  · rw [if_pos hm]
    refine ⟨false, g, rfl, hg, Shrinks.refl hg.wf, by simp, fun _ => ⟨rfl, fun hf v hv hty hph hc => ?_⟩⟩
    have := greedy_nil hm v (hf.vcand g hg.wf v hv)
    unfold idTry at this
    have hlen : (o.nbr g v).length = 2 := by
      rw [← hc, ← ((ho.nbr g) v hv).2, List.toFinset_card_of_nodup ((ho.nbr g) v hv).1]
    rw [if_neg] at this
    · rcases hl : o.nbr g v with _ | ⟨a, _ | ⟨b, _ | ⟨c, l⟩⟩⟩ <;> rw [hl] at this hlen <;> simp at this hlen
    · simp only [hph, ne_eq, not_true_eq_false, false_or, not_or, not_not]
      refine ⟨?_, hc⟩
      rcases hty with h | h <;> rw [h] <;> rfl
  · rw [if_neg hm]
    obtain ⟨g', h1, h2, h3, h4, h5⟩ := removeIds_zx hP hg hok
    obtain ⟨e1, e2, e3⟩ := afterRewrite_false (o := o) h1 h2 h3 h4 (by rw [h5]; exact Finset.sdiff_subset) (removeIds_bph hok h1)
    refine ⟨true, g', e1, e2, e3, fun _ => ?_, by simp⟩
    obtain ⟨m, hmm⟩ := List.exists_mem_of_ne_nil _ hm
    rw [h5]
    exact card_sdiff_lt (hok.mem m hmm) (by simpa using ⟨m, hmm, rfl⟩)

theorem lcompRound_ok (hP : PhaseSet P) {o : Orders} (ho : o.OK) : RoundOK P NoLcomp o lcompRound := by
  intro g hg
  have hok := matchLcomp_ok hg.wf (ho.nbr g) (ho.vcand g).1 (ho.vcand g).2 (-1)
  unfold lcompRound
  simp only
  by_cases hm : matchLcomp g (o.nbr g) (-1) (o.vcand g) = []
  · rw [if_pos hm]
    refine ⟨false, g, rfl, hg, Shrinks.refl hg.wf, by simp, fun _ => ⟨rfl, fun hf v hv hty hph => ?_⟩⟩
    have := greedy_nil hm v (hf.vcand g hg.wf v hv)
    by_contra hc0
    have hc : ∀ n, g.adj v n ≠ none → g.ty n = .Z ∧ g.adj v n = some .had := fun n hn => by_contra fun h => hc0 ⟨n, hn, h⟩
    have hmem : ∀ n ∈ o.nbr g v, g.adj v n ≠ none := fun n hn => (NbrOrder.mem hg.wf (ho.nbr g) hv).mp hn
    unfold lcompTry at this
    rw [if_neg (by simpa using hty), if_neg (not_not.mpr hph), if_neg (not_not.mpr fun n hn => (hc n (hmem n hn)).2),
      if_neg (not_not.mpr fun n hn => (hc n (hmem n hn)).1)] at this
    simp at this
  · rw [if_neg hm]
    obtain ⟨g', h1, h2, h3, h4, h5⟩ := lcomp_zx hP hg hok
    obtain ⟨g'', e1, e2, e3, e4⟩ := afterRewrite_true hP ho h1 h2 h3 h4 (by rw [h5]; exact Finset.sdiff_subset) (lcomp_bph hok h1)
    refine ⟨true, g'', e1, e2, e3, fun _ => ?_, by simp⟩
    obtain ⟨m, hmm⟩ := List.exists_mem_of_ne_nil _ hm
    refine lt_of_le_of_lt (Finset.card_le_card e4) ?_
    rw [h5]
    exact card_sdiff_lt (hok.mem m hmm) (by simpa using ⟨m, hmm, rfl⟩)

theorem spiderRound_ok (hP : PhaseSet P) {o : Orders} (ho : o.OK) : RoundOK P NoFuse o spiderRound := by
  intro g hg
  have hok := matchSpider_ok hg.wf (ho.ecand g).1 (-1) (o.row0 g)
  unfold spiderRound
  simp only
  by_cases hm : matchSpider g (-1) (o.ecand g) = []
  · rw [if_pos hm]
    refine ⟨false, g, rfl, hg, Shrinks.refl hg.wf, by simp, fun _ => ⟨rfl, fun hf a b hab => ?_⟩⟩
    have key : ∀ c, c ∈ o.ecand g → g.adj c.1 c.2 = some .simple → ¬ (g.ty c.1 = .Z ∧ g.ty c.2 = .Z) ∧ ¬ (g.ty c.1 = .X ∧ g.ty c.2 = .X) := by
      intro c hc hs
      have := greedy_nil hm c hc
      unfold spiderTry at this
      have hne : ¬ c.1 = c.2 := by
        intro e; rw [e, hg.wf.loopless] at hs; simp at hs
      rw [if_neg (by simpa using hs), if_neg hne] at this
      constructor
      · rintro ⟨z1, z2⟩
        rw [if_pos (Or.inl ⟨by rw [z1, z2], by rw [z1]; rfl⟩)] at this
        simp at this
      · rintro ⟨z1, z2⟩
        rw [if_pos (Or.inl ⟨by rw [z1, z2], by rw [z1]; rfl⟩)] at this
        simp at this
    rcases hf.ecand g hg.wf a b (by rw [hab]; simp) with h | h
    · exact key _ h hab
    · have := key _ h (by show g.adj b a = _; rw [hg.wf.symm]; exact hab)
      exact ⟨fun e => this.1 ⟨e.2, e.1⟩, fun e => this.2 ⟨e.2, e.1⟩⟩
  · rw [if_neg hm]
    obtain ⟨g', h1, h2, h3, h4, h5⟩ := spider_zx hP hg (ho.nbr g) hok
    obtain ⟨g'', e1, e2, e3, e4⟩ := afterRewrite_true hP ho h1 h2 h3 h4 (by rw [h5]; exact Finset.sdiff_subset) (spider_bph hP hg hok h1)
    refine ⟨true, g'', e1, e2, e3, fun _ => ?_, by simp⟩
    obtain ⟨m, hmm⟩ := List.exists_mem_of_ne_nil _ hm
    refine lt_of_le_of_lt (Finset.card_le_card e4) ?_
    rw [h5]
    have hadj := hok.adj _ (List.mem_map_of_mem hmm)
    exact card_sdiff_lt (hg.wf.toInv.mem' (by rw [hadj]; simp)) (List.mem_toFinset.mpr (List.mem_map.mpr ⟨m, hmm, rfl⟩))

theorem pivotScan_total {g : Graph} {v : ℕ} {ns : List ℕ} (h : ∀ w ∈ ns, g.ty w = .boundary ∨ (g.ty w = .Z ∧ g.adj v w = some .had)) :
    pivotScan g v ns = some (ns.filter fun w => g.ty w = .boundary) := by
  induction ns with
  | nil => rfl
  | cons n ns ih =>
    unfold pivotScan
    rw [ih fun w hw => h w (by simp [hw])]
    rcases h n (by simp) with e | e
    · rw [if_neg (by rw [e]; simp), if_pos e, List.filter_cons, if_pos (by simpa using e)]
      rfl
    · rw [if_pos e, List.filter_cons, if_neg (by rw [e.1]; simp)]

theorem bnds_length {g : Graph} {ord : ℕ → List ℕ} (ho : NbrOrder g ord) {v : ℕ} (hv : v ∈ g.verts) :
    ((ord v).filter fun w => g.ty w = .boundary).length = (g.bnds v).card := by
  unfold bnds
  rw [← (ho v hv).2, ← List.toFinset_card_of_nodup ((ho v hv).1.filter _), List.toFinset_filter]
  congr 1
  ext w; simp

theorem pivotRound_ok (hP : PhaseSet P) {o : Orders} (ho : o.OK) : RoundOK P NoPivot o pivotRound := by
  intro g hg
  have hok := matchPivot_ok hg.wf (ho.nbr g) (ho.ecand g).1 (-1)
  unfold pivotRound
  simp only
  by_cases hm : matchPivot g (o.nbr g) (-1) (o.ecand g) = []
  · rw [if_pos hm]
    refine ⟨false, g, rfl, hg, Shrinks.refl hg.wf, by simp, fun _ => ⟨rfl, fun hf a b hab ha hb pa pb => ?_⟩⟩
    have key : ∀ a b, (a, b) ∈ o.ecand g → g.adj a b = some .had → g.ty a = .Z → g.ty b = .Z → g.phase a = 0 ∨ g.phase a = 1 →
        g.phase b = 0 ∨ g.phase b = 1 →
        (∃ v w, (v = a ∨ v = b) ∧ g.adj v w ≠ none ∧ g.ty w ≠ .boundary ∧ ¬ (g.ty w = .Z ∧ g.adj v w = some .had)) ∨
          2 ≤ (g.bnds a).card + (g.bnds b).card := by
      intro a b hc hab ha hb pa pb
      have := greedy_nil hm (a, b) hc
      have hav : a ∈ g.verts := hg.wf.mem _ _ (by rw [hab]; simp)
      have hbv : b ∈ g.verts := hg.wf.toInv.mem' (by rw [hab]; simp)
      by_contra hcon
      rw [not_or] at hcon
      obtain ⟨h1, h2⟩ := hcon
      have hall : ∀ v, v = a ∨ v = b → v ∈ g.verts → ∀ w ∈ o.nbr g v, g.ty w = .boundary ∨ (g.ty w = .Z ∧ g.adj v w = some .had) := by
        intro v hv hvv w hw
        by_contra hcc
        rw [not_or] at hcc
        exact h1 ⟨v, w, hv, (NbrOrder.mem hg.wf (ho.nbr g) hvv).mp hw, hcc.1, hcc.2⟩
      unfold pivotTry at this
      rw [if_neg (by simpa using hab), if_neg (not_not.mpr ⟨ha, hb⟩), if_neg (not_not.mpr ⟨pa, pb⟩),
        pivotScan_total (hall a (Or.inl rfl) hav), pivotScan_total (hall b (Or.inr rfl) hbv)] at this
      simp only at this
      rw [bnds_length (ho.nbr g) hav, bnds_length (ho.nbr g) hbv, if_neg (by omega)] at this
      simp at this
    rcases hf.ecand g hg.wf a b (by rw [hab]; simp) with h | h
    · exact key a b h hab ha hb pa pb
    · rcases key b a h (by rw [hg.wf.symm]; exact hab) hb ha pb pa with ⟨v, w, hv, e⟩ | e
      · exact Or.inl ⟨v, w, hv.symm, e⟩
      · exact Or.inr (by omega)
  · rw [if_neg hm]
    obtain ⟨g', h1, h2, h3, h4, h5⟩ := pivot_zx hP hg ho.lst hok
    obtain ⟨g'', e1, e2, e3, e4⟩ := afterRewrite_true hP ho h1 h2 h3 h4 (by rw [h5]; exact Finset.sdiff_subset) (pivot_bph hg.wf ho.lst hok h1)
    refine ⟨true, g'', e1, e2, e3, fun _ => ?_, by simp⟩
    obtain ⟨m, hmm⟩ := List.exists_mem_of_ne_nil _ hm
    refine lt_of_le_of_lt (Finset.card_le_card e4) ?_
    rw [h5]
    have hk := hok.each m hmm
    rcases hk.one with h0 | h0
    · exact card_sdiff_lt (hg.wf.toInv.mem' (u := m.v0) (by rw [hk.adj]; simp))
        (List.mem_toFinset.mpr (List.mem_flatMap.mpr ⟨m, hmm, by simp [pivotRem, h0]⟩))
    · exact card_sdiff_lt (hg.wf.mem _ m.v1 (by rw [hk.adj]; simp))
        (List.mem_toFinset.mpr (List.mem_flatMap.mpr ⟨m, hmm, by simp [pivotRem, h0]⟩))

/-! ### The loops -/

/-- The specification of a loop started with the graph `g`. -/
def LoopOK (P : ℚ → Prop) (N : Graph → Prop) (ω : ℕ → Orders) (g : Graph) (r : Run) : Prop :=
  ∃ g' t' i, r = .done g' t' i ∧ g'.ZX P ∧ Shrinks P g g' ∧ i + g'.verts.card ≤ g.verts.card ∧ (i = 0 → g' = g) ∧
    ((∀ t, (ω t).Full) → N g')

theorem simp_ok {N : Graph → Prop} {ω : ℕ → Orders} {r : Orders → Graph → Option (Bool × Graph)} (h : ∀ t, RoundOK P N (ω t) r) :
    ∀ (fuel t : ℕ) (g : Graph), g.ZX P → g.verts.card < fuel → LoopOK P N ω g (simp r ω fuel t g) := by
  intro fuel
  induction fuel with
  | zero => intro t g _ hf; omega
  | succ fuel ih =>
    intro t g hg hf
    obtain ⟨c, g', h1, h2, h3, h4, h5⟩ := h t g hg
    unfold simp
    rw [h1]
    cases c with
    | false =>
      obtain ⟨e1, e2⟩ := h5 rfl
      refine ⟨g', t + 1, 0, rfl, h2, h3, by rw [e1]; omega, fun _ => e1, fun hfu => by rw [e1]; exact e2 (hfu t)⟩
    | true =>
      have hlt := h4 rfl
      obtain ⟨g'', t', i, e1, e2, e3, e4, -, e6⟩ := ih (t + 1) g' h2 (by omega)
      refine ⟨g'', t', i + 1, by simp only [e1, Run.bind], e2, h3.trans e3, by omega, by omega, e6⟩

theorem interiorLoop_ok (hP : PhaseSet P) {ω : ℕ → Orders} (ho : ∀ t, (ω t).OK) (fuel : ℕ) :
    ∀ (n t : ℕ) (g : Graph), g.ZX P → g.verts.card < n → g.verts.card < fuel →
      LoopOK P (fun g => g.NoIds ∧ g.NoFuse ∧ g.NoPivot ∧ g.NoLcomp) ω g (interiorLoop ω fuel n t g) := by
  intro n
  induction n with
  | zero => intro t g _ hf; omega
  | succ n ih =>
    intro t g hg hf hf'
    obtain ⟨g1, t1, i1, a1, a2, a3, a4, a5, a6⟩ := simp_ok (fun t => idRound_ok hP (ho t)) fuel t g hg hf'
    obtain ⟨g2, t2, i2, b1, b2, b3, b4, b5, b6⟩ := simp_ok (fun t => spiderRound_ok hP (ho t)) fuel t1 g1 a2 (by omega)
    obtain ⟨g3, t3, i3, c1, c2, c3, c4, c5, c6⟩ := simp_ok (fun t => pivotRound_ok hP (ho t)) fuel t2 g2 b2 (by omega)
    obtain ⟨g4, t4, i4, d1, d2, d3, d4, d5, d6⟩ := simp_ok (fun t => lcompRound_ok hP (ho t)) fuel t3 g3 c2 (by omega)
    have hs : Shrinks P g g4 := ((a3.trans b3).trans c3).trans d3
    have hrun : interiorLoop ω fuel (n + 1) t g = if i1 + i2 + i3 + i4 = 0 then .done g4 t4 0
        else (interiorLoop ω fuel n t4 g4).bind fun g5 t5 i => .done g5 t5 (i + 1) := by
      simp only [interiorLoop, idSimp, spiderSimp, pivotSimp, lcompSimp, a1, b1, c1, d1, Run.bind]
    rw [hrun]
    by_cases hi : i1 + i2 + i3 + i4 = 0
    · rw [if_pos hi]
      have q1 := a5 (by omega)
      have q2 := b5 (by omega)
      have q3 := c5 (by omega)
      have q4 := d5 (by omega)
      refine ⟨g4, t4, 0, rfl, d2, hs, by omega, fun _ => by rw [q4, q3, q2, q1], fun hfu => ?_⟩
      have r1 := a6 hfu
      have r2 := b6 hfu
      have r3 := c6 hfu
      have r4 := d6 hfu
      rw [q4] at r4 ⊢
      rw [q3] at r3 r4 ⊢
      rw [q2] at r2 r3 r4 ⊢
      exact ⟨r1, r2, r3, r4⟩
    · rw [if_neg hi]
      obtain ⟨g5, t5, i, e1, e2, e3, e4, -, e6⟩ := ih t4 g4 d2 (by omega) (by omega)
      refine ⟨g5, t5, i + 1, by simp only [e1, Run.bind], e2, hs.trans e3, by omega, by omega, e6⟩

theorem interiorNF_of {g : Graph} (hg : g.ZX P) (hty : ∀ v ∈ g.verts, g.ty v = .boundary ∨ g.ty v = .Z)
    (h : g.NoIds ∧ g.NoFuse ∧ g.NoPivot ∧ g.NoLcomp) : g.InteriorNF := by
  obtain ⟨h1, h2, h3, h4⟩ := h
  have had : ∀ a b, g.adj a b ≠ none → g.ty a = .Z → g.ty b = .Z → g.adj a b = some .had := by
    intro a b hab ha hb
    have hw := hg.wf.noWio a b
    rcases e : g.adj a b with _ | x
    · exact absurd e hab
    · rw [e] at hw
      cases x with
      | simple => exact absurd ⟨ha, hb⟩ (h2 a b e).1
      | had => rfl
      | wio => simp at hw
  have key : ∀ v w, g.ty v = .Z → g.adj v w ≠ none → ¬ (g.ty w = .Z ∧ g.adj v w = some .had) → g.ty w = .boundary := by
    intro v w hv hvw hn
    rcases hty w (hg.wf.toInv.mem' hvw) with e | e
    · exact e
    · exact absurd ⟨e, had v w hvw hv e⟩ hn
  refine ⟨hty, had, fun v hv ht => h1 v hv (Or.inl ht), ?_, ?_⟩
  · intro v hv ht hp
    obtain ⟨w, hw, hn⟩ := h4 v hv ht hp
    exact ⟨w, hw, key v w ht hw hn⟩
  · intro a b hab ha hb pa pb
    rcases h3 a b (had a b hab ha hb) ha hb pa pb with ⟨v, w, hv, hw, hn, hn'⟩ | h
    · refine absurd (key v w ?_ hw hn') hn
      rcases hv with rfl | rfl
      · exact ha
      · exact hb
    · exact h

theorem interiorCliffordSimp_ok (hP : PhaseSet P) {ω : ℕ → Orders} (ho : ∀ t, (ω t).OK) {fuel t : ℕ} {g : Graph} (hg : g.ZX P)
    (hf : g.verts.card < fuel) : ∃ g' t' i, interiorCliffordSimp ω fuel t g = .done g' t' i ∧ g'.ZX P ∧ Keeps P g g' ∧
      g'.verts ⊆ g.verts ∧ i + g'.verts.card ≤ g.verts.card ∧ (∀ v ∈ g'.verts, g'.ty v = .boundary ∨ g'.ty v = .Z) ∧
      ((∀ t, (ω t).Full) → g'.InteriorNF) := by
  obtain ⟨g1, t1, i1, a1, a2, a3, a4, -, -⟩ := simp_ok (fun t => spiderRound_ok hP (ho t)) fuel t g hg hf
  obtain ⟨b1, b2, b3, b4⟩ := toGH_zx a2 ((ho t1).nbr g1) ((ho t1).all g1).2
  obtain ⟨g2, t2, i, c1, c2, c3, c4, -, c6⟩ := interiorLoop_ok hP ho fuel fuel (t1 + 1) _ b2 (by rw [b3]; omega) (by rw [b3]; omega)
  have hty : ∀ v ∈ g2.verts, g2.ty v = .boundary ∨ g2.ty v = .Z := by
    intro v hv
    rw [c3.ty]
    exact b4 v (by rw [← b3]; exact c3.verts hv)
  refine ⟨g2, t2, i, ?_, c2, (a3.keeps.trans (b1.keeps (toGH_bph a2.wf ((ho t1).nbr g1) ((ho t1).all g1).2))).trans c3.keeps, ?_, ?_, hty, fun hfu => interiorNF_of c2 hty (c6 hfu)⟩
  · simp only [interiorCliffordSimp, spiderSimp, a1, Run.bind, c1]
  · exact (c3.verts.trans (by rw [b3])).trans a3.verts
  · rw [b3] at c4; omega

end Simplify
end PyZX
