import Verif.Proofs.SimpBoundary
import Verif.Proofs.SimpLoop

/-!
# Loops with a measure: `pivot_gadget_simp` and `pivot_boundary_simp`
-/

namespace PyZX
namespace Simplify

open Graph Rules

variable {P : ℚ → Prop}

/-! ### Loops with a measure -/

/-- The specification of a pass with invariant `I`, measure `μ` and normal form `N`. -/
def PassOK (I : Graph → Prop) (R : Graph → Graph → Prop) (μ : Graph → ℕ) (N : Graph → Prop) (o : Orders)
    (r : Orders → Graph → Option (Bool × Graph)) : Prop :=
  ∀ g, I g → ∃ c g', r o g = some (c, g') ∧ I g' ∧ R g g' ∧ (c = true → μ g' < μ g) ∧ (c = false → g' = g ∧ (o.Full → N g))

/-- The loop ends with a result that satisfies the specification, or runs out of fuel, which needs as many passes as the measure. -/
def EndOK (I : Graph → Prop) (R : Graph → Graph → Prop) (μ : Graph → ℕ) (N : Graph → Prop) (ω : ℕ → Orders) (fuel : ℕ) (g : Graph)
    (r : Run) : Prop :=
  (r = .running ∧ fuel ≤ μ g) ∨
    ∃ g' t' i, r = .done g' t' i ∧ I g' ∧ R g g' ∧ i + μ g' ≤ μ g ∧ (i = 0 → g' = g) ∧ ((∀ t, (ω t).Full) → N g')

theorem simp_end {I : Graph → Prop} {R : Graph → Graph → Prop} {μ : Graph → ℕ} {N : Graph → Prop} {ω : ℕ → Orders}
    {r : Orders → Graph → Option (Bool × Graph)} (h : ∀ t, PassOK I R μ N (ω t) r) (htr : ∀ a b c, R a b → R b c → R a c) :
    ∀ (fuel t : ℕ) (g : Graph), I g → EndOK I R μ N ω fuel g (simp r ω fuel t g) := by
  intro fuel
  induction fuel with
  | zero => intro t g _; exact Or.inl ⟨rfl, Nat.zero_le _⟩
  | succ fuel ih =>
    intro t g hg
    obtain ⟨c, g', h1, h2, h3, h4, h5⟩ := h t g hg
    unfold simp
    rw [h1]
    cases c with
    | false =>
      obtain ⟨e1, e2⟩ := h5 rfl
      exact Or.inr ⟨g', t + 1, 0, rfl, h2, h3, by rw [e1]; omega, fun _ => e1, fun hfu => by rw [e1]; exact e2 (hfu t)⟩
    | true =>
      have hlt := h4 rfl
      rcases ih (t + 1) g' h2 with ⟨e1, e2⟩ | ⟨g'', t', i, e1, e2, e3, e4, -, e6⟩
      · exact Or.inl ⟨by simp only [e1, Run.bind], by omega⟩
      · exact Or.inr ⟨g'', t', i + 1, by simp only [e1, Run.bind], e2, htr _ _ _ h3 e3, by omega, by omega, e6⟩

/-- The diagrams on which the matchers that add gadgets work. -/
def ZXH (P : ℚ → Prop) (g : Graph) : Prop := g.ZX P ∧ g.ZHad

/-! ### A pass that finds nothing -/

theorem gadgetStep_or (s : GState (ℕ × ℕ → Bool)) (c : ℕ × ℕ) : (gadgetStep s c = s ∧ (s.dead c = true ∨ gadgetTry s.g c = none)) ∨
    ∃ m, (gadgetStep s c).ms = s.ms ++ [m] := by
  unfold gadgetStep
  by_cases hd : s.dead c
  · rw [if_pos hd]; exact Or.inl ⟨rfl, Or.inl hd⟩
  · rw [if_neg hd]
    rcases e : gadgetTry s.g c with _ | ⟨v0, v1⟩
    · exact Or.inl ⟨rfl, Or.inr rfl⟩
    · exact Or.inr ⟨_, rfl⟩

theorem gadgetFold_nil (cands : List (ℕ × ℕ)) : ∀ s : GState (ℕ × ℕ → Bool), (cands.foldl gadgetStep s).ms = [] →
    cands.foldl gadgetStep s = s ∧ ∀ c ∈ cands, s.dead c = true ∨ gadgetTry s.g c = none := by
  have mono : ∀ (l : List (ℕ × ℕ)) (s : GState (ℕ × ℕ → Bool)), s.ms ≠ [] → (l.foldl gadgetStep s).ms ≠ [] := by
    intro l
    induction l with
    | nil => intro s h; exact h
    | cons c l ih =>
      intro s h
      refine ih _ ?_
      rcases gadgetStep_or s c with ⟨e, -⟩ | ⟨m, e⟩
      · rw [e]; exact h
      · rw [e]; simp
  induction cands with
  | nil => intro s _; exact ⟨rfl, by simp⟩
  | cons c l ih =>
    intro s h
    rw [List.foldl_cons] at h ⊢
    rcases gadgetStep_or s c with ⟨e, e'⟩ | ⟨m, e⟩
    · rw [e] at h ⊢
      obtain ⟨i1, i2⟩ := ih s h
      refine ⟨i1, fun c' hc' => ?_⟩
      rcases List.mem_cons.mp hc' with rfl | hc'
      · exact e'
      · exact i2 c' hc'
    · exact absurd h (mono l _ (by rw [e]; simp))

theorem boundaryStep_or (ord : ℕ → List ℕ) (s : GState (ℕ → Bool)) (v : ℕ) : (boundaryStep ord s v = s ∧ (s.dead v = true ∨
      (s.g.ty v ≠ .Z ∨ ¬ isPauli (s.g.phase v)) ∨ (ord v).foldlM (boundaryScan1 s.g ord s.dead) none = none ∨
        (ord v).foldlM (boundaryScan1 s.g ord s.dead) none = some none)) ∨
    ∃ m, (boundaryStep ord s v).ms = s.ms ++ [m] := by
  unfold boundaryStep
  by_cases hd : s.dead v
  · rw [if_pos hd]; exact Or.inl ⟨rfl, Or.inl hd⟩
  · rw [if_neg hd]
    by_cases ht : s.g.ty v ≠ .Z ∨ ¬ isPauli (s.g.phase v)
    · rw [if_pos ht]; exact Or.inl ⟨rfl, Or.inr (Or.inl ht)⟩
    · rw [if_neg ht]
      rcases e : (ord v).foldlM (boundaryScan1 s.g ord s.dead) none with _ | _ | ⟨w, b⟩
      · exact Or.inl ⟨rfl, Or.inr (Or.inr (Or.inl rfl))⟩
      · exact Or.inl ⟨rfl, Or.inr (Or.inr (Or.inr rfl))⟩
      · exact Or.inr ⟨_, rfl⟩

theorem boundaryFold_nil (ord : ℕ → List ℕ) (cands : List ℕ) : ∀ s : GState (ℕ → Bool), (cands.foldl (boundaryStep ord) s).ms = [] →
    cands.foldl (boundaryStep ord) s = s ∧ ∀ v ∈ cands, s.dead v = true ∨
      (s.g.ty v ≠ .Z ∨ ¬ isPauli (s.g.phase v)) ∨ (ord v).foldlM (boundaryScan1 s.g ord s.dead) none = none ∨
        (ord v).foldlM (boundaryScan1 s.g ord s.dead) none = some none := by
  have mono : ∀ (l : List ℕ) (s : GState (ℕ → Bool)), s.ms ≠ [] → (l.foldl (boundaryStep ord) s).ms ≠ [] := by
    intro l
    induction l with
    | nil => intro s h; exact h
    | cons c l ih =>
      intro s h
      refine ih _ ?_
      rcases boundaryStep_or ord s c with ⟨e, -⟩ | ⟨m, e⟩
      · rw [e]; exact h
      · rw [e]; simp
  induction cands with
  | nil => intro s _; exact ⟨rfl, by simp⟩
  | cons c l ih =>
    intro s h
    rw [List.foldl_cons] at h ⊢
    rcases boundaryStep_or ord s c with ⟨e, e'⟩ | ⟨m, e⟩
    · rw [e] at h ⊢
      obtain ⟨i1, i2⟩ := ih s h
      refine ⟨i1, fun c' hc' => ?_⟩
      rcases List.mem_cons.mp hc' with rfl | hc'
      · exact e'
      · exact i2 c' hc'
    · exact absurd h (mono l _ (by rw [e]; simp))

theorem noGadgetPivot_of {o : Orders} {g : Graph} (hg : g.WF) (hf : o.Full) (h : ∀ c ∈ o.ecand g, gadgetTry g c = none) :
    g.NoGadgetPivot := by
  intro a b hab ha hb pa pb
  by_contra hcon
  rw [not_or, not_or] at hcon
  obtain ⟨h1, h2, h3⟩ := hcon
  have pa : isPauli (g.phase a) := pa
  have pb : ¬ isPauli (g.phase b) := pb
  have hends : ∀ c, c = (a, b) ∨ c = (b, a) → gadgetEnds g c = some (a, b) := by
    rintro c (rfl | rfl) <;> unfold gadgetEnds
    · rw [if_neg (not_not.mpr ⟨ha, hb⟩), if_neg (not_not.mpr pa), if_neg pb]
    · rw [if_neg (not_not.mpr ⟨hb, ha⟩), if_pos pb, if_pos pa]
  have key : ∀ c, c = (a, b) ∨ c = (b, a) → gadgetTry g c ≠ none := by
    intro c hc
    unfold gadgetTry
    rw [hends c hc]
    simp only
    rw [if_neg (show ¬ g.degree b = 1 from h1), if_pos]
    · simp
    refine ⟨fun n hn => ?_, fun n hn => ?_⟩
    · have hn := (mem_nbrs hg.toInv).mp hn
      refine ⟨?_, fun e => h3 ⟨n, hn, e.2, e.1⟩⟩
      by_contra hc
      exact h2 ⟨a, n, Or.inl rfl, hn, hc⟩
    · have hn := (mem_nbrs hg.toInv).mp hn
      by_contra hc
      exact h2 ⟨b, n, Or.inr rfl, hn, hc⟩
  rcases hf.ecand g hg a b hab with hc | hc
  · exact key _ (Or.inl rfl) (h _ hc)
  · exact key _ (Or.inr rfl) (h _ hc)

theorem boundaryScan_some {g : Graph} {ord : ℕ → List ℕ} (wb : ℕ × ℕ) (n : ℕ) (h : g.ty n = .Z ∧ g.degree n ≠ 1) :
    ∃ wb', boundaryScan1 g ord (fun _ => false) (some wb) n = some (some wb') := by
  unfold boundaryScan1
  rw [if_neg (by simp [h.1, h.2])]
  obtain ⟨w, b⟩ := wb
  simp only
  split
  · split_ifs <;> exact ⟨_, rfl⟩
  · exact ⟨_, rfl⟩

theorem boundaryScan_fold_some {g : Graph} {ord : ℕ → List ℕ} (ns : List ℕ) : ∀ (wb : ℕ × ℕ), (∀ n ∈ ns, g.ty n = .Z ∧ g.degree n ≠ 1) →
    ∃ wb', ns.foldlM (boundaryScan1 g ord fun _ => false) (some wb) = some (some wb') := by
  induction ns with
  | nil => intro wb _; exact ⟨wb, rfl⟩
  | cons n ns ih =>
    intro wb h
    obtain ⟨wb', e⟩ := boundaryScan_some (ord := ord) wb n (h n (by simp))
    rw [List.foldlM_cons, e]
    exact ih wb' fun m hm => h m (by simp [hm])

theorem boundaryScan_hit {g : Graph} {ord : ℕ → List ℕ} (w b : ℕ) (hw : g.ty w = .Z ∧ g.degree w ≠ 1)
    (hb : ((ord w).filter fun b => g.ty b = .boundary) = [b]) (hu : ∀ u ∈ ord w, g.ty u = .boundary ∨ g.ty u = .Z) (wb : Option (ℕ × ℕ)) :
    ∃ wb', boundaryScan1 g ord (fun _ => false) wb w = some (some wb') := by
  unfold boundaryScan1
  rw [if_neg (by simp [hw.1, hw.2]), hb]
  simp only
  rw [if_neg (not_not.mpr hu)]
  split_ifs
  · exact ⟨_, rfl⟩
  · rcases wb with _ | ⟨w', b'⟩
    · exact ⟨_, rfl⟩
    · simp only
      split_ifs
      · exact ⟨_, rfl⟩
      · exact ⟨_, rfl⟩

theorem boundaryScan_fold_hit {g : Graph} {ord : ℕ → List ℕ} (w b : ℕ)
    (hb : ((ord w).filter fun b => g.ty b = .boundary) = [b]) (hu : ∀ u ∈ ord w, g.ty u = .boundary ∨ g.ty u = .Z) (ns : List ℕ) :
    (∀ n ∈ ns, g.ty n = .Z ∧ g.degree n ≠ 1) → w ∈ ns →
    ∃ wb', ns.foldlM (boundaryScan1 g ord fun _ => false) none = some (some wb') := by
  induction ns with
  | nil => intro _ h; simp at h
  | cons n ns ih =>
    intro h hw
    by_cases e : n = w
    · subst e
      obtain ⟨wb', e⟩ := boundaryScan_hit n b (h n (by simp)) hb hu none
      rw [List.foldlM_cons, e]
      exact boundaryScan_fold_some ns wb' fun m hm => h m (by simp [hm])
    · have hw' : w ∈ ns := by
        rcases List.mem_cons.mp hw with e' | e'
        · exact absurd e'.symm e
        · exact e'
      rw [List.foldlM_cons]
      have : ∃ wb', boundaryScan1 g ord (fun _ => false) none n = some wb' := by
        have hn := h n (by simp)
        unfold boundaryScan1
        rw [if_neg (by simp [hn.1, hn.2])]
        split
        · split_ifs
          · exact ⟨_, rfl⟩
          · exact ⟨_, rfl⟩
          · exact ⟨_, rfl⟩
        · exact ⟨_, rfl⟩
      obtain ⟨wb', e1⟩ := this
      rw [e1]
      cases wb' with
      | none => exact ih (fun m hm => h m (by simp [hm])) hw'
      | some wb => exact boundaryScan_fold_some ns wb fun m hm => h m (by simp [hm])

theorem noBoundaryPivot_of {o : Orders} {g : Graph} (hg : g.WF) (ho : o.OK) (hf : o.Full)
    (h : ∀ v ∈ o.vcand g, (g.ty v ≠ .Z ∨ ¬ isPauli (g.phase v)) ∨ (o.nbr g v).foldlM (boundaryScan1 g (o.nbr g) fun _ => false) none = none ∨
        (o.nbr g v).foldlM (boundaryScan1 g (o.nbr g) fun _ => false) none = some none) :
    g.NoBoundaryPivot := by
  intro v hv ht hp hn w hw hc
  by_contra hu
  have hwv := hg.toInv.mem' hw
  have hlen := bnds_length (ho.nbr g) hwv
  rw [hc] at hlen
  obtain ⟨b, hb⟩ := List.length_eq_one_iff.mp hlen
  obtain ⟨wb', e⟩ := boundaryScan_fold_hit w b hb (fun u hu' => by
    by_contra hcc
    rw [not_or] at hcc
    exact hu ⟨u, (NbrOrder.mem hg (ho.nbr g) hwv).mp hu', hcc.1, hcc.2⟩) (o.nbr g v)
    (fun n hn' => hn n ((NbrOrder.mem hg (ho.nbr g) hv).mp hn')) ((NbrOrder.mem hg (ho.nbr g) hv).mpr hw)
  rcases h v (hf.vcand g hg v hv) with (h1 | h1) | h1 | h1
  · exact h1 ht
  · exact h1 hp
  · rw [e] at h1; simp at h1
  · rw [e] at h1; simp at h1

/-! ### A pass -/

theorem afterRewrite_zxh (hP : PhaseSet P) {o : Orders} (ho : o.OK) {g g' : Graph} {s : RewriteState} (hf : s.finish = some g')
    (hp : Preserves g g') (hz : g'.ZX P) (hh : g'.ZHad) (hb : BPh g g') :
    ∃ g'', afterRewrite o true s = some (true, g'') ∧ ZXH P g'' ∧ Keeps P g g'' ∧
      ∀ v, g''.Cand v → g'.Cand v ∧ (g'.Tip v → g''.Tip v) := by
  obtain ⟨g'', h1, h2, h3, h4, h5⟩ := removeIsolated_zx hP hz (ho.nbr g') (ho.all g').1 (ho.all g').2
  obtain ⟨r1, r2, r3, r4, -⟩ := Props.removeIsolated_removes hz.wf (hz.isoOK hP) (ho.nbr g') (ho.all g').1 (ho.all g').2 h1
  refine ⟨g'', by simp [afterRewrite, hf, h1], ⟨h3, fun u v tu tv hne => ?_⟩, (hp.keeps hb).trans h2,
    fun v hv => cand_removeIsolated hz.wf h3.wf r1 r2 r3 r4 hv⟩
  have hu := h3.wf.mem _ _ hne
  have hv := h3.wf.toInv.mem' hne
  rw [r4 u hu v hv] at hne ⊢
  exact hh u v (by rw [← r2]; exact tu) (by rw [← r2]; exact tv) hne

theorem pivotGadgetRound_ok (hP : PhaseSet P) {o : Orders} (ho : o.OK) :
    PassOK (ZXH P) (Keeps P) (fun g => g.gadM.card) NoGadgetPivot o pivotGadgetRound := by
  rintro g ⟨hg, hz⟩
  obtain ⟨s, hs, hfold, hm, hb, hok⟩ := matchPivotGadget_ok hg.wf hg.bdeg hz (ho.ecand g).2
  have hrun : pivotGadgetRound o g = if s.ms = [] then some (false, s.g.plain s.el .simple)
      else afterRewrite o true (Rules.pivot o.lst (s.g.plain s.el .simple) s.ms) := by
    unfold pivotGadgetRound
    rw [hm]; rfl
  rw [hrun]
  by_cases hn : s.ms = []
  · rw [if_pos hn]
    have hnil := gadgetFold_nil (o.ecand g) ⟨g, [], [], fun _ => false⟩ (by rw [hfold]; exact hn)
    rw [hfold] at hnil
    obtain ⟨n1, n2⟩ := hnil
    have hpl : s.g.plain s.el .simple = g := by
      have : s.g.addEdges s.el .simple = some (s.g.plain s.el .simple) := by
        have hm' := hm
        unfold matchPivotGadget at hm'
        rw [hfold] at hm'
        simp only [Option.map_eq_some_iff, Prod.mk.injEq] at hm'
        obtain ⟨g1, q1, q2, -⟩ := hm'
        rw [q1, q2]
      rw [n1] at this ⊢
      simpa [addEdges] using this.symm
    rw [hpl]
    refine ⟨false, g, rfl, ⟨hg, hz⟩, Keeps.refl hg.wf, by simp, fun _ => ⟨rfl, fun hf => noGadgetPivot_of hg.wf hf fun c hc => ?_⟩⟩
    rcases n2 c hc with h | h
    · simp at h
    · exact h
  · rw [if_neg hn]
    obtain ⟨hext, hzx, -, hleaf⟩ := gadget_ext hP hg hs hb
    obtain ⟨g', f1, f2, f3, f4, f5⟩ := pivot_zx hP hzx ho.lst hok
    have hzh : g'.ZHad := pivot_zHad hext.wf ho.lst hok f1 f3.wf (gadget_zHadOff hP hg hz hs hb)
      (fun m hm w hw => by rw [(hext.mem m hm).2.2] at hw; simp at hw)
      (fun m hm w hw _ => by
        obtain ⟨l, hl, hl2, -⟩ := hleaf m hm
        rw [hl.b1, Option.some.injEq] at hw
        rw [← hw]; exact hl2)
    obtain ⟨g'', e1, e2, e3, e4⟩ := afterRewrite_zxh hP ho f1 (hs.pres.trans f2) f3 hzh (hext.bph hok (pivot_bph hext.wf ho.lst hok f1))
    refine ⟨true, g'', e1, e2, e3, fun _ => ?_, by simp⟩
    obtain ⟨m, hmm⟩ := List.exists_mem_of_ne_nil _ hn
    have hsub : g''.gadM ⊆ g.gadM.erase m.v0 := by
      intro v hv
      obtain ⟨k1, k2⟩ := gadget_measure hP hg hs hb ho.lst hok f1 f3 f4 f5 (e4 v (mem_gadM.mp hv)).1
      exact Finset.mem_erase.mpr ⟨k2 m hmm, mem_gadM.mpr k1⟩
    have hin : m.v0 ∈ g.gadM := mem_gadM.mpr (gadget_v0 hg.wf hs hmm)
    exact lt_of_le_of_lt (Finset.card_le_card hsub) (Finset.card_erase_lt_of_mem hin)

theorem pivotBoundaryRound_ok (hP : PhaseSet P) {o : Orders} (ho : o.OK) :
    PassOK (ZXH P) (Keeps P) (fun g => g.bndM.card) NoBoundaryPivot o pivotBoundaryRound := by
  rintro g ⟨hg, hz⟩
  obtain ⟨s, ns, hs, hfold, hm, hb, hok⟩ := matchPivotBoundary_ok hg.wf hg.bdeg hz (ho.nbr g) (ho.vcand g).2
  have hrun : pivotBoundaryRound o g = if s.ms = [] then some (false, s.g.plain s.el .had)
      else afterRewrite o true (Rules.pivot o.lst (s.g.plain s.el .had) s.ms) := by
    unfold pivotBoundaryRound
    rw [hm]; rfl
  rw [hrun]
  by_cases hn : s.ms = []
  · rw [if_pos hn]
    have hnil := boundaryFold_nil (o.nbr g) (o.vcand g) ⟨g, [], [], fun _ => false⟩ (by rw [hfold]; exact hn)
    rw [hfold] at hnil
    obtain ⟨n1, n2⟩ := hnil
    have hpl : s.g.plain s.el .had = g := by
      have : s.g.addEdges s.el .had = some (s.g.plain s.el .had) := by
        have hm' := hm
        unfold matchPivotBoundary at hm'
        rw [hfold] at hm'
        simp only [Option.map_eq_some_iff, Prod.mk.injEq] at hm'
        obtain ⟨g1, q1, q2, -⟩ := hm'
        rw [q1, q2]
      rw [n1] at this ⊢
      simpa [addEdges] using this.symm
    rw [hpl]
    refine ⟨false, g, rfl, ⟨hg, hz⟩, Keeps.refl hg.wf, by simp, fun _ => ⟨rfl, fun hf => noBoundaryPivot_of hg.wf ho hf fun c hc => ?_⟩⟩
    rcases n2 c hc with h | h
    · simp at h
    · exact h
  · rw [if_neg hn]
    obtain ⟨hext, hzx, -, -⟩ := boundary_ext hP hg hs hb
    obtain ⟨g', f1, f2, f3, f4, f5⟩ := pivot_zx hP hzx ho.lst hok
    have hzh : g'.ZHad := pivot_zHad hext.wf ho.lst hok f1 f3.wf (fun u v _ _ => boundary_zHad hP hg hz hs hb u v)
      (fun m hm w hw => by rw [(hext.mem m hm).2.2] at hw; simp at hw)
      (fun m hm w hw hz => by
        rw [hs.ms] at hm
        obtain ⟨n, hn, rfl⟩ := List.mem_map.mp hm
        obtain ⟨b, hk⟩ := hs.each n hn
        rw [hk.b1, Option.some.injEq] at hw
        subst hw
        rw [hext.ty _ (hg.wf.toInv.mem' hk.badj), hk.bty] at hz
        simp at hz)
    obtain ⟨g'', e1, e2, e3, e4⟩ := afterRewrite_zxh hP ho f1 (hs.pres.trans f2) f3 hzh (hext.bph hok (pivot_bph hext.wf ho.lst hok f1))
    refine ⟨true, g'', e1, e2, e3, fun _ => ?_, by simp⟩
    obtain ⟨m, hmm⟩ := List.exists_mem_of_ne_nil _ hn
    have hsub : g''.bndM ⊆ g.bndM.erase m.v0 := by
      intro v hv
      obtain ⟨c1, c2⟩ := mem_bndM.mp hv
      obtain ⟨d1, d2⟩ := e4 v c1
      obtain ⟨k1, k2, k3⟩ := boundary_measure hP hg hs hb ho.lst hok f1 f3 f4 f5 d1 fun ht => c2 (d2 ht)
      exact Finset.mem_erase.mpr ⟨k3 m hmm, mem_bndM.mpr ⟨k1, k2⟩⟩
    have hin : m.v0 ∈ g.bndM := mem_bndM.mpr (boundary_v0 hg.wf hs hmm)
    exact lt_of_le_of_lt (Finset.card_le_card hsub) (Finset.card_erase_lt_of_mem hin)

end Simplify
end PyZX
