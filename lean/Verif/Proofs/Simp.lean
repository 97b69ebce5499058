import Verif.Spec.Simp
import Verif.Props.Isolated
import Verif.Proofs.Match
import Verif.Proofs.Recolor

/-!
# What the rewrite rules do to types, phases and boundaries
-/

namespace PyZX
namespace Graph

theorem Keeps.refl {P : ℚ → Prop} {g : Graph} (h : g.WF) : Keeps P g g :=
  ⟨(Preserves.refl h).upTo, fun _ => Preserves.refl h, fun _ _ _ => rfl⟩

theorem Keeps.trans {P : ℚ → Prop} {g1 g2 g3 : Graph} (h : Keeps P g1 g2) (h' : Keeps P g2 g3) : Keeps P g1 g3 := by
  refine ⟨h.upTo.trans h'.upTo, fun hp => (h.exact hp).trans (h'.exact hp), fun v hv ht => ?_⟩
  obtain ⟨a, b⟩ := (h.upTo.boundary v).mpr ⟨hv, ht⟩
  rw [h'.bphase v a b, h.bphase v hv ht]

theorem Preserves.keeps {P : ℚ → Prop} {g g' : Graph} (h : Preserves g g') (hb : BPh g g') : Keeps P g g' := ⟨h.upTo, fun _ => h, hb⟩

/-! ### Phases and types -/

theorem addToPhase_phases {P : ℚ → Prop} (hP : PhaseSet P) {g : Graph} {v : ℕ} {p : ℚ} (hp : P p)
    (h : ∀ w ∈ g.verts, P (g.phase w)) : ∀ w ∈ g.verts, P ((g.addToPhase v p).phase w) := by
  intro w hw
  by_cases e : w = v
  · subst e
    show P (Function.update g.phase w _ w)
    rw [Function.update_self]
    exact hP.add _ _ (h w hw) hp
  · show P (Function.update g.phase v _ w)
    rw [Function.update_of_ne e]; exact h w hw

theorem addEdge_phases {P : ℚ → Prop} (hP : PhaseSet P) {g g' : Graph} {s t : ℕ} {e : EType} (h : g.addEdge s t e = some g')
    (hp : ∀ w ∈ g.verts, P (g.phase w)) : ∀ w ∈ g'.verts, P (g'.phase w) := by
  rw [(addEdge_frame h).verts]
  obtain ⟨hs, ⟨hn, ht, rfl⟩ | ⟨e1, hn, -, -, ⟨-, -, rfl⟩ | ⟨-, f, -, -, rfl⟩ | ⟨-, -, -, rfl⟩⟩⟩ := addEdge_cases h
  · exact hp
  · exact hp
  · split
    · exact hp
    · exact addToPhase_phases hP (g := g.setAdj s t (some f)) hP.one hp
  · exact hp

theorem addEdgeN_phases {P : ℚ → Prop} (hP : PhaseSet P) {g g' : Graph} {s t n : ℕ} {e : EType} (h : g.addEdgeN s t e n = some g')
    (hp : ∀ w ∈ g.verts, P (g.phase w)) : ∀ w ∈ g'.verts, P (g'.phase w) := by
  induction n generalizing g with
  | zero => simp only [addEdgeN, Option.some.injEq] at h; rw [← h]; exact hp
  | succ n ih =>
    simp only [addEdgeN] at h
    obtain ⟨g1, h1, h2⟩ := Option.bind_eq_some_iff.mp h
    exact ih h2 (addEdge_phases hP h1 hp)

theorem addEdgeTable_phases {P : ℚ → Prop} (hP : PhaseSet P) {g g' : Graph} {t : ETab} (h : g.addEdgeTable t = some g')
    (hp : ∀ w ∈ g.verts, P (g.phase w)) : ∀ w ∈ g'.verts, P (g'.phase w) := by
  induction t generalizing g with
  | nil => simp only [addEdgeTable, List.foldlM_nil, Option.pure_def, Option.some.injEq] at h; rw [← h]; exact hp
  | cons e t ih =>
    obtain ⟨g1, g2, h1, h2, h3⟩ := addEdgeTable_cons h
    exact ih h3 (addEdgeN_phases hP h2 (addEdgeN_phases hP h1 hp))

theorem addEdgeN_ty {g g' : Graph} {s t n : ℕ} {e : EType} (h : g.addEdgeN s t e n = some g') : g'.ty = g.ty ∧ g'.verts = g.verts := by
  induction n generalizing g with
  | zero => simp only [addEdgeN, Option.some.injEq] at h; rw [← h]; exact ⟨rfl, rfl⟩
  | succ n ih =>
    simp only [addEdgeN] at h
    obtain ⟨g1, h1, h2⟩ := Option.bind_eq_some_iff.mp h
    rw [(ih h2).1, (ih h2).2]
    exact ⟨(addEdge_frame h1).ty, (addEdge_frame h1).verts⟩

theorem addEdgeTable_ty {g g' : Graph} {t : ETab} (h : g.addEdgeTable t = some g') : g'.ty = g.ty ∧ g'.verts = g.verts := by
  induction t generalizing g with
  | nil => simp only [addEdgeTable, List.foldlM_nil, Option.pure_def, Option.some.injEq] at h; rw [← h]; exact ⟨rfl, rfl⟩
  | cons e t ih =>
    obtain ⟨g1, g2, h1, h2, h3⟩ := addEdgeTable_cons h
    obtain ⟨a, b⟩ := ih h3
    obtain ⟨c, d⟩ := addEdgeN_ty h2
    obtain ⟨e, f⟩ := addEdgeN_ty h1
    exact ⟨a.trans (c.trans e), b.trans (d.trans f)⟩

theorem removeEdges_same {g g' : Graph} {es : List (ℕ × ℕ)} (h : g.removeEdges es = some g') :
    g'.ty = g.ty ∧ g'.verts = g.verts ∧ g'.phase = g.phase ∧
      ∀ a b, (∀ e ∈ es, ¬ SamePair (a, b) e) → g'.adj a b = g.adj a b := by
  induction es generalizing g with
  | nil =>
    simp only [removeEdges, List.foldlM_nil, Option.pure_def, Option.some.injEq] at h
    rw [← h]; exact ⟨rfl, rfl, rfl, fun _ _ _ => rfl⟩
  | cons e es ih =>
    simp only [removeEdges, List.foldlM_cons, Option.bind_eq_bind] at h
    obtain ⟨g1, h1, h2⟩ := Option.bind_eq_some_iff.mp h
    obtain ⟨q1, q2, q3, q4⟩ := ih h2
    have hr := removeEdge_adj_other (a := 0) (b := 0) h1
    obtain ⟨-, -, e1⟩ := removeEdge_eq h1
    refine ⟨q1.trans (by rw [e1]; rfl), q2.trans (by rw [e1]; rfl), q3.trans (by rw [e1]; rfl), fun a b hab => ?_⟩
    rw [q4 a b fun f hf => hab f (by simp [hf])]
    exact removeEdge_adj_other h1 (hab e (by simp))

/-- The result of a rewrite has the types of the rewritten graph, phases in the same set, and the vertices that were not removed. -/
theorem finish_phases {P : ℚ → Prop} (hP : PhaseSet P) {s : RewriteState} {g' : Graph} (h : s.finish = some g')
    (hp : ∀ w ∈ s.g.verts, P (s.g.phase w)) :
    g'.ty = s.g.ty ∧ g'.verts = s.g.verts \ s.remVerts.toFinset ∧ ∀ w ∈ g'.verts, P (g'.phase w) := by
  unfold RewriteState.finish at h
  obtain ⟨g1, h1, h⟩ := Option.bind_eq_some_iff.mp h
  obtain ⟨g2, h2, h3⟩ := Option.bind_eq_some_iff.mp h
  obtain ⟨hr, -, -, -⟩ := removeVertices_spec h3
  obtain ⟨a1, a2⟩ := addEdgeTable_ty h1
  obtain ⟨b1, b2, b3, -⟩ := removeEdges_same h2
  refine ⟨hr.ty.trans (b1.trans a1), by rw [hr.verts, b2, a2], fun w hw => ?_⟩
  rw [hr.phase, b3]
  refine addEdgeTable_phases hP h1 hp w ?_
  rw [hr.verts, b2, Finset.mem_sdiff] at hw
  exact hw.1

/-! ### Boundaries keep a neighbour -/

theorem addEdge_bnd {g g' : Graph} {s t : ℕ} {e : EType} (h : g.addEdge s t e = some g') {b z : ℕ} (hb : g.ty b = .boundary) :
    (g.adj b z ≠ none → g'.adj b z ≠ none) ∧ (SamePair (b, z) (s, t) → g'.adj b z ≠ none) := by
  have hnz : SamePair (b, z) (s, t) → ¬ ((g.ty s).zxLike ∧ (g.ty t).zxLike) := by
    rintro (⟨e1, e2⟩ | ⟨e1, e2⟩) ⟨h1, h2⟩ <;> simp only at e1 e2
    · rw [← e1, hb] at h1; simp [VType.zxLike, VType.zLike] at h1
    · rw [← e1, hb] at h2; simp [VType.zxLike, VType.zLike] at h2
  by_cases hs : SamePair (b, z) (s, t)
  · obtain ⟨-, ⟨hn, ht, rfl⟩ | ⟨e1, hn, z1, z2, -⟩⟩ := addEdge_cases h
    · have : (g.setAdj s t (some e)).adj b z = some e := if_pos hs
      have : ({ g.setAdj s t (some e) with nedges := g.nedges + 1 } : Graph).adj b z = some e := this
      rw [this]
      exact ⟨fun _ => by simp, fun _ => by simp⟩
    · exact absurd ⟨z1, z2⟩ (hnz hs)
  · rw [addEdge_adj_other h hs]
    exact ⟨id, fun hh => absurd hh hs⟩

theorem addEdgeN_bnd {g g' : Graph} {s t n : ℕ} {e : EType} (h : g.addEdgeN s t e n = some g') {b z : ℕ} (hb : g.ty b = .boundary) :
    (g.adj b z ≠ none → g'.adj b z ≠ none) ∧ (n ≠ 0 → SamePair (b, z) (s, t) → g'.adj b z ≠ none) := by
  induction n generalizing g with
  | zero => simp only [addEdgeN, Option.some.injEq] at h; rw [← h]; exact ⟨id, fun hh => absurd rfl hh⟩
  | succ n ih =>
    simp only [addEdgeN] at h
    obtain ⟨g1, h1, h2⟩ := Option.bind_eq_some_iff.mp h
    obtain ⟨a, -⟩ := ih h2 (by rw [(addEdge_frame h1).ty]; exact hb)
    obtain ⟨c, d⟩ := addEdge_bnd h1 (z := z) hb
    exact ⟨fun hh => a (c hh), fun _ hh => a (d hh)⟩

theorem addEdgeTable_bnd {g g' : Graph} {t : ETab} (h : g.addEdgeTable t = some g') {b z : ℕ} (hb : g.ty b = .boundary) :
    (g.adj b z ≠ none → g'.adj b z ≠ none) ∧ (∀ e ∈ t, e.2 ≠ (0, 0) → SamePair (b, z) e.1 → g'.adj b z ≠ none) := by
  induction t generalizing g with
  | nil => simp only [addEdgeTable, List.foldlM_nil, Option.pure_def, Option.some.injEq] at h; rw [← h]; exact ⟨id, by simp⟩
  | cons f t ih =>
    obtain ⟨g1, g2, h1, h2, h3⟩ := addEdgeTable_cons h
    obtain ⟨c, d⟩ := addEdgeN_bnd h1 (z := z) hb
    obtain ⟨c', d'⟩ := addEdgeN_bnd h2 (z := z) (by rw [(addEdgeN_ty h1).1]; exact hb)
    obtain ⟨a, a'⟩ := ih h3 (by rw [(addEdgeN_ty h2).1, (addEdgeN_ty h1).1]; exact hb)
    refine ⟨fun hh => a (c' (c hh)), ?_⟩
    intro e he hz hsp
    rcases List.mem_cons.mp he with rfl | he
    · refine a ?_
      rcases tab_ne.mp hz with hz | hz
      · exact c' (d hz hsp)
      · exact d' hz hsp
    · exact a' e he hz hsp

theorem tcount_ne {t : ETab} {b : ℕ} (h : tcount t b ≠ 0) : ∃ e ∈ t, e.2 ≠ (0, 0) ∧ touch b e.1 := by
  by_contra hc
  push Not at hc
  refine h ?_
  unfold tcount
  rw [List.sum_eq_zero_iff]
  intro n hn
  obtain ⟨e, he, rfl⟩ := List.mem_map.mp hn
  by_cases hz : e.2 = (0, 0)
  · simp [hz]
  · rw [if_neg (not_or.mpr (hc e he hz))]

/-- If the edge table has an edge for every boundary whose neighbour disappears, then every boundary still has a neighbour. -/
theorem finish_badj {g : Graph} {s : RewriteState} {g' : Graph} (h : s.finish = some g') (hadj : s.g.adj = g.adj)
    (hty : ∀ b ∈ g.verts, g.ty b = .boundary → s.g.ty b = .boundary ∧ b ∉ s.remVerts)
    (hk : KeysIn s.etab (g.verts \ s.remVerts.toFinset))
    (he3 : ∀ e ∈ s.remEdges, e.1 ∈ s.remVerts ∨ e.2 ∈ s.remVerts)
    (hlow : ∀ b ∈ g.verts, g.ty b = .boundary → ∀ z, g.adj b z ≠ none →
      (z ∈ s.remVerts ∨ ∃ e ∈ s.remEdges, SamePair (b, z) e) → tcount s.etab b ≠ 0)
    (hba : ∀ b ∈ g.verts, g.ty b = .boundary → ∃ z, g.adj b z ≠ none) :
    ∀ b ∈ g.verts, g.ty b = .boundary → ∃ z, g'.adj b z ≠ none := by
  intro b hbv hbt
  obtain ⟨hbt', hbr⟩ := hty b hbv hbt
  unfold RewriteState.finish at h
  obtain ⟨g1, h1, h⟩ := Option.bind_eq_some_iff.mp h
  obtain ⟨g2, h2, h3⟩ := Option.bind_eq_some_iff.mp h
  obtain ⟨hr, -, -, -⟩ := removeVertices_spec h3
  obtain ⟨-, -, -, b4⟩ := removeEdges_same h2
  have key : ∀ z, g1.adj b z ≠ none → z ∉ s.remVerts → (∀ e ∈ s.remEdges, ¬ SamePair (b, z) e) → g'.adj b z ≠ none := by
    intro z z1 z2 z3
    rw [hr.adj b z (by simpa using hbr) (by simpa using z2), b4 b z z3]
    exact z1
  by_cases ht : tcount s.etab b = 0
  · obtain ⟨z, hz⟩ := hba b hbv hbt
    refine ⟨z, key z ((addEdgeTable_bnd h1 hbt').1 (by rw [hadj]; exact hz)) ?_ ?_⟩
    · exact fun hh => hlow b hbv hbt z hz (Or.inl hh) ht
    · exact fun e he hh => hlow b hbv hbt z hz (Or.inr ⟨e, he, hh⟩) ht
  · obtain ⟨e, he, hz, htb⟩ := tcount_ne ht
    obtain ⟨k1, k2, -⟩ := hk e he hz
    simp only [Finset.mem_sdiff, List.mem_toFinset] at k1 k2
    have fin : ∀ z, SamePair (b, z) e.1 → z ∉ s.remVerts → g'.adj b z ≠ none := by
      intro z hsp hzr
      refine key z ((addEdgeTable_bnd h1 hbt').2 e he hz hsp) hzr fun f hf hh => ?_
      rcases hh with ⟨p1, p2⟩ | ⟨p1, p2⟩ <;> simp only at p1 p2 <;> rcases he3 f hf with q | q
      · exact hbr (p1 ▸ q)
      · exact hzr (p2 ▸ q)
      · exact hzr (p2 ▸ q)
      · exact hbr (p1 ▸ q)
    rcases htb with hb | hb
    · exact ⟨e.1.2, fin _ (Or.inl ⟨hb, rfl⟩) k2.2⟩
    · exact ⟨e.1.1, fin _ (Or.inr ⟨hb, rfl⟩) k1.2⟩

/-! ### Lower bounds on the edge table -/

theorem tcount_upd_ge (t : ETab) (k : ℕ × ℕ) {f : ℕ × ℕ → ℕ × ℕ} {c : ℕ} (hf : ∀ p, p.1 + p.2 + c ≤ (f p).1 + (f p).2) (b : ℕ) :
    tcount t b + (if touch b k then c else 0) ≤ tcount (ETab.upd t k f) b := by
  induction t with
  | nil =>
    have := hf (0, 0)
    simp only [ETab.upd, tcount, List.map_cons, List.map_nil, List.sum_cons, List.sum_nil]
    split <;> omega
  | cons e t ih =>
    obtain ⟨k', p⟩ := e
    simp only [ETab.upd]
    by_cases hk : k' = k
    · subst hk
      have := hf p
      rw [if_pos rfl, tcount_cons, tcount_cons]
      simp only
      split <;> omega
    · rw [if_neg hk, tcount_cons, tcount_cons]
      omega

theorem tcount_fold_pos {ι : Type*} {step : RewriteState → ι → RewriteState} {I : RewriteState → Prop} {b : ℕ} (ms : List ι)
    (hI : ∀ m ∈ ms, ∀ s, I s → I (step s m)) (hmono : ∀ m ∈ ms, ∀ s, I s → tcount s.etab b ≤ tcount (step s m).etab b)
    {m : ι} (hm : m ∈ ms) (hpos : ∀ s, I s → tcount (step s m).etab b ≠ 0) (s : RewriteState) (hs : I s) :
    tcount (ms.foldl step s).etab b ≠ 0 := by
  have mono : ∀ (l : List ι), (∀ m ∈ l, m ∈ ms) → ∀ s, I s → tcount s.etab b ≤ tcount (l.foldl step s).etab b := by
    intro l
    induction l with
    | nil => intro _ s _; exact le_rfl
    | cons a l ih =>
      intro hl s hs
      exact (hmono a (hl a (by simp)) s hs).trans (ih (fun m hm => hl m (by simp [hm])) _ (hI a (hl a (by simp)) s hs))
  induction ms generalizing s with
  | nil => simp at hm
  | cons a l ih =>
    rw [List.foldl_cons]
    rcases List.mem_cons.mp hm with rfl | hm'
    · have h1 := hpos s hs
      have h2 := mono l (fun m hm => by simp [hm]) _ (hI m (by simp) s hs)
      omega
    · exact ih (fun m hm => hI m (by simp [hm])) (fun m hm => hmono m (by simp [hm])) hm' _ (hI a (by simp) s hs)
        (fun l' hl' => mono l' fun m hm => by simp [hl' m hm])

/-- Putting the parts together. -/
theorem zx_of_finish {P : ℚ → Prop} (hP : PhaseSet P) {g g' : Graph} (hg : g.ZX P) {s : RewriteState} (h : s.finish = some g')
    (hp : Preserves g g') (hbd : g'.BDeg) (hadj : s.g.adj = g.adj) (hty : s.g.ty = g.ty) (hv : s.g.verts = g.verts)
    (hph : ∀ w ∈ g.verts, P (s.g.phase w)) (hk : KeysIn s.etab (g.verts \ s.remVerts.toFinset))
    (he3 : ∀ e ∈ s.remEdges, e.1 ∈ s.remVerts ∨ e.2 ∈ s.remVerts)
    (hlow : ∀ b ∈ g.verts, g.ty b = .boundary → ∀ z, g.adj b z ≠ none →
      (z ∈ s.remVerts ∨ ∃ e ∈ s.remEdges, SamePair (b, z) e) → tcount s.etab b ≠ 0) : g'.ZX P := by
  obtain ⟨h1, h2, h3⟩ := finish_phases hP h (by rw [hv]; exact hph)
  refine ⟨hp.wf, hbd, ?_, ?_, h3⟩
  · intro b hb ht
    obtain ⟨hb', ht'⟩ := (hp.boundary b).mp ⟨hb, ht⟩
    refine finish_badj h hadj ?_ hk he3 hlow hg.badj b hb' ht'
    intro c hc hct
    refine ⟨by rw [hty]; exact hct, fun hr => ?_⟩
    have := ((hp.boundary c).mpr ⟨hc, hct⟩).1
    rw [h2, Finset.mem_sdiff] at this
    exact this.2 (by simpa using hr)
  · intro v hv'
    rw [h1, hty]
    rw [h2, hv, Finset.mem_sdiff] at hv'
    exact hg.types v hv'.1

end Graph
end PyZX
