import Verif.Proofs.ExtPull

/-!
# Circuit extraction does not get stuck: the invariant and `clean_frontier`

The invariant says that every spider with an edge is next to a boundary, as in the diagrams that `full_reduce` makes of Clifford
circuits. The measure counts the inputs whose spider is not next to an output.
-/

namespace PyZX
namespace Extract

open Finset Graph Simplify

/-- A spider that is not next to an output. -/
def Far (g : Graph) (v : ℕ) : Prop := g.ty v = .Z ∧ ∀ o ∈ g.outputs, g.adj v o = none

/-- Spiders with edges are next to a boundary. -/
def TB (g : Graph) : Prop := ∀ v u, g.ty v = .Z → g.adj v u ≠ none → ∃ b, g.adj v b ≠ none ∧ g.ty b = .boundary

/-- Spiders next to an output that left the frontier have phase 0 and an input. -/
def FinP (g : Graph) (fr : List ℕ) : Prop := ∀ v, g.ty v = .Z → ∀ o ∈ g.outputs, g.adj v o ≠ none →
  v ∈ fr ∨ (g.phase v = 0 ∧ ∃ i ∈ g.inputs, g.adj v i ≠ none)

/-- The input is at a spider that is not next to an output. -/
def In1 (g : Graph) (b : ℕ) : Prop := ∃ v, g.adj b v ≠ none ∧ Far g v

/-- The input is at a spider next to a spider that is not next to an output. -/
def In2 (g : Graph) (b : ℕ) : Prop := ∃ v w, g.adj b v ≠ none ∧ g.adj v w ≠ none ∧ Far g w

open Classical in
/-- The measure. -/
noncomputable def mu (g : Graph) : ℕ := (g.inputs.toFinset.filter (In1 g)).card + 2 * (g.inputs.toFinset.filter (In2 g)).card

open Classical in
theorem mu_le {g g' : Graph} (hi : g'.inputs = g.inputs) (h1 : ∀ b ∈ g.inputs, In1 g' b → In1 g b) (h2 : ∀ b ∈ g.inputs, In2 g' b → In2 g b) :
    mu g' ≤ mu g := by
  unfold mu
  rw [hi]
  have a1 : (g.inputs.toFinset.filter (In1 g')).card ≤ (g.inputs.toFinset.filter (In1 g)).card :=
    Finset.card_le_card fun b hb => by
      rw [Finset.mem_filter, List.mem_toFinset] at hb ⊢
      exact ⟨hb.1, h1 b hb.1 hb.2⟩
  have a2 : (g.inputs.toFinset.filter (In2 g')).card ≤ (g.inputs.toFinset.filter (In2 g)).card :=
    Finset.card_le_card fun b hb => by
      rw [Finset.mem_filter, List.mem_toFinset] at hb ⊢
      exact ⟨hb.1, h2 b hb.1 hb.2⟩
  omega

open Classical in
theorem mu_lt {g g' : Graph} (hi : g'.inputs = g.inputs) (h1 : ∀ b ∈ g.inputs, In1 g' b → In1 g b) (h2 : ∀ b ∈ g.inputs, In2 g' b → In2 g b)
    {b0 : ℕ} (hb0 : b0 ∈ g.inputs) (h3 : In1 g b0) (h4 : ¬ In1 g' b0) : mu g' < mu g := by
  unfold mu
  rw [hi]
  have a1 : (g.inputs.toFinset.filter (In1 g')).card < (g.inputs.toFinset.filter (In1 g)).card :=
    Finset.card_lt_card (by
      rw [Finset.ssubset_iff_of_subset]
      · exact ⟨b0, by rw [Finset.mem_filter, List.mem_toFinset]; exact ⟨hb0, h3⟩, fun hc => h4 (Finset.mem_filter.mp hc).2⟩
      · intro b hb
        rw [Finset.mem_filter, List.mem_toFinset] at hb ⊢
        exact ⟨hb.1, h1 b hb.1 hb.2⟩)
  have a2 : (g.inputs.toFinset.filter (In2 g')).card ≤ (g.inputs.toFinset.filter (In2 g)).card :=
    Finset.card_le_card fun b hb => by
      rw [Finset.mem_filter, List.mem_toFinset] at hb ⊢
      exact ⟨hb.1, h2 b hb.1 hb.2⟩
  omega

open Classical in
/-- One input changes from the second class to the first. -/
theorem mu_le_swap {g g' : Graph} (hi : g'.inputs = g.inputs) {b0 : ℕ} (hb0 : b0 ∈ g.inputs)
    (h1 : ∀ b ∈ g.inputs, b ≠ b0 → In1 g' b → In1 g b) (h2 : ∀ b ∈ g.inputs, In2 g' b → In2 g b) (h3 : In2 g b0) (h4 : ¬ In2 g' b0) :
    mu g' ≤ mu g := by
  unfold mu
  rw [hi]
  have a1 : (g.inputs.toFinset.filter (In1 g')).card ≤ (g.inputs.toFinset.filter (In1 g)).card + 1 := by
    refine (Finset.card_le_card (t := insert b0 (g.inputs.toFinset.filter (In1 g))) fun b hb => ?_).trans (Finset.card_insert_le _ _)
    rw [Finset.mem_filter, List.mem_toFinset] at hb
    rw [Finset.mem_insert, Finset.mem_filter, List.mem_toFinset]
    by_cases c : b = b0
    · exact Or.inl c
    · exact Or.inr ⟨hb.1, h1 b hb.1 c hb.2⟩
  have a2 : (g.inputs.toFinset.filter (In2 g')).card < (g.inputs.toFinset.filter (In2 g)).card :=
    Finset.card_lt_card (by
      rw [Finset.ssubset_iff_of_subset]
      · exact ⟨b0, by rw [Finset.mem_filter, List.mem_toFinset]; exact ⟨hb0, h3⟩, fun hc => h4 (Finset.mem_filter.mp hc).2⟩
      · intro b hb
        rw [Finset.mem_filter, List.mem_toFinset] at hb ⊢
        exact ⟨hb.1, h2 b hb.1 hb.2⟩)
  omega

/-- The invariant of an extraction that cannot get stuck. -/
structure TI (g0 : Graph) (s : State) : Prop where
  inv : LoopInv g0 s
  gads : s.gadgets = ∅
  tb : TB s.g
  fin : FinP s.g s.frontier

/-! ### The single vertices -/

theorem outputOf_some {o : Orders} (ho : o.OK) {g : Graph} (hg : g.WF) {v b : ℕ} (hb : b ∈ g.outputs) (h : g.adj v b ≠ none) :
    ∃ b', outputOf o g v = some b' := by
  have hv : v ∈ g.verts := hg.mem _ _ h
  have hm : b ∈ (o.nbr g v).filter (· ∈ g.outputs) := by
    rw [List.mem_filter, decide_eq_true_eq]
    refine ⟨?_, hb⟩
    rw [← List.mem_toFinset, (ho.nbr g v hv).2, mem_nbrs hg.toInv]; exact h
  unfold outputOf
  rcases hc : (o.nbr g v).filter (· ∈ g.outputs) with _ | ⟨a, l⟩
  · rw [hc] at hm; simp at hm
  · exact ⟨a, rfl⟩

/-- What cleaning a vertex does to the diagram. -/
structure Cleaned (s s' : State) : Prop where
  ty : s'.g.ty = s.g.ty
  inputs : s'.g.inputs = s.g.inputs
  outputs : s'.g.outputs = s.g.outputs
  adj : ∀ u v, s'.g.adj u v = none ↔ s.g.adj u v = none
  phase : ∀ u, s'.g.phase u = s.g.phase u ∨ s'.g.phase u = 0
  frontier : s'.frontier = s.frontier
  gadgets : s'.gadgets = s.gadgets

theorem Cleaned.trans {s s' s'' : State} (h : Cleaned s s') (h' : Cleaned s' s'') : Cleaned s s'' :=
  ⟨h'.ty.trans h.ty, h'.inputs.trans h.inputs, h'.outputs.trans h.outputs, fun u v => (h'.adj u v).trans (h.adj u v),
    fun u => by
      rcases h'.phase u with h1 | h1
      · rw [h1]; exact h.phase u
      · exact Or.inr h1,
    h'.frontier.trans h.frontier, h'.gadgets.trans h.gadgets⟩

theorem cleanVertex_total {o : Orders} (ho : o.OK) {g0 : Graph} {s : State} (h : LoopInv g0 s) {v : ℕ} (hv : v ∈ s.frontier) :
    ∃ s', cleanVertex o s v = some s' ∧ Cleaned s s' := by
  obtain ⟨hz, q, b, hq, hb, hab⟩ := h.front.each v hv
  have hvm : v ∈ s.g.verts := h.gl.zx.wf.mem _ _ hab
  obtain ⟨b', hb'⟩ := outputOf_some ho h.gl.zx.wf (List.mem_of_getElem? hb) hab
  obtain ⟨hb1, hb2⟩ := outputOf_spec ho h.gl.zx.wf hvm hb'
  unfold cleanVertex
  rw [hq, Option.bind_some, hb', Option.map_some]
  refine ⟨_, rfl, ?_⟩
  simp only
  obtain ⟨s1, hs1⟩ : ∃ s1 : State, s1 = if s.g.adj v b' = some .had then
    { s with g := s.g.setAdj v b' (some .simple), gates := s.gates ++ [.had q] } else s := ⟨_, rfl⟩
  rw [← hs1]
  have k1 : Cleaned s s1 := by
    by_cases hh : s.g.adj v b' = some .had
    · rw [if_pos hh] at hs1
      subst hs1
      exact ⟨rfl, rfl, rfl, setAdj_none_iff h.gl.zx.wf.toInv hb2 .simple, fun _ => Or.inl rfl, rfl, rfl⟩
    · rw [if_neg hh] at hs1
      subst hs1
      exact ⟨rfl, rfl, rfl, fun _ _ => Iff.rfl, fun _ => Or.inl rfl, rfl, rfl⟩
  by_cases hp : s1.g.phase v = 0
  · rw [if_pos hp]; exact k1
  · rw [if_neg hp]
    refine k1.trans ⟨rfl, rfl, rfl, fun _ _ => Iff.rfl, fun u => ?_, rfl, rfl⟩
    by_cases huv : u = v
    · subst huv; exact Or.inr (setPhase_zero_self _ _)
    · exact Or.inl (setPhase_ne _ huv _)

theorem cleanVertices_total {o : Orders} (ho : o.OK) {g0 : Graph} : ∀ (l : List ℕ) {s : State}, LoopInv g0 s →
    (∀ v ∈ l, v ∈ s.frontier) → ∃ s', l.foldlM (cleanVertex o) s = some s' ∧ Cleaned s s' := by
  intro l
  induction l with
  | nil => exact fun _ _ => ⟨_, rfl, rfl, rfl, rfl, fun _ _ => Iff.rfl, fun _ => Or.inl rfl, rfl, rfl⟩
  | cons v l ih =>
    intro s h hl
    obtain ⟨s1, e1, c1⟩ := cleanVertex_total ho h (hl v (by simp))
    obtain ⟨h1, h2, -, -⟩ := cleanVertex_spec ho h (hl v (by simp)) e1
    obtain ⟨s2, e2, c2⟩ := ih h1 (fun u hu => by rw [h2]; exact hl u (by simp [hu]))
    exact ⟨s2, by rw [List.foldlM_cons, e1]; exact e2, c1.trans c2⟩

/-! ### The CZ gates -/

theorem czEdge_total {g0 : Graph} {s : State} (hs : LoopInv g0 s) {v : ℕ} (hv : v ∈ s.frontier) {p : Graph × (ℕ → ℕ → Bool)} (h : CzI s p)
    {w : ℕ} (hvw : p.1.adj v w ≠ none) : ∃ p', czEdge s v p w = some p' ∧ ∀ x, x ≠ w → p'.1.adj v x = p.1.adj v x := by
  unfold czEdge
  by_cases hw : w ∈ s.frontier
  swap
  · rw [if_neg hw]; exact ⟨p, rfl, fun _ _ => rfl⟩
  rw [if_pos hw]
  obtain ⟨hz, q, b, hq, hb, hab⟩ := hs.front.each v hv
  obtain ⟨hz', q', b', hq', hb', hab'⟩ := hs.front.each w hw
  rw [hq, hq', Option.bind_some, Option.bind_some]
  have hne : v ≠ w := by rintro rfl; exact hvw (h.wf.loopless _)
  unfold removeEdge
  rw [if_neg (by tauto)]
  refine ⟨_, rfl, fun x hx => ?_⟩
  show (p.1.setAdj v w none).adj v x = _
  simp only [Graph.setAdj]
  rw [if_neg]
  rintro (⟨-, rfl⟩ | ⟨rfl, -⟩)
  · exact hx rfl
  · exact hne rfl

theorem czEdges_total {g0 : Graph} {s : State} (hs : LoopInv g0 s) (hcl : Clean s.g s.frontier) {v : ℕ} (hv : v ∈ s.frontier) :
    ∀ (l : List ℕ) {p : Graph × (ℕ → ℕ → Bool)}, l.Nodup → (∀ w ∈ l, p.1.adj v w ≠ none) → CzI s p → ∃ p', l.foldlM (czEdge s v) p = some p' := by
  intro l
  induction l with
  | nil => exact fun _ _ _ => ⟨_, rfl⟩
  | cons w l ih =>
    intro p hn hl h
    obtain ⟨n1, n2⟩ := List.nodup_cons.mp hn
    obtain ⟨p1, e1, a1⟩ := czEdge_total hs hv h (hl w (by simp))
    obtain ⟨h1, -, -⟩ := czEdge_spec hs hcl hv h e1
    obtain ⟨p2, e2⟩ := ih n2 (fun x hx => by
      rw [a1 x (by rintro rfl; exact n1 hx)]; exact hl x (by simp [hx])) h1
    exact ⟨p2, by rw [List.foldlM_cons, e1]; exact e2⟩

theorem czCollect_total {o : Orders} (ho : o.OK) {g0 : Graph} {s : State} (hs : LoopInv g0 s) (hcl : Clean s.g s.frontier) :
    ∃ p, czCollect o s = some p := by
  have key : ∀ (l : List ℕ) {p : Graph × (ℕ → ℕ → Bool)}, (∀ v ∈ l, v ∈ s.frontier) → CzI s p →
      ∃ p', l.foldlM (fun p v => (o.nbr p.1 v).foldlM (czEdge s v) p) p = some p' := by
    intro l
    induction l with
    | nil => exact fun _ _ => ⟨_, rfl⟩
    | cons v l ih =>
      intro p hl h
      have hvm : v ∈ p.1.verts := by
        rw [h.frame.verts]
        obtain ⟨-, q, b, -, -, hab⟩ := hs.front.each v (hl v (by simp))
        exact hs.gl.zx.wf.mem _ _ hab
      obtain ⟨n1, n2⟩ := ho.nbr p.1 v hvm
      obtain ⟨p1, e1⟩ := czEdges_total hs hcl (hl v (by simp)) (o.nbr p.1 v) n1 (fun w hw => by
        rw [← mem_nbrs h.wf.toInv, ← n2, List.mem_toFinset]; exact hw) h
      obtain ⟨h1, -, -⟩ := czEdges_spec hs hcl (hl v (by simp)) _ h e1
      obtain ⟨p2, e2⟩ := ih (fun u hu => hl u (by simp [hu])) h1
      exact ⟨p2, by rw [List.foldlM_cons, e1]; exact e2⟩
  exact key s.frontier (fun _ h => h) ⟨SameFrame.refl _, rfl, hs.gl.zx.wf, fun _ _ _ => rfl, fun _ _ _ => rfl, ⟨fun _ _ => rfl, fun _ => rfl⟩,
    fun _ _ _ _ _ _ _ _ h => by simp at h, 1, one_ne_zero, fun x y => by rw [dsign_zero, one_mul, one_mul]⟩

/-! ### The CZ optimisation -/

open Classical in
/-- The number of ones of a table. -/
noncomputable def ones (n : ℕ) (m : ℕ → ℕ → Bool) : ℕ := ((Finset.range n ×ˢ Finset.range n).filter fun p => m p.1 p.2 = true).card

theorem setPair_false_le {m : ℕ → ℕ → Bool} {i j a c : ℕ} (h : setPair m i j false a c = true) : m a c = true := by
  unfold setPair at h
  split at h
  · simp at h
  · exact h

theorem clearCommon_le (i j : ℕ) : ∀ (ks : List ℕ) {m : ℕ → ℕ → Bool} {a c : ℕ}, clearCommon m i j ks a c = true → m a c = true := by
  intro ks
  induction ks with
  | nil => exact fun h => h
  | cons k ks ih => exact fun h => setPair_false_le (setPair_false_le (ih h))

theorem clearCommon_head (i j k : ℕ) (ks : List ℕ) (m : ℕ → ℕ → Bool) : clearCommon m i j (k :: ks) i k = false := by
  by_contra hc
  have hc : clearCommon m i j (k :: ks) i k = true := by simpa using hc
  have h1 := setPair_false_le (clearCommon_le i j ks (show clearCommon (setPair (setPair m i k false) j k false) i j ks i k = true from hc))
  simp [setPair] at h1

theorem czOptimize_total (n : ℕ) : ∀ (fuel : ℕ) (m : ℕ → ℕ → Bool) (c : List Gate), ones n m < fuel → ∃ r, czOptimize n fuel m c = .ok r := by
  intro fuel
  induction fuel with
  | zero => exact fun _ _ h => absurd h (Nat.not_lt_zero _)
  | succ fuel ih =>
    intro m c h
    rw [czOptimize]
    by_cases hl : 2 < (maxOverlap n m).2.length
    · rw [if_pos hl]
      refine ih _ _ ?_
      obtain ⟨h1, h2, h3, h4, h5⟩ := maxOverlap_spec n m (by intro hc; rw [hc] at hl; simp at hl)
      rcases hk : (maxOverlap n m).2 with _ | ⟨k, ks⟩
      · rw [hk] at hl; simp at hl
      obtain ⟨k1, k2, k3⟩ := h5 k (by rw [hk]; simp)
      have : ones n (clearCommon m (maxOverlap n m).1.1 (maxOverlap n m).1.2 (k :: ks)) < ones n m := by
        refine Finset.card_lt_card ?_
        rw [Finset.ssubset_iff_of_subset]
        · refine ⟨((maxOverlap n m).1.1, k), ?_, fun hc => ?_⟩
          · rw [Finset.mem_filter, Finset.mem_product, Finset.mem_range, Finset.mem_range]
            exact ⟨⟨h1, k1⟩, k2⟩
          · have := (Finset.mem_filter.mp hc).2
            rw [clearCommon_head] at this
            simp at this
        · intro p hp
          rw [Finset.mem_filter] at hp ⊢
          exact ⟨hp.1, clearCommon_le _ _ _ hp.2⟩
      omega
    · rw [if_neg hl]; exact ⟨_, rfl⟩

theorem ones_le (n : ℕ) (m : ℕ → ℕ → Bool) : ones n m ≤ n * n := by
  unfold ones
  refine (Finset.card_filter_le _ _).trans ?_
  rw [Finset.card_product, Finset.card_range]

/-! ### `clean_frontier` -/

/-- What `clean_frontier` does to the diagram. -/
structure CleanedF (s s' : State) : Prop where
  ty : s'.g.ty = s.g.ty
  inputs : s'.g.inputs = s.g.inputs
  outputs : s'.g.outputs = s.g.outputs
  sub : ∀ u v, s'.g.adj u v ≠ none → s.g.adj u v ≠ none
  off : ∀ u, u ∉ s.frontier → ∀ v, s'.g.adj u v = none ↔ s.g.adj u v = none
  phase : ∀ u, s'.g.phase u = s.g.phase u ∨ s'.g.phase u = 0
  frontier : s'.frontier = s.frontier
  gadgets : s'.gadgets = s.gadgets

theorem cleanFrontier_total {o : Orders} (ho : o.OK) {g0 : Graph} {s : State} (hs : LoopInv g0 s) {opt : Bool} {fuel : ℕ}
    (hn : opt = true → s.g.outputs ≠ []) (hf : s.g.outputs.length * s.g.outputs.length < fuel) :
    ∃ s', cleanFrontier o opt fuel s = .ok s' ∧ CleanedF s s' := by
  obtain ⟨s1, e1, c1⟩ := cleanVertices_total ho s.frontier hs (fun _ h => h)
  obtain ⟨k1, k2, k3⟩ := cleanVertices_spec ho s.frontier (T := []) hs (fun _ h => h) (by simp) (by intro v hv; simp at hv) e1
  rw [List.append_nil, ← k2] at k3
  obtain ⟨p, e2⟩ := czCollect_total ho k1 k3
  obtain ⟨q1, q2⟩ := czCollect_spec ho k1 k3 e2
  have hop : ∃ r, (if opt then (if s1.g.outputs.length = 0 then .raised else czOptimize s1.g.outputs.length fuel p.2 s1.gates)
      else .ok (p.2, s1.gates) : Out ((ℕ → ℕ → Bool) × List Gate)) = .ok r := by
    cases opt with
    | false => exact ⟨_, rfl⟩
    | true =>
      rw [if_pos rfl, c1.outputs, if_neg (by
        rw [List.length_eq_zero_iff]; exact hn rfl)]
      exact czOptimize_total _ _ _ _ ((ones_le _ _).trans_lt hf)
  obtain ⟨r, hr⟩ := hop
  unfold cleanFrontier
  rw [e1]
  simp only [ofOption, Out.bind]
  rw [e2]
  simp only
  rw [hr]
  refine ⟨_, rfl, ?_⟩
  refine ⟨q1.frame.ty.trans c1.ty, q1.frame.inputs.trans c1.inputs, q1.frame.outputs.trans c1.outputs, ?_, ?_, ?_, c1.frontier, c1.gadgets⟩
  · intro u v h
    have h : p.1.adj u v ≠ none := h
    rw [q1.sub u v h] at h
    exact fun hc => h ((c1.adj u v).mpr hc)
  · intro u hu v
    show p.1.adj u v = none ↔ _
    rw [q1.off u (by rw [c1.frontier]; exact hu), c1.adj]
  · intro u
    show p.1.phase u = _ ∨ p.1.phase u = 0
    rw [q1.phase]; exact c1.phase u

theorem LoopInv.bnd_off {g0 : Graph} {s : State} (h : LoopInv g0 s) {b : ℕ} (hb : s.g.ty b = .boundary) : b ∉ s.frontier := fun hc => by
  have := (h.front.each b hc).1
  rw [hb] at this; simp at this

theorem CleanedF.ti {g0 : Graph} {s s' : State} (h : TI g0 s) (hs' : LoopInv g0 s') (c : CleanedF s s') : TI g0 s' ∧ mu s'.g ≤ mu s.g := by
  have hw := h.inv.gl.zx.wf
  have hw' := hs'.gl.zx.wf
  have hbd : ∀ b u, s.g.ty b = .boundary → (s'.g.adj u b = none ↔ s.g.adj u b = none) := fun b u hb => by
    rw [hw'.symm, hw.symm]; exact c.off b (h.inv.bnd_off hb) u
  have hfar : ∀ v, Far s'.g v → Far s.g v := by
    rintro v ⟨h1, h2⟩
    rw [c.ty] at h1
    rw [c.outputs] at h2
    exact ⟨h1, fun o ho => (hbd o v (hw.io o (Or.inr ho))).mp (h2 o ho)⟩
  refine ⟨⟨hs', by rw [c.gadgets]; exact h.gads, ?_, ?_⟩, mu_le c.inputs ?_ ?_⟩
  · intro v u hv ha
    rw [c.ty] at hv ⊢
    obtain ⟨b, h1, h2⟩ := h.tb v u hv (c.sub v u ha)
    exact ⟨b, fun hc => h1 ((hbd b v h2).mp hc), h2⟩
  · intro v hv o ho ha
    rw [c.ty] at hv
    rw [c.outputs] at ho
    rw [c.frontier, c.inputs]
    rcases h.fin v hv o ho (c.sub v o ha) with h1 | ⟨h1, i, h2, h3⟩
    · exact Or.inl h1
    · refine Or.inr ⟨?_, i, h2, fun hc => h3 ((hbd i v (hw.io i (Or.inl h2))).mp hc)⟩
      rcases c.phase v with h4 | h4
      · rw [h4]; exact h1
      · exact h4
  · rintro b - ⟨v, h1, h2⟩
    exact ⟨v, c.sub b v h1, hfar v h2⟩
  · rintro b - ⟨v, w, h1, h2, h3⟩
    exact ⟨v, w, c.sub b v h1, c.sub v w h2, hfar w h3⟩

end Extract
end PyZX
