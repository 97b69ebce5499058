import Verif.Proofs.ExtTot4
import Verif.Spec.Clifford

/-!
# Circuit extraction does not get stuck: an iteration of the main loop
-/

namespace PyZX

namespace Extract

open Graph Simplify

theorem front_length {g : Graph} (h : GLike g) {fr : List ℕ} {qm : ℕ → Option ℕ} (hf : Front g fr qm) : fr.length ≤ g.outputs.length := by
  have hw := h.zx.wf
  have key : ∀ v ∈ fr, ∃ o ∈ g.outputs, g.adj v o ≠ none := fun v hv => by
    obtain ⟨-, q, o, -, h2, h3⟩ := hf.each v hv
    exact ⟨o, List.mem_of_getElem? h2, h3⟩
  choose! f hf1 hf2 using key
  have hinj : ∀ x ∈ fr, ∀ y ∈ fr, f x = f y → x = y := by
    intro x hx y hy e
    have h1 := hf2 x hx
    have h2 := hf2 y hy
    rw [e] at h1
    rw [hw.symm] at h1 h2
    exact h.zx.bdeg _ (hw.out _ (hf1 y hy)) (hw.io _ (Or.inr (hf1 y hy))) _ _ h1 h2
  have : (fr.map f).Nodup := List.Nodup.map_on hinj hf.nodup
  have h3 := List.Subperm.length_le (List.subperm_of_subset this (l₂ := g.outputs) (by
    intro o ho
    obtain ⟨v, hv, rfl⟩ := List.mem_map.mp ho
    exact hf1 v hv))
  simpa using h3

theorem cnots_total {g0 : Graph} {s : State} {ns : List ℕ} (h : FS g0 s ns) (htb : TB s.g) (hfin : FinP s.g s.frontier) {cs : List (ℕ × ℕ)}
    (hc : ∀ c ∈ cs, c.1 < s.frontier.length ∧ c.2 < s.frontier.length) :
    ∃ l g1, cnotGates s.qmap s.frontier cs = some l ∧
      (if cs = [] then some s.g else connectivity s.g (addRows (GFlow.biAdj s.g ns s.frontier) cs) ns s.frontier) = some g1 ∧
      TB g1 ∧ FinP g1 s.frontier ∧ mu g1 ≤ mu s.g ∧ (∀ w, Far s.g w → Far g1 w) ∧ g1.inputs = s.g.inputs ∧
      ∀ w, ∀ i ∈ s.g.inputs, g1.adj w i = s.g.adj w i := by
  have hgl := h.inv.gl
  have hw := hgl.zx.wf
  have hfn := h.inv.front.nodup
  have hq : ∀ f ∈ s.frontier, ∃ q, s.qmap f = some q := fun f hf => by
    obtain ⟨-, q, o, h1, h2, -⟩ := h.inv.front.each f hf
    exact ⟨q, h1⟩
  obtain ⟨l, hl⟩ := cnotGates_total hq cs hc
  by_cases hcs : cs = []
  · exact ⟨l, s.g, hl, if_pos hcs, htb, hfin, le_refl _, fun _ h => h, rfl, fun _ _ _ => rfl⟩
  have hdisj : ∀ j ∈ ns, j ∉ s.frontier := fun j hj hc => h.form.nbF j (List.mem_toFinset.mpr hj) (List.mem_toFinset.mpr hc)
  have hfo : ∀ f ∈ s.frontier, ∃ o ∈ s.g.outputs, s.g.adj f o ≠ none := fun f hf => by
    obtain ⟨-, q, o, -, h2, h3⟩ := h.inv.front.each f hf
    exact ⟨o, List.mem_of_getElem? h2, h3⟩
  obtain ⟨g1, e1⟩ := connectivity_total hw (addRows (GFlow.biAdj s.g ns s.frontier) cs) (ns := ns) (fs := s.frontier)
    (fun f hf => by obtain ⟨o, -, h2⟩ := hfo f hf; exact hw.mem _ _ h2) (fun j hj => (h.form.nbZ j (List.mem_toFinset.mpr hj)).1) hdisj
  obtain ⟨k1, -, k3⟩ := connectivity_spec hw hfn h.nodup hdisj (fun f hf j hj =>
    h.form.had f (List.mem_toFinset.mpr hf) j (List.mem_toFinset.mpr hj)) e1
  have hsame : ∀ a b, ¬ (a ∈ s.frontier ∧ b ∈ ns) → ¬ (a ∈ ns ∧ b ∈ s.frontier) → g1.adj a b = s.g.adj a b := by
    intro a b h1 h2
    refine k3 a b fun i hi j hj hsp => ?_
    rcases hsp with ⟨c1, c2⟩ | ⟨c1, c2⟩ <;> simp only at c1 c2
    · exact h1 ⟨by rw [c1]; exact getD_mem hi, by rw [c2]; exact getD_mem hj⟩
    · exact h2 ⟨by rw [c1]; exact getD_mem hj, by rw [c2]; exact getD_mem hi⟩
  have hnZ : ∀ j ∈ ns, s.g.ty j = .Z := fun j hj => (h.form.nbZ j (List.mem_toFinset.mpr hj)).2
  have hfZ : ∀ f ∈ s.frontier, s.g.ty f = .Z := fun f hf => (h.inv.front.each f hf).1
  have hbnd : ∀ b, s.g.ty b = .boundary → ∀ u, g1.adj u b = s.g.adj u b := fun b hb u => by
    refine hsame u b (fun hc => ?_) (fun hc => ?_)
    · rw [hnZ b hc.2] at hb; simp at hb
    · rw [hfZ b hc.2] at hb; simp at hb
  have hbo : ∀ o ∈ s.g.outputs, s.g.ty o = .boundary := fun o ho => hw.io o (Or.inr ho)
  have hbi : ∀ i ∈ s.g.inputs, s.g.ty i = .boundary := fun i hi => hw.io i (Or.inl hi)
  have hfar : ∀ w, Far s.g w → Far g1 w := by
    rintro w ⟨h1, h2⟩
    refine ⟨by rw [k1.ty]; exact h1, fun o ho => ?_⟩
    rw [k1.outputs] at ho
    rw [hbnd o (hbo o ho)]; exact h2 o ho
  have hfar' : ∀ w, Far g1 w → Far s.g w := by
    rintro w ⟨h1, h2⟩
    refine ⟨by rw [← k1.ty]; exact h1, fun o ho => ?_⟩
    rw [← hbnd o (hbo o ho)]; exact h2 o (by rw [k1.outputs]; exact ho)
  -- the frontier has no inputs
  have hfi : ∀ f ∈ s.frontier, ∀ i ∈ s.g.inputs, s.g.adj f i = none := by
    intro f hf i hi
    by_contra hc
    rcases h.form.nb f (List.mem_toFinset.mpr hf) i hc with h1 | h1
    · obtain ⟨-, q, o, h2, h3, -⟩ := h.inv.front.each f hf
      rw [outOf_eq h2 h3] at h1
      subst h1
      exact hgl.io.disj _ hi (List.mem_of_getElem? h3)
    · have := hbi i hi
      rw [hnZ i (List.mem_toFinset.mp h1)] at this; simp at this
  refine ⟨l, g1, hl, by rw [if_neg hcs]; exact e1, ?_, ?_, ?_, hfar, k1.inputs, fun w i hi => hbnd i (hbi i hi) w⟩
  · intro v u hv hu
    rw [k1.ty] at hv
    suffices hs : ∃ b, s.g.adj v b ≠ none ∧ s.g.ty b = .boundary by
      obtain ⟨b, b1, b2⟩ := hs
      exact ⟨b, by rw [hbnd b b2]; exact b1, by rw [k1.ty]; exact b2⟩
    by_cases c1 : v ∈ s.frontier
    · obtain ⟨o, h1, h2⟩ := hfo v c1
      exact ⟨o, h2, hbo o h1⟩
    by_cases c2 : v ∈ ns
    · obtain ⟨f, h1, h2⟩ := h.touch v c2
      exact htb v f hv (by rw [hw.symm]; exact h2)
    · exact htb v u hv (by rw [← hsame v u (fun c => c1 c.1) (fun c => c2 c.1)]; exact hu)
  · intro v hv o ho ha
    rw [k1.ty] at hv
    rw [k1.outputs] at ho
    rw [hbnd o (hbo o ho)] at ha
    rcases hfin v hv o ho ha with h1 | ⟨h1, i, h2, h3⟩
    · exact Or.inl h1
    · exact Or.inr ⟨by rw [k1.phase]; exact h1, i, by rw [k1.inputs]; exact h2, by rw [hbnd i (hbi i h2)]; exact h3⟩
  · refine mu_le k1.inputs (fun b hb => ?_) fun b hb => ?_
    · rintro ⟨v, h1, h2⟩
      exact ⟨v, by rw [hw.symm, ← hbnd b (hbi b hb), k1.wf.symm]; exact h1, hfar' v h2⟩
    · rintro ⟨v, w, h1, h2, h3⟩
      have h1' : s.g.adj b v ≠ none := by rw [hw.symm, ← hbnd b (hbi b hb), k1.wf.symm]; exact h1
      have hvf : v ∉ s.frontier := fun hc => h1' (by rw [hw.symm]; exact hfi v hc b hb)
      have h3' := hfar' w h3
      refine ⟨v, w, h1', ?_, h3'⟩
      rw [← hsame v w (fun c => hvf c.1) (fun c => ?_)]
      · exact h2
      · obtain ⟨o, h4, h5⟩ := hfo w c.2
        exact h5 (h3'.2 o h4)

theorem FM.indep {g0 : Graph} {s : State} {ns : List ℕ} {m : Mat2.Data} (h : FM g0 s ns m) (hn : ns.Nodup) {T : ℕ → Bool}
    (hT : ∀ j < ns.length, ∏ i ∈ Finset.range s.frontier.length, (if T i then bsgn (Mat2.get m i j) else 1) = 1) :
    ∀ i < s.frontier.length, T i = false := by
  refine rows_indep h.inv.gl.zx.wf h.inv.gl.io h.inv.onto h.inv.front.nodup hn h.form (fun f hf => ?_) (T := T) fun j hj => ?_
  · obtain ⟨-, q, o, h1, h2, -⟩ := h.inv.front.each f hf
    exact ⟨q, o, h1, h2⟩
  · refine Eq.trans (Finset.prod_congr rfl fun i hi => ?_) (hT j hj)
    have hi := Finset.mem_range.mp hi
    rw [get_biAdj _ _ _ hi hj, h.inv.gl.zx.wf.symm, h.conn i hi j hj]
    cases Mat2.get m i j <;> simp

theorem two_rows {k i i' : ℕ} (hi : i < k) (hi' : i' < k) (hne : i ≠ i') (f : ℕ → ℂ) :
    ∏ x ∈ Finset.range k, (if decide (x = i ∨ x = i') then f x else 1) = f i * f i' := by
  have h1 : ∏ x ∈ Finset.range k, (if decide (x = i ∨ x = i') then f x else 1) = ∏ x ∈ ({i, i'} : Finset ℕ), f x := by
    rw [← Finset.prod_filter]
    congr 1
    ext x
    simp only [Finset.mem_filter, Finset.mem_range, decide_eq_true_eq, Finset.mem_insert, Finset.mem_singleton]
    constructor
    · exact fun h => h.2
    · rintro (rfl | rfl)
      · exact ⟨hi, Or.inl rfl⟩
      · exact ⟨hi', Or.inr rfl⟩
  rw [h1, Finset.prod_pair hne]

theorem good_nodup2 {g0 : Graph} {s : State} {ns : List ℕ} {m : Mat2.Data} (h : FM g0 s ns m) (hn : ns.Nodup) :
    ((goodVerts m s.frontier ns).map (·.2)).Nodup := by
  have h1 : (goodVerts m s.frontier ns).Nodup := List.Nodup.of_map _ (goodVerts_nodup h.rect.1 h.inv.front.nodup)
  refine List.Nodup.map_on ?_ h1
  intro p hp p' hp' hpp
  obtain ⟨i, j, hi, hj, rfl, hij⟩ := goodVerts_spec h.rect hp
  obtain ⟨i', j', hi', hj', rfl, hij'⟩ := goodVerts_spec h.rect hp'
  have hjj := getD_inj hn hj hj' hpp
  subst hjj
  by_cases hc : i = i'
  · rw [hc]
  exfalso
  have := h.indep hn (T := fun x => decide (x = i ∨ x = i')) (fun j1 hj1 => by
    rw [two_rows hi hi' hc fun x => bsgn (Mat2.get m x j1), hij j1 hj1, hij' j1 hj1]
    cases decide (j1 = j) <;> simp [bsgn]) i hi
  simp at this

theorem goodVerts_ne {m : Mat2.Data} {fs ns : List ℕ} (h : ∃ row ∈ m, row.count true = 1) : goodVerts m fs ns ≠ [] := by
  obtain ⟨row, h1, h2⟩ := h
  obtain ⟨i, hi, rfl⟩ := List.getElem_of_mem h1
  unfold goodVerts
  intro hc
  rw [List.map_eq_nil_iff, List.filter_eq_nil_iff] at hc
  exact hc (m[i], i) (List.mem_zipIdx_iff_getElem?.mpr (List.getElem?_eq_getElem hi)) (by simpa using h2)

theorem applyCnots_total {o : Orders} (ho : o.OK) {g0 : Graph} {s : State} {ns : List ℕ} (h : FS g0 s ns) (hgad : s.gadgets = ∅) (htb : TB s.g)
    (hfin : FinP s.g s.frontier) (hfar : ∀ w ∈ ns, Far s.g w ∧ ∃ i ∈ s.g.inputs, s.g.adj w i ≠ none) {cs : List (ℕ × ℕ)}
    (hc : ∀ c ∈ cs, c.1 < s.frontier.length ∧ c.2 < s.frontier.length ∧ c.1 ≠ c.2)
    (hrow : ∃ row ∈ addRows (GFlow.biAdj s.g ns s.frontier) cs, row.count true = 1) :
    ∃ s', applyCnots o s cs (GFlow.biAdj s.g ns s.frontier) ns = some s' ∧ TI g0 s' ∧ mu s'.g < mu s.g := by
  obtain ⟨l, g1, hl, e1, t1, t2, t3, t4, t5, t6⟩ := cnots_total h htb hfin (cs := cs) fun c hcc => ⟨(hc c hcc).1, (hc c hcc).2.1⟩
  have hM := cnots_spec h (fun c hcc => (hc c hcc).2.2) hl e1
  have hg := goodVerts_ne (fs := s.frontier) (ns := ns) hrow
  have hX : XT g0 { s with g := g1, gates := s.gates ++ l } (goodVerts (addRows (GFlow.biAdj s.g ns s.frontier) cs) s.frontier ns) := by
    refine ⟨good_ei hM, hgad, t1, t2, fun p hp => ?_, good_nodup2 (s := { s with g := g1, gates := s.gates ++ l }) hM h.nodup⟩
    obtain ⟨i, j, hi, hj, rfl, -⟩ := goodVerts_spec hM.rect hp
    obtain ⟨f1, i1, f2, f3⟩ := hfar _ (getD_mem hj)
    refine ⟨t4 _ f1, i1, ?_, ?_⟩
    · show i1 ∈ g1.inputs
      rw [t5]; exact f2
    · show g1.adj (ns.getD j 0) i1 ≠ none
      rw [t6 _ i1 f2]; exact f3
  obtain ⟨s', e2, t7, -, t8⟩ := extractVerts_total ho _ hX
  refine ⟨s', ?_, t7, lt_of_lt_of_le (t8 hg) t3⟩
  unfold applyCnots
  rw [hl, Option.bind_some, e1, Option.bind_some]
  simp only
  rw [if_neg hg]
  exact e2

theorem removeGadget_none (o : Orders) {s : State} (h : s.gadgets = ∅) (set : Finset ℕ) : removeGadget o s set = some (s, false) := by
  unfold removeGadget
  generalize o.lst set = l
  induction l with
  | nil => rfl
  | cons w l ih =>
    rw [List.foldlM_cons]
    have : gadgetStep o (s, false) w = some (s, false) := by
      unfold gadgetStep
      rw [if_neg (by rw [h]; simp)]
    rw [this]
    exact ih

theorem iteration_total {o : Orders} (ho : o.OK) {choose : ℕ → Mat2.Data → Option (List (ℕ × ℕ))} {g0 : Graph}
    (hch : ChooseGood g0.outputs.length choose) (t : ℕ) (hlen : g0.inputs.length = g0.outputs.length) {opt : Bool} {fuel : ℕ} {s : State} (hs : TI g0 s) (hn : opt = true → g0.outputs ≠ [])
    (hf : g0.outputs.length * g0.outputs.length < fuel) :
    ∃ r, iteration o (choose t) opt fuel s = .ok r ∧ TI g0 r.1 ∧ (r.2 = true → r.1.frontier = []) ∧ (r.2 = false → mu r.1.g < mu s.g) := by
  obtain ⟨s1, e1, c1⟩ := cleanFrontier_total ho hs.inv (opt := opt) (fuel := fuel) (by rw [hs.inv.outputs]; exact hn) (by rw [hs.inv.outputs]; exact hf)
  obtain ⟨k1, k2, k3, k4⟩ := cleanFrontier_spec ho hs.inv e1
  obtain ⟨ht1, hm1⟩ := CleanedF.ti hs k1 c1
  obtain ⟨p, e2, p1, p2, p3⟩ := neighborsOfFrontier_total ho ht1 k3 k4
  have hN := neighborsOfFrontier_spec ho k1 k3 k4 e2
  have hsub := neighbors_sub _ e2
  simp only at hsub
  have hT2 : TI g0 { s1 with g := p.g, frontier := p.frontier } := ⟨hN.inv, ht1.gads, p1, p2⟩
  unfold iteration
  rw [e1]
  simp only [Out.bind]
  rw [e2]
  simp only [ofOption]
  by_cases hfr : p.frontier = []
  · rw [if_pos hfr]
    exact ⟨_, rfl, hT2, fun _ => hfr, fun h => by simp at h⟩
  rw [if_neg hfr, removeGadget_none o (by exact ht1.gads)]
  simp only [Bool.false_eq_true, if_false]
  have hFS := hN.fs hsub (ho.lst p.set).1 (ho.lst p.set).2 (fun w _ hc => by rw [ht1.gads] at hc; simp at hc)
  have hmem : ∀ j, j ∈ o.lst p.set ↔ j ∈ p.set := fun j => by rw [← List.mem_toFinset, (ho.lst p.set).2]
  have hw := hN.inv.gl.zx.wf
  simp only at hw
  have hfar : ∀ w ∈ o.lst p.set, Far p.g w ∧ ∃ i ∈ p.g.inputs, p.g.adj w i ≠ none := by
    intro w hwm
    obtain ⟨a1, a2, v, a3, a4⟩ := hN.set w ((hmem w).mp hwm)
    have hF : Far p.g w := hN.inv.far (v := v) a3 a2 a1 a4
    refine ⟨hF, ?_⟩
    obtain ⟨b, b1, b2⟩ := p1 w v a1 (by rw [hw.symm]; exact a4)
    rcases hN.inv.gl.io.all b (hw.toInv.mem' b1) b2 with b3 | b3
    · exact ⟨b, b3, b1⟩
    · exact absurd (hF.2 b b3) b1
  have hlen' : p.g.inputs.length = p.g.outputs.length := by
    have h1 := hN.inv.ext.inputs
    have h2 := hN.inv.ext.outputs
    simp only at h1 h2
    rw [h1, h2, hlen]
  have hcount : (o.lst p.set).length ≤ p.frontier.length := count_far hN.inv.gl p2 hlen' hN.inv.front.nodup (ho.lst p.set).1
    (fun w hwm => (hfar w hwm).1) fun w hwm => (hfar w hwm).2
  have hrect : Mat2.Rect p.frontier.length (o.lst p.set).length (GFlow.biAdj p.g (o.lst p.set) p.frontier) := biAdj_rect _ _ _
  obtain ⟨hsq, hunit⟩ := mat_unit (m := GFlow.biAdj p.g (o.lst p.set) p.frontier) hcount fun T hT =>
    rows_indep hw hN.inv.gl.io hN.inv.onto hN.inv.front.nodup (ho.lst p.set).1 hFS.form (fun f hf => by
      obtain ⟨-, q, o, h1, h2, -⟩ := hN.inv.front.each f hf
      exact ⟨q, o, h1, h2⟩) hT
  rw [hsq] at hrect
  obtain ⟨cs, e3, c2, c3⟩ : ∃ cs, (if ∀ row ∈ GFlow.biAdj p.g (o.lst p.set) p.frontier, row.count true ≠ 1
      then choose t (GFlow.biAdj p.g (o.lst p.set) p.frontier) else some []) = some cs ∧
      (∀ c ∈ cs, c.1 < p.frontier.length ∧ c.2 < p.frontier.length ∧ c.1 ≠ c.2) ∧
      ∃ row ∈ addRows (GFlow.biAdj p.g (o.lst p.set) p.frontier) cs, row.count true = 1 := by
    by_cases c : ∀ row ∈ GFlow.biAdj p.g (o.lst p.set) p.frontier, row.count true ≠ 1
    · rw [if_pos c]
      have hle := front_length hN.inv.gl hN.inv.front
      have h2 := hN.inv.ext.outputs
      simp only at hle h2
      rw [h2] at hle
      exact hch t _ _ (List.length_pos_iff.mpr hfr) hle hrect hunit c
    · rw [if_neg c]
      refine ⟨[], rfl, by simp, ?_⟩
      push Not at c
      exact c
  rw [e3]
  simp only
  obtain ⟨s3, e4, t4, m4⟩ := applyCnots_total ho hFS ht1.gads p1 p2 hfar c2 c3
  simp only at e4
  rw [e4]
  exact ⟨_, rfl, t4, fun h => by simp at h, fun _ => by
    have m4 : mu s3.g < mu p.g := m4
    show mu s3.g < mu s.g
    omega⟩

open Classical in
theorem mu_bound (g : Graph) : mu g ≤ 3 * g.inputs.length := by
  unfold mu
  refine le_trans (Nat.add_le_add (Finset.card_filter_le _ _) (Nat.mul_le_mul_left 2 (Finset.card_filter_le _ _))) ?_
  have := List.toFinset_card_le g.inputs
  omega

theorem mainLoop_total {ω : ℕ → Orders} (hω : ∀ t, (ω t).OK) {choose : ℕ → Mat2.Data → Option (List (ℕ × ℕ))} {g0 : Graph}
    (hch : ChooseGood g0.outputs.length choose) (hlen : g0.inputs.length = g0.outputs.length) {opt : Bool} {fuel : ℕ} (hn : opt = true → g0.outputs ≠ [])
    (hf : g0.outputs.length * g0.outputs.length < fuel) : ∀ (n t : ℕ) {s : State}, TI g0 s → mu s.g < n →
    ∃ r, mainLoop ω choose opt fuel n t s = .ok r ∧ TI g0 r.1 ∧ r.1.frontier = [] := by
  intro n
  induction n with
  | zero => intro t s _ h; omega
  | succ n ih =>
    intro t s hs hm
    obtain ⟨r, e, h1, h2, h3⟩ := iteration_total (hω t) hch t hlen hs hn hf
    rw [mainLoop, e]
    simp only [Out.bind]
    by_cases hr : r.2 = true
    · rw [if_pos hr]
      exact ⟨_, rfl, h1, h2 hr⟩
    · rw [if_neg hr]
      exact ih (t + 1) h1 (by have := h3 (by simpa using hr); omega)

end Extract
end PyZX
