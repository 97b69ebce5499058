import Verif.Proofs.ExtTot

/-!
# Circuit extraction does not get stuck: `neighbors_of_frontier`
-/

namespace PyZX
namespace Extract

open Finset Graph Simplify

theorem addEdge_total {g : Graph} {s t : ℕ} (e : EType) (hs : s ∈ g.verts) (ht : t ∈ g.verts) (hn : g.adj s t = none) :
    g.addEdge s t e = some { g.setAdj s t (some e) with nedges := g.nedges + 1 } := by
  unfold addEdge
  rw [if_neg (by simpa using hs), hn]
  simp only
  rw [if_neg (by simpa using ht)]

/-- The operations that put a new vertex between a vertex and an input succeed. -/
theorem split_total {g : Graph} (hg : g.WF) {v b : ℕ} {et : EType} (he : g.adj v b = some et) :
    ∃ g1 g2 g3, (g.addVertex .Z 0).removeEdge v b = some g1 ∧ g1.addEdge v g.vindex .had = some g2 ∧
      g2.addEdge g.vindex b et.toggle = some g3 := by
  obtain ⟨f1, f2, f3, f4, f5, f6, f7, f8, f9, f10⟩ := addVertex_fields g .Z 0
  have hfr := hg.toInv.notMem_vindex
  have hvb : g.adj v b ≠ none := by rw [he]; simp
  have hvm := hg.mem _ _ hvb
  have hbm := hg.toInv.mem' hvb
  have hv : v ≠ g.vindex := fun e => hfr (e ▸ hvm)
  have hb : b ≠ g.vindex := fun e => hfr (e ▸ hbm)
  have hvb' : v ≠ b := by rintro rfl; exact hvb (hg.loopless _)
  have a0 : (g.addVertex .Z 0).adj = g.adj := hg.toInv.addVertex_adj .Z 0
  have hnv : ∀ a, g.adj a g.vindex = none := fun a => by
    by_contra hc; exact hfr (hg.toInv.mem' hc)
  have hnv' : ∀ a, g.adj g.vindex a = none := fun a => by rw [hg.symm]; exact hnv a
  obtain ⟨g1, e1⟩ : ∃ g1, (g.addVertex .Z 0).removeEdge v b = some g1 := by
    unfold removeEdge
    rw [a0, if_neg (by tauto)]
    exact ⟨_, rfl⟩
  obtain ⟨-, -, r1⟩ := removeEdge_eq e1
  have v1 : g1.verts = insert g.vindex g.verts := by rw [r1]; exact f1
  have a1 : ∀ a c, g1.adj a c = if (a = v ∧ c = b) ∨ (a = b ∧ c = v) then none else g.adj a c := by
    intro a c
    rw [r1]
    show (if (a = v ∧ c = b) ∨ (a = b ∧ c = v) then none else (g.addVertex .Z 0).adj a c) = _
    rw [a0]
  have e2 := addEdge_total (g := g1) (s := v) (t := g.vindex) .had (by rw [v1]; simp [hvm]) (by rw [v1]; simp) (by
    rw [a1, if_neg (by rintro (⟨-, h⟩ | ⟨-, h⟩); exacts [hb h.symm, hv h.symm])]; exact hnv _)
  refine ⟨g1, _, _, e1, e2, addEdge_total et.toggle ?_ ?_ ?_⟩
  · show g.vindex ∈ g1.verts
    rw [v1]; simp
  · show b ∈ g1.verts
    rw [v1]; simp [hbm]
  · show (g1.setAdj v g.vindex (some .had)).adj g.vindex b = none
    simp only [Graph.setAdj]
    rw [if_neg (by rintro (⟨h, -⟩ | ⟨-, h⟩); exacts [hv h.symm, hvb' h.symm]), a1,
      if_neg (by rintro (⟨h, -⟩ | ⟨h, -⟩); exacts [hv h.symm, hb h.symm])]
    exact hnv' _

/-- A spider next to the frontier that is not on it is not next to an output. -/
theorem LoopInv.far {g0 : Graph} {s : State} (h : LoopInv g0 s) {v u : ℕ} (hv : v ∈ s.frontier) (hu : u ∉ s.frontier) (ht : s.g.ty u = .Z)
    (ha : s.g.adj v u ≠ none) : Far s.g u := by
  refine ⟨ht, fun o ho => ?_⟩
  by_contra hc
  rcases h.front.cover u ht o ho hc with h1 | h1
  · exact hu h1
  · have := h1 v (by rw [h.gl.zx.wf.symm]; exact ha)
    rw [(h.front.each v hv).1] at this; simp at this

theorem nbrStep_total {o : Orders} (ho : o.OK) {g0 : Graph} {s : State} {pr : List ℕ} {p : NbrState} (h : NI g0 s pr p) {v : ℕ}
    (hv : v ∈ s.frontier) (hpr : v ∉ pr) (tb : TB p.g) (fin : FinP p.g p.frontier) :
    ∃ p', nbrStep o p v = some p' ∧ TB p'.g ∧ FinP p'.g p'.frontier ∧ mu p'.g ≤ mu p.g := by
  have hvf := h.todo v hv hpr
  have hgl := h.inv.gl
  have hw := hgl.zx.wf
  have hio := hgl.io
  obtain ⟨hz, q, b0, hq, hb0, hvb0⟩ := h.inv.front.each v hvf
  simp only at hgl hw hio hz hb0 hvb0
  have hvm : v ∈ p.g.verts := hw.mem _ _ hvb0
  have hb0o : b0 ∈ p.g.outputs := List.mem_of_getElem? hb0
  unfold nbrStep
  simp only
  obtain ⟨d, hd⟩ : ∃ d, d = (o.nbr p.g v).filter (· ∉ p.g.outputs) := ⟨_, rfl⟩
  rw [← hd]
  have hdn : d.Nodup := by rw [hd]; exact (ho.nbr p.g v hvm).1.filter _
  have hdm : ∀ u, u ∈ d ↔ p.g.adj v u ≠ none ∧ u ∉ p.g.outputs := by
    intro u
    rw [hd, List.mem_filter, decide_eq_true_eq, ← List.mem_toFinset, (ho.nbr p.g v hvm).2, mem_nbrs hw.toInv]
  rcases hi : d.filter (· ∈ p.g.inputs) with _ | ⟨b, t⟩
  · exact ⟨_, rfl, tb, fin, le_refl _⟩
  simp only
  have hb : b ∈ d.filter (· ∈ p.g.inputs) := by rw [hi]; simp
  obtain ⟨hbd, hbi⟩ := List.mem_filter.mp hb
  rw [decide_eq_true_eq] at hbi
  obtain ⟨hvb, hbo⟩ := (hdm b).mp hbd
  have hbt : p.g.ty b = .boundary := hw.io b (Or.inl hbi)
  by_cases hlen : d.length = 1
  · rw [if_pos hlen]
    refine ⟨_, rfl, tb, ?_, le_refl _⟩
    intro u hu o1 ho1 ha
    show u ∈ p.frontier.erase v ∨ _
    by_cases huv : u = v
    · subst huv
      exact Or.inr ⟨(h.clean u hvf).1, b, hbi, hvb⟩
    · rcases fin u hu o1 ho1 ha with h1 | h1
      · exact Or.inl ((h.inv.front.nodup.mem_erase_iff).mpr ⟨huv, h1⟩)
      · exact Or.inr h1
  rw [if_neg hlen]
  obtain ⟨et, he⟩ := Option.ne_none_iff_exists'.mp hvb
  obtain ⟨g1, g2, g3, e1, e2, e3⟩ := split_total hw he
  have hsp := split_of_ops hw he e1 e2 e3
  rw [he, Option.bind_some, e1, Option.bind_some, e2, Option.bind_some, e3]
  refine ⟨_, rfl, ?_⟩
  simp only
  generalize hwd : p.g.vindex = w at *
  have hbm : b ∈ p.g.verts := hw.toInv.mem' hvb
  have hvw : v ≠ w := by rintro rfl; exact hsp.fresh hvm
  have hbw : b ≠ w := by rintro rfl; exact hsp.fresh hbm
  have hvb' : v ≠ b := by rintro rfl; rw [hbt] at hz; simp at hz
  have hty : ∀ u ∈ p.g.verts, g3.ty u = p.g.ty u := fun u hu => by
    rw [hsp.ty, Function.update_of_ne]; rintro rfl; exact hsp.fresh hu
  have hsame : ∀ a c, a ≠ v → a ≠ b → a ≠ w → g3.adj a c = p.g.adj a c := by
    intro a c h1 h2 h3
    rw [hsp.adj, if_neg (by tauto), if_neg (by tauto), if_neg (by tauto)]
  have hout : ∀ a, ∀ o1 ∈ p.g.outputs, g3.adj a o1 = p.g.adj a o1 := by
    intro a o1 ho1
    have n1 : o1 ≠ b := by rintro rfl; exact hbo ho1
    have n2 : o1 ≠ w := by rintro rfl; exact hsp.fresh (hw.out _ ho1)
    have n3 : o1 ≠ v := by rintro rfl; rw [hw.io _ (Or.inr ho1)] at hz; simp at hz
    rw [hsp.wf.symm, hw.symm]
    exact hsame o1 a n3 n1 n2
  have hnw : ∀ a, p.g.adj a w = none := fun a => by
    by_contra hc; exact hsp.fresh (hw.toInv.mem' hc)
  have hfar : ∀ x ∈ p.g.verts, Far g3 x → Far p.g x := by
    rintro x hx ⟨h1, h2⟩
    rw [hty x hx] at h1
    rw [hsp.outputs] at h2
    exact ⟨h1, fun o1 ho1 => by rw [← hout x o1 ho1]; exact h2 o1 ho1⟩
  have hwb : g3.adj w b ≠ none := by
    rw [hsp.adj, if_neg (by tauto), if_neg (by tauto), if_pos (Or.inl ⟨rfl, rfl⟩)]; simp
  -- the only neighbour of the input
  have hbonly : ∀ x, g3.adj b x ≠ none → x = w := by
    intro x hx
    by_contra hc
    rw [hsp.adj] at hx
    by_cases c1 : x = v
    · rw [if_pos (Or.inr ⟨rfl, c1⟩)] at hx; exact hx rfl
    · rw [if_neg (by tauto), if_neg (by tauto), if_neg (by tauto)] at hx
      exact c1 (hgl.zx.bdeg b hbm hbt x v hx (by rw [hw.symm]; exact hvb))
  have hwonly : ∀ x, g3.adj w x ≠ none → x = v ∨ x = b := by
    intro x hx
    by_contra hc
    rw [hsp.adj, if_neg (by tauto), if_neg (by tauto), if_neg (by tauto), hw.symm, hnw] at hx
    exact hx rfl
  have hb3 : g3.ty b = .boundary := by rw [hty b hbm]; exact hbt
  -- another neighbour
  obtain ⟨u, hud, hub⟩ : ∃ u ∈ d, u ≠ b := by
    by_contra hc
    push Not at hc
    refine hlen ?_
    have : d.toFinset = {b} := by
      ext x
      rw [List.mem_toFinset, Finset.mem_singleton]
      exact ⟨hc x, fun e => e ▸ hbd⟩
    rw [← List.toFinset_card_of_nodup hdn, this]; simp
  obtain ⟨hvu, huo⟩ := (hdm u).mp hud
  have huZ : p.g.ty u = .Z := by
    rcases hgl.tys u (hw.toInv.mem' hvu) with h3 | h3
    · rcases hio.all u (hw.toInv.mem' hvu) h3 with h4 | h4
      · exact absurd (hgl.in1 v u b h4 hbi hvu hvb) hub
      · exact absurd h4 huo
    · exact h3
  have huf : u ∉ p.frontier := fun hc => hvu (h.ff v hvf u hc)
  have hufar : Far p.g u := h.inv.far (s := { s with g := p.g, frontier := p.frontier }) hvf huf huZ hvu
  refine ⟨?_, ?_, mu_le_swap hsp.inputs hbi ?_ ?_ ?_ ?_⟩
  · intro x y hx hxy
    by_cases c1 : x = w
    · subst c1; exact ⟨b, hwb, hb3⟩
    by_cases c2 : x = v
    · subst c2
      refine ⟨b0, by rw [hout x b0 hb0o]; exact hvb0, ?_⟩
      rw [hty b0 (hw.out _ hb0o)]; exact hw.io b0 (Or.inr hb0o)
    have hxm : x ∈ p.g.verts := by
      have := hsp.wf.mem _ _ hxy
      rw [hsp.verts] at this
      exact (Finset.mem_insert.mp this).resolve_left c1
    by_cases c3 : x = b
    · subst c3; rw [hb3] at hx; simp at hx
    rw [hty x hxm] at hx
    rw [hsame x y c2 c3 c1] at hxy
    obtain ⟨b', h1, h2⟩ := tb x y hx hxy
    exact ⟨b', by rw [hsame x b' c2 c3 c1]; exact h1, by rw [hty b' (hw.toInv.mem' h1)]; exact h2⟩
  · intro x hx o1 ho1 ha
    rw [hsp.outputs] at ho1
    rw [hout x o1 ho1] at ha
    have hxm := hw.mem _ _ ha
    have c1 : x ≠ w := by rintro rfl; exact hsp.fresh hxm
    rw [hty x hxm] at hx
    rcases fin x hx o1 ho1 ha with h1 | ⟨h1, i, h2, h3⟩
    · exact Or.inl h1
    · by_cases c2 : x = v
      · exact Or.inl (c2 ▸ hvf)
      · have c3 : x ≠ b := by rintro rfl; rw [hbt] at hx; simp at hx
        refine Or.inr ⟨by rw [hsp.phase, Function.update_of_ne c1]; exact h1, i, by rw [hsp.inputs]; exact h2, by rw [hsame x i c2 c3 c1]; exact h3⟩
  · rintro b' hb' hne ⟨x, h1, h2⟩
    have hbt' := hw.io b' (Or.inl hb')
    rw [hsame b' x (by rintro rfl; rw [hz] at hbt'; simp at hbt') hne (by rintro rfl; exact hsp.fresh (hw.inp _ hb'))] at h1
    exact ⟨x, h1, hfar x (hw.toInv.mem' h1) h2⟩
  · rintro b' hb' ⟨x, y, h1, h2, h3⟩
    by_cases hne : b' = b
    · subst hne
      exfalso
      obtain rfl := hbonly x h1
      rcases hwonly y h2 with rfl | rfl
      · exact absurd (h3.2 b0 (by rw [hsp.outputs]; exact hb0o)) (by rw [hout y b0 hb0o]; exact hvb0)
      · rw [h3.1] at hb3; simp at hb3
    · have hbt' := hw.io b' (Or.inl hb')
      rw [hsame b' x (by rintro rfl; rw [hz] at hbt'; simp at hbt') hne (by rintro rfl; exact hsp.fresh (hw.inp _ hb'))] at h1
      have hxm := hw.toInv.mem' h1
      have c1 : x ≠ v := by
        rintro rfl
        exact hne (hgl.in1 x b' b hb' hbi (by rw [hw.symm]; exact h1) hvb)
      have c2 : x ≠ w := by rintro rfl; exact hsp.fresh hxm
      have c3 : x ≠ b := by
        rintro rfl
        have := hgl.zx.bdeg x hbm hbt b' v (by rw [hw.symm]; exact h1) (by rw [hw.symm]; exact hvb)
        rw [this, hz] at hbt'; simp at hbt'
      rw [hsame x y c1 c3 c2] at h2
      exact ⟨x, y, h1, h2, hfar y (hw.toInv.mem' h2) h3⟩
  · exact ⟨v, u, by rw [hw.symm]; exact hvb, hvu, hufar⟩
  · rintro ⟨x, y, h1, h2, h3⟩
    obtain rfl := hbonly x h1
    rcases hwonly y h2 with rfl | rfl
    · exact absurd (h3.2 b0 (by rw [hsp.outputs]; exact hb0o)) (by rw [hout y b0 hb0o]; exact hvb0)
    · rw [h3.1] at hb3; simp at hb3

theorem neighborsOfFrontier_total {o : Orders} (ho : o.OK) {g0 : Graph} {s : State} (hs : TI g0 s) (hcl : Clean s.g s.frontier)
    (hff : ∀ v ∈ s.frontier, ∀ w ∈ s.frontier, s.g.adj v w = none) :
    ∃ p, neighborsOfFrontier o s.g s.frontier = some p ∧ TB p.g ∧ FinP p.g p.frontier ∧ mu p.g ≤ mu s.g := by
  have key : ∀ (l pr : List ℕ) {p : NbrState}, NI g0 s pr p → (∀ v ∈ l, v ∈ s.frontier ∧ v ∉ pr) → l.Nodup → TB p.g → FinP p.g p.frontier →
      ∃ p', l.foldlM (nbrStep o) p = some p' ∧ TB p'.g ∧ FinP p'.g p'.frontier ∧ mu p'.g ≤ mu p.g := by
    intro l
    induction l with
    | nil => exact fun pr p _ _ _ h1 h2 => ⟨_, rfl, h1, h2, le_refl _⟩
    | cons v l ih =>
      intro pr p h hl hn h1 h2
      obtain ⟨n1, n2⟩ := List.nodup_cons.mp hn
      obtain ⟨p1, e1, t1, f1, m1⟩ := nbrStep_total ho h (hl v (by simp)).1 (hl v (by simp)).2 h1 h2
      have k1 := nbrStep_spec ho h (hl v (by simp)).1 (hl v (by simp)).2 e1
      obtain ⟨p2, e2, t2, f2, m2⟩ := ih (v :: pr) k1 (fun u hu => ⟨(hl u (by simp [hu])).1, fun hc => by
        rcases List.mem_cons.mp hc with rfl | hc
        · exact n1 hu
        · exact (hl u (by simp [hu])).2 hc⟩) n2 t1 f1
      exact ⟨p2, by rw [List.foldlM_cons, e1]; exact e2, t2, f2, m2.trans m1⟩
  exact key s.frontier [] ⟨hs.inv, hcl, hff, fun _ h _ => h, fun _ _ h => by simp at h, fun _ h => by simp at h⟩ (fun v hv => ⟨hv, by simp⟩)
    hs.inv.front.nodup hs.tb hs.fin

end Extract
end PyZX
