import Verif.Proofs.ExtSem

/-!
# Splitting gates off the outputs of a diagram: changing vertices
-/

namespace PyZX

open Finset

namespace Graph

/-- `g'` is `g` with a phase-free spider `w` put on the edge between `v` and the boundary vertex `b`, whose type is `e`. -/
structure Split (g g' : Graph) (v b w : ℕ) (e : EType) : Prop where
  wf : g'.WF
  fresh : w ∉ g.verts
  verts : g'.verts = insert w g.verts
  ty : g'.ty = Function.update g.ty w .Z
  phase : g'.phase = Function.update g.phase w 0
  label : g'.label = Function.update g.label w 1
  scalar : g'.scalar = g.scalar
  inputs : g'.inputs = g.inputs
  outputs : g'.outputs = g.outputs
  adj : ∀ a c, g'.adj a c = if (a = v ∧ c = b) ∨ (a = b ∧ c = v) then none
    else if (a = v ∧ c = w) ∨ (a = w ∧ c = v) then some .had
    else if (a = w ∧ c = b) ∨ (a = b ∧ c = w) then some e.toggle else g.adj a c

theorem addEdge_new2 {g g' : Graph} {s t : ℕ} {e : EType} (h : g.addEdge s t e = some g') (hn : g.adj s t = none) :
    t ∈ g.verts ∧ g' = { g.setAdj s t (some e) with nedges := g.nedges + 1 } := by
  obtain ⟨-, ⟨-, h1, h2⟩ | ⟨e1, h1, -⟩⟩ := addEdge_cases h
  · exact ⟨h1, h2⟩
  · rw [hn] at h1; simp at h1

theorem toggle_ne_wio (e : EType) : e.toggle ≠ .wio := by
  unfold EType.toggle; split <;> simp

theorem split_of_ops {g g1 g2 g3 : Graph} (hg : g.WF) {v b : ℕ} {e : EType} (he : g.adj v b = some e)
    (h1 : (g.addVertex .Z 0).removeEdge v b = some g1) (h2 : g1.addEdge v g.vindex .had = some g2)
    (h3 : g2.addEdge g.vindex b e.toggle = some g3) : Split g g3 v b g.vindex e := by
  obtain ⟨f1, f2, f3, f4, f5, f6, f7, f8, f9, f10⟩ := addVertex_fields g .Z 0
  have hfr := hg.toInv.notMem_vindex
  have hvb : g.adj v b ≠ none := by rw [he]; simp
  have hv : v ≠ g.vindex := fun e => hfr (e ▸ hg.mem _ _ hvb)
  have hb : b ≠ g.vindex := fun e => hfr (e ▸ hg.toInv.mem' hvb)
  have hw0 := hg.addVertex (t := .Z) (by simp) 0
  have hw1 := hw0.removeEdge h1
  have hw2 := hw1.addEdge h2 hv (by simp)
  have hw3 := hw2.addEdge h3 (Ne.symm hb) (toggle_ne_wio e)
  obtain ⟨-, hvb', e1⟩ := removeEdge_eq h1
  have a0 : (g.addVertex .Z 0).adj = g.adj := hg.toInv.addVertex_adj .Z 0
  have hnv : ∀ a, g.adj a g.vindex = none := fun a => by
    by_contra hc; exact hfr (hg.toInv.mem' hc)
  have hnv' : ∀ a, g.adj g.vindex a = none := fun a => by rw [hg.symm]; exact hnv a
  have a1 : ∀ a c, g1.adj a c = if (a = v ∧ c = b) ∨ (a = b ∧ c = v) then none else g.adj a c := by
    intro a c
    rw [e1]
    show (if (a = v ∧ c = b) ∨ (a = b ∧ c = v) then none else (g.addVertex .Z 0).adj a c) = _
    rw [a0]
  obtain ⟨-, e2⟩ := addEdge_new2 h2 (by
    rw [a1, if_neg (by rintro (⟨-, h⟩ | ⟨-, h⟩); exacts [hb h.symm, hv h.symm])]; exact hnv _)
  have a2 : ∀ a c, g2.adj a c = if (a = v ∧ c = g.vindex) ∨ (a = g.vindex ∧ c = v) then some .had else g1.adj a c := by
    intro a c
    rw [e2]
    rfl
  obtain ⟨-, e3⟩ := addEdge_new2 h3 (by
    rw [a2, if_neg (by rintro (⟨h, -⟩ | ⟨-, h⟩); exacts [hv h.symm, hvb' h.symm]), a1,
      if_neg (by rintro (⟨h, -⟩ | ⟨h, -⟩); exacts [hv h.symm, hb h.symm])]; exact hnv' _)
  have a3 : ∀ a c, g3.adj a c = if (a = g.vindex ∧ c = b) ∨ (a = b ∧ c = g.vindex) then some e.toggle else g2.adj a c := by
    intro a c
    rw [e3]
    rfl
  have r1 : g1.verts = (g.addVertex .Z 0).verts ∧ g1.ty = (g.addVertex .Z 0).ty ∧ g1.phase = (g.addVertex .Z 0).phase ∧
      g1.label = (g.addVertex .Z 0).label ∧ g1.scalar = (g.addVertex .Z 0).scalar ∧ g1.inputs = (g.addVertex .Z 0).inputs ∧
      g1.outputs = (g.addVertex .Z 0).outputs := by rw [e1]; exact ⟨rfl, rfl, rfl, rfl, rfl, rfl, rfl⟩
  have r2 : g2.verts = g1.verts ∧ g2.ty = g1.ty ∧ g2.phase = g1.phase ∧ g2.label = g1.label ∧ g2.scalar = g1.scalar ∧
      g2.inputs = g1.inputs ∧ g2.outputs = g1.outputs := by rw [e2]; exact ⟨rfl, rfl, rfl, rfl, rfl, rfl, rfl⟩
  have r3 : g3.verts = g2.verts ∧ g3.ty = g2.ty ∧ g3.phase = g2.phase ∧ g3.label = g2.label ∧ g3.scalar = g2.scalar ∧
      g3.inputs = g2.inputs ∧ g3.outputs = g2.outputs := by rw [e3]; exact ⟨rfl, rfl, rfl, rfl, rfl, rfl, rfl⟩
  obtain ⟨p1, p2, p3, p4, p5, p6, p7⟩ := r1
  obtain ⟨q1, q2, q3, q4, q5, q6, q7⟩ := r2
  obtain ⟨s1, s2, s3, s4, s5, s6, s7⟩ := r3
  refine ⟨hw3, hfr, by rw [s1, q1, p1, f1], by rw [s2, q2, p2, f3], by rw [s3, q3, p3, f4, mod2_zero], by rw [s4, q4, p4, f5],
    by rw [s5, q5, p5, f8], by rw [s6, q6, p6, f9], by rw [s7, q7, p7, f10], fun a c => ?_⟩
  rw [a3]
  by_cases c1 : (a = g.vindex ∧ c = b) ∨ (a = b ∧ c = g.vindex)
  · rw [if_pos c1, if_neg, if_neg, if_pos c1]
    · rcases c1 with ⟨rfl, rfl⟩ | ⟨rfl, rfl⟩
      · rintro (⟨h, -⟩ | ⟨-, h⟩); exacts [hv h.symm, hvb' h.symm]
      · rintro (⟨h, -⟩ | ⟨h, -⟩); exacts [hvb' h.symm, hb h]
    · rcases c1 with ⟨rfl, rfl⟩ | ⟨rfl, rfl⟩
      · rintro (⟨h, -⟩ | ⟨h, -⟩); exacts [hv h.symm, hb h.symm]
      · rintro (⟨h, -⟩ | ⟨-, h⟩); exacts [hvb' h.symm, hv h.symm]
  · rw [if_neg c1, a2]
    by_cases c2 : (a = v ∧ c = g.vindex) ∨ (a = g.vindex ∧ c = v)
    · rw [if_pos c2, if_neg, if_pos c2]
      rcases c2 with ⟨rfl, rfl⟩ | ⟨rfl, rfl⟩
      · rintro (⟨-, h⟩ | ⟨h, -⟩); exacts [hb h.symm, hvb' h]
      · rintro (⟨h, -⟩ | ⟨h, -⟩); exacts [hv h.symm, hb h.symm]
    · rw [if_neg c2, a1]
      by_cases c3 : (a = v ∧ c = b) ∨ (a = b ∧ c = v)
      · rw [if_pos c3, if_pos c3]
      · rw [if_neg c3, if_neg c3, if_neg c2, if_neg c1]

theorem kern_toggle (e : EType) (he : e ≠ .wio) (a c : Bool) :
    ∑ z : Bool, kern (decide (e.toggle = .had)) a z * kern true z c = kern (decide (e = .had)) a c := by
  cases e with
  | simple =>
    have := hmat_kern a c
    simpa [EType.toggle, kern] using this
  | had =>
    have : ∀ z, kern false a z = if a = z then 1 else 0 := fun z => rfl
    cases a <;> simp [EType.toggle, this]
  | wio => exact absurd rfl he

theorem sem_split {g g' : Graph} (hg : g.WF) {v b w : ℕ} {e : EType} (h : Leaf g b v) (hv : g.ty v = .Z) (he : g.adj v b = some e)
    (hs : Split g g' v b w e) (β : ℕ → Bool) : g.sem β = g'.sem β := by
  have hw' := hs.wf
  have hvm : v ∈ g.verts := hg.toInv.mem' h.adj
  have hbw : b ≠ w := fun e => hs.fresh (e ▸ h.mem)
  have hvw : v ≠ w := fun e => hs.fresh (e ▸ hvm)
  have hvb : v ≠ b := by rintro rfl; exact h.adj (hg.loopless _)
  have hew : e ≠ .wio := fun hh => hg.noWio v b (by rw [he, hh])
  have htv : g'.ty v = .Z := by rw [hs.ty, Function.update_of_ne hvw]; exact hv
  have htw : g'.ty w = .Z := by rw [hs.ty, Function.update_self]
  have htb : g'.ty b = .boundary := by rw [hs.ty, Function.update_of_ne hbw]; exact h.bnd
  have hnw : ∀ a, g.adj b a ≠ none → a = v := h.only
  have hbw' : g'.adj b w = some e.toggle := by
    rw [hs.adj, if_neg, if_neg, if_pos (Or.inr ⟨rfl, rfl⟩)]
    · rintro (⟨h1, -⟩ | ⟨h1, -⟩); exacts [hvb h1.symm, hbw h1]
    · rintro (⟨h1, -⟩ | ⟨-, h1⟩); exacts [hvb h1.symm, hvw h1.symm]
  have hl' : Leaf g' b w := by
    refine ⟨by rw [hs.verts]; exact Finset.mem_insert_of_mem h.mem, htb, by rw [hbw']; simp, fun a ha => ?_⟩
    rw [hs.adj] at ha
    by_contra hc
    by_cases c1 : (b = v ∧ a = b) ∨ (b = b ∧ a = v)
    · rw [if_pos c1] at ha; exact ha rfl
    · rw [if_neg c1, if_neg (by rintro (⟨h1, -⟩ | ⟨h1, -⟩); exacts [hvb h1.symm, hbw h1]),
        if_neg (by rintro (⟨h1, -⟩ | ⟨-, h1⟩); exacts [hbw h1, hc h1])] at ha
      exact c1 (Or.inr ⟨rfl, hnw a ha⟩)
  have hint : g'.interior = insert w g.interior := by
    unfold interior
    rw [hs.verts, Finset.filter_insert, if_pos (by rw [htw]; simp)]
    congr 1
    refine Finset.filter_congr fun a ha => ?_
    rw [hs.ty, Function.update_of_ne (by rintro rfl; exact hs.fresh ha)]
  have hwi : w ∉ g.interior := fun hc => hs.fresh (Finset.mem_filter.mp hc).1
  have hwt : ∀ x, g'.weight x = g.wOn (g.verts.erase b) x * (kern (decide (e.toggle = .had)) (x b) (x w) * kern true (x w) (x v)) := by
    intro x
    have hwe : w ∉ g.verts.erase b := fun hc => hs.fresh (Finset.mem_of_mem_erase hc)
    rw [weight_leaf hw'.toInv hl', edgeK_leaf htb (isX_Z htw) hbw', hs.verts, Finset.erase_insert_of_ne (Ne.symm hbw),
      wOn_insert hw'.symm hwe]
    have e1 : g'.vwt w (x w) = 1 := by
      unfold vwt vval; rw [htw, hs.phase, Function.update_self]; simp [ph_zero]
    have e2 : ∏ a ∈ g.verts.erase b, g'.edgeK x w a = kern true (x w) (x v) := by
      rw [Finset.prod_eq_single v]
      · have : g'.adj w v = some .had := by
          rw [hs.adj, if_neg (by rintro (⟨h1, -⟩ | ⟨h1, -⟩); exacts [hvw h1.symm, hbw h1.symm]), if_pos (Or.inr ⟨rfl, rfl⟩)]
        rw [edgeK_Z (isX_Z htw) (isX_Z htv) this]
        simp
      · intro a ha hav
        refine edgeK_none ?_
        rw [hs.adj, if_neg (by rintro (⟨h1, -⟩ | ⟨h1, -⟩); exacts [hvw h1.symm, hbw h1.symm]),
          if_neg (by rintro (⟨h1, -⟩ | ⟨-, h1⟩); exacts [hvw h1.symm, hav h1]),
          if_neg (by rintro (⟨-, h1⟩ | ⟨h1, -⟩); exacts [(Finset.mem_erase.mp ha).1 h1, hbw h1.symm])]
        by_contra hc
        exact hs.fresh (hg.mem _ _ hc)
      · intro hc
        exact absurd (Finset.mem_erase.mpr ⟨hvb, hvm⟩) hc
    have e3 : g'.wOn (g.verts.erase b) x = g.wOn (g.verts.erase b) x := by
      refine wOn_congr (by rw [hs.scalar]) (fun a ha => ?_) fun a ha c hc _ => ?_
      · have haw : a ≠ w := fun e => hwe (e ▸ ha)
        exact vval_update_ne haw (by rw [hs.ty, Function.update_of_ne haw]) (by rw [hs.phase, Function.update_of_ne haw])
          (by rw [hs.label, Function.update_of_ne haw])
      · have haw : a ≠ w := fun e => hwe (e ▸ ha)
        have hcw : c ≠ w := fun e => hwe (e ▸ hc)
        have hab : a ≠ b := Finset.ne_of_mem_erase ha
        have hcb : c ≠ b := Finset.ne_of_mem_erase hc
        have e4 : g'.adj a c = g.adj a c := by
          rw [hs.adj, if_neg (by tauto), if_neg (by tauto), if_neg (by tauto)]
        unfold edgeK eff isX
        rw [e4, hs.ty, Function.update_of_ne haw, Function.update_of_ne hcw]
    rw [e1, e2, e3]
    ring
  rw [sem_eq_amp hg, sem_eq_amp hw']
  unfold amp
  rw [hint, psum_insert hwi]
  refine psum_congr fun x hx => ?_
  rw [hwt, hwt, weight_leaf hg.toInv h, edgeK_leaf h.bnd (isX_Z hv) (by rw [hg.symm]; exact he), ← kern_toggle e hew]
  have e5 : ∀ c, g.wOn (g.verts.erase b) (Function.update x w c) = g.wOn (g.verts.erase b) x := fun c =>
    wOn_congr_env fun a ha => Function.update_of_ne (by rintro rfl; exact hs.fresh (Finset.mem_of_mem_erase ha)) _ _
  rw [e5, e5, Function.update_self, Function.update_self, Function.update_of_ne hbw, Function.update_of_ne hbw,
    Function.update_of_ne hvw, Function.update_of_ne hvw]
  simp
  ring

/-! ### Extracting a vertex -/

/-- `g'` is `g` without the vertex `v`, which is replaced by a simple edge between `w` and the boundary vertex `o`. -/
structure Pulled (g g' : Graph) (v w o : ℕ) : Prop where
  wf : g'.WF
  verts : g'.verts = g.verts.erase v
  ty : g'.ty = g.ty
  phase : g'.phase = g.phase
  label : g'.label = g.label
  scalar : g'.scalar.toNumber = g.scalar.toNumber
  inputs : g'.inputs = g.inputs
  outputs : g'.outputs = g.outputs
  adj : ∀ a c, g'.adj a c = if (a = w ∧ c = o) ∨ (a = o ∧ c = w) then some .simple
    else if a = v ∨ c = v then none else g.adj a c

theorem pulled_of_ops {g g1 g2 : Graph} (hg : g.WF) {v w o : ℕ} (h : Leaf g o v) (hv : g.ty v = .Z) (hw : g.ty w = .Z) (hwv : w ≠ v)
    (h1 : g.removeVertices [v] = some g1) (h2 : g1.addEdge w o .simple = some g2) : Pulled g g2 v w o := by
  obtain ⟨hr, -, hi, hwf⟩ := removeVertices_spec h1
  have hw1 := hwf hg
  have how : w ≠ o := by rintro rfl; rw [h.bnd] at hw; simp at hw
  have hov : o ≠ v := by rintro rfl; rw [h.bnd] at hv; simp at hv
  have hvb : ∀ u, u ∈ g.inputs ∨ u ∈ g.outputs → u ≠ v := by
    rintro u hu rfl
    have := hg.io u hu
    rw [hv] at this; simp at this
  have hn : g1.adj w o = none := by
    rw [hr.adj w o (by simpa using hwv) (by simpa using hov)]
    by_contra hc
    exact hwv (h.only w (by rw [hg.symm]; exact hc))
  obtain ⟨-, e2⟩ := addEdge_new2 h2 hn
  have a1 : ∀ a c, g1.adj a c = if a = v ∨ c = v then none else g.adj a c := by
    intro a c
    by_cases hc : a = v ∨ c = v
    · rw [if_pos hc]
      by_contra hcc
      have m1 := hw1.mem _ _ hcc
      have m2 := hw1.toInv.mem' hcc
      rw [hr.verts] at m1 m2
      rcases hc with rfl | rfl
      · simp at m1
      · simp at m2
    · rw [if_neg hc, hr.adj a c (by simp; tauto) (by simp; tauto)]
  have hsc : g1.scalar.toNumber = g.scalar.toNumber := by
    have := hr.wOn ∅ (by simp) (fun _ => false)
    simpa [wOn] using this
  have hw2 := hw1.addEdge h2 how (by simp)
  refine ⟨hw2, ?_, ?_, ?_, ?_, ?_, ?_, ?_, fun a c => ?_⟩
  · rw [e2]; show g1.verts = _; rw [hr.verts]; ext u; simp [and_comm]
  · rw [e2]; exact hr.ty
  · rw [e2]; exact hr.phase
  · rw [e2]; exact hr.label
  · rw [e2]; exact hsc
  · rw [e2]; show g1.inputs = _; rw [hr.inputs]; exact List.filter_eq_self.mpr fun u hu => by simpa using hvb u (Or.inl hu)
  · rw [e2]; show g1.outputs = _; rw [hr.outputs]; exact List.filter_eq_self.mpr fun u hu => by simpa using hvb u (Or.inr hu)
  · rw [e2]
    show (if (a = w ∧ c = o) ∨ (a = o ∧ c = w) then some .simple else g1.adj a c) = _
    rw [a1]

theorem sem_pull {g g' : Graph} (hg : g.WF) {v w o : ℕ} (h : Leaf g o v) (hv : g.ty v = .Z) (hw : g.ty w = .Z) (hp : g.phase v = 0)
    (he : g.adj v o = some .simple) (hvw : g.adj v w = some .had) (hn : ∀ u, g.adj v u ≠ none → u = o ∨ u = w)
    (hs : Pulled g g' v w o) (b : ℕ → Bool) : g.sem b = ∑ z : Bool, hmat (b o) z * g'.sem (Function.update b o z) := by
  have hw' := hs.wf
  have hvm : v ∈ g.verts := hg.toInv.mem' h.adj
  have hwm : w ∈ g.verts := hg.toInv.mem' (u := v) (by rw [hvw]; simp)
  have hwv : w ≠ v := by rintro rfl; rw [hg.loopless] at hvw; simp at hvw
  have how : w ≠ o := by rintro rfl; rw [h.bnd] at hw; simp at hw
  have hov : o ≠ v := by rintro rfl; rw [h.bnd] at hv; simp at hv
  have hwo' : g'.adj o w = some .simple := by rw [hs.adj, if_pos (Or.inr ⟨rfl, rfl⟩)]
  have hl' : Leaf g' o w := by
    refine ⟨by rw [hs.verts]; exact Finset.mem_erase.mpr ⟨hov, h.mem⟩, by rw [hs.ty]; exact h.bnd, by rw [hwo']; simp, fun a ha => ?_⟩
    by_contra hc
    rw [hs.adj, if_neg (by tauto)] at ha
    by_cases c1 : o = v ∨ a = v
    · rw [if_pos c1] at ha; exact ha rfl
    · rw [if_neg c1] at ha
      exact c1 (Or.inr (h.only a ha))
  set S := (g.verts.erase o).erase v with hS
  have hint : g.interior = insert v g'.interior := by
    unfold interior
    rw [hs.verts, hs.ty]
    ext u
    simp only [Finset.mem_filter, Finset.mem_insert, Finset.mem_erase]
    constructor
    · rintro ⟨h1, h2⟩
      by_cases e : u = v
      · exact Or.inl e
      · exact Or.inr ⟨⟨e, h1⟩, h2⟩
    · rintro (rfl | ⟨⟨-, h1⟩, h2⟩)
      · exact ⟨hvm, by rw [hv]; simp⟩
      · exact ⟨h1, h2⟩
  have hvi : v ∉ g'.interior := by
    intro hc
    have := (Finset.mem_filter.mp hc).1
    rw [hs.verts] at this
    simp at this
  have hwt : ∀ x, g.weight x = g.wOn S x * (kern false (x o) (x v) * kern true (x v) (x w)) := by
    intro x
    rw [weight_leaf hg.toInv h, edgeK_leaf (e := .simple) h.bnd (isX_Z hv) (by rw [hg.symm]; exact he),
      wOn_erase hg.symm (v := v) (Finset.mem_erase.mpr ⟨Ne.symm hov, hvm⟩)]
    have e1 : g.vwt v (x v) = 1 := by
      unfold vwt vval; rw [hv, hp]; simp [ph_zero]
    have e2 : ∏ a ∈ (g.verts.erase o).erase v, g.edgeK x v a = kern true (x v) (x w) := by
      rw [Finset.prod_eq_single w]
      · rw [edgeK_Z (isX_Z hv) (isX_Z hw) hvw]; simp
      · intro a ha haw
        refine edgeK_none ?_
        by_contra hc
        rcases hn a hc with rfl | rfl
        · simp at ha
        · exact haw rfl
      · intro hc
        exact absurd (Finset.mem_erase.mpr ⟨hwv, Finset.mem_erase.mpr ⟨how, hwm⟩⟩) hc
    rw [e1, e2]
    simp
    ring
  have hwt' : ∀ x, g'.weight x = g.wOn S x * kern false (x o) (x w) := by
    intro x
    rw [weight_leaf hw'.toInv hl', edgeK_leaf (e := .simple) hl'.bnd (isX_Z (by rw [hs.ty]; exact hw)) hwo', hs.verts,
      Finset.erase_right_comm]
    have e3 : g'.wOn ((g.verts.erase o).erase v) x = g.wOn ((g.verts.erase o).erase v) x := by
      refine wOn_congr hs.scalar (fun a ha => ?_) fun a ha c hc _ => ?_
      · have hav : a ≠ v := Finset.ne_of_mem_erase ha
        exact vval_update_ne hav (by rw [hs.ty]) (by rw [hs.phase]) (by rw [hs.label])
      · have hav : a ≠ v := Finset.ne_of_mem_erase ha
        have hcv : c ≠ v := Finset.ne_of_mem_erase hc
        have hao : a ≠ o := Finset.ne_of_mem_erase (Finset.mem_of_mem_erase ha)
        have hco : c ≠ o := Finset.ne_of_mem_erase (Finset.mem_of_mem_erase hc)
        have e4 : g'.adj a c = g.adj a c := by
          rw [hs.adj, if_neg (by tauto), if_neg (by tauto)]
        unfold edgeK eff isX
        rw [e4, hs.ty]
    rw [e3, ← hS]
    simp
  have ho' : o ∉ g'.interior := notMem_interior hl'.bnd
  have hSo : ∀ (x : ℕ → Bool) z, g.wOn S (Function.update x o z) = g.wOn S x := fun x z =>
    wOn_congr_env fun a ha => Function.update_of_ne (Finset.ne_of_mem_erase (Finset.mem_of_mem_erase ha)) _ _
  have hSv : ∀ (x : ℕ → Bool) z, g.wOn S (Function.update x v z) = g.wOn S x := fun x z =>
    wOn_congr_env fun a ha => Function.update_of_ne (Finset.ne_of_mem_erase ha) _ _
  rw [sem_eq_amp hg]
  unfold amp
  rw [hint, psum_insert hvi]
  have e3 : ∀ z, psum g'.interior (fun x => g'.weight (Function.update x o z)) b = g'.sem (Function.update b o z) := by
    intro z
    rw [psum_update ho', sem_eq_amp hw']
    rfl
  have e4 : psum g'.interior (fun x => g.weight (Function.update x v false) + g.weight (Function.update x v true)) b =
      psum g'.interior (fun x => hmat (b o) false * g'.weight (Function.update x o false) +
      hmat (b o) true * g'.weight (Function.update x o true)) b := by
    refine psum_congr fun x hx => ?_
    rw [hwt, hwt, hwt', hwt', hSo, hSo, hSv, hSv, ← hx o ho']
    simp only [Function.update_self, Function.update_of_ne hov, Function.update_of_ne hwv, Function.update_of_ne how]
    have k := kern_true_eq (x o) (x w)
    have k2 : kern false (x o) false * kern true false (x w) + kern false (x o) true * kern true true (x w) = kern true (x o) (x w) := by
      cases x o <;> simp [kern, dmat]
    have k3 : kern true (x o) (x w) = hmat (x o) true * kern false true (x w) + hmat (x o) false * kern false false (x w) := by
      rw [k]; simp
    linear_combination g.wOn S x * k2 + g.wOn S x * k3
  rw [e4, psum_add, psum_const_mul, psum_const_mul, e3, e3]
  simp [add_comm]

end Graph
end PyZX
