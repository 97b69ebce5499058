import Verif.Proofs.ExtClean

/-!
# `neighbors_of_frontier`
-/

namespace PyZX
namespace Extract

open Finset Graph Simplify

theorem split_invariant {g0 : Graph} {s : State} (hs : LoopInv g0 s) {v b w : ℕ} {e : EType} {g' : Graph} (hv : v ∈ s.frontier)
    (hb : b ∈ s.g.inputs) (he : s.g.adj v b = some e) (hsp : Split s.g g' v b w e) : LoopInv g0 { s with g := g' } := by
  have hw := hs.gl.zx.wf
  obtain ⟨hz, q, o, hq, ho, hvo⟩ := hs.front.each v hv
  have hbt : s.g.ty b = .boundary := hw.io b (Or.inl hb)
  have hvb : s.g.adj v b ≠ none := by rw [he]; simp
  have hvm : v ∈ s.g.verts := hw.mem _ _ hvb
  have hbm : b ∈ s.g.verts := hw.toInv.mem' hvb
  have hvw : v ≠ w := by rintro rfl; exact hsp.fresh hvm
  have hbw : b ≠ w := by rintro rfl; exact hsp.fresh hbm
  have hvb' : v ≠ b := by rintro rfl; rw [hbt] at hz; simp at hz
  have hl := hs.gl.leaf hbt hvb
  have hE : GExt s.g g' [] := GExt.of_sem hsp.inputs hsp.outputs one_ne_zero fun β => by
    rw [one_mul]; exact sem_split hw hl hz he hsp β
  have hty : ∀ u ∈ s.g.verts, g'.ty u = s.g.ty u := fun u hu => by
    rw [hsp.ty, Function.update_of_ne]; rintro rfl; exact hsp.fresh hu
  have htyw : g'.ty w = .Z := by rw [hsp.ty, Function.update_self]
  have hadjw : ∀ x, s.g.adj w x = none := fun x => by by_contra hc; exact hsp.fresh (hw.mem _ _ hc)
  -- adjacency of the other vertices
  have hoth : ∀ u x, u ≠ v → u ≠ b → u ≠ w → g'.adj u x = s.g.adj u x := by
    intro u x h1 h2 h3
    rw [hsp.adj, if_neg, if_neg, if_neg]
    · rintro (⟨h, -⟩ | ⟨h, -⟩)
      · exact h3 h
      · exact h2 h
    · rintro (⟨h, -⟩ | ⟨h, -⟩)
      · exact h1 h
      · exact h3 h
    · rintro (⟨h, -⟩ | ⟨h, -⟩)
      · exact h1 h
      · exact h2 h
  have hoth' : ∀ u x, u ≠ v → u ≠ b → u ≠ w → g'.adj x u = s.g.adj x u := fun u x h1 h2 h3 => by
    rw [hsp.wf.symm, hoth u x h1 h2 h3, hw.symm]
  have hb' : ∀ x, g'.adj b x ≠ none → x = w := by
    intro x hx
    by_contra hxw
    rw [hsp.adj] at hx
    by_cases hxv : x = v
    · rw [if_pos (Or.inr ⟨rfl, hxv⟩)] at hx; exact hx rfl
    · rw [if_neg, if_neg, if_neg] at hx
      · exact hxv (hl.only x hx)
      · rintro (⟨h, -⟩ | ⟨-, h⟩)
        · exact hbw h
        · exact hxw h
      · rintro (⟨h, -⟩ | ⟨h, -⟩)
        · exact hvb' h.symm
        · exact hbw h
      · rintro (⟨h, -⟩ | ⟨-, h⟩)
        · exact hvb' h.symm
        · exact hxv h
  have hbw1 : g'.adj b w ≠ none := by
    rw [hsp.adj, if_neg, if_neg, if_pos (Or.inr ⟨rfl, rfl⟩)]
    · simp
    · rintro (⟨h, -⟩ | ⟨h, -⟩)
      · exact hvb' h.symm
      · exact hbw h
    · rintro (⟨h, -⟩ | ⟨-, h⟩)
      · exact hvb' h.symm
      · exact hvw h.symm
  have hvw1 : g'.adj v w = some .had := by
    rw [hsp.adj, if_neg, if_pos (Or.inl ⟨rfl, rfl⟩)]
    rintro (⟨-, h⟩ | ⟨h, -⟩)
    · exact hbw h.symm
    · exact hvb' h
  have hbtw : ∀ u, u ∈ s.g.outputs ∨ u ∈ s.g.inputs → u ≠ v ∧ u ≠ w := by
    intro u hu
    have h1 : s.g.ty u = .boundary := hw.io u hu.symm
    refine ⟨?_, ?_⟩
    · rintro rfl; rw [hz] at h1; simp at h1
    · rintro rfl
      rcases hu with hu | hu
      · exact hsp.fresh (hw.out _ hu)
      · exact hsp.fresh (hw.inp _ hu)
  have hob : ∀ u ∈ s.g.outputs, u ≠ b := by rintro u hu rfl; exact hs.gl.io.disj _ hb hu
  have hmemw : ∀ u x, g'.adj u x ≠ none → u ≠ v → u ≠ w → u ≠ b → x ≠ w := by
    rintro u x hx h1 h2 h3 rfl
    rw [hoth u _ h1 h3 h2, hw.symm] at hx
    exact hx (hadjw u)
  refine ⟨⟨⟨hsp.wf, ?_, ?_, ?_, ?_⟩, ?_, ?_, ?_, ?_, ?_, ?_⟩, hs.onto.ext hE, by simpa using hs.ext.trans hE, ?_, ?_⟩
  · intro u hu hut x y hx hy
    show x = y
    by_cases hub : u = b
    · subst hub; rw [hb' x hx, hb' y hy]
    · have huw : u ≠ w := by rintro rfl; rw [htyw] at hut; simp at hut
      have hum : u ∈ s.g.verts := by
        have := hsp.verts ▸ hu
        exact (Finset.mem_insert.mp this).resolve_left huw
      rw [hty u hum] at hut
      have huv : u ≠ v := by rintro rfl; rw [hz] at hut; simp at hut
      exact hs.gl.zx.bdeg u hum hut x y (by rw [← hoth u x huv hub huw]; exact hx) (by rw [← hoth u y huv hub huw]; exact hy)
  · intro u hu hut
    by_cases hub : u = b
    · subst hub; exact ⟨w, hbw1⟩
    · have huw : u ≠ w := by rintro rfl; rw [htyw] at hut; simp at hut
      have hum : u ∈ s.g.verts := by
        have := hsp.verts ▸ hu
        exact (Finset.mem_insert.mp this).resolve_left huw
      rw [hty u hum] at hut
      have huv : u ≠ v := by rintro rfl; rw [hz] at hut; simp at hut
      obtain ⟨x, hx⟩ := hs.gl.zx.badj u hum hut
      exact ⟨x, by rw [hoth u x huv hub huw]; exact hx⟩
  · intro u hu
    rcases Finset.mem_insert.mp (hsp.verts ▸ hu : u ∈ insert w s.g.verts) with rfl | hu
    · exact Or.inr (Or.inl htyw)
    · rw [hty u hu]; exact hs.gl.zx.types u hu
  · intro u hu
    show Reduced (g'.phase u)
    rw [hsp.phase]
    rcases Finset.mem_insert.mp (hsp.verts ▸ hu : u ∈ insert w s.g.verts) with rfl | hu
    · rw [Function.update_self]; exact ⟨le_refl _, by norm_num⟩
    · rw [Function.update_of_ne (by rintro rfl; exact hsp.fresh hu)]; exact hs.gl.zx.phases u hu
  · intro u hu
    rcases Finset.mem_insert.mp (hsp.verts ▸ hu : u ∈ insert w s.g.verts) with rfl | hu
    · exact Or.inr htyw
    · show g'.ty u = _ ∨ g'.ty u = _
      rw [hty u hu]; exact hs.gl.tys u hu
  · intro a c ha hc hac
    show g'.adj a c = _
    have hac : g'.adj a c ≠ none := hac
    have hab : a ≠ b := by rintro rfl; rw [show g'.ty a = _ from hty a hbm, hbt] at ha; simp at ha
    have hcb : c ≠ b := by rintro rfl; rw [show g'.ty c = _ from hty c hbm, hbt] at hc; simp at hc
    rw [hsp.adj] at hac ⊢
    have n1 : ¬ ((a = v ∧ c = b) ∨ (a = b ∧ c = v)) := by tauto
    have n3 : ¬ ((a = w ∧ c = b) ∨ (a = b ∧ c = w)) := by tauto
    rw [if_neg n1, if_neg n3] at hac ⊢
    by_cases n2 : (a = v ∧ c = w) ∨ (a = w ∧ c = v)
    · rw [if_pos n2]
    · rw [if_neg n2] at hac ⊢
      have ha' : s.g.ty a = .Z := by rw [← hty a (hw.mem _ _ hac)]; exact ha
      have hc' : s.g.ty c = .Z := by rw [← hty c (hw.toInv.mem' hac)]; exact hc
      exact hs.gl.zh a c ha' hc' hac
  · refine ⟨by show g'.inputs.Nodup; rw [hsp.inputs]; exact hs.gl.io.nodupIn, by show g'.outputs.Nodup; rw [hsp.outputs]; exact hs.gl.io.nodupOut, ?_, ?_⟩
    · show ∀ u ∈ g'.inputs, u ∉ g'.outputs
      rw [hsp.inputs, hsp.outputs]; exact hs.gl.io.disj
    · intro u hu hut
      show u ∈ g'.inputs ∨ u ∈ g'.outputs
      have huw : u ≠ w := by rintro rfl; rw [htyw] at hut; simp at hut
      have hum : u ∈ s.g.verts := (Finset.mem_insert.mp (hsp.verts ▸ hu : u ∈ insert w s.g.verts)).resolve_left huw
      rw [hsp.inputs, hsp.outputs]
      exact hs.gl.io.all u hum (by rw [← hty u hum]; exact hut)
  · intro u o1 o2 h1 h2 h3 h4
    have h1 : o1 ∈ s.g.outputs := hsp.outputs ▸ h1
    have h2 : o2 ∈ s.g.outputs := hsp.outputs ▸ h2
    have h3 : g'.adj u o1 ≠ none := h3
    have h4 : g'.adj u o2 ≠ none := h4
    rw [hoth' o1 u (hbtw o1 (Or.inl h1)).1 (hob o1 h1) (hbtw o1 (Or.inl h1)).2] at h3
    rw [hoth' o2 u (hbtw o2 (Or.inl h2)).1 (hob o2 h2) (hbtw o2 (Or.inl h2)).2] at h4
    exact hs.gl.out1 u o1 o2 h1 h2 h3 h4
  · intro o1 o2 h1 h2
    have h1 : o1 ∈ s.g.outputs := hsp.outputs ▸ h1
    have h2 : o2 ∈ s.g.outputs := hsp.outputs ▸ h2
    show g'.adj o1 o2 = none
    rw [hoth o1 o2 (hbtw o1 (Or.inl h1)).1 (hob o1 h1) (hbtw o1 (Or.inl h1)).2]
    exact hs.gl.oo o1 o2 h1 h2
  · intro u i1 i2 h1 h2 h3 h4
    have h1 : i1 ∈ s.g.inputs := hsp.inputs ▸ h1
    have h2 : i2 ∈ s.g.inputs := hsp.inputs ▸ h2
    have h3 : g'.adj u i1 ≠ none := h3
    have h4 : g'.adj u i2 ≠ none := h4
    have haux : ∀ i ∈ s.g.inputs, i ≠ b → g'.adj u i ≠ none → s.g.adj u i ≠ none ∧ u ≠ w := by
      intro i hi hib hui
      rw [hoth' i u (hbtw i (Or.inr hi)).1 hib (hbtw i (Or.inr hi)).2] at hui
      exact ⟨hui, by rintro rfl; exact hui (hadjw i)⟩
    by_cases e1 : i1 = b
    · by_cases e2 : i2 = b
      · rw [e1, e2]
      · exfalso
        obtain ⟨-, huw⟩ := haux i2 h2 e2 h4
        rw [e1, hsp.wf.symm] at h3
        exact huw (hb' u h3)
    · by_cases e2 : i2 = b
      · exfalso
        obtain ⟨-, huw⟩ := haux i1 h1 e1 h3
        rw [e2, hsp.wf.symm] at h4
        exact huw (hb' u h4)
      · exact hs.gl.in1 u i1 i2 h1 h2 (haux i1 h1 e1 h3).1 (haux i2 h2 e2 h4).1
  · refine ⟨hs.front.nodup, fun u hu => ?_, fun u huz o1 h1 ha => ?_⟩
    · obtain ⟨k1, q1, o1, k2, k3, k4⟩ := hs.front.each u hu
      have k5 := List.mem_of_getElem? k3
      refine ⟨by show g'.ty u = _; rw [hty u (hw.mem _ _ k4)]; exact k1, q1, o1, k2, by show g'.outputs[q1]? = _; rw [hsp.outputs]; exact k3, ?_⟩
      show g'.adj u o1 ≠ none
      rw [hoth' o1 u (hbtw o1 (Or.inl k5)).1 (hob o1 k5) (hbtw o1 (Or.inl k5)).2]
      exact k4
    · have h1 : o1 ∈ s.g.outputs := hsp.outputs ▸ h1
      have ha : g'.adj u o1 ≠ none := ha
      rw [hoth' o1 u (hbtw o1 (Or.inl h1)).1 (hob o1 h1) (hbtw o1 (Or.inl h1)).2] at ha
      have hum := hw.mem _ _ ha
      have huz : g'.ty u = .Z := huz
      rw [hty u hum] at huz
      by_cases huf : u ∈ s.frontier
      · exact Or.inl huf
      · have h2 := (hs.front.cover u huz o1 h1 ha).resolve_left huf
        refine Or.inr fun x hx => ?_
        have huv : u ≠ v := by rintro rfl; exact huf hv
        have hub : u ≠ b := by rintro rfl; rw [hbt] at huz; simp at huz
        have huw : u ≠ w := by rintro rfl; exact hsp.fresh hum
        have hx : g'.adj u x ≠ none := hx
        rw [hoth u x huv hub huw] at hx
        show g'.ty x = _
        rw [hty x (hw.toInv.mem' hx)]
        exact h2 x hx
  · intro y hy
    have hgy := hs.gad y hy
    obtain ⟨l, u, h1, h2, h3, h4, h5⟩ := hgy.leaf
    have hym := hw.mem _ _ h2
    refine hgy.of (fun x hx => hty x ?_) ?_ ?_
    · rcases hx with rfl | hx
      · exact hym
      · exact hw.toInv.mem' hx
    · show g'.phase y = _
      rw [hsp.phase, Function.update_of_ne]; rintro rfl; exact hsp.fresh hym
    · intro x hx t
      show g'.adj x t = none ↔ _
      rw [hoth]
      · rintro rfl
        rcases hx with rfl | ⟨-, hx⟩
        · exact hgy.off hv
        · have := hx o hvo
          subst this
          have h6 := hw.io o (Or.inr (List.mem_of_getElem? ho))
          rw [hgy.ty] at h6
          simp at h6
      · rintro rfl
        rcases hx with rfl | ⟨hx, -⟩
        · rw [hgy.ty] at hbt; simp at hbt
        · rw [hgy.nb _ hx] at hbt; simp at hbt
      · rintro rfl
        rcases hx with rfl | ⟨hx, -⟩
        · exact hsp.fresh hym
        · exact hsp.fresh (hw.toInv.mem' hx)

/-- The invariant of the loop of `neighbors_of_frontier`; `pr` are the vertices that have been looked at. -/
structure NI (g0 : Graph) (s : State) (pr : List ℕ) (p : NbrState) : Prop where
  inv : LoopInv g0 { s with g := p.g, frontier := p.frontier }
  clean : Clean p.g p.frontier
  ff : ∀ v ∈ p.frontier, ∀ w ∈ p.frontier, p.g.adj v w = none
  todo : ∀ v ∈ s.frontier, v ∉ pr → v ∈ p.frontier
  nb : ∀ v ∈ p.frontier, v ∈ pr → ∀ u, p.g.adj v u ≠ none → u ∈ p.g.outputs ∨ u ∈ p.set
  set : ∀ j ∈ p.set, p.g.ty j = .Z ∧ j ∉ p.frontier ∧ ∃ v ∈ p.frontier, p.g.adj v j ≠ none

theorem nbrStep_spec {o : Orders} (ho : o.OK) {g0 : Graph} {s : State} {pr : List ℕ} {p p' : NbrState} (h : NI g0 s pr p) {v : ℕ}
    (hv : v ∈ s.frontier) (hpr : v ∉ pr) (e : nbrStep o p v = some p') : NI g0 s (v :: pr) p' := by
  have hvf := h.todo v hv hpr
  have hgl := h.inv.gl
  have hw := hgl.zx.wf
  have hio := hgl.io
  obtain ⟨hz, q, b0, hq, hb0, hvb0⟩ := h.inv.front.each v hvf
  simp only at hgl hw hio hz hb0 hvb0
  have hvm : v ∈ p.g.verts := hw.mem _ _ hvb0
  unfold nbrStep at e
  simp only at e
  obtain ⟨d, hd⟩ : ∃ d, d = (o.nbr p.g v).filter (· ∉ p.g.outputs) := ⟨_, rfl⟩
  rw [← hd] at e
  have hdn : d.Nodup := by rw [hd]; exact (ho.nbr p.g v hvm).1.filter _
  have hdm : ∀ u, u ∈ d ↔ p.g.adj v u ≠ none ∧ u ∉ p.g.outputs := by
    intro u
    rw [hd, List.mem_filter, decide_eq_true_eq, ← List.mem_toFinset, (ho.nbr p.g v hvm).2, mem_nbrs hw.toInv]
  have hdZ : ∀ u ∈ d, u ∉ p.g.inputs → p.g.ty u = .Z := by
    intro u hu hui
    obtain ⟨h1, h2⟩ := (hdm u).mp hu
    rcases hgl.tys u (hw.toInv.mem' h1) with h3 | h3
    · exact absurd (hio.all u (hw.toInv.mem' h1) h3) (by tauto)
    · exact h3
  rcases hi : d.filter (· ∈ p.g.inputs) with _ | ⟨b, t⟩
  · -- no input
    rw [hi] at e
    simp only [Option.some.injEq] at e
    subst e
    have hno : ∀ u ∈ d, u ∉ p.g.inputs := by
      intro u hu hc
      have : u ∈ d.filter (· ∈ p.g.inputs) := List.mem_filter.mpr ⟨hu, by simpa using hc⟩
      rw [hi] at this
      simp at this
    refine ⟨h.inv, h.clean, h.ff, ?_, ?_, ?_⟩
    · intro u hu hup
      exact h.todo u hu (fun hc => hup (by simp [hc]))
    · intro u hu hup x hx
      have hx : p.g.adj u x ≠ none := hx
      show x ∈ p.g.outputs ∨ x ∈ p.set ∪ d.toFinset
      by_cases huv : u = v
      · subst huv
        by_cases hxo : x ∈ p.g.outputs
        · exact Or.inl hxo
        · exact Or.inr (Finset.mem_union_right _ (List.mem_toFinset.mpr ((hdm x).mpr ⟨hx, hxo⟩)))
      · rcases h.nb u hu ((List.mem_cons.mp hup).resolve_left huv) x hx with h1 | h1
        · exact Or.inl h1
        · exact Or.inr (Finset.mem_union_left _ h1)
    · intro j hj
      show p.g.ty j = .Z ∧ _
      rcases Finset.mem_union.mp hj with hj | hj
      · exact h.set j hj
      · have hj := List.mem_toFinset.mp hj
        obtain ⟨h1, h2⟩ := (hdm j).mp hj
        refine ⟨hdZ j hj (hno j hj), ?_, v, hvf, h1⟩
        intro hc
        exact h1 (h.ff v hvf j hc)
  · rw [hi] at e
    simp only at e
    have hb : b ∈ d.filter (· ∈ p.g.inputs) := by rw [hi]; simp
    obtain ⟨hbd, hbi⟩ := List.mem_filter.mp hb
    rw [decide_eq_true_eq] at hbi
    obtain ⟨hvb, hbo⟩ := (hdm b).mp hbd
    have hbt : p.g.ty b = .boundary := hw.io b (Or.inl hbi)
    by_cases hlen : d.length = 1
    · -- only an input: the vertex leaves the frontier
      rw [if_pos hlen, Option.some.injEq] at e
      subst e
      have hall : ∀ u, p.g.adj v u ≠ none → p.g.ty u = .boundary := by
        intro u hu
        by_cases huo : u ∈ p.g.outputs
        · exact hw.io u (Or.inr huo)
        · have h1 := (hdm u).mpr ⟨hu, huo⟩
          obtain ⟨a, ha⟩ := List.length_eq_one_iff.mp hlen
          rw [ha, List.mem_singleton] at h1 hbd
          rw [h1, ← hbd]; exact hbt
      have her : ∀ u, u ∈ p.frontier.erase v → u ∈ p.frontier ∧ u ≠ v := fun u hu =>
        ⟨List.mem_of_mem_erase hu, ((h.inv.front.nodup.mem_erase_iff).mp hu).1⟩
      refine ⟨⟨hgl, h.inv.onto, h.inv.ext, ⟨h.inv.front.nodup.erase v, fun u hu => h.inv.front.each u (her u hu).1, ?_⟩, ?_⟩, ?_, ?_, ?_, ?_, ?_⟩
      · intro u huz o1 h1 h2
        show u ∈ p.frontier.erase v ∨ _
        by_cases huv : u = v
        · subst huv; exact Or.inr hall
        · rcases h.inv.front.cover u huz o1 h1 h2 with h3 | h3
          · exact Or.inl ((h.inv.front.nodup.mem_erase_iff).mpr ⟨huv, h3⟩)
          · exact Or.inr h3
      · intro y hy
        have hgy := h.inv.gad y hy
        exact ⟨hgy.ty, hgy.ph, fun hc => hgy.off (her y hc).1, hgy.nb, hgy.leaf⟩
      · exact fun u hu => h.clean u (her u hu).1
      · exact fun u hu x hx => h.ff u (her u hu).1 x (her x hx).1
      · intro u hu hup
        refine (h.inv.front.nodup.mem_erase_iff).mpr ⟨fun hc => hup (by simp [hc]), h.todo u hu (fun hc => hup (by simp [hc]))⟩
      · intro u hu hup x hx
        exact h.nb u (her u hu).1 ((List.mem_cons.mp hup).resolve_left (her u hu).2) x hx
      · intro j hj
        obtain ⟨k1, k2, x, k3, k4⟩ := h.set j hj
        refine ⟨k1, fun hc => k2 (her j hc).1, x, (h.inv.front.nodup.mem_erase_iff).mpr ⟨?_, k3⟩, k4⟩
        rintro rfl
        rw [hall j k4] at k1
        simp at k1
    · -- an input and other neighbours
      rw [if_neg hlen] at e
      obtain ⟨et, he, e⟩ := Option.bind_eq_some_iff.mp e
      obtain ⟨g1, e1, e⟩ := Option.bind_eq_some_iff.mp e
      obtain ⟨g2, e2, e⟩ := Option.bind_eq_some_iff.mp e
      obtain ⟨g3, e3, e⟩ := Option.map_eq_some_iff.mp e
      subst e
      have hsp := split_of_ops hw he e1 e2 e3
      generalize hwd : p.g.vindex = w at *
      have hinv := split_invariant h.inv hvf hbi he hsp
      have hbm : b ∈ p.g.verts := hw.toInv.mem' hvb
      have hvw : v ≠ w := by rintro rfl; exact hsp.fresh hvm
      have hbw : b ≠ w := by rintro rfl; exact hsp.fresh hbm
      have hvb' : v ≠ b := by rintro rfl; rw [hbt] at hz; simp at hz
      have hty : ∀ u ∈ p.g.verts, g3.ty u = p.g.ty u := fun u hu => by
        rw [hsp.ty, Function.update_of_ne]; rintro rfl; exact hsp.fresh hu
      -- edges of the frontier
      have hfr : ∀ u ∈ p.frontier, u ≠ b ∧ u ≠ w := by
        intro u hu
        obtain ⟨h1, q1, o1, h2, h3, h4⟩ := h.inv.front.each u hu
        refine ⟨?_, ?_⟩
        · rintro rfl; rw [hbt] at h1; simp at h1
        · rintro rfl; exact hsp.fresh (hw.mem _ _ h4)
      have hadj : ∀ u ∈ p.frontier, ∀ x, x ≠ b → x ≠ w → g3.adj u x = p.g.adj u x := by
        intro u hu x hxb hxw
        obtain ⟨h1, h2⟩ := hfr u hu
        rw [hsp.adj, if_neg, if_neg, if_neg] <;> tauto
      have hadj2 : ∀ u ∈ p.frontier, u ≠ v → ∀ x, g3.adj u x = p.g.adj u x := by
        intro u hu huv x
        obtain ⟨h1, h2⟩ := hfr u hu
        rw [hsp.adj, if_neg, if_neg, if_neg] <;> tauto
      have hvw1 : g3.adj v w = some .had := by
        rw [hsp.adj, if_neg, if_pos (Or.inl ⟨rfl, rfl⟩)]
        tauto
      have hvb1 : g3.adj v b = none := by rw [hsp.adj, if_pos (Or.inl ⟨rfl, rfl⟩)]
      refine ⟨hinv, ?_, ?_, ?_, ?_, ?_⟩
      · intro u hu
        obtain ⟨h1, h2⟩ := h.clean u hu
        refine ⟨?_, fun o1 ho1 ha => ?_⟩
        · show g3.phase u = 0
          rw [hsp.phase, Function.update_of_ne (hfr u hu).2]; exact h1
        · have ho2 : o1 ∈ p.g.outputs := by rw [← hsp.outputs]; exact ho1
          have n1 : o1 ≠ b := by rintro rfl; exact hbo ho2
          have n2 : o1 ≠ w := by rintro rfl; exact hsp.fresh (hw.out _ ho2)
          have ha : g3.adj u o1 ≠ none := ha
          show g3.adj u o1 = _
          rw [hadj u hu o1 n1 n2] at ha ⊢
          exact h2 o1 ho2 ha
      · intro u hu x hx
        show g3.adj u x = none
        rw [hadj u hu x (hfr x hx).1 (hfr x hx).2]
        exact h.ff u hu x hx
      · intro u hu hup
        exact h.todo u hu (fun hc => hup (by simp [hc]))
      · intro u hu hup x hx
        have hx : g3.adj u x ≠ none := hx
        show x ∈ g3.outputs ∨ x ∈ p.set ∪ (d.erase b ++ [w]).toFinset
        rw [hsp.outputs]
        by_cases huv : u = v
        · subst huv
          by_cases hxw : x = w
          · subst hxw; exact Or.inr (Finset.mem_union_right _ (by simp))
          · have hxb : x ≠ b := by rintro rfl; exact hx hvb1
            rw [hadj u hu x hxb hxw] at hx
            by_cases hxo : x ∈ p.g.outputs
            · exact Or.inl hxo
            · refine Or.inr (Finset.mem_union_right _ (List.mem_toFinset.mpr (List.mem_append_left _ ?_)))
              exact (hdn.mem_erase_iff).mpr ⟨hxb, (hdm x).mpr ⟨hx, hxo⟩⟩
        · rw [hadj2 u hu huv] at hx
          rcases h.nb u hu ((List.mem_cons.mp hup).resolve_left huv) x hx with h1 | h1
          · exact Or.inl h1
          · exact Or.inr (Finset.mem_union_left _ h1)
      · intro j hj
        show g3.ty j = .Z ∧ j ∉ p.frontier ∧ ∃ v ∈ p.frontier, g3.adj v j ≠ none
        rcases Finset.mem_union.mp hj with hj | hj
        · obtain ⟨k1, k2, x, k3, k4⟩ := h.set j hj
          have hjm := hw.toInv.mem' k4
          refine ⟨by rw [hty j hjm]; exact k1, k2, x, k3, ?_⟩
          rw [hadj x k3 j (by rintro rfl; rw [hbt] at k1; simp at k1) (by rintro rfl; exact hsp.fresh hjm)]
          exact k4
        · rcases List.mem_append.mp (List.mem_toFinset.mp hj) with hj | hj
          · obtain ⟨hjb, hjd⟩ := (hdn.mem_erase_iff).mp hj
            obtain ⟨h1, h2⟩ := (hdm j).mp hjd
            have hjm := hw.toInv.mem' h1
            have hji : j ∉ p.g.inputs := fun hc => hjb (hgl.in1 v j b hc hbi h1 hvb)
            refine ⟨by rw [hty j hjm]; exact hdZ j hjd hji, fun hc => h1 (h.ff v hvf j hc), v, hvf, ?_⟩
            rw [hadj v hvf j hjb (by rintro rfl; exact hsp.fresh hjm)]
            exact h1
          · have : j = w := by simpa using hj
            subst this
            refine ⟨by rw [hsp.ty, Function.update_self], fun hc => (hfr _ hc).2 rfl, v, hvf, by rw [hvw1]; simp⟩

theorem neighborsOfFrontier_spec {o : Orders} (ho : o.OK) {g0 : Graph} {s : State} (hs : LoopInv g0 s) (hcl : Clean s.g s.frontier)
    (hff : ∀ v ∈ s.frontier, ∀ w ∈ s.frontier, s.g.adj v w = none) {p : NbrState} (e : neighborsOfFrontier o s.g s.frontier = some p) :
    NI g0 s s.frontier p := by
  have key : ∀ (l pr : List ℕ) {p p' : NbrState}, NI g0 s pr p → (∀ v ∈ l, v ∈ s.frontier ∧ v ∉ pr) → l.Nodup →
      l.foldlM (nbrStep o) p = some p' → NI g0 s (l.reverse ++ pr) p' := by
    intro l
    induction l with
    | nil =>
      intro pr p p' h _ _ e
      rw [List.foldlM_nil] at e
      obtain rfl := Option.some.inj e
      simpa using h
    | cons v l ih =>
      intro pr p p' h hl hn e
      rw [List.foldlM_cons] at e
      obtain ⟨p1, e1, e2⟩ := Option.bind_eq_some_iff.mp e
      have h1 := nbrStep_spec ho h (hl v (by simp)).1 (hl v (by simp)).2 e1
      obtain ⟨n1, n2⟩ := List.nodup_cons.mp hn
      have h2 := ih (v :: pr) h1 (fun u hu => ⟨(hl u (by simp [hu])).1, fun hc => by
        rcases List.mem_cons.mp hc with rfl | hc
        · exact n1 hu
        · exact (hl u (by simp [hu])).2 hc⟩) n2 e2
      simpa using h2
  have h0 : NI g0 s [] ⟨s.g, s.frontier, ∅⟩ := ⟨hs, hcl, hff, fun _ h _ => h, fun _ _ h => by simp at h, fun _ h => by simp at h⟩
  have h1 := key s.frontier [] h0 (fun v hv => ⟨hv, by simp⟩) hs.front.nodup e
  refine ⟨h1.inv, h1.clean, h1.ff, fun v hv hc => absurd hv hc, fun v hv hp => h1.nb v hv (by simpa using hp), h1.set⟩

end Extract
end PyZX
