import Verif.Proofs.ExtCnot

/-!
# Circuit extraction: vertices with a single neighbour
-/

namespace PyZX

namespace Graph

/-- A Z-spider with simple edges to two boundaries. -/
theorem sem_two_simple {g : Graph} (hg : g.WF) {o o' w : ℕ} (h : Leaf g o w) (h' : Leaf g o' w) (hw : g.isX w = false)
    (e : g.adj w o = some .simple) (e' : g.adj w o' = some .simple) {b : ℕ → Bool} (hb : b o ≠ b o') : g.sem b = 0 := by
  rw [sem_eq_amp hg]
  unfold amp
  rw [psum_congr (g := fun _ => 0)]
  · simp [psum]
  · intro x hx
    have h1 := hx o (notMem_interior h.bnd)
    have h2 := hx o' (notMem_interior h'.bnd)
    by_cases c : x w = x o
    · refine weight_eq_zero hg.toInv h' hw e' ?_
      rw [c, h1, h2]; exact hb
    · exact weight_eq_zero hg.toInv h hw e c

theorem Onto.two_simple {g : Graph} (h : g.Onto) (hg : g.WF) (hio : g.IO) {o o' w : ℕ} (ho : o ∈ g.outputs) (ho' : o' ∈ g.outputs)
    (l : Leaf g o w) (l' : Leaf g o' w) (hw : g.isX w = false)
    (e : g.adj w o = some .simple) (e' : g.adj w o' = some .simple) : o = o' := by
  by_contra hne
  obtain ⟨q, hq⟩ := List.getElem?_of_mem ho
  obtain ⟨q', hq'⟩ := List.getElem?_of_mem ho'
  have hqq : q' ≠ q := by rintro rfl; rw [hq] at hq'; exact hne (Option.some.inj hq')
  obtain ⟨x, hx⟩ := h.ne_zero (Function.update (fun _ => false) q true)
  refine hx (sem_two_simple hg l l' hw e e' ?_)
  rw [bval_out hio hq, bval_out hio hq', Function.update_self, Function.update_of_ne hqq]
  simp

end Graph

namespace Extract

open Finset Graph Simplify

/-- The invariant of the loop on `good_verts`; `l` are the pairs that remain. -/
structure EI (g0 : Graph) (s : State) (l : List (ℕ × ℕ)) : Prop where
  inv : LoopInv g0 s
  nodup : (l.map (·.1)).Nodup
  mem : ∀ p ∈ l, p.1 ∈ s.frontier ∧ s.g.phase p.1 = 0
  out : ∀ p ∈ l, ∀ o ∈ s.g.outputs, s.g.adj p.1 o ≠ none → s.g.adj p.1 o = some .simple
  had : ∀ p ∈ l, s.g.adj p.1 p.2 = some .had ∧ s.g.ty p.2 = .Z
  nb : ∀ p ∈ l, ∀ u, s.g.adj p.1 u ≠ none → u ∈ s.g.outputs ∨ u = p.2
  new : ∀ p ∈ l, p.2 ∈ s.frontier → ∀ o ∈ s.g.outputs, s.g.adj p.2 o ≠ none → s.g.adj p.2 o = some .simple
  gad : ∀ p ∈ l, p.2 ∉ s.gadgets
  sep : ∀ p ∈ l, ∀ p' ∈ l, p.1 ≠ p'.2

theorem extractVert_spec {o : Orders} (ho : o.OK) {g0 : Graph} {s s' : State} {f w : ℕ} {l : List (ℕ × ℕ)} (h : EI g0 s ((f, w) :: l))
    (e : extractVert o s (f, w) = some s') : EI g0 s' l := by
  have hgl := h.inv.gl
  have hwf := hgl.zx.wf
  unfold extractVert at e
  simp only at e
  obtain ⟨q, hq, e⟩ := Option.bind_eq_some_iff.mp e
  obtain ⟨b, hb, e⟩ := Option.bind_eq_some_iff.mp e
  obtain ⟨g1, e1, e⟩ := Option.bind_eq_some_iff.mp e
  obtain ⟨g2, e2, e⟩ := Option.map_eq_some_iff.mp e
  obtain ⟨hf, hph⟩ := h.mem (f, w) (by simp)
  obtain ⟨hhad, hwz⟩ := h.had (f, w) (by simp)
  simp only at hf hph hhad hwz
  obtain ⟨hfz, q', b', k1, k2, k3⟩ := h.inv.front.each f hf
  have hfm : f ∈ s.g.verts := hwf.mem _ _ k3
  obtain ⟨hbo, hfb⟩ := outputOf_spec ho hwf hfm hb
  have hbb : b = b' := hgl.out1 f b b' hbo (List.mem_of_getElem? k2) hfb k3
  subst hbb
  rw [hq, Option.some.injEq] at k1
  subst k1
  have hbt : s.g.ty b = .boundary := hwf.io b (Or.inr hbo)
  have hlf := hgl.leaf hbt hfb
  have hfw : s.g.adj f w ≠ none := by rw [hhad]; simp
  have hwf' : s.g.adj w f ≠ none := by rw [hwf.symm]; exact hfw
  have hwne : w ≠ f := by rintro rfl; rw [hwf.loopless] at hhad; simp at hhad
  have hP := pulled_of_ops hwf hlf hfz hwz hwne e1 e2
  have hnb : ∀ u, s.g.adj f u ≠ none → u = b ∨ u = w := by
    intro u hu
    rcases h.nb (f, w) (by simp) u hu with h1 | h1
    · exact Or.inl (hgl.out1 f u b h1 hbo hu hfb)
    · exact Or.inr h1
  have hsimple : s.g.adj f b = some .simple := h.out (f, w) (by simp) b hbo hfb
  have hE : GExt s.g g2 [.had q] := GExt.of_had hgl.io hP.inputs hP.outputs k2
    (sem_pull hwf hlf hfz hwz hph hsimple hhad hnb hP)
  have hon := h.inv.onto.ext hE
  have hbw : b ≠ w := by rintro rfl; rw [hbt] at hwz; simp at hwz
  have hbf : b ≠ f := by rintro rfl; rw [hbt] at hfz; simp at hfz
  -- adjacency
  have hadj : ∀ a c, a ≠ f → a ≠ b → c ≠ f → c ≠ b → g2.adj a c = s.g.adj a c := by
    intro a c h1 h2 h3 h4
    rw [hP.adj, if_neg (by tauto), if_neg (by tauto)]
  have hadjb : ∀ x, g2.adj b x ≠ none → x = w := by
    intro x hx
    by_contra hc
    rw [hP.adj, if_neg (by tauto)] at hx
    by_cases c1 : b = f ∨ x = f
    · rw [if_pos c1] at hx; exact hx rfl
    · rw [if_neg c1] at hx; exact c1 (Or.inr (hlf.only x hx))
  have hadjb' : ∀ x, g2.adj x b ≠ none → x = w := fun x hx => hadjb x (by rw [hP.wf.symm]; exact hx)
  have hwb : g2.adj w b = some .simple := by rw [hP.adj, if_pos (Or.inl ⟨rfl, rfl⟩)]
  have hadjf : ∀ x, g2.adj f x = none := fun x => by
    rw [hP.adj, if_neg (by tauto), if_pos (Or.inl rfl)]
  -- the edges of other boundaries
  have hbd : ∀ c, s.g.ty c = .boundary → c ≠ b → ∀ x, g2.adj c x = s.g.adj c x := by
    intro c hc hcb x
    have hcf : c ≠ f := by rintro rfl; rw [hc] at hfz; simp at hfz
    have hcfn : s.g.adj c f = none := by
      by_contra hx
      rcases hnb c (by rw [hwf.symm]; exact hx) with rfl | rfl
      · exact hcb rfl
      · rw [hc] at hwz; simp at hwz
    by_cases c1 : x = f
    · rw [c1, hP.wf.symm, hadjf, hcfn]
    · by_cases c2 : x = b
      · rw [c2, hP.wf.symm, hwf.symm c b]
        have n1 : s.g.adj b c = none := by
          by_contra hx
          have := hlf.only c hx
          exact hcf this
        have n2 : g2.adj b c = none := by
          by_contra hx
          have := hadjb c hx
          rw [this, hwz] at hc; simp at hc
        rw [n1, n2]
      · exact hadj c x hcf hcb c1 c2
  have hbd' : ∀ c, s.g.ty c = .boundary → c ≠ b → ∀ x, g2.adj x c = s.g.adj x c := fun c hc hcb x => by
    rw [hP.wf.symm, hwf.symm]; exact hbd c hc hcb x
  -- the new vertex was not next to an output
  have hwo : ∀ o1 ∈ s.g.outputs, s.g.adj w o1 = none := by
    intro o1 ho1
    by_contra hc
    have ho1t := hwf.io o1 (Or.inr ho1)
    have hw1 : w ∈ s.frontier := by
      rcases h.inv.front.cover w hwz o1 ho1 hc with h1 | h1
      · exact h1
      · have := h1 f hwf'
        rw [hfz] at this; simp at this
    have hs := h.new (f, w) (by simp) hw1 o1 ho1 hc
    simp only at hs
    have hne : o1 ≠ b := by
      rintro rfl
      exact hwne (hlf.only w (by rw [hwf.symm]; exact hc))
    have ha : g2.adj w o1 = some .simple := by rw [hbd' o1 ho1t hne]; exact hs
    have hio2 : g2.IO := by
      refine ⟨by rw [hP.inputs]; exact hgl.io.nodupIn, by rw [hP.outputs]; exact hgl.io.nodupOut, by rw [hP.inputs, hP.outputs]; exact hgl.io.disj, ?_⟩
      intro x hx ht
      rw [hP.verts] at hx
      rw [hP.ty] at ht
      rw [hP.inputs, hP.outputs]
      exact hgl.io.all x (Finset.mem_of_mem_erase hx) ht
    have l1 : Leaf g2 b w := ⟨by rw [hP.verts]; exact Finset.mem_erase.mpr ⟨hbf, hlf.mem⟩, by rw [hP.ty]; exact hbt,
      by rw [hP.wf.symm, hwb]; simp, hadjb⟩
    have l2 : Leaf g2 o1 w := by
      have hl := hgl.leaf ho1t hc
      exact ⟨by rw [hP.verts]; exact Finset.mem_erase.mpr ⟨by rintro rfl; rw [ho1t] at hfz; simp at hfz, hl.mem⟩, by rw [hP.ty]; exact ho1t,
        by rw [hP.wf.symm, ha]; simp, fun x hx => hl.only x (by rw [← hbd o1 ho1t hne]; exact hx)⟩
    exact hne (hon.two_simple hP.wf hio2 (by rw [hP.outputs]; exact ho1) (by rw [hP.outputs]; exact hbo) l2 l1
      (isX_Z (by rw [hP.ty]; exact hwz)) ha hwb)
  have hwfr : w ∉ s.frontier := by
    intro hc
    obtain ⟨-, q1, o1, -, n2, n3⟩ := h.inv.front.each w hc
    exact n3 (hwo o1 (List.mem_of_getElem? n2))
  have her : ∀ u, u ∈ s.frontier.erase f → u ∈ s.frontier ∧ u ≠ f := fun u hu =>
    ⟨List.mem_of_mem_erase hu, ((h.inv.front.nodup.mem_erase_iff).mp hu).1⟩
  have hgl2 : GLike g2 := by
    refine ⟨⟨hP.wf, ?_, ?_, ?_, ?_⟩, ?_, ?_, ?_, ?_, ?_, ?_⟩
    · intro c hc hct x y hx hy
      rw [hP.verts] at hc
      rw [hP.ty] at hct
      by_cases hcb : c = b
      · subst hcb
        rw [hadjb x hx, hadjb y hy]
      · rw [hbd c hct hcb] at hx hy
        exact hgl.zx.bdeg c (Finset.mem_of_mem_erase hc) hct x y hx hy
    · intro c hc hct
      rw [hP.verts] at hc
      rw [hP.ty] at hct
      by_cases hcb : c = b
      · subst hcb
        exact ⟨w, by rw [hP.wf.symm, hwb]; simp⟩
      · obtain ⟨z, hz⟩ := hgl.zx.badj c (Finset.mem_of_mem_erase hc) hct
        exact ⟨z, by rw [hbd c hct hcb]; exact hz⟩
    · intro x hx
      rw [hP.verts] at hx
      rw [hP.ty]; exact hgl.zx.types x (Finset.mem_of_mem_erase hx)
    · intro x hx
      rw [hP.verts] at hx
      rw [hP.phase]; exact hgl.zx.phases x (Finset.mem_of_mem_erase hx)
    · intro x hx
      rw [hP.verts] at hx
      rw [hP.ty]; exact hgl.tys x (Finset.mem_of_mem_erase hx)
    · intro x y tx ty' hxy
      rw [hP.ty] at tx ty'
      have x1 : x ≠ f := by rintro rfl; exact hxy (hadjf y)
      have y1 : y ≠ f := by rintro rfl; rw [hP.wf.symm] at hxy; exact hxy (hadjf x)
      have x2 : x ≠ b := by rintro rfl; rw [hbt] at tx; simp at tx
      have y2 : y ≠ b := by rintro rfl; rw [hbt] at ty'; simp at ty'
      rw [hadj x y x1 x2 y1 y2] at hxy ⊢
      exact hgl.zh x y tx ty' hxy
    · refine ⟨by rw [hP.inputs]; exact hgl.io.nodupIn, by rw [hP.outputs]; exact hgl.io.nodupOut, by rw [hP.inputs, hP.outputs]; exact hgl.io.disj, ?_⟩
      intro x hx ht
      rw [hP.verts] at hx
      rw [hP.ty] at ht
      rw [hP.inputs, hP.outputs]
      exact hgl.io.all x (Finset.mem_of_mem_erase hx) ht
    · intro x o1 o2 m1 m2 a1 a2
      rw [hP.outputs] at m1 m2
      have t1 := hwf.io o1 (Or.inr m1)
      have t2 := hwf.io o2 (Or.inr m2)
      by_cases c1 : o1 = b
      · by_cases c2 : o2 = b
        · rw [c1, c2]
        · rw [c1] at a1
          rw [hadjb' x a1, hbd' o2 t2 c2] at a2
          exact absurd (hwo o2 m2) a2
      · by_cases c2 : o2 = b
        · rw [c2] at a2
          rw [hadjb' x a2, hbd' o1 t1 c1] at a1
          exact absurd (hwo o1 m1) a1
        · rw [hbd' o1 t1 c1] at a1
          rw [hbd' o2 t2 c2] at a2
          exact hgl.out1 x o1 o2 m1 m2 a1 a2
    · intro o1 o2 m1 m2
      rw [hP.outputs] at m1 m2
      have t1 := hwf.io o1 (Or.inr m1)
      have t2 := hwf.io o2 (Or.inr m2)
      by_cases c1 : o1 = b
      · by_contra hc
        rw [c1] at hc
        have := hadjb o2 hc
        rw [this, hwz] at t2; simp at t2
      · rw [hbd o1 t1 c1]; exact hgl.oo o1 o2 m1 m2
    · intro x i1 i2 m1 m2 a1 a2
      rw [hP.inputs] at m1 m2
      have t1 := hwf.io i1 (Or.inl m1)
      have t2 := hwf.io i2 (Or.inl m2)
      have n1 : i1 ≠ b := by rintro rfl; exact hgl.io.disj _ m1 hbo
      have n2 : i2 ≠ b := by rintro rfl; exact hgl.io.disj _ m2 hbo
      rw [hbd' i1 t1 n1] at a1
      rw [hbd' i2 t2 n2] at a2
      exact hgl.in1 x i1 i2 m1 m2 a1 a2
  have hob : ∀ u ∈ s.frontier, u ≠ f → ∀ o1, s.g.adj u o1 ≠ none → o1 ≠ b := by
    rintro u hu huf o1 ha rfl
    exact huf (hlf.only u (by rw [hwf.symm]; exact ha))
  have hfr : Front g2 (s.frontier.erase f ++ [w]) (Function.update s.qmap w (some q)) := by
    refine ⟨?_, ?_, ?_⟩
    · rw [List.nodup_append]
      refine ⟨h.inv.front.nodup.erase f, by simp, ?_⟩
      intro a ha c hc
      rw [List.mem_singleton] at hc
      subst hc
      rintro rfl
      exact hwfr (her a ha).1
    · intro u hu
      rcases List.mem_append.mp hu with hu | hu
      · obtain ⟨u1, u2⟩ := her u hu
        obtain ⟨n0, q1, o1, n1, n2, n3⟩ := h.inv.front.each u u1
        refine ⟨by rw [hP.ty]; exact n0, q1, o1, ?_, by rw [hP.outputs]; exact n2, ?_⟩
        · rw [Function.update_of_ne]
          · exact n1
          · rintro rfl; exact hwfr u1
        · rw [hbd' o1 (hwf.io o1 (Or.inr (List.mem_of_getElem? n2))) (hob u u1 u2 o1 n3)]; exact n3
      · rw [List.mem_singleton] at hu
        subst hu
        exact ⟨by rw [hP.ty]; exact hwz, q, b, by rw [Function.update_self], by rw [hP.outputs]; exact k2, by rw [hwb]; simp⟩
    · intro x hx o1 ho1 ha
      rw [hP.ty] at hx ⊢
      rw [hP.outputs] at ho1
      by_cases c1 : o1 = b
      · subst c1
        rw [hadjb' x ha]
        exact Or.inl (by simp)
      · rw [hbd' o1 (hwf.io o1 (Or.inr ho1)) c1] at ha
        have hxw : x ≠ w := by rintro rfl; exact ha (hwo o1 ho1)
        rcases h.inv.front.cover x hx o1 ho1 ha with h3 | h3
        · by_cases hxf : x = f
          · subst hxf
            exact absurd (hgl.out1 x o1 b ho1 hbo ha hfb) c1
          · exact Or.inl (List.mem_append_left _ ((h.inv.front.nodup.mem_erase_iff).mpr ⟨hxf, h3⟩))
        · right
          intro u hu
          rw [hP.adj, if_neg (by
            rintro (⟨c, -⟩ | ⟨c, -⟩)
            · exact hxw c
            · rw [c, hbt] at hx; simp at hx)] at hu
          by_cases c2 : x = f ∨ u = f
          · rw [if_pos c2] at hu; exact absurd rfl hu
          · rw [if_neg c2] at hu; exact h3 u hu
  have hgad : ∀ x ∈ s.gadgets, GadAt g2 (s.frontier.erase f ++ [w]) x := by
    intro x hx
    have hX := h.inv.gad x hx
    have hxw : x ≠ w := by rintro rfl; exact h.gad (f, x) (by simp) hx
    have hxf : x ≠ f := by rintro rfl; exact hX.off hf
    have hxb : x ≠ b := by rintro rfl; rw [hX.ty] at hbt; simp at hbt
    have hnx : s.g.adj f x = none := by
      by_contra hc
      rcases hnb x hc with c | c
      · exact hxb c
      · exact hxw c
    have h1 : GadAt g2 s.frontier x := by
      refine hX.of (fun u _ => by rw [hP.ty]) (by rw [hP.phase]) ?_
      intro u hu y
      have hu' : u ≠ f ∧ u ≠ b ∧ u ≠ w ∧ s.g.adj u f = none := by
        rcases hu with rfl | ⟨u1, u2⟩
        · exact ⟨hxf, hxb, hxw, by rw [hwf.symm]; exact hnx⟩
        · refine ⟨?_, ?_, ?_, ?_⟩
          · rintro rfl
            exact hxb (u2 b hfb).symm
          · rintro rfl
            have := hX.nb u u1
            rw [hbt] at this; simp at this
          · rintro rfl
            exact hxf (u2 f hwf').symm
          · by_contra hc
            exact hxf (u2 f hc).symm
      obtain ⟨v1, v2, v3, v4⟩ := hu'
      rw [hP.adj, if_neg (by tauto)]
      by_cases c2 : u = f ∨ y = f
      · rw [if_pos c2]
        rcases c2 with c | c
        · exact absurd c v1
        · rw [c]; simp [v4]
      · rw [if_neg c2]
    refine ⟨h1.ty, h1.ph, ?_, h1.nb, h1.leaf⟩
    intro hc
    rcases List.mem_append.mp hc with hc | hc
    · exact hX.off (her x hc).1
    · exact hxw (List.mem_singleton.mp hc)
  have hnd := h.nodup
  rw [List.map_cons, List.nodup_cons] at hnd
  have hpf : ∀ p ∈ l, p.1 ≠ f := fun p hp hc => hnd.1 (List.mem_map.mpr ⟨p, hp, hc⟩)
  have hpb : ∀ p ∈ l, p.1 ≠ b := fun p hp hc => by
    have := (h.inv.front.each p.1 (h.mem p (by simp [hp])).1).1
    rw [hc, hbt] at this; simp at this
  have hpb2 : ∀ p ∈ l, p.2 ≠ b := fun p hp hc => by
    have := (h.had p (by simp [hp])).2
    rw [hc, hbt] at this; simp at this
  have hpf2 : ∀ p ∈ l, p.2 ≠ f := fun p hp hc => h.sep (f, w) (by simp) p (by simp [hp]) hc.symm
  have hpw : ∀ p ∈ l, p.1 ≠ w := fun p hp => h.sep p (by simp [hp]) (f, w) (by simp)
  subst e
  refine ⟨⟨hgl2, hon, h.inv.ext.trans hE, hfr, hgad⟩, hnd.2, ?_, ?_, ?_, ?_, ?_, ?_, ?_⟩
  · intro p hp
    obtain ⟨n1, n2⟩ := h.mem p (by simp [hp])
    refine ⟨List.mem_append_left _ ((h.inv.front.nodup.mem_erase_iff).mpr ⟨hpf p hp, n1⟩), ?_⟩
    show g2.phase p.1 = 0
    rw [hP.phase]; exact n2
  · intro p hp o1 ho1 ha
    replace ho1 : o1 ∈ s.g.outputs := by rw [← hP.outputs]; exact ho1
    have ha : g2.adj p.1 o1 ≠ none := ha
    show g2.adj p.1 o1 = _
    have hne : o1 ≠ b := by rintro rfl; exact hpw p hp (hadjb' _ ha)
    rw [hbd' o1 (hwf.io o1 (Or.inr ho1)) hne] at ha ⊢
    exact h.out p (by simp [hp]) o1 ho1 ha
  · intro p hp
    obtain ⟨n1, n2⟩ := h.had p (by simp [hp])
    refine ⟨?_, by show g2.ty p.2 = _; rw [hP.ty]; exact n2⟩
    show g2.adj p.1 p.2 = _
    rw [hadj p.1 p.2 (hpf p hp) (hpb p hp) (hpf2 p hp) (hpb2 p hp)]; exact n1
  · intro p hp u hu
    have hu : g2.adj p.1 u ≠ none := hu
    show u ∈ g2.outputs ∨ _
    rw [hP.outputs]
    by_cases c1 : u = b
    · exact Or.inl (c1 ▸ hbo)
    · have c2 : u ≠ f := by rintro rfl; rw [hP.wf.symm] at hu; exact hu (hadjf _)
      rw [hadj p.1 u (hpf p hp) (hpb p hp) c2 c1] at hu
      exact h.nb p (by simp [hp]) u hu
  · intro p hp hpm o1 ho1 ha
    replace ho1 : o1 ∈ s.g.outputs := by rw [← hP.outputs]; exact ho1
    have ha : g2.adj p.2 o1 ≠ none := ha
    show g2.adj p.2 o1 = _
    by_cases c1 : o1 = b
    · rw [c1] at ha ⊢
      rw [hadjb' _ ha]; exact hwb
    · rw [hbd' o1 (hwf.io o1 (Or.inr ho1)) c1] at ha ⊢
      have hpm : p.2 ∈ s.frontier.erase f ++ [w] := hpm
      rcases List.mem_append.mp hpm with hc | hc
      · exact h.new p (by simp [hp]) (her _ hc).1 o1 ho1 ha
      · rw [List.mem_singleton] at hc
        rw [hc] at ha
        exact absurd (hwo o1 ho1) ha
  · exact fun p hp => h.gad p (by simp [hp])
  · exact fun p hp p' hp' => h.sep p (by simp [hp]) p' (by simp [hp'])

theorem extractVerts_spec {o : Orders} (ho : o.OK) {g0 : Graph} (l : List (ℕ × ℕ)) {s s' : State} (h : EI g0 s l)
    (e : l.foldlM (extractVert o) s = some s') : LoopInv g0 s' := by
  induction l generalizing s with
  | nil =>
    rw [List.foldlM_nil] at e
    obtain rfl := Option.some.inj e
    exact h.inv
  | cons p l ih =>
    rw [List.foldlM_cons] at e
    obtain ⟨s1, e1, e2⟩ := Option.bind_eq_some_iff.mp e
    exact ih (extractVert_spec ho h e1) e2

theorem count_one (l : List Bool) (h : l.count true = 1) {i j : ℕ} (hi : i < l.length) (hj : j < l.length) (a : l[i] = true)
    (b : l[j] = true) : i = j := by
  induction l generalizing i j with
  | nil => simp at hi
  | cons x l ih =>
    by_cases hx : x = true
    · subst hx
      rw [List.count_cons_self] at h
      have h0 : l.count true = 0 := by omega
      rw [List.count_eq_zero] at h0
      rcases i with - | i
      · rcases j with - | j
        · rfl
        · rw [List.getElem_cons_succ] at b
          exact absurd (b ▸ List.getElem_mem _) h0
      · rw [List.getElem_cons_succ] at a
        exact absurd (a ▸ List.getElem_mem _) h0
    · rw [List.count_cons_of_ne hx] at h
      rcases i with - | i
      · exact absurd a hx
      · rcases j with - | j
        · exact absurd b hx
        · rw [List.getElem_cons_succ] at a b
          rw [ih h (by simpa using hi) (by simpa using hj) a b]

theorem goodVerts_spec {m : Mat2.Data} {fs ns : List ℕ} (hm : Mat2.Rect fs.length ns.length m) {p : ℕ × ℕ} (hp : p ∈ goodVerts m fs ns) :
    ∃ i j, i < fs.length ∧ j < ns.length ∧ p = (fs.getD i 0, ns.getD j 0) ∧ ∀ j' < ns.length, Mat2.get m i j' = decide (j' = j) := by
  unfold goodVerts at hp
  obtain ⟨⟨row, i⟩, hr, rfl⟩ := List.mem_map.mp hp
  rw [List.mem_filter, decide_eq_true_eq] at hr
  obtain ⟨h1, h2⟩ := hr
  have h3 := List.mem_zipIdx' h1
  simp only at h2 h3
  obtain ⟨hi, hrow⟩ := h3
  have hlen : row.length = ns.length := by rw [hrow]; exact hm.2 _ (List.getElem_mem hi)
  have hmem : true ∈ row := by
    rw [← List.count_pos_iff]; omega
  have hj : row.idxOf true < row.length := List.idxOf_lt_length_of_mem hmem
  refine ⟨i, row.idxOf true, by rw [← hm.1]; exact hi, by rw [← hlen]; exact hj, rfl, ?_⟩
  intro j' hj'
  have hget : Mat2.get m i j' = row.getD j' false := by
    simp only [Mat2.get]
    rw [List.getD_eq_getElem _ _ hi, ← hrow]
  rw [hget]
  have hj'' : j' < row.length := by omega
  rw [List.getD_eq_getElem _ _ hj'']
  by_cases c : j' = row.idxOf true
  · rw [decide_eq_true c]
    simp only [c]
    exact List.getElem_idxOf hj
  · rw [decide_eq_false c]
    by_contra hc
    have ht : row[j'] = true := by simpa using hc
    exact c (count_one row h2 hj'' hj ht (List.getElem_idxOf hj))

theorem goodVerts_nodup {m : Mat2.Data} {fs ns : List ℕ} (hm : m.length = fs.length) (hn : fs.Nodup) : ((goodVerts m fs ns).map (·.1)).Nodup := by
  unfold goodVerts
  rw [List.map_map]
  have h1 : (m.zipIdx.filter fun p => decide (p.1.count true = 1)).Nodup :=
    (List.Nodup.of_map (·.2) (by rw [List.zipIdx_map_snd]; exact List.nodup_range')).filter _
  refine List.Nodup.map_on ?_ h1
  rintro ⟨r, i⟩ hx ⟨r', i'⟩ hy hxy
  have hxy : fs.getD i 0 = fs.getD i' 0 := hxy
  obtain ⟨a1, a2⟩ := List.mem_zipIdx' (List.mem_filter.mp hx).1
  obtain ⟨b1, b2⟩ := List.mem_zipIdx' (List.mem_filter.mp hy).1
  have hi := getD_inj hn (by omega) (by omega) hxy
  subst hi
  rw [a2, b2]

theorem good_ei {g0 : Graph} {s : State} {ns : List ℕ} {m : Mat2.Data} (hM : FM g0 s ns m) : EI g0 s (goodVerts m s.frontier ns) := by
  have hfn := hM.inv.front.nodup
  have hrect := hM.rect
  have hform := hM.form
  have hgl := hM.inv.gl
  have hconn := hM.conn
  have hfout : ∀ f ∈ s.frontier, ∀ o1 ∈ s.g.outputs, s.g.adj f o1 ≠ none → s.g.adj f o1 = some .simple := by
    intro f hf o1 ho1 ha
    have hF := List.mem_toFinset.mpr hf
    have h1 := hform.simple f hF
    obtain ⟨-, q, o2, h2, h3, h4⟩ := hM.inv.front.each f hf
    have h5 := outOf_eq h2 h3
    rw [h5] at h1
    rw [hgl.out1 f o1 o2 ho1 (List.mem_of_getElem? h3) ha h4]; exact h1
  refine ⟨hM.inv, goodVerts_nodup hrect.1 hfn, ?_, ?_, ?_, ?_, ?_, ?_, ?_⟩
  · intro p hp
    obtain ⟨i, j, hi, hj, rfl, -⟩ := goodVerts_spec hrect hp
    exact ⟨getD_mem hi, hform.ph _ (List.mem_toFinset.mpr (getD_mem hi))⟩
  · intro p hp
    obtain ⟨i, j, hi, hj, rfl, -⟩ := goodVerts_spec hrect hp
    exact hfout _ (getD_mem hi)
  · intro p hp
    obtain ⟨i, j, hi, hj, rfl, hij⟩ := goodVerts_spec hrect hp
    refine ⟨?_, (hform.nbZ _ (List.mem_toFinset.mpr (getD_mem hj))).2⟩
    have := hconn i hi j hj
    rw [hij j hj, if_pos (by simp)] at this
    exact this
  · intro p hp u hu
    obtain ⟨i, j, hi, hj, rfl, hij⟩ := goodVerts_spec hrect hp
    have hu : s.g.adj (s.frontier.getD i 0) u ≠ none := hu
    show u ∈ s.g.outputs ∨ u = ns.getD j 0
    rcases hform.nb _ (List.mem_toFinset.mpr (getD_mem hi)) u hu with h1 | h1
    · left
      obtain ⟨-, q, o2, h2, h3, h4⟩ := hM.inv.front.each _ (getD_mem hi)
      rw [h1, outOf_eq h2 h3]
      exact List.mem_of_getElem? h3
    · right
      obtain ⟨j', hj', rfl⟩ := getD_of_mem (List.mem_toFinset.mp h1)
      rw [hconn i hi j' hj', hij j' hj'] at hu
      by_cases c : j' = j
      · rw [c]
      · rw [if_neg (by simp [c])] at hu
        exact absurd rfl hu
  · intro p hp hc
    obtain ⟨i, j, hi, hj, rfl, hij⟩ := goodVerts_spec hrect hp
    exact absurd (List.mem_toFinset.mpr hc) (hform.nbF _ (List.mem_toFinset.mpr (getD_mem hj)))
  · intro p hp
    obtain ⟨i, j, hi, hj, rfl, hij⟩ := goodVerts_spec hrect hp
    exact hM.gad _ (getD_mem hj)
  · intro p hp p' hp' hc
    obtain ⟨i, j, hi, hj, rfl, hij⟩ := goodVerts_spec hrect hp
    obtain ⟨i', j', hi', hj', rfl, hij'⟩ := goodVerts_spec hrect hp'
    have hc : s.frontier.getD i 0 = ns.getD j' 0 := hc
    exact hform.nbF _ (List.mem_toFinset.mpr (getD_mem hj')) (List.mem_toFinset.mpr (hc ▸ getD_mem hi))

theorem applyCnots_spec {o : Orders} (ho : o.OK) {g0 : Graph} {s s' : State} {ns : List ℕ} (h : FS g0 s ns) {cs : List (ℕ × ℕ)}
    (hc : ∀ c ∈ cs, c.1 ≠ c.2) (e : applyCnots o s cs (GFlow.biAdj s.g ns s.frontier) ns = some s') : LoopInv g0 s' := by
  unfold applyCnots at e
  obtain ⟨l, hl, e⟩ := Option.bind_eq_some_iff.mp e
  obtain ⟨g1, e1, e⟩ := Option.bind_eq_some_iff.mp e
  have hM := cnots_spec h hc hl e1
  obtain ⟨m, hm⟩ : ∃ m, m = addRows (GFlow.biAdj s.g ns s.frontier) cs := ⟨_, rfl⟩
  rw [← hm] at hM e
  simp only at e
  by_cases hg : goodVerts m s.frontier ns = []
  · rw [if_pos hg] at e; simp at e
  rw [if_neg hg] at e
  exact extractVerts_spec ho _ (good_ei hM) e

theorem nbrStep_sub {o : Orders} {p p' : NbrState} {v : ℕ} (e : nbrStep o p v = some p') : ∀ u ∈ p'.frontier, u ∈ p.frontier := by
  unfold nbrStep at e
  simp only at e
  rcases hi : ((o.nbr p.g v).filter (· ∉ p.g.outputs)).filter (· ∈ p.g.inputs) with _ | ⟨b, t⟩
  · rw [hi] at e
    simp only [Option.some.injEq] at e
    subst e
    exact fun u hu => hu
  · rw [hi] at e
    simp only at e
    by_cases hl : ((o.nbr p.g v).filter (· ∉ p.g.outputs)).length = 1
    · rw [if_pos hl, Option.some.injEq] at e
      subst e
      exact fun u hu => List.mem_of_mem_erase hu
    · rw [if_neg hl] at e
      obtain ⟨et, he, e⟩ := Option.bind_eq_some_iff.mp e
      obtain ⟨g1, e1, e⟩ := Option.bind_eq_some_iff.mp e
      obtain ⟨g2, e2, e⟩ := Option.bind_eq_some_iff.mp e
      obtain ⟨g3, e3, e⟩ := Option.map_eq_some_iff.mp e
      subst e
      exact fun u hu => hu

theorem neighbors_sub {o : Orders} : ∀ (l : List ℕ) {p p' : NbrState}, l.foldlM (nbrStep o) p = some p' → ∀ u ∈ p'.frontier, u ∈ p.frontier := by
  intro l
  induction l with
  | nil =>
    intro p p' e
    rw [List.foldlM_nil] at e
    obtain rfl := Option.some.inj e
    exact fun u hu => hu
  | cons v l ih =>
    intro p p' e
    rw [List.foldlM_cons] at e
    obtain ⟨p1, e1, e2⟩ := Option.bind_eq_some_iff.mp e
    exact fun u hu => nbrStep_sub e1 u (ih e2 u hu)

theorem ok_bind {α β : Type} {x : Out α} {f : α → Out β} {b : β} (e : x.bind f = .ok b) : ∃ a, x = .ok a ∧ f a = .ok b := by
  cases x with
  | raised => simp [Out.bind] at e
  | running => simp [Out.bind] at e
  | ok a => exact ⟨a, rfl, e⟩

theorem ok_ofOption {α : Type} {x : Option α} {a : α} (e : ofOption x = .ok a) : x = some a := by
  cases x with
  | none => simp [ofOption] at e
  | some b => simp only [ofOption, Out.ok.injEq] at e; rw [e]

/-- The CNOTs that a strategy chooses have different control and target. -/
def ChooseOK (choose : ℕ → Mat2.Data → Option (List (ℕ × ℕ))) : Prop :=
  ∀ t r c m cs, Mat2.Rect r c m → choose t m = some cs → ∀ c ∈ cs, c.1 ≠ c.2

/-- The state after `neighbors_of_frontier` meets the invariant of `remove_gadget`. -/
theorem NI.gi {g0 : Graph} {s : State} {p : NbrState} (hN : NI g0 s s.frontier p) (hsub : ∀ v ∈ p.frontier, v ∈ s.frontier) :
    GI g0 { s with g := p.g, frontier := p.frontier } := by
  have hwf := hN.inv.gl.zx.wf
  refine ⟨hN.inv, fun v hv => Or.inl (hN.clean v hv).1, fun v hv i hi => ?_⟩
  by_contra hc
  have hi : i ∈ p.g.inputs := hi
  have hwf : p.g.WF := hwf
  rcases hN.nb v hv (hsub v hv) i hc with h1 | h1
  · exact hN.inv.gl.io.disj _ hi h1
  · have := (hN.set i h1).1
    rw [hwf.io i (Or.inl hi)] at this; simp at this

theorem iteration_spec {o : Orders} (ho : o.OK) {choose : Mat2.Data → Option (List (ℕ × ℕ))} 
    (hch : ∀ r c m cs, Mat2.Rect r c m → choose m = some cs → ∀ c ∈ cs, c.1 ≠ c.2)
    {g0 : Graph} {opt : Bool} {fuel : ℕ} {s : State} {r : State × Bool} (hs : LoopInv g0 s) (e : iteration o choose opt fuel s = .ok r) :
    LoopInv g0 r.1 ∧ (r.2 = true → r.1.frontier = []) := by
  unfold iteration at e
  obtain ⟨s1, e1, e⟩ := ok_bind e
  obtain ⟨k1, k2, k3, k4⟩ := cleanFrontier_spec ho hs e1
  obtain ⟨p, e2, e⟩ := ok_bind e
  replace e2 := ok_ofOption e2
  have hN := neighborsOfFrontier_spec ho k1 k3 k4 e2
  have hsub := neighbors_sub _ e2
  simp only at e hsub
  by_cases hf : p.frontier = []
  · rw [if_pos hf, Out.ok.injEq] at e
    subst e
    exact ⟨hN.inv, fun _ => hf⟩
  rw [if_neg hf] at e
  obtain ⟨r1, e3, e⟩ := ok_bind e
  replace e3 := ok_ofOption e3
  have hGI := hN.gi hsub
  obtain ⟨j1, j2, -⟩ := removeGadget_spec ho hGI e3
  by_cases hr : r1.2 = true
  · rw [if_pos hr, Out.ok.injEq] at e
    subst e
    exact ⟨j1, fun h => by simp at h⟩
  rw [if_neg hr] at e
  obtain ⟨j3, j4⟩ := j2 (by simpa using hr)
  obtain ⟨cs, e4, e⟩ := ok_bind e
  obtain ⟨s3, e5, e⟩ := ok_bind e
  replace e4 := ok_ofOption e4
  replace e5 := ok_ofOption e5
  rw [Out.ok.injEq] at e
  subst e
  refine ⟨?_, fun h => by simp at h⟩
  rw [j3] at e5 e4
  have hFS := hN.fs hsub (ho.lst p.set).1 (ho.lst p.set).2 j4
  refine applyCnots_spec ho hFS ?_ e5
  by_cases c : ∀ row ∈ GFlow.biAdj p.g (o.lst p.set) p.frontier, row.count true ≠ 1
  · rw [if_pos c] at e4
    exact hch _ _ _ _ (biAdj_rect _ _ _) e4
  · rw [if_neg c] at e4
    obtain rfl := Option.some.inj e4
    simp

theorem mainLoop_spec {ω : ℕ → Orders} (hω : ∀ t, (ω t).OK) {choose : ℕ → Mat2.Data → Option (List (ℕ × ℕ))} (hch : ChooseOK choose)
    {g0 : Graph} {opt : Bool} {fuel : ℕ} : ∀ (n t : ℕ) {s : State} {r : State × ℕ}, LoopInv g0 s →
    mainLoop ω choose opt fuel n t s = .ok r → LoopInv g0 r.1 ∧ r.1.frontier = [] := by
  intro n
  induction n with
  | zero => intro t s r _ e; simp [mainLoop] at e
  | succ n ih =>
    intro t s r hs e
    rw [mainLoop] at e
    obtain ⟨r1, e1, e⟩ := ok_bind e
    obtain ⟨h1, h2⟩ := iteration_spec (hω t) (hch t) hs e1
    by_cases hr : r1.2 = true
    · rw [if_pos hr, Out.ok.injEq] at e
      subst e
      exact ⟨h1, h2 hr⟩
    · rw [if_neg hr] at e
      exact ih (t + 1) h1 e

end Extract
end PyZX
