import Verif.Proofs.ExtNbr
import Verif.Proofs.ExtPivot

/-!
# Circuit extraction: `remove_gadget`
-/

namespace PyZX
namespace Extract

open Finset Graph Simplify

/-- The invariant of the loop of `remove_gadget`. -/
structure GI (g0 : Graph) (s : State) : Prop where
  inv : LoopInv g0 s
  ph : ∀ v ∈ s.frontier, s.g.phase v = 0 ∨ s.g.phase v = 1
  noin : ∀ v ∈ s.frontier, ∀ i ∈ s.g.inputs, s.g.adj v i = none

theorem int_pauli {p : ℚ} (h : p = 0 ∨ p = 1) : ∃ k : ℤ, p = k := by
  rcases h with h | h
  · exact ⟨0, by rw [h]; simp⟩
  · exact ⟨1, by rw [h]; simp⟩

theorem pauli_int {p : ℚ} (h : Reduced p) (hk : ∃ k : ℤ, p = k) : p = 0 ∨ p = 1 := (isPauli_iff h).mpr hk

/-- The diagram without its isolated vertices. -/
structure Pruned (g g' : Graph) : Prop where
  vs : ∀ v, v ∈ g'.verts ↔ v ∈ g.verts ∧ ¬ g.Isolated v
  ty : g'.ty = g.ty
  phase : g'.phase = g.phase
  adj : ∀ v ∈ g'.verts, ∀ n, g'.adj v n = g.adj v n

theorem not_isolated {g : Graph} (hg : g.WF) {x a b : ℕ} (ha : g.adj x a ≠ none) (hb : g.adj x b ≠ none) (hab : a ≠ b) : ¬ g.Isolated x := by
  rintro ⟨-, h | ⟨w, -, -, h, -⟩⟩
  · have := (mem_nbrs hg.toInv).mpr ha
    rw [h] at this; simp at this
  · have h1 := (mem_nbrs hg.toInv).mpr ha
    have h2 := (mem_nbrs hg.toInv).mpr hb
    rw [h, Finset.mem_singleton] at h1 h2
    exact hab (h1.trans h2.symm)

theorem not_isolated_bnd {g : Graph} (hg : g.WF) {x a : ℕ} (ha : g.adj x a ≠ none) (hb : g.ty a = .boundary ∨ g.ty x = .boundary) :
    ¬ g.Isolated x := by
  rintro ⟨-, h | ⟨w, -, -, h, -, h1, h2⟩⟩
  · have := (mem_nbrs hg.toInv).mpr ha
    rw [h] at this; simp at this
  · have h3 := (mem_nbrs hg.toInv).mpr ha
    rw [h, Finset.mem_singleton] at h3
    rw [h3] at hb
    tauto

/-- The state after a gadget has been removed. -/
theorem gadget_invariant {g0 : Graph} {s : State} (h : GI g0 s) {w v o q : ℕ} (hw : w ∈ s.gadgets) (hv : v ∈ s.frontier)
    (hwv : s.g.adj w v ≠ none) (ho : o ∈ s.g.outputs) (hvo : s.g.adj v o ≠ none) (hq : s.qmap v = some q) (hqo : s.g.outputs[q]? = some o)
    {g1 g2 : Graph} (h1 : PivotOut s.g g1 w v o) (h2 : Pruned g1 g2) (hz2 : g2.ZX Reduced) (hup : PreservesUpTo g1 g2) :
    GI g0 { s with
      g := g2
      frontier := s.frontier.erase v ++ [w]
      gadgets := s.gadgets.erase w
      qmap := Function.update s.qmap w (some q) } := by
  have hgl := h.inv.gl
  have hwf := hgl.zx.wf
  have hG := h.inv.gad w hw
  have hw1 := h1.zx.wf
  have hob : s.g.ty o = .boundary := hwf.io o (Or.inr ho)
  obtain ⟨hvz, -⟩ := h.inv.front.each v hv
  have hvw : s.g.adj v w ≠ none := by rw [hwf.symm]; exact hwv
  have hne : w ≠ v := by rintro rfl; rw [hwf.loopless] at hwv; simp at hwv
  have hvm : v ∈ s.g.verts := hwf.mem _ _ hvo
  have hwm : w ∈ s.g.verts := hwf.mem _ _ hwv
  have hbm : ∀ b, s.g.ty b = .boundary → b ≠ w ∧ b ≠ v := fun b hb =>
    ⟨by rintro rfl; rw [hG.ty] at hb; simp at hb, by rintro rfl; rw [hvz] at hb; simp at hb⟩
  have hwb : ∀ b, s.g.ty b = .boundary → s.g.adj w b = none := fun b hb => by
    by_contra hc
    have := hG.nb b hc
    rw [hb] at this; simp at this
  have hvb : ∀ b, s.g.ty b = .boundary → b ≠ o → s.g.adj v b = none := fun b hb hbo => by
    by_contra hc
    rcases hgl.io.all b (hwf.toInv.mem' hc) hb with hi | hi
    · exact hc (h.noin v hv b hi)
    · exact hbo (hgl.out1 v b o hi ho hc hvo)
  -- boundaries survive
  have hbv : ∀ b ∈ s.g.verts, s.g.ty b = .boundary → b ∈ g2.verts := by
    intro b hb ht
    have hb1 : b ∈ g1.verts := by rw [h1.verts, Finset.mem_erase]; exact ⟨(hbm b ht).2, hb⟩
    have ht1 : g1.ty b = .boundary := by rw [h1.ty]; exact ht
    obtain ⟨z, hz⟩ := h1.zx.badj b hb1 ht1
    exact (h2.vs b).mpr ⟨hb1, not_isolated_bnd hw1 hz (Or.inr ht1)⟩
  have hty : g2.ty = s.g.ty := h2.ty.trans h1.ty
  have hvt : ∀ x ∈ g2.verts, x ∈ s.g.verts ∧ x ≠ v := by
    intro x hx
    have := ((h2.vs x).mp hx).1
    rw [h1.verts, Finset.mem_erase] at this
    exact ⟨this.2, this.1⟩
  have hbd : ∀ b, s.g.ty b = .boundary → b ≠ o → ∀ x, g2.adj b x = s.g.adj b x := by
    intro b hb hbo x
    by_cases hbv' : b ∈ s.g.verts
    · rw [h2.adj b (hbv b hbv' hb), h1.far b (hbm b hb).1 (hbm b hb).2 (hwb b hb) (hvb b hb hbo)]
    · have e1 : s.g.adj b x = none := by by_contra hc; exact hbv' (hwf.mem _ _ hc)
      have e2 : g2.adj b x = none := by by_contra hc; exact hbv' (hvt b (hz2.wf.mem _ _ hc)).1
      rw [e1, e2]
  have hbd' : ∀ b, s.g.ty b = .boundary → b ≠ o → ∀ x, g2.adj x b = s.g.adj x b := fun b hb hbo x => by
    rw [hz2.wf.symm, hwf.symm]; exact hbd b hb hbo x
  have hom : o ∈ g2.verts := hbv o (hwf.out o ho) hob
  have hoo : ∀ x, g2.adj o x ≠ none → x = w := fun x hx => h1.out.2 x (by rw [← h2.adj o hom]; exact hx)
  have how : g2.adj w o ≠ none := by
    rw [hz2.wf.symm, h2.adj o hom, hw1.symm]; exact h1.out.1
  have hoo' : ∀ x, g2.adj x o ≠ none → x = w := fun x hx => hoo x (by rw [hz2.wf.symm]; exact hx)
  have hin : g2.inputs = s.g.inputs := hup.inputs.trans h1.pres.inputs
  have hout : g2.outputs = s.g.outputs := hup.outputs.trans h1.pres.outputs
  have hoi : ∀ i ∈ s.g.inputs, s.g.ty i = .boundary ∧ i ≠ o := fun i hi =>
    ⟨hwf.io i (Or.inl hi), by rintro rfl; exact hgl.io.disj _ hi ho⟩
  have hlv : ∀ z, s.g.adj z o ≠ none → z = v := fun z hz => (hgl.leaf hob hvo).only z (by rw [hwf.symm]; exact hz)
  have hred : ∀ x ∈ g2.verts, Reduced (g2.phase x) := hz2.phases
  have hint : ∀ x, (∃ k : ℤ, g2.phase x = k) ↔ ∃ k : ℤ, s.g.phase x = k := fun x => by
    rw [h2.phase]; exact h1.shift.int
  have hpauli : ∀ x ∈ g2.verts, s.g.phase x = 0 ∨ s.g.phase x = 1 → g2.phase x = 0 ∨ g2.phase x = 1 := fun x hx hp =>
    pauli_int (hred x hx) ((hint x).mpr (int_pauli hp))
  have hE : GExt s.g g2 [] := by
    have := (GExt.of_upTo h1.pres.upTo).trans (GExt.of_upTo hup)
    simpa using this
  have hgl2 : GLike g2 := by
    refine ⟨hz2, ?_, ?_, ?_, ?_, ?_, ?_⟩
    · intro x hx
      rw [hty]; exact hgl.tys x (hvt x hx).1
    · intro a b ta tb hab
      have ha := hz2.wf.mem _ _ hab
      rw [h2.adj a ha] at hab ⊢
      rw [h2.ty] at ta tb
      exact h1.zh a b ta tb hab
    · refine ⟨by rw [hin]; exact hgl.io.nodupIn, by rw [hout]; exact hgl.io.nodupOut, by rw [hin, hout]; exact hgl.io.disj, ?_⟩
      intro x hx ht
      rw [hin, hout]
      rw [hty] at ht
      exact hgl.io.all x (hvt x hx).1 ht
    · intro x o1 o2 m1 m2 a1 a2
      rw [hout] at m1 m2
      have t1 := hwf.io o1 (Or.inr m1)
      have t2 := hwf.io o2 (Or.inr m2)
      by_cases e1 : o1 = o
      · by_cases e2 : o2 = o
        · rw [e1, e2]
        · rw [e1] at a1
          rw [hoo' x a1, hbd' o2 t2 e2] at a2
          exact absurd (hwb o2 t2) a2
      · by_cases e2 : o2 = o
        · rw [e2] at a2
          rw [hoo' x a2, hbd' o1 t1 e1] at a1
          exact absurd (hwb o1 t1) a1
        · rw [hbd' o1 t1 e1] at a1
          rw [hbd' o2 t2 e2] at a2
          exact hgl.out1 x o1 o2 m1 m2 a1 a2
    · intro o1 o2 m1 m2
      rw [hout] at m1 m2
      have t1 := hwf.io o1 (Or.inr m1)
      by_cases e1 : o1 = o
      · by_contra hc
        rw [e1] at hc
        have := hoo o2 hc
        exact (hbm o2 (hwf.io o2 (Or.inr m2))).1 this
      · rw [hbd o1 t1 e1]; exact hgl.oo o1 o2 m1 m2
    · intro x i1 i2 m1 m2 a1 a2
      rw [hin] at m1 m2
      rw [hbd' i1 (hoi i1 m1).1 (hoi i1 m1).2] at a1
      rw [hbd' i2 (hoi i2 m2).1 (hoi i2 m2).2] at a2
      exact hgl.in1 x i1 i2 m1 m2 a1 a2
  have her : ∀ u, u ∈ s.frontier.erase v → u ∈ s.frontier ∧ u ≠ v := fun u hu =>
    ⟨List.mem_of_mem_erase hu, ((h.inv.front.nodup.mem_erase_iff).mp hu).1⟩
  have hwm2 : w ∈ g2.verts := hz2.wf.mem _ _ how
  -- members of the frontier survive
  have hfo : ∀ u ∈ s.frontier, u ≠ v → ∀ o1 ∈ s.g.outputs, s.g.adj u o1 ≠ none → g2.adj u o1 ≠ none := by
    intro u hu huv o1 ho1 ha
    rw [hbd' o1 (hwf.io o1 (Or.inr ho1))]
    · exact ha
    · rintro rfl; exact huv (hlv u ha)
  have hfm : ∀ u ∈ s.frontier, u ≠ v → u ∈ g2.verts := by
    intro u hu huv
    obtain ⟨-, q1, o1, -, f2, f3⟩ := h.inv.front.each u hu
    exact hz2.wf.mem _ _ (hfo u hu huv o1 (List.mem_of_getElem? f2) f3)
  have hfr : Front g2 (s.frontier.erase v ++ [w]) (Function.update s.qmap w (some q)) := by
    refine ⟨?_, ?_, ?_⟩
    · rw [List.nodup_append]
      refine ⟨h.inv.front.nodup.erase v, by simp, ?_⟩
      intro a ha b hb
      rw [List.mem_singleton] at hb
      subst hb
      rintro rfl
      exact hG.off (her a ha).1
    · intro u hu
      rcases List.mem_append.mp hu with hu | hu
      · obtain ⟨hu1, hu2⟩ := her u hu
        obtain ⟨f0, q1, o1, f1, f2, f3⟩ := h.inv.front.each u hu1
        refine ⟨by rw [hty]; exact f0, q1, o1, ?_, by rw [hout]; exact f2, hfo u hu1 hu2 o1 (List.mem_of_getElem? f2) f3⟩
        rw [Function.update_of_ne]
        · exact f1
        · rintro rfl; exact hG.off hu1
      · rw [List.mem_singleton] at hu
        subst hu
        refine ⟨by rw [hty]; exact hG.ty, q, o, by rw [Function.update_self], by rw [hout]; exact hqo, how⟩
    · intro x hx o1 ho1 ha
      rw [hty] at hx ⊢
      rw [hout] at ho1
      have hxm := hz2.wf.mem _ _ ha
      have hxv := (hvt x hxm).2
      by_cases e1 : o1 = o
      · subst e1
        rw [hoo' x ha]
        exact Or.inl (by simp)
      · rw [hbd' o1 (hwf.io o1 (Or.inr ho1)) e1] at ha
        rcases h.inv.front.cover x hx o1 ho1 ha with h3 | h3
        · exact Or.inl (List.mem_append_left _ ((h.inv.front.nodup.mem_erase_iff).mpr ⟨hxv, h3⟩))
        · right
          have k1 : s.g.adj w x = none := by
            by_contra hc
            have := h3 w (by rw [hwf.symm]; exact hc)
            rw [hG.ty] at this; simp at this
          have k2 : s.g.adj v x = none := by
            by_contra hc
            have := h3 v (by rw [hwf.symm]; exact hc)
            rw [hvz] at this; simp at this
          have k3 : x ≠ w := by rintro rfl; exact hvw k2
          intro u hu
          rw [h2.adj x hxm, h1.far x k3 hxv k1 k2] at hu
          exact h3 u hu
  refine ⟨⟨hgl2, h.inv.onto.ext hE, by simpa using h.inv.ext.trans hE, hfr, ?_⟩, ?_, ?_⟩
  · -- the other gadgets
    intro x hx
    obtain ⟨hxw, hx⟩ := Finset.mem_erase.mp hx
    have hX := h.inv.gad x hx
    obtain ⟨l, u, l1, l2, l3, l4, l5⟩ := hX.leaf
    have hxv : x ≠ v := by rintro rfl; exact hX.off hv
    have hxl : s.g.adj l x ≠ none := by rw [hwf.symm]; exact l2
    have hlw : l ≠ w := by rintro rfl; exact hxv (l3 v hwv).symm
    have hlv' : l ≠ v := by
      rintro rfl
      have := l3 o hvo
      rw [← this] at hxw
      rw [this] at hob
      rw [hX.ty] at hob; simp at hob
    have hl1 : s.g.adj w l = none := by
      by_contra hc
      exact hxw (l3 w (by rw [hwf.symm]; exact hc)).symm
    have hl2 : s.g.adj v l = none := by
      by_contra hc
      exact hxv (l3 v (by rw [hwf.symm]; exact hc)).symm
    have hlf := h1.far l hlw hlv' hl1 hl2
    -- the axel has a second neighbour
    have hsec : ∃ a, a ≠ l ∧ g1.adj x a ≠ none := by
      by_cases hwx : s.g.adj w x = none
      · by_cases hvx : s.g.adj v x = none
        · exact ⟨u, l4, by rw [h1.far x hxw hxv hwx hvx]; exact l5⟩
        · -- joined to the leaf of the removed gadget
          obtain ⟨l', u', m1, m2, m3, m4, m5⟩ := hG.leaf
          have e1 : s.g.adj v l' = none := by
            by_contra hc
            have := m3 v (by rw [hwf.symm]; exact hc)
            exact hne this.symm
          have e2 : l' ≠ v := by
            rintro rfl
            have := m3 o hvo
            rw [this, hG.ty] at hob; simp at hob
          have e3 : s.g.adj l' x = none := by
            by_contra hc
            exact hxw (m3 x hc)
          have e4 : x ≠ o := by rintro rfl; rw [hX.ty] at hob; simp at hob
          have := h1.new l' x m2 e1 e2 hvx hwx hxw e4 e3
          refine ⟨l', ?_, by rw [hw1.symm, this]; simp⟩
          rintro rfl
          exact hl1 ▸ m2 <| rfl
      · refine ⟨w, fun e => hlw e.symm, ?_⟩
        have e4 : x ≠ o := by rintro rfl; rw [hX.ty] at hob; simp at hob
        rw [hw1.symm, h1.keep x hxv e4]; exact hwx
    obtain ⟨a, ha1, ha2⟩ := hsec
    have hxl1 : g1.adj x l ≠ none := by rw [hw1.symm, hlf]; exact hxl
    have hxm1 : x ∈ g1.verts := hw1.mem _ _ hxl1
    have hxm : x ∈ g2.verts := (h2.vs x).mpr ⟨hxm1, not_isolated hw1 ha2 hxl1 ha1⟩
    have hlm : l ∈ g2.verts := by
      have := hxl1
      rw [← h2.adj x hxm] at this
      exact hz2.wf.toInv.mem' this
    refine ⟨by show g2.ty x = _; rw [hty]; exact hX.ty, hpauli x hxm hX.ph, ?_, ?_, l, a, ?_, ?_, ?_, ha1, ?_⟩
    · intro hc
      rcases List.mem_append.mp hc with hc | hc
      · exact hX.off (her x hc).1
      · exact hxw (List.mem_singleton.mp hc)
    · intro y hy
      have hy : g2.adj x y ≠ none := hy
      show g2.ty y = _
      have hym := (hvt y (hz2.wf.toInv.mem' hy)).1
      rw [hty]
      rcases hgl.tys y hym with hb | hb
      · exfalso
        by_cases e : y = o
        · rw [e] at hy; exact hxw (hoo' x hy)
        · rw [hbd' y hb e] at hy
          have := hX.nb y hy
          rw [hb] at this; simp at this
      · exact hb
    · show g2.ty l = _; rw [hty]; exact l1
    · show g2.adj x l ≠ none; rw [h2.adj x hxm]; exact hxl1
    · intro y hy
      have hy : g2.adj l y ≠ none := hy
      rw [h2.adj l hlm, hlf] at hy
      exact l3 y hy
    · show g2.adj x a ≠ none; rw [h2.adj x hxm]; exact ha2
  · intro u hu
    rcases List.mem_append.mp hu with hu | hu
    · obtain ⟨hu1, hu2⟩ := her u hu
      exact hpauli u (hfm u hu1 hu2) (h.ph u hu1)
    · rw [List.mem_singleton] at hu
      subst hu
      exact hpauli u hwm2 hG.ph
  · intro u hu i hi
    replace hi : i ∈ s.g.inputs := by rw [← hin]; exact hi
    show g2.adj u i = none
    rw [hbd' i (hoi i hi).1 (hoi i hi).2]
    rcases List.mem_append.mp hu with hu | hu
    · exact h.noin u (her u hu).1 i hi
    · rw [List.mem_singleton] at hu
      subst hu
      exact hwb i (hoi i hi).1

/-- Nothing has been added to the circuit, no vertex to the diagram, and the phases have changed by multiples of π. -/
def Light (s s' : State) : Prop := s'.gates = s.gates ∧ s'.g.verts ⊆ s.g.verts ∧ Shift s.g s'.g

theorem Light.refl (s : State) : Light s s := ⟨rfl, Finset.Subset.refl _, Shift.refl _⟩

theorem Light.trans {a b c : State} (h : Light a b) (h' : Light b c) : Light a c :=
  ⟨h'.1.trans h.1, h'.2.1.trans h.2.1, h.2.2.trans h'.2.2⟩

theorem gadgetStep_spec {o : Orders} (ho : o.OK) {g0 : Graph} {s : State} {fl : Bool} (h : GI g0 s) {w : ℕ} {r : State × Bool}
    (e : gadgetStep o (s, fl) w = some r) :
    GI g0 r.1 ∧ (r.2 = true ∨ (r = (s, fl) ∧ (w ∈ s.gadgets → ∀ v ∈ s.frontier, s.g.adj w v = none))) ∧ Light s r.1 := by
  unfold gadgetStep at e
  simp only at e
  by_cases hw : w ∈ s.gadgets
  · rw [if_pos hw] at e
    have hgl := h.inv.gl
    have hwf := hgl.zx.wf
    have hG := h.inv.gad w hw
    have hwm : w ∈ s.g.verts := by
      obtain ⟨l, u, l1, l2, l3, l4, l5⟩ := hG.leaf
      exact hwf.mem _ _ l2
    have hnb := ho.nbr s.g w hwm
    rcases hf : (o.nbr s.g w).find? (· ∈ s.frontier) with _ | v
    · rw [hf] at e
      simp only [Option.some.injEq] at e
      subst e
      refine ⟨h, Or.inr ⟨rfl, fun _ v hv => ?_⟩, Light.refl _⟩
      rw [List.find?_eq_none] at hf
      by_contra hc
      have := hf v (by rw [← List.mem_toFinset, hnb.2, mem_nbrs hwf.toInv]; exact hc)
      simp [hv] at this
    · rw [hf] at e
      simp only at e
      have hv : v ∈ s.frontier := by simpa using List.find?_some hf
      have hwv : s.g.adj w v ≠ none := by
        rw [← mem_nbrs hwf.toInv, ← hnb.2, List.mem_toFinset]
        exact List.mem_of_find?_eq_some hf
      by_cases hlen : 1 < ((o.nbr s.g v).filter (· ∈ s.g.outputs)).length
      · rw [if_pos hlen] at e; simp at e
      · rw [if_neg hlen] at e
        obtain ⟨hvz, q, ob, hq, hqo, hvo⟩ := h.inv.front.each v hv
        have hob : ob ∈ s.g.outputs := List.mem_of_getElem? hqo
        have hvm : v ∈ s.g.verts := hwf.mem _ _ hvo
        have hobt : s.g.ty ob = .boundary := hwf.io ob (Or.inr hob)
        have hhead : ((o.nbr s.g v).filter (· ∈ s.g.outputs)).head? = some ob := by
          rcases hl : (o.nbr s.g v).filter (· ∈ s.g.outputs) with _ | ⟨b, t⟩
          · exfalso
            have : ob ∈ (o.nbr s.g v).filter (· ∈ s.g.outputs) := by
              rw [List.mem_filter, ← List.mem_toFinset, (ho.nbr s.g v hvm).2, mem_nbrs hwf.toInv]
              exact ⟨hvo, by simpa using hob⟩
            rw [hl] at this; simp at this
          · have hb : b ∈ (o.nbr s.g v).filter (· ∈ s.g.outputs) := by rw [hl]; simp
            rw [List.mem_filter, ← List.mem_toFinset, (ho.nbr s.g v hvm).2, mem_nbrs hwf.toInv] at hb
            rw [List.head?_cons, hgl.out1 v b ob (by simpa using hb.2) hob hb.1 hvo]
        rw [hhead, hq] at e
        have hok : PivotOK1 s.g ⟨w, v, none, some ob⟩ := by
          refine ⟨hgl.zh w v hG.ty hvz hwv, hG.ty, hvz, hG.ph, h.ph v hv, ?_, ?_, by simp, ?_, Or.inl rfl⟩
          · intro x hx
            have hx : s.g.adj w x ≠ none := hx
            exact Or.inr ⟨hG.nb x hx, hgl.zh w x hG.ty (hG.nb x hx) hx⟩
          · intro x hx
            have hx : s.g.adj v x ≠ none := hx
            rcases hgl.tys x (hwf.toInv.mem' hx) with hb | hb
            · left
              rcases hgl.io.all x (hwf.toInv.mem' hx) hb with hi | hi
              · exact absurd (h.noin v hv x hi) hx
              · rw [hgl.out1 v x ob hi hob hx hvo]
            · exact Or.inr ⟨hb, hgl.zh v x hvz hb hx⟩
          · intro x hx
            simp only [Option.some.injEq] at hx
            subst hx
            refine ⟨hvo, by rw [hobt]; simp, by rintro rfl; rw [hG.ty] at hobt; simp at hobt, ?_⟩
            by_contra hc
            have := hG.nb _ hc
            rw [hobt] at this; simp at this
        obtain ⟨g1, f1, hpo⟩ := pivot_out hgl.zx hgl.zh ho.lst hok hobt (fun z hz => (hgl.leaf hobt hvo).only z hz)
        obtain ⟨g2, k1, k2, k3, k4, k5⟩ := removeIsolated_zx Props.phaseSet_reduced hpo.zx (ho.nbr g1) (ho.all g1).1 (ho.all g1).2
        obtain ⟨r1, r2, r3, r4, -⟩ := Props.removeIsolated_removes hpo.zx.wf (hpo.zx.isoOK Props.phaseSet_reduced) (ho.nbr g1) (ho.all g1).1 (ho.all g1).2 k1
        have hpr : Pruned g1 g2 := ⟨r1, r2, r3, fun x hx n => removeIsolated_adj hpo.zx.wf k3.wf r1 r2 r4 hx n⟩
        have hinv := gadget_invariant h hw hv hwv hob hvo hq hqo hpo hpr k3 k2.upTo
        have ea : afterRewrite o true (Rules.pivot o.lst s.g [⟨w, v, none, some ob⟩]) = some (true, g2) := by
          simp [afterRewrite, f1, k1]
        rw [ea] at e
        simp only [Option.bind_some, Option.map_some, Option.some.injEq] at e
        subst e
        refine ⟨hinv, Or.inl rfl, rfl, fun x hx => ?_, ?_⟩
        · have := ((r1 x).mp hx).1
          rw [hpo.verts] at this
          exact Finset.mem_of_mem_erase this
        · intro x
          show ∃ k : ℤ, g2.phase x = _
          rw [r3]; exact hpo.shift x
  · rw [if_neg hw, Option.some.injEq] at e
    subst e
    exact ⟨h, Or.inr ⟨rfl, fun hc => absurd hc hw⟩, Light.refl _⟩

theorem gadgetSteps_flag {o : Orders} (ho : o.OK) {g0 : Graph} (l : List ℕ) {s : State} {fl : Bool} (h : GI g0 s) {r : State × Bool}
    (e : l.foldlM (gadgetStep o) (s, fl) = some r) :
    GI g0 r.1 ∧ Light s r.1 ∧ (fl = true → r.2 = true) ∧
      (r.2 = false → r.1 = s ∧ ∀ w ∈ l, w ∈ s.gadgets → ∀ v ∈ s.frontier, s.g.adj w v = none) := by
  induction l generalizing s fl with
  | nil =>
    rw [List.foldlM_nil] at e
    obtain rfl := Option.some.inj e
    exact ⟨h, Light.refl _, fun h => h, fun _ => ⟨rfl, by simp⟩⟩
  | cons w l ih =>
    rw [List.foldlM_cons] at e
    obtain ⟨⟨s1, f1⟩, e1, e2⟩ := Option.bind_eq_some_iff.mp e
    obtain ⟨h1, h2, h3⟩ := gadgetStep_spec ho h e1
    obtain ⟨i1, i4, i2, i3⟩ := ih h1 e2
    refine ⟨i1, h3.trans i4, ?_, ?_⟩
    · rintro rfl
      rcases h2 with h2 | ⟨h2, -⟩
      · exact i2 h2
      · rw [Prod.mk.injEq] at h2
        exact i2 h2.2
    · intro hr
      obtain ⟨k1, k2⟩ := i3 hr
      rcases h2 with h2 | ⟨h2, h3⟩
      · rw [i2 h2] at hr; simp at hr
      · rw [Prod.mk.injEq] at h2
        obtain ⟨rfl, rfl⟩ := h2
        refine ⟨k1, fun x hx => ?_⟩
        rcases List.mem_cons.mp hx with rfl | hx
        · exact h3
        · exact k2 x hx

theorem removeGadget_spec {o : Orders} (ho : o.OK) {g0 : Graph} {s : State} (h : GI g0 s) {N : Finset ℕ} {r : State × Bool}
    (e : removeGadget o s N = some r) :
    LoopInv g0 r.1 ∧ (r.2 = false → r.1 = s ∧ ∀ w ∈ N, w ∈ s.gadgets → ∀ v ∈ s.frontier, s.g.adj w v = none) ∧ Light s r.1 := by
  unfold removeGadget at e
  obtain ⟨h1, h3, -, h2⟩ := gadgetSteps_flag ho _ h e
  refine ⟨h1.inv, fun hr => ?_, h3⟩
  obtain ⟨k1, k2⟩ := h2 hr
  exact ⟨k1, fun w hw => k2 w (by rw [← List.mem_toFinset, (ho.lst N).2]; exact hw)⟩

end Extract
end PyZX
