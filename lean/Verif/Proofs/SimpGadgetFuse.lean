import Verif.Spec.FullReduce
import Verif.Proofs.SimpMeasure

/-!
# The loop `gadget_simp`
-/

namespace PyZX
namespace Simplify

open Graph Rules Props

variable {P : ℚ → Prop}

/-! ### The matches of a group -/

theorem gMatch_mem {g : Graph} {d : GadGroup} {m : GadMatch} (h : m ∈ gMatch g d) :
    (m.axel, m.leaf) ∈ d.mem ∧ ((d.mem = [(m.axel, m.leaf)] ∧ g.phase m.axel ≠ 0 ∧ m.axels = [] ∧ m.leaves = [] ∧ m.phase = -g.phase m.leaf) ∨
      (2 ≤ d.mem.length ∧ m.axels ≠ [] ∧ (∀ a ∈ m.axels, ∃ l, (a, l) ∈ d.mem) ∧ (∀ l ∈ m.leaves, ∃ a, (a, l) ∈ d.mem) ∧
        m.phase = totPhase g d.mem)) := by
  obtain ⟨P, mem⟩ := d
  match mem with
  | [] => simp [gMatch] at h
  | [q] =>
    simp only [gMatch] at h
    by_cases c : g.phase q.1 ≠ 0
    · rw [if_pos c, List.mem_singleton] at h
      rw [h]
      exact ⟨by simp, Or.inl ⟨rfl, c, rfl, rfl, rfl⟩⟩
    · rw [if_neg c] at h; simp at h
  | q :: q' :: L =>
    simp only [gMatch, List.mem_singleton] at h
    rw [h]
    have hd : ∀ r ∈ (q :: q' :: L).dropLast, r ∈ q :: q' :: L := fun r hr => List.dropLast_subset _ hr
    refine ⟨List.getLast_mem (show q :: q' :: L ≠ [] by simp), Or.inr ⟨by simp, by simp, fun a ha => ?_, fun l hl => ?_, rfl⟩⟩
    · obtain ⟨r, hr, rfl⟩ := List.mem_map.mp ha
      exact ⟨r.2, hd r hr⟩
    · obtain ⟨r, hr, rfl⟩ := List.mem_map.mp hl
      exact ⟨r.1, hd r hr⟩

/-- Phases of matches are phases again. -/
theorem mod2_congr {p q : ℚ} {k : ℤ} (h : p = q + 2 * k) : mod2 p = mod2 q := by
  unfold mod2
  rw [h, show (q + 2 * (k : ℚ)) / 2 = q / 2 + k by ring, Int.floor_add_intCast]
  push_cast
  ring

theorem mod2_add_mod2 (p q : ℚ) : mod2 (p + mod2 q) = mod2 (p + q) :=
  mod2_congr (k := -⌊q / 2⌋) (by unfold mod2; push_cast; ring)

theorem mod2_sub_mod2 (p q : ℚ) : mod2 (mod2 q - p) = mod2 (-p + q) :=
  mod2_congr (k := -⌊q / 2⌋) (by unfold mod2; push_cast; ring)

theorem totPhase_mem (hP : PhaseSet P) {g : Graph} (L : List (ℕ × ℕ)) (h : ∀ q ∈ L, P (g.phase q.2)) : P (totPhase g L) := by
  unfold totPhase
  induction L with
  | nil => simpa using hP.zero
  | cons q L ih =>
    have h1 := ih fun q hq => h q (by simp [hq])
    have h2 := h q (by simp)
    rw [List.map_cons, List.sum_cons]
    generalize (L.map fun q => if g.phase q.1 = 0 then g.phase q.2 else -g.phase q.2).sum = S at *
    by_cases c : g.phase q.1 = 0
    · rw [if_pos c, ← mod2_add_mod2]; exact hP.add _ _ h2 h1
    · rw [if_neg c, ← mod2_sub_mod2]; exact hP.sub _ _ h1 h2

theorem gMatch_phase (hP : PhaseSet P) {g : Graph} {d : GadGroup} {m : GadMatch} (h : m ∈ gMatch g d) (hp : ∀ q ∈ d.mem, P (g.phase q.2)) :
    P (mod2 m.phase) := by
  obtain ⟨h1, ⟨-, -, -, -, e⟩ | ⟨-, -, -, -, e⟩⟩ := gMatch_mem h
  · rw [e, ← zero_sub]; exact hP.sub _ _ hP.zero (hp _ h1)
  · rw [e]; unfold totPhase; rw [mod2_mod2]; exact totPhase_mem hP _ hp

/-! ### A pass without matches -/

theorem gadgetEmit_nil (ds : List GadGroup) : ∀ s : Graph × List GadMatch, (ds.foldl gadgetEmit s).2 = [] → ds.foldl gadgetEmit s = s := by
  have mono : ∀ (l : List GadGroup) (s : Graph × List GadMatch), s.2 ≠ [] → (l.foldl gadgetEmit s).2 ≠ [] := by
    intro l
    induction l with
    | nil => intro s h; exact h
    | cons d l ih =>
      intro s h
      refine ih _ ?_
      unfold gadgetEmit
      split
      · exact h
      · split
        · simp
        · exact h
      · simp
  induction ds with
  | nil => intro s _; rfl
  | cons d ds ih =>
    intro s h
    rw [List.foldl_cons] at h ⊢
    have hd : gadgetEmit s d = s := by
      by_contra hne
      refine mono ds (gadgetEmit s d) ?_ h
      revert hne
      unfold gadgetEmit
      split
      · intro h; exact absurd rfl h
      · split
        · intro _; simp
        · intro h; exact absurd rfl h
      · intro _; simp
    rw [hd] at h ⊢
    exact ih s h

/-! ### A pass -/

/-- The diagrams on which `gadget_simp` is used. -/
structure GF (P : ℚ → Prop) (g : Graph) : Prop where
  zx : g.ZX P
  zhad : g.ZHad
  types : ∀ v ∈ g.verts, g.ty v = .boundary ∨ g.ty v = .Z
  bnd : g.PlainBnd
  sep : g.AxelSep

theorem GF.gg {g : Graph} (h : GF P g) : GadgetGraph g :=
  ⟨h.zx.wf, h.zx.bdeg, h.types, h.zhad, h.bnd.phase, h.bnd.io⟩

open Classical in
/-- Spiders that carry phase gadgets. -/
noncomputable def axM (g : Graph) : Finset ℕ := g.verts.filter (IsAxel g)

open Classical in
/-- Spiders with phase π that carry phase gadgets. -/
noncomputable def axM1 (g : Graph) : Finset ℕ := g.verts.filter fun n => IsAxel g n ∧ g.phase n = 1

open Classical in
theorem mem_axM {g : Graph} {n : ℕ} : n ∈ axM g ↔ n ∈ g.verts ∧ IsAxel g n := by unfold axM; rw [Finset.mem_filter]

open Classical in
theorem mem_axM1 {g : Graph} {n : ℕ} : n ∈ axM1 g ↔ n ∈ g.verts ∧ IsAxel g n ∧ g.phase n = 1 := by unfold axM1; rw [Finset.mem_filter]

theorem den_pauli {p : ℚ} (h : p = 0 ∨ p = 1) : p.den = 1 := by rcases h with rfl | rfl <;> rfl

section Pass
variable {g g' : Graph} {ds : List GadGroup}

/-- What is known after a pass that fuses gadgets. -/
structure Fused (P : ℚ → Prop) (g g' : Graph) (ds : List GadGroup) (R : Finset ℕ) : Prop where
  gf : GF P g
  ok : ∀ d ∈ ds, GroupOK g d
  ax : ∀ d ∈ ds, ∀ q ∈ d.mem, IsAxel g q.1
  pres : Preserves g g'
  verts : g'.verts = g.verts \ R
  after : After g g' R
  key : ∀ m ∈ ds.flatMap (gMatch g), g'.phase m.leaf = mod2 m.phase ∧ g'.phase m.axel = 0 ∧ m.leaf ∉ R ∧ m.axel ∉ R
  other : ∀ u, u ∉ (ds.flatMap (gMatch g)).flatMap mKeys → g'.phase u = g.phase u
  rem : ∀ r ∈ R, ∃ d ∈ ds, 2 ≤ d.mem.length ∧ ((∃ l, (r, l) ∈ d.mem) ∨ ∃ a, (a, r) ∈ d.mem)
  kept : ∀ d ∈ ds, 2 ≤ d.mem.length → ∃ m ∈ gMatch g d, (m.axel, m.leaf) ∈ d.mem

variable {R : Finset ℕ}

theorem Fused.adj (h : Fused P g g' ds R) {a b : ℕ} (ha : a ∈ g'.verts) (hb : b ∈ g'.verts) : g'.adj a b = g.adj a b := by
  rw [h.verts, Finset.mem_sdiff] at ha hb
  exact h.after.adj a b ha.2 hb.2

theorem Fused.remZ (h : Fused P g g' ds R) {r b : ℕ} (hr : r ∈ R) (hb : g.adj r b ≠ none) : g.ty r = .Z ∧ g.ty b = .Z := by
  obtain ⟨d, hd, hl, ⟨l, hm⟩ | ⟨a, hm⟩⟩ := h.rem r hr
  · have k := (h.ok d hd).mem _ hm
    refine ⟨k.tn, ?_⟩
    by_cases hbl : b = l
    · rw [hbl]; exact k.tv
    · exact ((h.ok d hd).multi hl b ((k.par b).mpr ⟨hbl, hb⟩)).1
  · have k := (h.ok d hd).mem _ hm
    exact ⟨k.tv, by rw [k.leaf b hb]; exact k.tn⟩

theorem Fused.remTy (h : Fused P g g' ds R) {r : ℕ} (hr : r ∈ R) : g.ty r = .Z := by
  obtain ⟨d, hd, hl, ⟨l, hm⟩ | ⟨a, hm⟩⟩ := h.rem r hr
  · exact ((h.ok d hd).mem _ hm).tn
  · exact ((h.ok d hd).mem _ hm).tv

/-- Vertices whose phase is set. -/
theorem Fused.keys (h : Fused P g g' ds R) {u : ℕ} (hu : u ∈ (ds.flatMap (gMatch g)).flatMap mKeys) :
    ∃ d ∈ ds, ∃ m ∈ gMatch g d, (m.axel, m.leaf) ∈ d.mem ∧ (u = m.leaf ∨ u = m.axel) ∧ m.leaf ∈ g'.verts ∧ m.axel ∈ g'.verts ∧
      g'.phase m.leaf = mod2 m.phase ∧ g'.phase m.axel = 0 := by
  obtain ⟨m, hm, hu⟩ := List.mem_flatMap.mp hu
  obtain ⟨k1, k2, k3, k4⟩ := h.key m hm
  obtain ⟨d, hd, hmd⟩ := List.mem_flatMap.mp hm
  have hmm := (gMatch_mem hmd).1
  have k := (h.ok d hd).mem _ hmm
  refine ⟨d, hd, m, hmd, hmm, by simpa [mKeys] using hu, ?_, ?_, k1, k2⟩
  · rw [h.verts]; exact Finset.mem_sdiff.mpr ⟨k.vm, k3⟩
  · rw [h.verts]; exact Finset.mem_sdiff.mpr ⟨k.nm, k4⟩

/-- A spider that carries a gadget after the pass carried one before. -/
theorem Fused.axel (h : Fused P g g' ds R) {n : ℕ} (hn : IsAxel g' n) : n ∈ g'.verts ∧ IsAxel g n := by
  have hg := h.gf.zx.wf
  have hg' := h.pres.wf
  obtain ⟨hp, v, hv, hd⟩ := hn
  have hvn : g'.adj v n ≠ none := (mem_nbrs hg'.toInv).mp (by rw [hv]; simp)
  have hnv := hg'.toInv.mem' hvn
  have hvv := hg'.mem _ _ hvn
  have hvn0 : g.adj v n ≠ none := h.after.adj' _ _ hvn
  have hun : ∀ u ∈ g'.verts, g.adj v u ≠ none → u = n := by
    intro u hu hne
    have : u ∈ g'.nbrs v := (mem_nbrs hg'.toInv).mpr (by rw [h.adj hvv hu]; exact hne)
    rw [hv] at this; simpa using this
  refine ⟨hnv, ?_⟩
  by_cases hkv : v ∈ (ds.flatMap (gMatch g)).flatMap mKeys
  · obtain ⟨d, hdd, m, hm, hmm, e | e, m1, m2, m3, m4⟩ := h.keys hkv
    · have k := (h.ok d hdd).mem _ hmm
      have : n = m.axel := by
        rw [e] at hvn0; exact k.leaf n hvn0
      rw [this]; exact h.ax d hdd _ hmm
    · rw [e, m4] at hd; simp at hd
  rw [h.other v hkv] at hd
  have hvp : ¬ (g.phase v = 0 ∨ g.phase v = 1) := fun e => by rw [den_pauli e] at hd; omega
  by_cases hkn : n ∈ (ds.flatMap (gMatch g)).flatMap mKeys
  · obtain ⟨d, hdd, m, hm, hmm, e | e, m1, m2, m3, m4⟩ := h.keys hkn
    · have k := (h.ok d hdd).mem _ hmm
      have : v = m.axel := k.leaf v (by rw [hg.symm, ← e]; exact hvn0)
      exact absurd (this ▸ k.phase) hvp
    · rw [e]; exact h.ax d hdd _ hmm
  rw [h.other n hkn] at hp
  by_cases hr : ∃ r ∈ R, g.adj v r ≠ none
  · obtain ⟨r, hr, hvr⟩ := hr
    obtain ⟨d, hdd, hl, ⟨l, hm⟩ | ⟨a, hm⟩⟩ := h.rem r hr
    · have k := (h.ok d hdd).mem _ hm
      have hvl : v ≠ l := by
        rintro rfl
        have : n = r := k.leaf n hvn0
        rw [h.verts, Finset.mem_sdiff] at hnv
        exact hnv.2 (this ▸ hr)
      have hvpar : v ∈ d.par := (k.par v).mpr ⟨hvl, by rw [hg.symm]; exact hvr⟩
      obtain ⟨m, hmg, hmm⟩ := h.kept d hdd hl
      have k' := (h.ok d hdd).mem _ hmm
      have hma : m.axel ∈ g'.verts := by
        rw [h.verts]
        exact Finset.mem_sdiff.mpr ⟨k'.nm, (h.key m (List.mem_flatMap.mpr ⟨d, hdd, hmg⟩)).2.2.2⟩
      have : m.axel = n := hun _ hma (by rw [hg.symm]; exact ((k'.par v).mp hvpar).2)
      rw [← this]; exact h.ax d hdd _ hmm
    · have k := (h.ok d hdd).mem _ hm
      have : v = a := k.leaf v (by rw [hg.symm]; exact hvr)
      exact absurd (this ▸ k.phase) hvp
  · refine ⟨hp, v, ?_, hd⟩
    ext u
    rw [mem_nbrs hg.toInv, Finset.mem_singleton]
    constructor
    · intro hne
      refine hun u ?_ hne
      rw [h.verts]
      exact Finset.mem_sdiff.mpr ⟨hg.toInv.mem' hne, fun hu => hr ⟨u, hu, hne⟩⟩
    · rintro rfl; exact hvn0

theorem Fused.axel1 (h : Fused P g g' ds R) {n : ℕ} (hn : IsAxel g' n) (h1 : g'.phase n = 1) : g.phase n = 1 := by
  by_cases hk : n ∈ (ds.flatMap (gMatch g)).flatMap mKeys
  · obtain ⟨d, hdd, m, hm, hmm, e | e, m1, m2, m3, m4⟩ := h.keys hk
    · have := (h.axel hn).2.1
      exact absurd (e ▸ this) ((h.ok d hdd).mem _ hmm).nc
    · rw [e, m4] at h1; simp at h1
  · rw [← h.other n hk]; exact h1

theorem Fused.gf' (hP : PhaseSet P) (h : Fused P g g' ds R) : GF P g' ∧ BPh g g' := by
  have hg := h.gf.zx.wf
  have hg' := h.pres.wf
  have hsub : ∀ v ∈ g'.verts, v ∈ g.verts ∧ v ∉ R := fun v hv => by rw [h.verts, Finset.mem_sdiff] at hv; exact hv
  have hb : BPh g g' := by
    intro v _ hv
    refine h.other v fun hk => ?_
    obtain ⟨d, hdd, m, hm, hmm, e | e, -⟩ := h.keys hk
    · have := ((h.ok d hdd).mem _ hmm).tv
      rw [← e, hv] at this; simp at this
    · have := ((h.ok d hdd).mem _ hmm).tn
      rw [← e, hv] at this; simp at this
  refine ⟨⟨⟨hg', ?_, ?_, ?_, ?_⟩, ?_, ?_, ⟨?_, ?_⟩, ?_⟩, hb⟩
  · intro b hbv hbt u w hu hw
    rw [h.after.ty] at hbt
    exact h.gf.zx.bdeg b (hsub b hbv).1 hbt u w (h.after.adj' _ _ hu) (h.after.adj' _ _ hw)
  · intro b hbv hbt
    rw [h.after.ty] at hbt
    obtain ⟨z, hz⟩ := h.gf.zx.badj b (hsub b hbv).1 hbt
    refine ⟨z, ?_⟩
    rw [h.adj hbv]
    · exact hz
    · rw [h.verts]
      refine Finset.mem_sdiff.mpr ⟨hg.toInv.mem' hz, fun hr => ?_⟩
      have := (h.remZ hr (b := b) (by rw [hg.symm]; exact hz)).2
      rw [hbt] at this; simp at this
  · intro v hv
    rw [h.after.ty]
    exact h.gf.zx.types v (hsub v hv).1
  · intro v hv
    by_cases hk : v ∈ (ds.flatMap (gMatch g)).flatMap mKeys
    · obtain ⟨d, hdd, m, hm, hmm, e | e, m1, m2, m3, m4⟩ := h.keys hk
      · rw [e, m3]
        exact gMatch_phase hP hm fun q hq => h.gf.zx.phases _ ((h.ok d hdd).mem q hq).vm
      · rw [e, m4]; exact hP.zero
    · rw [h.other v hk]; exact h.gf.zx.phases v (hsub v hv).1
  · intro u v hu hv hne
    rw [h.after.ty] at hu hv
    rw [h.adj (hg'.mem _ _ hne) (hg'.toInv.mem' hne)]
    exact h.gf.zhad u v hu hv (h.after.adj' _ _ hne)
  · intro v hv
    rw [h.after.ty]
    exact h.gf.types v (hsub v hv).1
  · intro v hv ht
    rw [h.after.ty] at ht
    rw [hb v (hsub v hv).1 ht]
    exact h.gf.bnd.phase v (hsub v hv).1 ht
  · intro v hv ht
    rw [h.after.ty] at ht
    rw [h.pres.inputs, h.pres.outputs]
    exact h.gf.bnd.io v (hsub v hv).1 ht
  · intro n n' hn hn' hne
    obtain ⟨a1, a2⟩ := h.axel hn
    obtain ⟨b1, b2⟩ := h.axel hn'
    obtain ⟨b, hbb, ht⟩ := h.gf.sep n n' a2 b2 (h.after.adj' _ _ hne)
    have hbv : b ∈ g'.verts := by
      rw [h.verts]
      refine Finset.mem_sdiff.mpr ⟨?_, fun hr => ?_⟩
      · rcases hbb with e | e <;> exact hg.toInv.mem' e
      · rw [h.remTy hr] at ht; simp at ht
    refine ⟨b, ?_, by rw [h.after.ty]; exact ht⟩
    rw [h.adj a1 hbv, h.adj b1 hbv]
    exact hbb

theorem Fused.measure (h : Fused P g g' ds R) (hne : ds.flatMap (gMatch g) ≠ [])
    (hR : ∀ m ∈ ds.flatMap (gMatch g), ∀ a ∈ m.axels, a ∈ R) :
    (axM g').card + (axM1 g').card < (axM g).card + (axM1 g).card := by
  have s1 : axM g' ⊆ axM g := by
    intro n hn
    obtain ⟨n1, n2⟩ := mem_axM.mp hn
    rw [h.verts] at n1
    exact mem_axM.mpr ⟨(Finset.mem_sdiff.mp n1).1, (h.axel n2).2⟩
  have s2 : axM1 g' ⊆ axM1 g := by
    intro n hn
    obtain ⟨n1, n2, n3⟩ := mem_axM1.mp hn
    rw [h.verts] at n1
    exact mem_axM1.mpr ⟨(Finset.mem_sdiff.mp n1).1, (h.axel n2).2, h.axel1 n2 n3⟩
  have c1 := Finset.card_le_card s1
  have c2 := Finset.card_le_card s2
  obtain ⟨m, hm⟩ := List.exists_mem_of_ne_nil _ hne
  obtain ⟨d, hd, hmd⟩ := List.mem_flatMap.mp hm
  obtain ⟨hmm, ⟨-, hp, -⟩ | ⟨hl, ha, hax, -⟩⟩ := gMatch_mem hmd
  · have k := (h.ok d hd).mem _ hmm
    have : (axM1 g').card < (axM1 g).card := by
      refine Finset.card_lt_card ⟨s2, fun hs => ?_⟩
      have h1 : m.axel ∈ axM1 g := mem_axM1.mpr ⟨k.nm, h.ax d hd _ hmm, k.phase.resolve_left hp⟩
      have h2 := (mem_axM1.mp (hs h1)).2.2
      rw [(h.key m hm).2.1] at h2
      simp at h2
    omega
  · obtain ⟨a, haa⟩ := List.exists_mem_of_ne_nil _ ha
    obtain ⟨l, hal⟩ := hax a haa
    have k := (h.ok d hd).mem _ hal
    have : (axM g').card < (axM g).card := by
      refine Finset.card_lt_card ⟨s1, fun hs => ?_⟩
      have h1 : a ∈ axM g := mem_axM.mpr ⟨k.nm, h.ax d hd _ hal⟩
      have h2 := (mem_axM.mp (hs h1)).1
      rw [h.verts] at h2
      exact (Finset.mem_sdiff.mp h2).2 (hR m hm a haa)
    omega

end Pass

theorem gadgetFuseRound_ok (hP : PhaseSet P) {o : Orders} (ho : o.OK) :
    PassOK (GF P) (fun g g' => Preserves g g' ∧ BPh g g') (fun g => (axM g).card + (axM1 g).card) NoGadgetFuse o gadgetFuseRound := by
  intro g hgf
  have hgg := hgf.gg
  have hc := (ho.vcand g).2
  obtain ⟨h1, h2, h3⟩ := gadgetGroups_spec hgg (ho.nbr g) hc
  set ds := gadgetGroups g (o.nbr g) (o.vcand g) with hds
  have hmg : matchGadgets g (o.nbr g) (o.vcand g) = ds.foldl gadgetEmit (g, []) := rfl
  have hms : (matchGadgets g (o.nbr g) (o.vcand g)).2 = ds.flatMap (gMatch g) := by
    have := (gadgetEmit_fold (g := g) ds g [] ⟨SameBut.refl g, rfl⟩).2.1
    rw [List.nil_append] at this
    rw [hmg, this]
  unfold gadgetFuseRound
  simp only
  by_cases hn : (matchGadgets g (o.nbr g) (o.vcand g)).2 = []
  · rw [if_pos hn]
    have e : matchGadgets g (o.nbr g) (o.vcand g) = (g, []) := gadgetEmit_nil ds (g, []) hn
    refine ⟨false, g, by rw [e], hgf, ⟨Preserves.refl hgf.zx.wf, fun _ _ _ => rfl⟩, by simp, fun _ => ⟨rfl, fun hf n v hgv => ?_⟩⟩
    have hcand : ∀ n v, IsGadget g n v → v ∈ o.vcand g := by
      intro n v h
      refine hf.vcand g hgf.zx.wf v ?_
      have : g.adj v n ≠ none := (mem_nbrs hgf.zx.wf.toInv).mp (by rw [h.1]; simp)
      exact hgf.zx.wf.mem _ _ this
    obtain ⟨k1, k2⟩ := gadget_complete hgg (ho.nbr g) hc hn n v (hcand n v hgv) hgv
    exact ⟨k1, fun n' v' hgv' => k2 n' v' (hcand n' v' hgv') hgv'⟩
  · rw [if_neg hn]
    have hs : GroupSep g ds := by
      refine ⟨h2, ?_⟩
      rw [List.pairwise_iff_forall_sublist]
      intro a b hab la lb q hq q' hq'
      have ha : a ∈ ds := hab.subset (by simp)
      have hb : b ∈ ds := hab.subset (by simp)
      by_contra hne
      obtain ⟨c, hc1, hc2⟩ := hgf.sep _ _ (h3 a ha q hq) (h3 b hb q' hq') hne
      have key : ∀ d ∈ ds, 2 ≤ d.mem.length → ∀ q ∈ d.mem, g.adj q.1 c = none := by
        intro d hd hl q hq
        by_contra hne
        have k := (h1 d hd).mem q hq
        have : g.ty c = .Z := by
          by_cases e : c = q.2
          · rw [e]; exact k.tv
          · exact ((h1 d hd).multi hl c ((k.par c).mpr ⟨e, hne⟩)).1
        rw [hc2] at this; simp at this
      rcases hc1 with e | e
      · exact e (key a ha la q hq)
      · exact e (key b hb lb q' hq')
    obtain ⟨g', e1, e2, e3, -, -, e6, e7, e8⟩ := gadget_sound hgf.zx.wf h1 hs
    have hF : Fused P g g' ds ((ds.flatMap (gMatch g)).flatMap mRem).toFinset := by
      refine ⟨hgf, h1, h3, e2, e3, e6, e7, e8, fun r hr => ?_, fun d hd hl => ?_⟩
      · rw [List.mem_toFinset] at hr
        obtain ⟨m, hm, hr⟩ := List.mem_flatMap.mp hr
        obtain ⟨d, hd, hmd⟩ := List.mem_flatMap.mp hm
        unfold mRem at hr
        obtain ⟨-, ⟨-, -, x1, x2, -⟩ | ⟨x1, x2, x3, x4, -⟩⟩ := gMatch_mem hmd
        · rw [x1, x2] at hr; simp at hr
        · refine ⟨d, hd, x1, ?_⟩
          rcases List.mem_append.mp hr with hr | hr
          · exact Or.inl (x3 r hr)
          · exact Or.inr (x4 r hr)
      · obtain ⟨P', mem⟩ := d
        match mem with
        | [] => simp at hl
        | [q] => simp at hl
        | q :: q' :: L =>
          have : gMatch g ⟨P', q :: q' :: L⟩ ≠ [] := by simp [gMatch]
          obtain ⟨m, hm⟩ := List.exists_mem_of_ne_nil _ this
          exact ⟨m, hm, (gMatch_mem hm).1⟩
    obtain ⟨f1, f2⟩ := hF.gf' hP
    refine ⟨true, g', ?_, f1, ⟨e2, f2⟩, fun _ => ?_, by simp⟩
    · rw [hmg, e1]; rfl
    · refine hF.measure (by rw [← hms]; exact hn) fun m hm a ha => ?_
      rw [List.mem_toFinset]
      exact List.mem_flatMap.mpr ⟨m, hm, by unfold mRem; simp [ha]⟩

theorem presB_trans (a b c : Graph) : (Preserves a b ∧ BPh a b) → (Preserves b c ∧ BPh b c) → (Preserves a c ∧ BPh a c) := by
  rintro ⟨h1, h2⟩ ⟨h3, h4⟩
  refine ⟨h1.trans h3, fun v hv ht => ?_⟩
  obtain ⟨x, y⟩ := (h1.boundary v).mpr ⟨hv, ht⟩
  rw [h4 v x y, h2 v hv ht]

/-- On a graph without fusible phase gadgets a pass of `gadget_simp` does nothing. -/
theorem gadgetFuseRound_nf {o : Orders} (ho : o.OK) {g : Graph} (hgf : GF P g) (h : g.NoGadgetFuse) :
    gadgetFuseRound o g = some (false, g) := by
  have hgg := hgf.gg
  have hc := (ho.vcand g).2
  obtain ⟨h1, h2, h3⟩ := gadgetGroups_spec hgg (ho.nbr g) hc
  have h4 := gadgetGroups_isGadget (ho.nbr g) hc
  set ds := gadgetGroups g (o.nbr g) (o.vcand g) with hds
  have hmg : matchGadgets g (o.nbr g) (o.vcand g) = ds.foldl gadgetEmit (g, []) := rfl
  have hms : (matchGadgets g (o.nbr g) (o.vcand g)).2 = ds.flatMap (gMatch g) := by
    have := (gadgetEmit_fold (g := g) ds g [] ⟨SameBut.refl g, rfl⟩).2.1
    rw [List.nil_append] at this
    rw [hmg, this]
  have hn : (matchGadgets g (o.nbr g) (o.vcand g)).2 = [] := by
    rw [hms, List.flatMap_eq_nil_iff]
    intro d hd
    have hmem := h4 d hd
    have hok := (h1 d hd).mem
    have hnd : (d.mem.map (·.1)).Nodup := by
      rw [List.map_flatMap] at h2
      exact (List.nodup_flatMap.mp h2).1 d hd
    obtain ⟨P', mem⟩ := d
    match mem with
    | [] => rfl
    | [q] =>
      simp only [gMatch]
      rw [if_neg (by rw [not_not]; exact (h q.1 q.2 (hmem q (by simp))).1)]
    | q :: q' :: L =>
      exfalso
      have hne : q.1 ≠ q'.1 := by
        simp only [List.map_cons, List.nodup_cons, List.mem_cons, not_or] at hnd
        exact hnd.1.1
      refine (h q.1 q.2 (hmem q (by simp))).2 q'.1 q'.2 (hmem q' (by simp)) hne ?_
      ext u
      rw [Finset.mem_erase, Finset.mem_erase, mem_nbrs hgg.wf.toInv, mem_nbrs hgg.wf.toInv, ← (hok q (by simp)).par u,
        ← (hok q' (by simp)).par u]
  unfold gadgetFuseRound
  simp only
  rw [if_pos hn, show matchGadgets g (o.nbr g) (o.vcand g) = (g, []) from gadgetEmit_nil ds (g, []) hn]

end Simplify
end PyZX
