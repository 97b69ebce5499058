import Verif.Proofs.ScalLoop
import Verif.Props.Magic
import Verif.Props.Simp
import Verif.Proofs.ToGraphZX

/-!
# The diagrams returned by `replace_magic_states`
-/

namespace PyZX
namespace Magic
open Graph Simplify

/-- `h` is `g` with at most `k` more vertices, all Z-spiders; the boundary has the same edges; all phases are multiples of π/4. -/
structure Ext (g : Graph) (k : ℕ) (h : Graph) : Prop where
  verts : g.verts ⊆ h.verts
  ty : ∀ v ∈ g.verts, h.ty v = g.ty v
  newTy : ∀ v ∈ h.verts, v ∉ g.verts → h.ty v = .Z
  phases : ∀ v ∈ h.verts, Quarter (h.phase v)
  bphase : ∀ v ∈ g.verts, g.ty v = .boundary → h.phase v = g.phase v
  row : ∀ b ∈ g.verts, g.ty b = .boundary → ∀ z, h.adj b z = g.adj b z
  vindex : g.vindex ≤ h.vindex
  card : h.verts.card ≤ g.verts.card + k
  ins : h.inputs = g.inputs
  outs : h.outputs = g.outputs

/-- Not a boundary vertex of `g`. -/
def NB (g : Graph) (v : ℕ) : Prop := ¬ (v ∈ g.verts ∧ g.ty v = .boundary)

theorem isInt_cast (n : ℤ) : ((n : ℤ) : ℚ).isInt := by unfold Rat.isInt; rw [Rat.den_intCast]; rfl

theorem quarter_mod2 {q : ℚ} (h : (4 * q).isInt) : Quarter (mod2 q) := by
  refine ⟨⟨mod2_nonneg _, mod2_lt _⟩, ?_⟩
  have h1 : (4 * q).den = 1 := by simpa [Rat.isInt] using h
  have h2 : ∃ n : ℤ, 4 * q = n := ⟨(4 * q).num, by rw [← Rat.num_div_den (4 * q), h1]; simp⟩
  obtain ⟨n, hn⟩ := h2
  have : 4 * mod2 q = ((n - 8 * ⌊q / 2⌋ : ℤ) : ℚ) := by
    unfold mod2
    push_cast
    rw [← hn]
    ring
  rw [this]
  exact isInt_cast _

theorem quarter_shift {x p : ℚ} (h : Quarter x) (hp : (4 * p).isInt) : Quarter (mod2 (x + p)) := by
  refine quarter_mod2 ?_
  have h1 : (4 * x).den = 1 := by simpa [Rat.isInt] using h.2
  have h2 : (4 * p).den = 1 := by simpa [Rat.isInt] using hp
  have e1 : ((4 * x).num : ℚ) = 4 * x := by
    conv_rhs => rw [← Rat.num_div_den (4 * x), h1]
    simp
  have e2 : ((4 * p).num : ℚ) = 4 * p := by
    conv_rhs => rw [← Rat.num_div_den (4 * p), h2]
    simp
  have : 4 * (x + p) = (((4 * x).num + (4 * p).num : ℤ) : ℚ) := by
    push_cast
    rw [e1, e2]
    ring
  rw [this]
  exact isInt_cast _

theorem isInt_of {q : ℚ} (n : ℤ) (h : 4 * q = n) : (4 * q).isInt := by rw [h]; exact isInt_cast _

theorem int_m14 : (4 * (-1/4 : ℚ)).isInt := isInt_of (-1) (by norm_num)
theorem int_12 : (4 * (1/2 : ℚ)).isInt := isInt_of 2 (by norm_num)
theorem int_32 : (4 * (3/2 : ℚ)).isInt := isInt_of 6 (by norm_num)
theorem int_1 : (4 * (1 : ℚ)).isInt := isInt_of 4 (by norm_num)
theorem int_0 : (4 * (0 : ℚ)).isInt := isInt_of 0 (by norm_num)

variable {g h h' : Graph} {k : ℕ}

theorem Ext.refl (hp : ∀ v ∈ g.verts, Quarter (g.phase v)) : Ext g 0 g :=
  ⟨fun _ h => h, fun _ _ => rfl, fun _ h1 h2 => absurd h1 h2, hp, fun _ _ _ => rfl, fun _ _ _ _ => rfl, le_rfl, le_rfl, rfl, rfl⟩

theorem Ext.scalar (e : Ext g k h) (s : Scalar) : Ext g k { h with scalar := s } :=
  ⟨e.verts, e.ty, e.newTy, e.phases, e.bphase, e.row, e.vindex, e.card, e.ins, e.outs⟩

theorem Ext.float (e : Ext g k h) (c : ℂ) : Ext g k (addFloat h c) := e.scalar _
theorem Ext.power (e : Ext g k h) (n : ℤ) : Ext g k (h.addPower n) := e.scalar _
theorem Ext.sphase (e : Ext g k h) (p : ℚ) : Ext g k (h.addScalarPhase p) := e.scalar _

theorem Ext.shift (e : Ext g k h) {v : ℕ} {p : ℚ} (hv : NB g v) (hp : (4 * p).isInt) : Ext g k (h.addToPhase v p) := by
  refine ⟨e.verts, e.ty, e.newTy, fun u hu => ?_, fun u hu hb => ?_, e.row, e.vindex, e.card, e.ins, e.outs⟩
  · show Quarter (Function.update h.phase v _ u)
    by_cases c : u = v
    · subst c
      rw [Function.update_self]
      exact quarter_shift (e.phases u hu) hp
    · rw [Function.update_of_ne c]
      exact e.phases u hu
  · show Function.update h.phase v _ u = _
    rw [Function.update_of_ne (fun c => hv (by rw [← c]; exact ⟨hu, hb⟩))]
    exact e.bphase u hu hb

theorem Ext.fold (f : Graph → ℕ → Graph) (hf : ∀ h v, Ext g k h → NB g v → Ext g k (f h v)) (vs : List ℕ) :
    ∀ {h : Graph}, Ext g k h → (∀ v ∈ vs, NB g v) → Ext g k (vs.foldl f h) := by
  induction vs with
  | nil => intro h e _; exact e
  | cons v vs ih =>
    intro h e hn
    rw [List.foldl_cons]
    exact ih (hf h v e (hn v (by simp))) fun u hu => hn u (List.mem_cons_of_mem _ hu)

theorem Ext.shifts (e : Ext g k h) {vs : List ℕ} (hn : ∀ v ∈ vs, NB g v) {p : ℚ} (hp : (4 * p).isInt) :
    Ext g k (vs.foldl (fun g v => g.addToPhase v p) h) := Ext.fold _ (fun _ _ e hv => e.shift hv hp) vs e hn

theorem Ext.shifts2 (e : Ext g k h) {vs : List ℕ} (hn : ∀ v ∈ vs, NB g v) {p q : ℚ} (hp : (4 * p).isInt) (hq : (4 * q).isInt) :
    Ext g k (vs.foldl (fun g v => (g.addToPhase v p).addToPhase v q) h) :=
  Ext.fold _ (fun _ _ e hv => (e.shift hv hp).shift hv hq) vs e hn

theorem Ext.notMem (hg : g.WF) (e : Ext g k h) : h.vindex ∉ g.verts := fun hm => by
  have := hg.toInv.lt _ hm
  have := e.vindex
  omega

theorem Ext.nb (hg : g.WF) (e : Ext g k h) : NB g h.vindex := fun hm => e.notMem hg hm.1

theorem Ext.vertex (hg : g.WF) (e : Ext g k h) {p : ℚ} (hp : (4 * p).isInt) : Ext g (k + 1) (h.addVertex .Z p) := by
  obtain ⟨e1, e2, e3, e4, -, e6, -, -, e9, e10⟩ := addVertex_fields h .Z p
  have hm := e.notMem hg
  refine ⟨?_, fun v hv => ?_, fun v hv hn => ?_, fun v hv => ?_, fun v hv hb => ?_, fun b hb ht z => ?_, ?_, ?_, e9.trans e.ins, e10.trans e.outs⟩
  · rw [e1]; exact fun v hv => Finset.mem_insert_of_mem (e.verts hv)
  · rw [e3, Function.update_of_ne (fun c => hm (by rw [← c]; exact hv))]; exact e.ty v hv
  · rw [e3]
    by_cases c : v = h.vindex
    · rw [c, Function.update_self]
    · rw [Function.update_of_ne c]
      rw [e1, Finset.mem_insert] at hv
      exact e.newTy v (hv.resolve_left c) hn
  · rw [e4]
    by_cases c : v = h.vindex
    · rw [c, Function.update_self]; exact quarter_mod2 hp
    · rw [Function.update_of_ne c]
      rw [e1, Finset.mem_insert] at hv
      exact e.phases v (hv.resolve_left c)
  · rw [e4, Function.update_of_ne (fun c => hm (by rw [← c]; exact hv))]; exact e.bphase v hv hb
  · rw [e2]
    simp only
    have hb' : b ≠ h.vindex := fun c => hm (c ▸ hb)
    by_cases c : z = h.vindex
    · rw [if_pos (Or.inr c)]
      by_contra hne
      exact hm (c ▸ hg.toInv.mem' (Ne.symm hne))
    · rw [if_neg (by rintro (c' | c') <;> contradiction)]; exact e.row b hb ht z
  · rw [e6]; exact Nat.le_succ_of_le e.vindex
  · rw [e1]
    refine (Finset.card_insert_le _ _).trans ?_
    have := e.card
    omega

theorem setAdj_row {s t b z : ℕ} {x : Option EType} (hs : b ≠ s) (ht : b ≠ t) : (h.setAdj s t x).adj b z = h.adj b z := by
  unfold setAdj
  exact if_neg (by rintro (⟨c, -⟩ | ⟨c, -⟩) <;> contradiction)

theorem Ext.edge0 (e : Ext g k h) {s t : ℕ} {y : EType} (hs : NB g s) (ht : NB g t) (hh : h.addEdge0 s t y = some h') : Ext g k h' := by
  unfold addEdge0 at hh
  split at hh
  · simp at hh
  · simp only [Option.some.injEq] at hh
    subst hh
    refine ⟨e.verts, e.ty, e.newTy, e.phases, e.bphase, fun b hb hbt z => ?_, e.vindex, e.card, e.ins, e.outs⟩
    refine (setAdj_row ?_ ?_).trans (e.row b hb hbt z)
    · exact fun c => hs (c ▸ ⟨hb, hbt⟩)
    · exact fun c => ht (c ▸ ⟨hb, hbt⟩)

theorem Ext.edges (y : EType) (ps : List (ℕ × ℕ)) : ∀ {h h' : Graph}, Ext g k h → (∀ p ∈ ps, NB g p.1 ∧ NB g p.2) →
    h.addEdges ps y = some h' → Ext g k h' := by
  unfold addEdges
  induction ps with
  | nil => intro h h' e _ hh; rw [List.foldlM_nil] at hh; cases hh; exact e
  | cons p ps ih =>
    intro h h' e hn hh
    rw [List.foldlM_cons, Option.bind_eq_bind, Option.bind_eq_some_iff] at hh
    obtain ⟨h1, e1, hh⟩ := hh
    have := hn p (by simp)
    exact ih (e.edge0 this.1 this.2 e1) (fun q hq => hn q (List.mem_cons_of_mem _ hq)) hh

/-- A new edge by `add_edge`. -/
theorem Ext.edge (e : Ext g k h) {s t : ℕ} {y : EType} (hs : NB g s) (ht : NB g t) (hn : h.adj s t = none) (hh : h.addEdge s t y = some h') :
    Ext g k h' := by
  refine e.edge0 hs ht (s := s) (t := t) (y := y) ?_
  unfold addEdge at hh
  rw [hn] at hh
  unfold addEdge0
  by_cases c1 : s ∈ h.verts
  · by_cases c2 : t ∈ h.verts
    · simp only [c1, c2, not_true_eq_false, if_false, or_self] at hh ⊢
      exact hh
    · simp [c1, c2] at hh
  · simp [c1] at hh

theorem Ext.star (hg : g.WF) (e : Ext g k h) {vs : List ℕ} (hn : ∀ v ∈ vs, NB g v) {p : ℚ} (hp : (4 * p).isInt) {y : EType}
    (hh : (h.addVertex .Z p).addEdges (vs.map fun v => (v, h.vindex)) y = some h') : Ext g (k + 1) h' := by
  refine Ext.edges y _ (e.vertex hg hp) (fun q hq => ?_) hh
  obtain ⟨v, hv, rfl⟩ := List.mem_map.mp hq
  exact ⟨hn v hv, e.nb hg⟩

theorem adj_new (h : Graph) (t : VType) (p : ℚ) (v : ℕ) : (h.addVertex t p).adj v h.vindex = none := by
  rw [(addVertex_fields h t p).2.1]
  exact if_pos (Or.inr rfl)

theorem Ext.mono (e : Ext g k h) {m : ℕ} (hm : k ≤ m) : Ext g m h :=
  ⟨e.verts, e.ty, e.newTy, e.phases, e.bphase, e.row, e.vindex, e.card.trans (by omega), e.ins, e.outs⟩

theorem ext_phiStep (hg : g.WF) {w6 v : ℕ} (h6 : NB g w6) (hv : NB g v) {l : List ℕ} (hl : ∀ w ∈ l, NB g w) (e : Ext g k h) {s : Graph × List ℕ}
    (hh : phiStep w6 (h, l) v = some s) : Ext g (k + 1) s.1 ∧ ∀ w ∈ s.2, NB g w := by
  unfold phiStep at hh
  simp only [Option.bind_eq_bind, Option.bind_eq_some_iff, Option.pure_def, Option.some.injEq] at hh
  obtain ⟨h1, e1, rfl⟩ := hh
  have e2 := e.shift hv int_m14
  refine ⟨Ext.edges _ _ (e2.vertex hg int_0) (fun q hq => ?_) e1, fun w hw => ?_⟩
  · simp only [List.mem_cons, List.not_mem_nil, or_false] at hq
    rcases hq with rfl | rfl
    · exact ⟨h6, e2.nb hg⟩
    · exact ⟨hv, e2.nb hg⟩
  · rcases List.mem_append.mp hw with hw | hw
    · exact hl w hw
    · rw [List.mem_singleton] at hw
      subst hw
      exact e2.nb hg

theorem ext_phiLoop (hg : g.WF) {w6 : ℕ} (h6 : NB g w6) (vs : List ℕ) : ∀ {h : Graph} {k : ℕ} {l : List ℕ}, (∀ v ∈ vs, NB g v) → (∀ w ∈ l, NB g w) →
    Ext g k h → ∀ {s : Graph × List ℕ}, vs.foldlM (phiStep w6) (h, l) = some s → Ext g (k + vs.length) s.1 ∧ ∀ w ∈ s.2, NB g w := by
  induction vs with
  | nil => intro h k l _ hl e s hh; rw [List.foldlM_nil] at hh; cases hh; exact ⟨e, hl⟩
  | cons v vs ih =>
    intro h k l hv hl e s hh
    rw [List.foldlM_cons, Option.bind_eq_bind, Option.bind_eq_some_iff] at hh
    obtain ⟨⟨h1, l1⟩, e1, hh⟩ := hh
    obtain ⟨a, b⟩ := ext_phiStep hg h6 (hv v (by simp)) hl e e1
    have := ih (fun u hu => hv u (List.mem_cons_of_mem _ hu)) b a hh
    rw [List.length_cons, show k + (vs.length + 1) = k + 1 + vs.length by omega]
    exact this

theorem ext_phi1 (hg : g.WF) {vs : List ℕ} (hv : ∀ v ∈ vs, NB g v) (e : Ext g 0 h) (hh : replacePhi1 h vs = some h') : Ext g 6 h' := by
  unfold replacePhi1 at hh
  split at hh
  · rename_i v1 v2 v3 v4 v5 v6
    simp only [Option.bind_eq_bind, Option.bind_eq_some_iff] at hh
    obtain ⟨g1, e1, s, e2, hh⟩ := hh
    have a0 := ((e.float cPHI).power 9).sphase (3/2)
    have hw := a0.nb hg
    have h6 := hv v6 (by simp)
    have hz : (((((addFloat h cPHI).addPower 9).addScalarPhase (3/2)).addVertex .Z 1).addToPhase v6 (-1/4)).adj v6
        (((addFloat h cPHI).addPower 9).addScalarPhase (3/2)).vindex = none := adj_new (((addFloat h cPHI).addPower 9).addScalarPhase (3/2)) .Z 1 v6
    have a1 := ((a0.vertex hg int_1).shift h6 int_m14).edge h6 hw hz e1
    obtain ⟨a2, a3⟩ := ext_phiLoop hg hw [v1, v2, v3, v4, v5]
      (fun v hm => hv v (by simp only [List.mem_cons, List.not_mem_nil, or_false] at hm ⊢; tauto)) (by simp) a1 e2
    split at hh
    · rename_i w1 w2 w3 w4 w5 hs
      refine Ext.edges _ _ a2 (fun q hq => ?_) hh
      rw [hs] at a3
      simp only [List.mem_cons, List.not_mem_nil, or_false] at hq
      rcases hq with rfl | rfl | rfl | rfl | rfl <;> exact ⟨a3 _ (by simp), a3 _ (by simp)⟩
    · simp at hh
  · simp at hh

theorem ext_functions (hg : g.WF) {n : ℕ} (hn : n = 6 ∨ n = 2 ∨ n = 1) {vs : List ℕ} (hv : ∀ v ∈ vs, NB g v) (e : Ext g 0 h)
    {f : Graph → List ℕ → Option Graph} (hf : f ∈ functions n) (hh : f h vs = some h') : Ext g n h' := by
  rcases hn with rfl | rfl | rfl
  · have hf' : f ∈ ([replaceB60, replaceB66, replaceE6, replaceO6, replaceK6, replacePhi1, replacePhi2].map fun f g vs => (f g vs).map (addFloat · GLOBAL)) := hf
    obtain ⟨f0, h0, rfl⟩ := List.mem_map.mp hf'
    obtain ⟨h1, e1, rfl⟩ := Option.map_eq_some_iff.mp hh
    refine Ext.float ?_ _
    simp only [List.mem_cons, List.not_mem_nil, or_false] at h0
    rcases h0 with rfl | rfl | rfl | rfl | rfl | rfl | rfl
    · cases e1
      exact (((e.float _).power _).shifts hv int_m14).mono (by omega)
    · cases e1
      exact ((((e.float _).power _).sphase _).shifts2 hv int_m14 int_1).mono (by omega)
    · exact (Ext.star hg ((((e.float _).power _).sphase _).shifts2 hv int_m14 int_12) hv int_1 e1).mono (by omega)
    · exact (Ext.star hg ((((e.float _).power _).sphase _).shifts2 hv int_m14 int_12) hv int_0 e1).mono (by omega)
    · exact (Ext.star hg ((((e.float _).power _).sphase _).shifts hv int_m14) hv int_32 e1).mono (by omega)
    · exact ext_phi1 hg hv e e1
    · unfold replacePhi2 at e1
      split at e1
      · refine ext_phi1 hg (fun v hm => hv v ?_) e e1
        simp only [List.mem_cons, List.not_mem_nil, or_false] at hm ⊢
        tauto
      · simp at e1
  · have hf' : f ∈ [replace2S, replace2N] := hf
    simp only [List.mem_cons, List.not_mem_nil, or_false] at hf'
    rcases hf' with rfl | rfl
    · unfold replace2S at hh
      split at hh
      · rename_i v0 v1 r
        obtain ⟨h1, e1, rfl⟩ := Option.map_eq_some_iff.mp hh
        exact ((Ext.star hg e (vs := [v0, v1]) (fun v hm => hv v (by simp only [List.mem_cons, List.not_mem_nil, or_false] at hm ⊢; tauto)) int_12 e1).shifts hv int_m14).mono (by omega)
      · simp at hh
    · unfold replace2N at hh
      split at hh
      · rename_i v0 v1 r
        obtain ⟨h1, e1, rfl⟩ := Option.map_eq_some_iff.mp hh
        exact ((Ext.star hg (e.sphase (1/4)) (vs := [v0, v1]) (fun v hm => hv v (by simp only [List.mem_cons, List.not_mem_nil, or_false] at hm ⊢; tauto)) int_1 e1).shifts hv int_m14).mono (by omega)
      · simp at hh
  · have hf' : f ∈ [replace10, replace11] := hf
    simp only [List.mem_cons, List.not_mem_nil, or_false] at hf'
    rcases hf' with rfl | rfl
    · unfold replace10 at hh
      split at hh
      · rename_i v0 r
        obtain ⟨h1, e1, rfl⟩ := Option.map_eq_some_iff.mp hh
        have a := e.power (-1)
        exact ((a.vertex hg int_0).edge (hv v0 (by simp)) (a.nb hg) (adj_new _ _ _ _) e1).shifts hv int_m14
      · simp at hh
    · unfold replace11 at hh
      split at hh
      · rename_i v0 r
        obtain ⟨h1, e1, rfl⟩ := Option.map_eq_some_iff.mp hh
        have a := (e.sphase (1/4)).power (-1)
        exact ((a.vertex hg int_1).edge (hv v0 (by simp)) (a.nb hg) (adj_new _ _ _ _) e1).shifts hv int_m14
      · simp at hh

/-- The class of diagrams of an extension. -/
theorem Ext.cls (hg : ZXZ Quarter g) (hb : g.PlainBnd) (e : Ext g k h) (hw : h.WF) : ZXZ Quarter h ∧ h.PlainBnd := by
  have old : ∀ b ∈ h.verts, h.ty b = .boundary → b ∈ g.verts ∧ g.ty b = .boundary := fun b hm ht => by
    by_cases c : b ∈ g.verts
    · exact ⟨c, by rw [← e.ty b c]; exact ht⟩
    · rw [e.newTy b hm c] at ht; simp at ht
  have zo : h.ZOnly := fun v hv => by
    by_cases c : v ∈ g.verts
    · rw [e.ty v c]; exact hg.2 v c
    · exact Or.inr (e.newTy v hv c)
  refine ⟨⟨⟨hw, fun b hm ht u w hu hv => ?_, fun b hm ht => ?_, fun v hv => (zo v hv).imp_right Or.inl, e.phases⟩, zo⟩, fun b hm ht => ?_, fun b hm ht => ?_⟩
  · obtain ⟨a, c⟩ := old b hm ht
    rw [e.row b a c] at hu hv
    exact hg.1.bdeg b a c u w hu hv
  · obtain ⟨a, c⟩ := old b hm ht
    obtain ⟨z, hz⟩ := hg.1.badj b a c
    exact ⟨z, by rw [e.row b a c]; exact hz⟩
  · obtain ⟨a, c⟩ := old b hm ht
    rw [e.bphase b a c]
    exact hb.phase b a c
  · obtain ⟨a, c⟩ := old b hm ht
    rw [e.ins, e.outs]
    exact hb.io b a c

/-- The class of diagrams under renaming. -/
theorem cls_renamed {ρ : ℕ → ℕ} (hg : ZXZ Quarter g) (hb : g.PlainBnd) (R : Renamed g h ρ) (hw : h.WF) (hi : h.inputs = g.inputs.map ρ)
    (ho : h.outputs = g.outputs.map ρ) : ZXZ Quarter h ∧ h.PlainBnd := by
  have old : ∀ b ∈ h.verts, ∃ a ∈ g.verts, b = ρ a := fun b hm => by
    rw [R.verts, Finset.mem_image] at hm
    obtain ⟨a, ha, rfl⟩ := hm
    exact ⟨a, ha, rfl⟩
  have zo : h.ZOnly := fun v hv => by
    obtain ⟨a, ha, rfl⟩ := old v hv
    rw [R.ty a ha]; exact hg.2 a ha
  refine ⟨⟨⟨hw, fun b hm ht u w hu hv => ?_, fun b hm ht => ?_, fun v hv => (zo v hv).imp_right Or.inl, fun v hv => ?_⟩, zo⟩, fun b hm ht => ?_, fun b hm ht => ?_⟩
  · obtain ⟨a, ha, rfl⟩ := old b hm
    obtain ⟨u, hu', rfl⟩ := old u (hw.toInv.mem' hu)
    obtain ⟨w, hw', rfl⟩ := old w (hw.toInv.mem' hv)
    rw [R.adj a ha u hu'] at hu
    rw [R.adj a ha w hw'] at hv
    rw [R.ty a ha] at ht
    rw [hg.1.bdeg a ha ht u w hu hv]
  · obtain ⟨a, ha, rfl⟩ := old b hm
    rw [R.ty a ha] at ht
    obtain ⟨z, hz⟩ := hg.1.badj a ha ht
    exact ⟨ρ z, by rw [R.adj a ha z (hg.1.wf.toInv.mem' hz)]; exact hz⟩
  · obtain ⟨a, ha, rfl⟩ := old v hv
    rw [R.phase a ha]
    exact quarter_mod2 (hg.1.phases a ha).2
  · obtain ⟨a, ha, rfl⟩ := old b hm
    rw [R.ty a ha] at ht
    rw [R.phase a ha, hb.phase a ha ht, mod2_zero]
  · obtain ⟨a, ha, rfl⟩ := old b hm
    rw [R.ty a ha] at ht
    rw [hi, ho]
    exact (hb.io a ha ht).imp (List.mem_map_of_mem) (List.mem_map_of_mem)

theorem mapM_mem {α β : Type*} (f : α → Option β) (l : List α) : ∀ {m : List β}, l.mapM f = some m → ∀ b ∈ m, ∃ a ∈ l, f a = some b := by
  induction l with
  | nil => intro m h b hb; simp at h; subst h; simp at hb
  | cons a r ih =>
    intro m h b hb
    rw [List.mapM_cons] at h
    simp only [Option.bind_eq_bind, Option.bind_eq_some_iff] at h
    obtain ⟨b', h1, bs, h2, h⟩ := h
    simp only [Option.pure_def, Option.some.injEq] at h
    subst h
    rcases List.mem_cons.mp hb with rfl | hb
    · exact ⟨a, by simp, h1⟩
    · obtain ⟨c, hc, e⟩ := ih h2 b hb
      exact ⟨c, List.mem_cons_of_mem _ hc, e⟩

end Magic
end PyZX
