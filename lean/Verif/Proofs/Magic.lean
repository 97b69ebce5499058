import Verif.Model.Magic
import Verif.Proofs.ToGraph
import Verif.Props.Compose

/-!
# Lemmas on `replace_magic_states`
-/

namespace PyZX
namespace Magic

open Graph ToGraph

/-- One operation pulled back to the path sum of the graph before it. -/
structure Ch (g g' : Graph) (T : ((ℕ → Bool) → ℂ) → (ℕ → Bool) → ℂ) : Prop where
  wf : g'.WF
  ins : g'.inputs = g.inputs
  outs : g'.outputs = g.outputs
  opn : ∀ F b, opn g' F b = opn g (T F) b

theorem Ch.trans {g g' g'' : Graph} {T U : ((ℕ → Bool) → ℂ) → (ℕ → Bool) → ℂ} (h : Ch g g' T) (h' : Ch g' g'' U) :
    Ch g g'' (fun F => T (U F)) :=
  ⟨h'.wf, h'.ins.trans h.ins, h'.outs.trans h.outs, fun F b => by rw [h'.opn, h.opn]⟩

theorem Ch.congr {g g' : Graph} {T U : ((ℕ → Bool) → ℂ) → (ℕ → Bool) → ℂ} (h : Ch g g' T) (e : ∀ F z, T F z = U F z) : Ch g g' U :=
  ⟨h.wf, h.ins, h.outs, fun F b => by rw [h.opn]; exact opn_congr (e F) b⟩

theorem noW_of_wf {g : Graph} (h : g.WF) : g.NoW := by
  intro v hv
  rcases h.types v hv with e | e | e | e <;> rw [e] <;> decide

theorem Ch.sem {g g' : Graph} {T : ((ℕ → Bool) → ℂ) → (ℕ → Bool) → ℂ} (h : Ch g g' T) (b : ℕ → Bool) :
    g'.sem b = ToGraph.opn g (T fun _ => 1) b := by
  rw [sem_eq_wH h.wf.toInv (noW_of_wf h.wf), ← h.opn]
  unfold ToGraph.opn
  exact psum_congr fun z _ => by rw [mul_one]

theorem ch_scalar {g : Graph} (h : g.WF) (s : Scalar) (k : ℂ) (hs : s.toNumber = g.scalar.toNumber * k) :
    Ch g { g with scalar := s } (fun F z => k * F z) := by
  refine ⟨h.congr (h.toInv.congr rfl rfl rfl rfl rfl rfl) rfl rfl rfl rfl rfl, rfl, rfl, fun F b => ?_⟩
  unfold ToGraph.opn
  refine psum_congr fun z _ => ?_
  have e : ({ g with scalar := s } : Graph).wH g.verts z = k * g.wH g.verts z := by
    unfold wH
    show s.toNumber * _ = _
    rw [hs]
    have h1 : ∀ v, ({ g with scalar := s } : Graph).wtH v = g.wtH v := fun _ => rfl
    have h2 : ({ g with scalar := s } : Graph).edgeH z = g.edgeH z := rfl
    simp only [h1, h2]
    ring
  show ({ g with scalar := s } : Graph).wH g.verts z * F z = _
  rw [e]; ring

theorem ch_float {g : Graph} (h : g.WF) (f : ℂ) : Ch g (addFloat g f) (fun F z => f * F z) :=
  ch_scalar h _ f (Scalar.addFloat_toNumber _ _)

theorem ch_power {g : Graph} (h : g.WF) (n : ℤ) : Ch g (g.addPower n) (fun F z => sq2 ^ n * F z) :=
  ch_scalar h _ _ (Scalar.addPower_toNumber _ _)

theorem ch_sphase {g : Graph} (h : g.WF) (p : ℚ) : Ch g (g.addScalarPhase p) (fun F z => ph p * F z) :=
  ch_scalar h _ _ (Scalar.addPhase_toNumber _ _)

theorem ch_addToPhase {g : Graph} (h : g.WF) {v : ℕ} (hv : v ∈ g.verts) (ht : g.ty v = .Z) (p : ℚ) :
    Ch g (g.addToPhase v p) (fun F z => (if z v then ph p else 1) * F z) := by
  refine ⟨h.congr (h.toInv.congr rfl rfl rfl rfl rfl rfl) rfl rfl rfl rfl rfl, rfl, rfl, fun F b => ?_⟩
  unfold ToGraph.opn
  refine psum_congr fun z _ => ?_
  have e : (g.addToPhase v p).wH g.verts z = (if z v then ph p else 1) * g.wH g.verts z := by
    unfold wH
    have h2 : (g.addToPhase v p).edgeH z = g.edgeH z := rfl
    have h3 : ∏ w ∈ g.verts, (g.addToPhase v p).wtH w (z w) = (if z v then ph p else 1) * ∏ w ∈ g.verts, g.wtH w (z w) := by
      rw [← Finset.mul_prod_erase _ _ hv, ← Finset.mul_prod_erase _ (fun w => g.wtH w (z w)) hv, ← mul_assoc]
      congr 1
      · unfold wtH wtT
        show (if z v then match g.ty v with
          | .boundary => (1 : ℂ) | .zbox => _ | .hbox => _ | _ => ph ((g.addToPhase v p).phase v) else 1) = _
        rw [ht]
        simp only [addToPhase, Function.update_self, ph_mod2, ph_add]
        cases z v <;> simp [mul_comm]
      · refine Finset.prod_congr rfl fun w hw => ?_
        unfold wtH addToPhase
        simp only
        rw [Function.update_of_ne (Finset.ne_of_mem_erase hw)]
    rw [h2, h3, show (g.addToPhase v p).scalar = g.scalar from rfl]
    ring
  show (g.addToPhase v p).wH g.verts z * F z = _
  rw [e]; ring

/-- What adding to the phases of some vertices leaves unchanged. -/
structure Same (g g' : Graph) : Prop where
  verts : g'.verts = g.verts
  ty : g'.ty = g.ty
  vindex : g'.vindex = g.vindex

theorem Same.refl (g : Graph) : Same g g := ⟨rfl, rfl, rfl⟩

theorem Same.trans {g g' g'' : Graph} (h : Same g g') (h' : Same g' g'') : Same g g'' :=
  ⟨h'.verts.trans h.verts, h'.ty.trans h.ty, h'.vindex.trans h.vindex⟩

/-- A loop over vertices that multiplies by `a` for every vertex with value 1 and changes its phase by `q`. -/
theorem ch_loop {f : Graph → ℕ → Graph} {a : ℂ} {q : ℚ}
    (hf : ∀ (g : Graph) v, g.WF → v ∈ g.verts → g.ty v = .Z → Ch g (f g v) (fun F z => (if z v then a else 1) * F z) ∧ Same g (f g v) ∧
      (f g v).adj = g.adj ∧ (∀ u, u ≠ v → (f g v).phase u = g.phase u) ∧ ∃ k : ℤ, (f g v).phase v = g.phase v + q + k / 2)
    (vs : List ℕ) : ∀ {g : Graph}, g.WF → vs.Nodup → (∀ v ∈ vs, v ∈ g.verts ∧ g.ty v = .Z) →
      Ch g (vs.foldl f g) (fun F z => (vs.map fun v => if z v then a else 1).prod * F z) ∧ Same g (vs.foldl f g) ∧
      (vs.foldl f g).adj = g.adj ∧ (∀ u, u ∉ vs → (vs.foldl f g).phase u = g.phase u) ∧
      ∀ v ∈ vs, ∃ k : ℤ, (vs.foldl f g).phase v = g.phase v + q + k / 2 := by
  induction vs with
  | nil =>
    intro g h _ _
    exact ⟨⟨h, rfl, rfl, fun F b => by simp⟩, Same.refl g, rfl, fun u _ => rfl, fun v hv => by simp at hv⟩
  | cons v r ih =>
    intro g h hn hv
    obtain ⟨c1, s1, a1, p1, k1, hk1⟩ := hf g v h (hv v (by simp)).1 (hv v (by simp)).2
    have hn' := List.nodup_cons.mp hn
    obtain ⟨c2, s2, a2, p2, k2⟩ := ih c1.wf hn'.2 fun w hw => by
      rw [s1.verts, s1.ty]; exact hv w (by simp [hw])
    refine ⟨(c1.trans c2).congr fun F z => ?_, s1.trans s2, a2.trans a1, fun u hu => ?_, fun w hw => ?_⟩
    · simp only [List.map_cons, List.prod_cons]; ring
    · simp only [List.mem_cons, not_or] at hu
      rw [List.foldl_cons, p2 u hu.2, p1 u hu.1]
    · rcases List.mem_cons.mp hw with rfl | hw
      · exact ⟨k1, by rw [List.foldl_cons, p2 w hn'.1, hk1]⟩
      · obtain ⟨k, hk⟩ := k2 w hw
        exact ⟨k, by rw [List.foldl_cons, hk, p1 w (fun hh => hn'.1 (hh ▸ hw))]⟩

theorem mod2_shift (q : ℚ) : ∃ k : ℤ, mod2 q = q + k := ⟨-(2 * ⌊q / 2⌋), by unfold mod2; push_cast; ring⟩

/-- One shift per vertex. -/
theorem ch_shift1 (p : ℚ) (g : Graph) (v : ℕ) (h : g.WF) (hv : v ∈ g.verts) (ht : g.ty v = .Z) :
    Ch g (g.addToPhase v p) (fun F z => (if z v then ph p else 1) * F z) ∧ Same g (g.addToPhase v p) ∧
      (g.addToPhase v p).adj = g.adj ∧ (∀ u, u ≠ v → (g.addToPhase v p).phase u = g.phase u) ∧
      ∃ k : ℤ, (g.addToPhase v p).phase v = g.phase v + p + k / 2 := by
  refine ⟨ch_addToPhase h hv ht p, ⟨rfl, rfl, rfl⟩, rfl, fun u hu => Function.update_of_ne hu _ _, ?_⟩
  obtain ⟨k, hk⟩ := mod2_shift (g.phase v + p)
  refine ⟨2 * k, ?_⟩
  show Function.update g.phase v (mod2 (g.phase v + p)) v = _
  rw [Function.update_self, hk]; push_cast; ring

/-- Two shifts per vertex. -/
theorem ch_shift2 (p : ℚ) (j : ℤ) (g : Graph) (v : ℕ) (h : g.WF) (hv : v ∈ g.verts) (ht : g.ty v = .Z) :
    Ch g ((g.addToPhase v p).addToPhase v (j / 2)) (fun F z => (if z v then ph p * ph (j / 2) else 1) * F z) ∧
      Same g ((g.addToPhase v p).addToPhase v (j / 2)) ∧
      ((g.addToPhase v p).addToPhase v (j / 2)).adj = g.adj ∧
      (∀ u, u ≠ v → ((g.addToPhase v p).addToPhase v (j / 2)).phase u = g.phase u) ∧
      ∃ k : ℤ, ((g.addToPhase v p).addToPhase v (j / 2)).phase v = g.phase v + p + k / 2 := by
  obtain ⟨c1, s1, a1, p1, k1, hk1⟩ := ch_shift1 p g v h hv ht
  obtain ⟨c2, s2, a2, p2, k2, hk2⟩ := ch_shift1 (j / 2) (g.addToPhase v p) v c1.wf hv ht
  refine ⟨(c1.trans c2).congr fun F z => ?_, s1.trans s2, a2.trans a1, fun u hu => (p2 u hu).trans (p1 u hu), k1 + j + k2, ?_⟩
  · by_cases hz : z v = true <;> simp [hz, mul_assoc]
  · rw [hk2, hk1]; push_cast; ring

theorem ch_addVertex {g : Graph} (h : g.WF) (p : ℚ) :
    Ch g (g.addVertex .Z p) (fun F z => ∑ c : Bool, (if c then ph p else 1) * F (Function.update z g.vindex c)) := by
  obtain ⟨e1, e2, e3, e4, e5, e6, e7, e8, e9, e10⟩ := addVertex_fields g .Z p
  refine ⟨h.addVertex (by decide) p, e9, e10, fun F b => ?_⟩
  rw [opn_addVertex h.toInv (by decide)]
  refine opn_congr (fun z => ?_) b
  rw [Fintype.sum_bool]
  simp only [wtT, if_true, ph_mod2, Bool.false_eq_true, if_false]
  ring

theorem addEdge0_fresh {g : Graph} {s t : ℕ} (hs : s ∈ g.verts) (ht : t ∈ g.verts) (e : EType) :
    g.addEdge0 s t e = some { g.setAdj s t (some e) with nedges := g.nedges + 1 } := by
  unfold addEdge0
  rw [if_neg (by simp [hs, ht])]

/-- A fresh edge between two green spiders. -/
theorem ch_edge {g : Graph} (h : g.WF) {s t : ℕ} (hs : s ∈ g.verts) (ht : t ∈ g.verts) (hst : s ≠ t) (hn : g.adj s t = none)
    (h1 : g.ty s = .Z) (h2 : g.ty t = .Z) {e : EType} (he : e ≠ .wio) :
    ∃ g', g.addEdge0 s t e = some g' ∧ g.addEdge s t e = some g' ∧ Same g g' ∧ g'.phase = g.phase ∧
      (∀ a c, ¬ (a = s ∧ c = t) → ¬ (a = t ∧ c = s) → g'.adj a c = g.adj a c) ∧
      Ch g g' (fun F z => edgeMat e (z s) (z t) * F z) := by
  have hh := addEdge_fresh hs ht hn e
  refine ⟨_, addEdge0_fresh hs ht e, hh, ⟨rfl, rfl, rfl⟩, rfl, fun a c h1 h2 => setAdj_adj_other g _ h1 h2,
    h.addEdge hh hst he, rfl, rfl, fun F b => ?_⟩
  unfold ToGraph.opn
  refine psum_congr fun z _ => ?_
  have := wH_setAdj h.toInv hs ht hst hn e (g.nedges + 1) z
  rw [show ({ g.setAdj s t (some e) with nedges := g.nedges + 1 } : Graph).verts = g.verts from rfl, this, h1, h2]
  have hc : contr e (legT .Z (z s)) (legT .Z (z t)) = edgeMat e (z s) (z t) := by
    unfold contr legT
    cases z s <;> cases z t <;> simp [dmat]
  rw [hc]
  ring

/-- The loop over the edges of a star. -/
theorem ch_edges {e : EType} (he : e ≠ .wio) (w : ℕ) (vs : List ℕ) : ∀ {g : Graph}, g.WF → vs.Nodup → w ∈ g.verts → g.ty w = .Z → w ∉ vs →
    (∀ v ∈ vs, v ∈ g.verts ∧ g.ty v = .Z ∧ g.adj v w = none) →
    ∃ g', g.addEdges (vs.map fun v => (v, w)) e = some g' ∧ Same g g' ∧ g'.phase = g.phase ∧
      (∀ a c, a ≠ w → c ≠ w → g'.adj a c = g.adj a c) ∧ (∀ c, c ∉ vs → g'.adj w c = g.adj w c) ∧
      Ch g g' (fun F z => (vs.map fun v => edgeMat e (z v) (z w)).prod * F z) := by
  induction vs with
  | nil => intro g h _ _ _ _ _; exact ⟨g, rfl, Same.refl g, rfl, fun _ _ _ _ => rfl, fun _ _ => rfl, h, rfl, rfl, fun F b => by simp⟩
  | cons v r ih =>
    intro g h hn hw hwt hwn hv
    obtain ⟨v1, v2, v3⟩ := hv v (by simp)
    have hn' := List.nodup_cons.mp hn
    simp only [List.mem_cons, not_or] at hwn
    obtain ⟨g1, q1, q2, q3, q4, q5, q6⟩ := ch_edge h v1 hw (fun hh => hwn.1 hh.symm) v3 v2 hwt he
    obtain ⟨g2, r1, r2, r3, r5, r6, r4⟩ := ih q6.wf hn'.2 (by rw [q3.verts]; exact hw) (by rw [q3.ty]; exact hwt) hwn.2 fun u hu => by
      obtain ⟨u1, u2, u3⟩ := hv u (by simp [hu])
      refine ⟨by rw [q3.verts]; exact u1, by rw [q3.ty]; exact u2, ?_⟩
      rw [q5 u w (fun hh => hn'.1 (hh.1 ▸ hu)) (fun hh => hwn.2 (hh.1 ▸ hu))]
      exact u3
    refine ⟨g2, ?_, q3.trans r2, r3.trans q4, fun a c ha hc => ?_, fun c hc => ?_, (q6.trans r4).congr fun F z => ?_⟩
    · unfold addEdges
      rw [List.map_cons, List.foldlM_cons]
      show (g.addEdge0 v w e).bind _ = _
      rw [q1]
      exact r1
    · rw [r5 a c ha hc, q5 a c (fun hh => hc hh.2) (fun hh => ha hh.1)]
    · simp only [List.mem_cons, not_or] at hc
      rw [r6 c hc.2, q5 w c (fun hh => hwn.1 hh.1) (fun hh => hc.1 hh.2)]
    · simp only [List.map_cons, List.prod_cons]; ring

/-- What the new graphs have in common: phases change by odd multiples of pi/4 at the chosen vertices, new vertices are Clifford. -/
structure Phs (g g' : Graph) (vs : List ℕ) : Prop where
  verts : g.verts ⊆ g'.verts
  ty : ∀ v ∈ g.verts, g'.ty v = g.ty v
  newTy : ∀ v ∈ g'.verts, v ∉ g.verts → g'.ty v = .Z
  old : ∀ v ∈ g.verts, v ∉ vs → g'.phase v = g.phase v
  chosen : ∀ v ∈ vs, ∃ k : ℤ, g'.phase v = g.phase v - 1/4 + k / 2
  new : ∀ v ∈ g'.verts, v ∉ g.verts → ∃ k : ℤ, g'.phase v = k / 2

/-- A new vertex connected to the given ones. -/
theorem ch_star {g : Graph} (h : g.WF) {vs : List ℕ} (hn : vs.Nodup) (hv : ∀ v ∈ vs, v ∈ g.verts ∧ g.ty v = .Z) (p : ℚ) {e : EType}
    (he : e ≠ .wio) :
    ∃ g', (g.addVertex .Z p).addEdges (vs.map fun v => (v, g.vindex)) e = some g' ∧ g'.verts = insert g.vindex g.verts ∧
      g'.ty = Function.update g.ty g.vindex .Z ∧ g'.phase = Function.update g.phase g.vindex (mod2 p) ∧
      (g'.vindex = g.vindex + 1 ∧ (∀ a c, a ≠ g.vindex → c ≠ g.vindex → g'.adj a c = g.adj a c) ∧ ∀ c, c ∉ vs → g'.adj g.vindex c = none) ∧
      Ch g g' (fun F z => ∑ c : Bool, (if c then ph p else 1) * ((vs.map fun v => edgeMat e (z v) c).prod * F (Function.update z g.vindex c))) := by
  obtain ⟨e1, e2, e3, e4, e5, e6, e7, e8, e9, e10⟩ := addVertex_fields g .Z p
  have hnv := h.toInv.notMem_vindex
  have hne : ∀ v ∈ vs, v ≠ g.vindex := fun v hm hh => hnv (hh ▸ (hv v hm).1)
  have c1 := ch_addVertex h p
  obtain ⟨g', q1, q2, q3, q5, q6, q4⟩ := ch_edges he g.vindex vs c1.wf hn (by rw [e1]; exact Finset.mem_insert_self _ _)
    (by rw [e3, Function.update_self]) (fun hh => hne _ hh rfl) fun v hm =>
      ⟨by rw [e1]; exact Finset.mem_insert_of_mem (hv v hm).1, by rw [e3, Function.update_of_ne (hne v hm)]; exact (hv v hm).2,
        by rw [h.toInv.addVertex_adj]; exact h.toInv.adj_vindex (Or.inr rfl)⟩
  refine ⟨g', q1, q2.verts.trans e1, q2.ty.trans e3, q3.trans e4, ⟨q2.vindex.trans e6, fun a c ha hc => ?_, fun c hc => ?_⟩, (c1.trans q4).congr fun F z => ?_⟩
  · rw [q5 a c ha hc, h.toInv.addVertex_adj]
  · rw [q6 c hc, h.toInv.addVertex_adj]; exact h.toInv.adj_vindex (Or.inl rfl)
  refine Finset.sum_congr rfl fun c _ => ?_
  have : (vs.map fun v => edgeMat e (Function.update z g.vindex c v) (Function.update z g.vindex c g.vindex)) =
      vs.map fun v => edgeMat e (z v) c :=
    List.map_congr_left fun v hm => by rw [Function.update_of_ne (hne v hm), Function.update_self]
  simp only [this]

/-- A term of the decomposition: the graph `g'` denotes `g` with the extra factor `Φ`. -/
structure Term (g g' : Graph) (vs : List ℕ) (Φ : (ℕ → Bool) → ℂ) : Prop where
  wf : g'.WF
  ins : g'.inputs = g.inputs
  outs : g'.outputs = g.outputs
  phs : Phs g g' vs
  sem : ∀ b, g'.sem b = opn g Φ b

theorem Term.of {g g' : Graph} {vs : List ℕ} {T : ((ℕ → Bool) → ℂ) → (ℕ → Bool) → ℂ} (h : Ch g g' T) (hp : Phs g g' vs)
    {Φ : (ℕ → Bool) → ℂ} (e : ∀ z, T (fun _ => 1) z = Φ z) : Term g g' vs Φ :=
  ⟨h.wf, h.ins, h.outs, hp, fun b => by rw [h.sem]; exact opn_congr e b⟩

theorem Term.float {g g' : Graph} {vs : List ℕ} {Φ : (ℕ → Bool) → ℂ} (h : Term g g' vs Φ) (k : ℂ) :
    Term g (addFloat g' k) vs (fun z => k * Φ z) := by
  have c := ch_float h.wf k
  refine ⟨c.wf, c.ins.trans h.ins, c.outs.trans h.outs, ⟨h.phs.verts, h.phs.ty, h.phs.newTy, h.phs.old, h.phs.chosen, h.phs.new⟩, fun b => ?_⟩
  rw [c.sem]
  show opn g' (fun z => k * 1) b = _
  rw [opn_mul, opn_mul, ← h.sem, sem_eq_wH h.wf.toInv (noW_of_wf h.wf)]
  refine congrArg (k * ·) ?_
  unfold opn
  exact psum_congr fun z _ => by rw [mul_one]

/-- The phases if only those of the chosen vertices change. -/
theorem phs_same {g g' : Graph} {vs : List ℕ} (s : Same g g') (ho : ∀ u, u ∉ vs → g'.phase u = g.phase u)
    (hc : ∀ v ∈ vs, ∃ k : ℤ, g'.phase v = g.phase v + -1/4 + k / 2) : Phs g g' vs where
  verts := by rw [s.verts]
  ty := fun v _ => by rw [s.ty]
  newTy := fun v hv hn => absurd (s.verts ▸ hv) hn
  old := fun v _ hn => ho v hn
  chosen := fun v hv => by
    obtain ⟨k, hk⟩ := hc v hv
    exact ⟨k, by rw [hk]; ring⟩
  new := fun v hv hn => absurd (s.verts ▸ hv) hn

/-- The phases after a new vertex. -/
theorem Phs.insert {g g1 g' : Graph} {vs : List ℕ} (h : Phs g g1 vs) {w : ℕ} (hw : w ∉ g1.verts) (hs : ∀ v ∈ vs, v ∈ g.verts) {p : ℚ}
    (j : ℤ) (hp : p = j / 2) (e1 : g'.verts = insert w g1.verts) (e2 : g'.ty = Function.update g1.ty w .Z)
    (e3 : g'.phase = Function.update g1.phase w (mod2 p)) : Phs g g' vs := by
  have hne : ∀ v ∈ g1.verts, v ≠ w := fun v hv hh => hw (hh ▸ hv)
  refine ⟨?_, ?_, ?_, ?_, ?_, ?_⟩
  · rw [e1]; exact h.verts.trans (Finset.subset_insert _ _)
  · intro v hv
    rw [e2, Function.update_of_ne (hne v (h.verts hv)), h.ty v hv]
  · intro v hv hn
    rw [e2]
    by_cases hh : v = w
    · subst hh; rw [Function.update_self]
    · rw [Function.update_of_ne hh]
      rw [e1, Finset.mem_insert] at hv
      exact h.newTy v (hv.resolve_left hh) hn
  · intro v hv hn
    rw [e3, Function.update_of_ne (hne v (h.verts hv)), h.old v hv hn]
  · intro v hv
    rw [e3, Function.update_of_ne (hne v (h.verts (hs v hv)))]
    exact h.chosen v hv
  · intro v hv hn
    rw [e3]
    by_cases hh : v = w
    · subst hh
      obtain ⟨k, hk⟩ := mod2_shift p
      exact ⟨j + 2 * k, by rw [Function.update_self, hk, hp]; push_cast; ring⟩
    · rw [Function.update_of_ne hh]
      rw [e1, Finset.mem_insert] at hv
      exact h.new v (hv.resolve_left hh) hn

section Terms

variable {g : Graph} {vs : List ℕ} (h : g.WF) (hn : vs.Nodup) (hv : ∀ v ∈ vs, v ∈ g.verts ∧ g.ty v = .Z)

include h hn hv

theorem b60_term : ∃ g', replaceB60 g vs = some g' ∧ Term g g' vs (fun z =>
    cB60 * (sq2 ^ (-6 : ℤ) * (vs.map fun v => if z v then ph (-1/4) else 1).prod)) := by
  have c1 := ch_float h cB60
  have c2 := ch_power c1.wf (-6)
  obtain ⟨c3, s3, a3, o3, k3⟩ := ch_loop (ch_shift1 (-1/4)) vs c2.wf hn hv
  exact ⟨_, rfl, .of ((c1.trans c2).trans c3) (phs_same (g := g) ⟨s3.verts, s3.ty, s3.vindex⟩ o3 k3) fun z => by simp only [mul_one]⟩

theorem b66_term : ∃ g', replaceB66 g vs = some g' ∧ Term g g' vs (fun z =>
    cB66 * (sq2 ^ (-6 : ℤ) * (ph 1 * (vs.map fun v => if z v then ph (-1/4) * ph 1 else 1).prod))) := by
  have c1 := ch_float h cB66
  have c2 := ch_power c1.wf (-6)
  have c2' := ch_sphase c2.wf 1
  have key := ch_shift2 (-1/4) 2
  rw [show ((2 : ℤ) : ℚ) / 2 = 1 by norm_num] at key
  obtain ⟨c3, s3, a3, o3, k3⟩ := ch_loop key vs c2'.wf hn hv
  exact ⟨_, rfl, .of (((c1.trans c2).trans c2').trans c3) (phs_same (g := g) ⟨s3.verts, s3.ty, s3.vindex⟩ o3 k3) fun z => by simp only [mul_one]⟩

theorem e6_term : ∃ g', replaceE6 g vs = some g' ∧ Term g g' vs (fun z =>
    cE6 * (sq2 ^ (4 : ℤ) * (ph (1/2) * ((vs.map fun v => if z v then ph (-1/4) * ph (1/2) else 1).prod *
      ∑ c : Bool, (if c then ph 1 else 1) * (vs.map fun v => hmat (z v) c).prod)))) := by
  have c1 := ch_float h cE6
  have c2 := ch_power c1.wf 4
  have c2' := ch_sphase c2.wf (1/2)
  have key := ch_shift2 (-1/4) 1
  rw [show ((1 : ℤ) : ℚ) / 2 = 1 / 2 by norm_num] at key
  obtain ⟨c3, s3, a3, o3, k3⟩ := ch_loop key vs c2'.wf hn hv
  obtain ⟨g', q1, q2, q3, q4, -, q5⟩ := ch_star c3.wf hn (fun v hm => by rw [s3.verts, s3.ty]; exact hv v hm) 1 (e := .had) (by decide)
  refine ⟨g', q1, .of ((((c1.trans c2).trans c2').trans c3).trans q5)
    ((phs_same (g := g) ⟨s3.verts, s3.ty, s3.vindex⟩ o3 k3).insert c3.wf.toInv.notMem_vindex (fun v hm => (hv v hm).1) 2 (by norm_num) q2 q3 q4) fun z => ?_⟩
  simp only [mul_one]; rfl

theorem o6_term : ∃ g', replaceO6 g vs = some g' ∧ Term g g' vs (fun z =>
    cO6 * (sq2 ^ (4 : ℤ) * (ph (1/2) * ((vs.map fun v => if z v then ph (-1/4) * ph (1/2) else 1).prod *
      ∑ c : Bool, (if c then ph 0 else 1) * (vs.map fun v => hmat (z v) c).prod)))) := by
  have c1 := ch_float h cO6
  have c2 := ch_power c1.wf 4
  have c2' := ch_sphase c2.wf (1/2)
  have key := ch_shift2 (-1/4) 1
  rw [show ((1 : ℤ) : ℚ) / 2 = 1 / 2 by norm_num] at key
  obtain ⟨c3, s3, a3, o3, k3⟩ := ch_loop key vs c2'.wf hn hv
  obtain ⟨g', q1, q2, q3, q4, -, q5⟩ := ch_star c3.wf hn (fun v hm => by rw [s3.verts, s3.ty]; exact hv v hm) 0 (e := .had) (by decide)
  refine ⟨g', q1, .of ((((c1.trans c2).trans c2').trans c3).trans q5)
    ((phs_same (g := g) ⟨s3.verts, s3.ty, s3.vindex⟩ o3 k3).insert c3.wf.toInv.notMem_vindex (fun v hm => (hv v hm).1) 0 (by norm_num) q2 q3 q4) fun z => ?_⟩
  simp only [mul_one]; rfl

theorem k6_term : ∃ g', replaceK6 g vs = some g' ∧ Term g g' vs (fun z =>
    cK6 * (sq2 ^ (5 : ℤ) * (ph (1/4) * ((vs.map fun v => if z v then ph (-1/4) else 1).prod *
      ∑ c : Bool, (if c then ph (3/2) else 1) * (vs.map fun v => dmat (z v) c).prod)))) := by
  have c1 := ch_float h cK6
  have c2 := ch_power c1.wf 5
  have c2' := ch_sphase c2.wf (1/4)
  obtain ⟨c3, s3, a3, o3, k3⟩ := ch_loop (ch_shift1 (-1/4)) vs c2'.wf hn hv
  obtain ⟨g', q1, q2, q3, q4, -, q5⟩ := ch_star c3.wf hn (fun v hm => by rw [s3.verts, s3.ty]; exact hv v hm) (3/2) (e := .simple) (by decide)
  refine ⟨g', q1, .of ((((c1.trans c2).trans c2').trans c3).trans q5)
    ((phs_same (g := g) ⟨s3.verts, s3.ty, s3.vindex⟩ o3 k3).insert c3.wf.toInv.notMem_vindex (fun v hm => (hv v hm).1) 3 (by norm_num) q2 q3 q4) fun z => ?_⟩
  simp only [mul_one]; rfl

/-- Phases after a shift that follows a star. -/
theorem star_shift {g1 g2 : Graph} {w : ℕ} (hw : w ∉ g.verts) {p : ℚ} (j : ℤ) (hp : p = j / 2) (e1 : g1.verts = insert w g.verts)
    (e2 : g1.ty = Function.update g.ty w .Z) (e3 : g1.phase = Function.update g.phase w (mod2 p)) (c : g1.WF)
    (eg : g2 = vs.foldl (fun g v => g.addToPhase v (-1/4)) g1) :
    Ch g1 g2 (fun F z => (vs.map fun v => if z v then ph (-1/4) else 1).prod * F z) ∧ Phs g g2 vs := by
  have hne : ∀ v ∈ g.verts, v ≠ w := fun v hv hh => hw (hh ▸ hv)
  obtain ⟨c3, s3, a3, o3, k3⟩ := ch_loop (ch_shift1 (-1/4)) vs c hn fun v hm =>
    ⟨by rw [e1]; exact Finset.mem_insert_of_mem (hv v hm).1, by rw [e2, Function.update_of_ne (hne v (hv v hm).1)]; exact (hv v hm).2⟩
  rw [← eg] at c3 s3 a3 o3 k3
  have hwv : w ∉ vs := fun hh => hne w (hv w hh).1 rfl
  refine ⟨c3, ⟨?_, ?_, ?_, ?_, ?_, ?_⟩⟩
  · rw [s3.verts, e1]; exact Finset.subset_insert _ _
  · intro v hm; rw [s3.ty, e2, Function.update_of_ne (hne v hm)]
  · intro v hm hnn
    rw [s3.verts, e1, Finset.mem_insert] at hm
    obtain rfl := hm.resolve_right hnn
    rw [s3.ty, e2, Function.update_self]
  · intro v hm hnn
    rw [o3 v hnn, e3, Function.update_of_ne (hne v hm)]
  · intro v hm
    obtain ⟨k, hk⟩ := k3 v hm
    refine ⟨k, ?_⟩
    rw [hk, e3, Function.update_of_ne (hne v (hv v hm).1)]; ring
  · intro v hm hnn
    rw [s3.verts, e1, Finset.mem_insert] at hm
    obtain rfl := hm.resolve_right hnn
    obtain ⟨k, hk⟩ := mod2_shift p
    exact ⟨j + 2 * k, by rw [o3 v hwv, e3, Function.update_self, hk, hp]; push_cast; ring⟩

end Terms

theorem two_terms {g : Graph} {v0 v1 : ℕ} (h : g.WF) (hn : [v0, v1].Nodup) (hv : ∀ v ∈ [v0, v1], v ∈ g.verts ∧ g.ty v = .Z) :
    (∃ g', replace2S g [v0, v1] = some g' ∧ Term g g' [v0, v1] (fun z => (∑ c : Bool, (if c then ph (1/2) else 1) *
      (dmat (z v0) c * dmat (z v1) c)) * ((if z v0 then ph (-1/4) else 1) * (if z v1 then ph (-1/4) else 1)))) ∧
    (∃ g', replace2N g [v0, v1] = some g' ∧ Term g g' [v0, v1] (fun z => ph (1/4) * (∑ c : Bool, (if c then ph 1 else 1) *
      (hmat (z v0) c * hmat (z v1) c)) * ((if z v0 then ph (-1/4) else 1) * (if z v1 then ph (-1/4) else 1)))) := by
  have hnv := h.toInv.notMem_vindex
  have n0 : v0 ≠ g.vindex := fun hh => hnv (hh ▸ (hv v0 (by simp)).1)
  have n1 : v1 ≠ g.vindex := fun hh => hnv (hh ▸ (hv v1 (by simp)).1)
  constructor
  · obtain ⟨g1, q1, q2, q3, q4, -, q5⟩ := ch_star h hn hv (1/2) (e := .simple) (by decide)
    obtain ⟨c2, p2⟩ := star_shift h hn hv hnv 1 (by norm_num) q2 q3 q4 q5.wf rfl
    refine ⟨_, ?_, .of (q5.trans c2) p2 fun z => ?_⟩
    · unfold replace2S
      simp only [List.map_cons, List.map_nil] at q1
      simp only [q1]
      rfl
    · simp only [List.map_cons, List.map_nil, List.prod_cons, List.prod_nil, Function.update_of_ne n0, Function.update_of_ne n1, mul_one,
        Finset.sum_mul, mul_assoc]
      rfl
  · have c0 := ch_sphase h (1/4)
    obtain ⟨g1, q1, q2, q3, q4, -, q5⟩ := ch_star c0.wf hn hv 1 (e := .had) (by decide)
    obtain ⟨c2, p2⟩ := star_shift h hn hv hnv 2 (by norm_num) q2 q3 q4 q5.wf rfl
    refine ⟨_, ?_, .of ((c0.trans q5).trans c2) p2 fun z => ?_⟩
    · unfold replace2N
      simp only [List.map_cons, List.map_nil] at q1
      rw [show (g.addScalarPhase (1/4)).vindex = g.vindex from rfl] at q1
      simp only [q1]
      rfl
    · rw [show (g.addScalarPhase (1/4)).vindex = g.vindex from rfl]
      simp only [List.map_cons, List.map_nil, List.prod_cons, List.prod_nil, Function.update_of_ne n0, Function.update_of_ne n1, mul_one,
        Finset.sum_mul, mul_assoc]
      rfl

theorem addEdge_of_star {g : Graph} (h : g.WF) {v : ℕ} (hv : v ∈ g.verts ∧ g.ty v = .Z) (p : ℚ) (e : EType) :
    (g.addVertex .Z p).addEdge v g.vindex e = (g.addVertex .Z p).addEdges [(v, g.vindex)] e := by
  obtain ⟨e1, e2, e3, e4, e5, e6, e7, e8, e9, e10⟩ := addVertex_fields g .Z p
  have h1 : v ∈ (g.addVertex .Z p).verts := by rw [e1]; exact Finset.mem_insert_of_mem hv.1
  have h2 : g.vindex ∈ (g.addVertex .Z p).verts := by rw [e1]; exact Finset.mem_insert_self _ _
  rw [addEdge_fresh h1 h2 (by rw [h.toInv.addVertex_adj]; exact h.toInv.adj_vindex (Or.inr rfl))]
  unfold addEdges
  rw [List.foldlM_cons]
  show _ = ((g.addVertex .Z p).addEdge0 v g.vindex e).bind _
  rw [addEdge0_fresh h1 h2]
  rfl

theorem one_terms {g : Graph} {v0 : ℕ} (h : g.WF) (hv : v0 ∈ g.verts ∧ g.ty v0 = .Z) :
    (∃ g', replace10 g [v0] = some g' ∧ Term g g' [v0] (fun z => sq2 ^ (-1 : ℤ) * (∑ c : Bool, (if c then ph 0 else 1) *
      hmat (z v0) c) * (if z v0 then ph (-1/4) else 1))) ∧
    (∃ g', replace11 g [v0] = some g' ∧ Term g g' [v0] (fun z => ph (1/4) * (sq2 ^ (-1 : ℤ) * (∑ c : Bool, (if c then ph 1 else 1) *
      hmat (z v0) c)) * (if z v0 then ph (-1/4) else 1))) := by
  have hnv := h.toInv.notMem_vindex
  have n0 : v0 ≠ g.vindex := fun hh => hnv (hh ▸ hv.1)
  have hn : [v0].Nodup := by simp
  have hv' : ∀ v ∈ [v0], v ∈ g.verts ∧ g.ty v = .Z := by simpa using hv
  constructor
  · have c0 := ch_power h (-1)
    obtain ⟨g1, q1, q2, q3, q4, -, q5⟩ := ch_star c0.wf hn hv' 0 (e := .had) (by decide)
    obtain ⟨c2, p2⟩ := star_shift h hn hv' hnv 0 (by norm_num) q2 q3 q4 q5.wf rfl
    refine ⟨_, ?_, .of ((c0.trans q5).trans c2) p2 fun z => ?_⟩
    · unfold replace10
      simp only [List.map_cons, List.map_nil] at q1
      have := addEdge_of_star c0.wf hv 0 .had
      rw [q1] at this
      rw [show (g.addPower (-1)).vindex = g.vindex from rfl] at this
      simp only [this]
      rfl
    · rw [show (g.addPower (-1)).vindex = g.vindex from rfl]
      simp only [List.map_cons, List.map_nil, List.prod_cons, List.prod_nil, Function.update_of_ne n0, mul_one,
        Finset.sum_mul, mul_assoc]
      rfl
  · have c0' := ch_sphase h (1/4)
    have c0 := ch_power c0'.wf (-1)
    obtain ⟨g1, q1, q2, q3, q4, -, q5⟩ := ch_star c0.wf hn hv' 1 (e := .had) (by decide)
    obtain ⟨c2, p2⟩ := star_shift h hn hv' hnv 2 (by norm_num) q2 q3 q4 q5.wf rfl
    refine ⟨_, ?_, .of (((c0'.trans c0).trans q5).trans c2) p2 fun z => ?_⟩
    · unfold replace11
      simp only [List.map_cons, List.map_nil] at q1
      have := addEdge_of_star c0.wf hv 1 .had
      rw [q1] at this
      rw [show ((g.addScalarPhase (1/4)).addPower (-1)).vindex = g.vindex from rfl] at this
      simp only [this]
      rfl
    · rw [show ((g.addScalarPhase (1/4)).addPower (-1)).vindex = g.vindex from rfl]
      simp only [List.map_cons, List.map_nil, List.prod_cons, List.prod_nil, Function.update_of_ne n0, mul_one,
        Finset.sum_mul, mul_assoc]
      rfl

end Magic
end PyZX
