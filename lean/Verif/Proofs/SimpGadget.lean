import Verif.Proofs.SimpTransfer

/-!
# Measures for the loops that add gadgets
-/

namespace PyZX
namespace Graph

variable {P : ℚ → Prop}

/-! ### The measures -/

/-- A Z-spider with phase 0 or π whose neighbours are Z-spiders with at least two neighbours. -/
def Cand (g : Graph) (v : ℕ) : Prop :=
  v ∈ g.verts ∧ g.ty v = .Z ∧ Rules.isPauli (g.phase v) ∧ ∀ n, g.adj v n ≠ none → g.ty n = .Z ∧ g.degree n ≠ 1

/-- The only neighbour of `v` has no boundary. -/
def Tip (g : Graph) (v : ℕ) : Prop :=
  ∃ x, (∀ n, g.adj v n ≠ none ↔ n = x) ∧ ∀ c, g.adj x c ≠ none → g.ty c ≠ .boundary

open Classical in
/-- The vertices that can be matched by `match_pivot_gadget`. -/
noncomputable def gadM (g : Graph) : Finset ℕ := g.verts.filter g.Cand

open Classical in
/-- The vertices that can be matched by `match_pivot_boundary`. -/
noncomputable def bndM (g : Graph) : Finset ℕ := g.verts.filter fun v => g.Cand v ∧ ¬ g.Tip v

open Classical in
theorem mem_gadM {g : Graph} {v : ℕ} : v ∈ g.gadM ↔ g.Cand v := by
  unfold gadM
  rw [Finset.mem_filter]
  exact ⟨fun h => h.2, fun h => ⟨h.1, h⟩⟩

open Classical in
theorem mem_bndM {g : Graph} {v : ℕ} : v ∈ g.bndM ↔ g.Cand v ∧ ¬ g.Tip v := by
  unfold bndM
  rw [Finset.mem_filter]
  exact ⟨fun h => h.2, fun h => ⟨h.1.1, h⟩⟩

theorem isPauli_iff {p : ℚ} (h : 0 ≤ p ∧ p < 2) : Rules.isPauli p ↔ ∃ k : ℤ, p = k := by
  unfold Rules.isPauli
  constructor
  · rintro (h | h)
    · exact ⟨0, by rw [h]; simp⟩
    · exact ⟨1, by rw [h]; simp⟩
  · rintro ⟨k, rfl⟩
    have h1 : (0 : ℤ) ≤ k := by exact_mod_cast h.1
    have h2 : k < (2 : ℤ) := by exact_mod_cast h.2
    have : k = 0 ∨ k = 1 := by omega
    rcases this with rfl | rfl <;> simp

theorem degree_one {g : Graph} (hg : g.WF) {n : ℕ} : g.degree n = 1 ↔ ∃ x, ∀ y, g.adj n y ≠ none ↔ y = x := by
  unfold degree
  rw [Finset.card_eq_one]
  constructor
  · rintro ⟨x, hx⟩
    refine ⟨x, fun y => ?_⟩
    rw [← mem_nbrs hg.toInv, hx, Finset.mem_singleton]
  · rintro ⟨x, hx⟩
    refine ⟨x, ?_⟩
    ext y
    rw [mem_nbrs hg.toInv, hx, Finset.mem_singleton]

/-! ### Removing isolated vertices -/

theorem removeIsolated_adj {g : Graph} (hg : g.WF) {g' : Graph} (hw : g'.WF) (hv : ∀ v, v ∈ g'.verts ↔ v ∈ g.verts ∧ ¬ g.Isolated v)
    (ht : g'.ty = g.ty) (ha : ∀ a ∈ g'.verts, ∀ b ∈ g'.verts, g'.adj a b = g.adj a b) {v : ℕ} (h : v ∈ g'.verts) (n : ℕ) :
    g'.adj v n = g.adj v n := by
  by_cases hn : n ∈ g'.verts
  · exact ha v h n hn
  · have h1 : g'.adj v n = none := by
      by_contra hc
      exact hn (hw.toInv.mem' hc)
    rw [h1]
    by_contra hc
    have hc : g.adj v n ≠ none := fun e => hc e.symm
    have hiso : g.Isolated n := by
      by_contra hi
      exact hn ((hv n).mpr ⟨hg.toInv.mem' hc, hi⟩)
    have hvn : v ∈ g.nbrs n := (mem_nbrs hg.toInv).mpr (by rw [hg.symm]; exact hc)
    obtain ⟨-, h2 | ⟨w, h2⟩⟩ := hiso
    · rw [h2] at hvn; simp at hvn
    · obtain ⟨p1, p2, p3, p4, p5, p6⟩ := h2
      rw [p3, Finset.mem_singleton] at hvn
      subst hvn
      exact ((hv v).mp h).2 ⟨p2, Or.inr ⟨n, p2, p1, p4, p3, p6, p5⟩⟩

theorem degree_congr {g g' : Graph} (hg : g.WF) (hg' : g'.WF) {n : ℕ} (h : ∀ y, g'.adj n y = g.adj n y) : g'.degree n = g.degree n := by
  unfold degree
  congr 1
  ext y
  rw [mem_nbrs hg.toInv, mem_nbrs hg'.toInv, h]

theorem cand_removeIsolated {g : Graph} (hg : g.WF) {g' : Graph} (hw : g'.WF) (hv : ∀ v, v ∈ g'.verts ↔ v ∈ g.verts ∧ ¬ g.Isolated v)
    (ht : g'.ty = g.ty) (hp : g'.phase = g.phase) (ha : ∀ a ∈ g'.verts, ∀ b ∈ g'.verts, g'.adj a b = g.adj a b) {v : ℕ} (h : g'.Cand v) :
    g.Cand v ∧ (g.Tip v → g'.Tip v) := by
  obtain ⟨h1, h2, h3, h4⟩ := h
  have hadj := fun n => removeIsolated_adj hg hw hv ht ha h1 n
  have hn : ∀ n, g.adj v n ≠ none → n ∈ g'.verts := fun n hn => hw.toInv.mem' (u := v) (by rw [hadj]; exact hn)
  refine ⟨⟨((hv v).mp h1).1, by rw [← ht]; exact h2, by rw [← hp]; exact h3, fun n hne => ?_⟩, ?_⟩
  · have := h4 n (by rw [hadj]; exact hne)
    rw [ht] at this
    refine ⟨this.1, ?_⟩
    rw [← degree_congr hg hw fun y => removeIsolated_adj hg hw hv ht ha (hn n hne) y]
    exact this.2
  · rintro ⟨x, x1, x2⟩
    refine ⟨x, fun n => by rw [hadj]; exact x1 n, fun c hc => ?_⟩
    rw [removeIsolated_adj hg hw hv ht ha (hn x ((x1 x).mpr rfl)) c] at hc
    rw [ht]; exact x2 c hc

/-! ### Graphs extended by the matchers -/

/-- What the graph returned by the matchers has in common with the original graph. -/
structure PivExt (g G : Graph) (ms : List Rules.PivotMatch) : Prop where
  wf : G.WF
  sub : g.verts ⊆ G.verts
  ty : ∀ v ∈ g.verts, G.ty v = g.ty v
  newZ : ∀ v ∈ G.verts, v ∉ g.verts → G.ty v = .Z
  old : ∀ a ∈ g.verts, (∀ m ∈ ms, a ≠ m.v1) → ∀ x, G.adj a x = g.adj a x
  oldadj : ∀ a ∈ g.verts, ∀ b ∈ g.verts, G.adj a b = g.adj a b
  phase : ∀ v ∈ g.verts, (∀ m ∈ ms, v ≠ m.v1) → G.phase v = g.phase v
  mem : ∀ m ∈ ms, m.v0 ∈ g.verts ∧ m.v1 ∈ g.verts ∧ m.b0 = none

theorem PivExt.bph {g G g' : Graph} {ms : List Rules.PivotMatch} (h : PivExt g G ms) (hok : PivotOK G ms) (hb : BPh G g') : BPh g g' := by
  intro v hv ht
  have ht' : G.ty v = .boundary := by rw [h.ty v hv]; exact ht
  rw [hb v (h.sub hv) ht', h.phase v hv]
  rintro m hm rfl
  rw [(hok.each m hm).ty1] at ht'
  simp at ht'

/-- A vertex of the original graph that is neither a vertex nor a neighbour of a pivot keeps its edges. -/
theorem PivExt.untouched {g G : Graph} {ms : List Rules.PivotMatch} (h : PivExt g G ms) (hg : g.WF) {lst : Finset ℕ → List ℕ}
    (hlst : Rules.SetOrder lst) (hok : PivotOK G ms) {g' : Graph} (hf : (Rules.pivot lst G ms).finish = some g') (hw : g'.WF) {n : ℕ}
    (hn : n ∈ g.verts) (hu : ∀ m ∈ ms, n ≠ m.v0 ∧ n ≠ m.v1 ∧ g.adj n m.v0 = none ∧ g.adj n m.v1 = none) :
    ∀ x, g'.adj n x = g.adj n x := by
  intro x
  rw [pivot_untouched h.wf hlst hok hf hw (n := n) ?_ x, h.old n hn fun m hm => (hu m hm).2.1]
  intro m hm
  obtain ⟨u1, u2, u3, u4⟩ := hu m hm
  obtain ⟨m1, m2, -⟩ := h.mem m hm
  exact ⟨u1, u2, by rw [h.oldadj _ m1 _ hn, hg.symm]; exact u3, by rw [h.oldadj _ m2 _ hn, hg.symm]; exact u4⟩

/-- A candidate after the pivots that is an old vertex and not a pivot vertex was a candidate before. -/
theorem PivExt.cand {g G : Graph} {ms : List Rules.PivotMatch} (h : PivExt g G ms) (hg : g.WF) {lst : Finset ℕ → List ℕ}
    (hlst : Rules.SetOrder lst) (hok : PivotOK G ms) {g' : Graph} (hf : (Rules.pivot lst G ms).finish = some g') (hw : g'.WF)
    (hty : g'.ty = G.ty) (hsh : Shift G g') (hred : ∀ v ∈ g.verts, 0 ≤ g.phase v ∧ g.phase v < 2)
    (hred' : ∀ v ∈ g'.verts, 0 ≤ g'.phase v ∧ g'.phase v < 2)
    (hbd : ∀ m ∈ ms, ∀ n, g.ty n ≠ .Z → g.adj n m.v1 ≠ none → ∀ x, g.adj n x ≠ none → x = m.v1)
    (hn0 : ∀ m ∈ ms, ∀ n, g.adj m.v0 n ≠ none → g.ty n = .Z)
    (hdeg : ∀ m ∈ ms, ∃ x, x ≠ m.v0 ∧ g.adj m.v1 x ≠ none)
    {v : ℕ} (hv : v ∈ g.verts) (hnp : ∀ m ∈ ms, v ≠ m.v0 ∧ v ≠ m.v1) (hc : g'.Cand v) : g.Cand v := by
  obtain ⟨c1, c2, c3, c4⟩ := hc
  have hphase : Rules.isPauli (g.phase v) := by
    rw [isPauli_iff (hred v hv), ← h.phase v hv fun m hm => (hnp m hm).2, ← hsh.int]
    exact (isPauli_iff (hred' v c1)).mp c3
  refine ⟨hv, by rw [← h.ty v hv, ← hty]; exact c2, hphase, fun n hne => ?_⟩
  have hnv : n ∈ g.verts := hg.toInv.mem' hne
  have hnv' : g.adj n v ≠ none := by rw [hg.symm]; exact hne
  -- an untouched neighbour is a neighbour afterwards
  have key : (∀ m ∈ ms, n ≠ m.v0 ∧ n ≠ m.v1 ∧ g.adj n m.v0 = none ∧ g.adj n m.v1 = none) → g.ty n = .Z ∧ g.degree n ≠ 1 := by
    intro hu
    have hadj := h.untouched hg hlst hok hf hw hnv hu
    have := c4 n (by rw [hw.symm, hadj]; exact hnv')
    rw [hty, h.ty n hnv, degree_congr hg hw hadj] at this
    exact this
  have hz : g.ty n = .Z := by
    by_contra hz
    refine hz (key fun m hm => ?_).1
    have hm0 : g.ty m.v0 = .Z := by rw [← h.ty _ (h.mem m hm).1]; exact (hok.each m hm).ty0
    have hm1 : g.ty m.v1 = .Z := by rw [← h.ty _ (h.mem m hm).2.1]; exact (hok.each m hm).ty1
    refine ⟨fun e => hz (e ▸ hm0), fun e => hz (e ▸ hm1), ?_, ?_⟩
    · by_contra hc
      exact hz (hn0 m hm n (by rw [hg.symm]; exact hc))
    · by_contra hc
      exact (hnp m hm).2 (hbd m hm n hz hc v hnv')
  refine ⟨hz, fun hd => ?_⟩
  obtain ⟨x, hx⟩ := (degree_one hg).mp hd
  have hxv : v = x := (hx v).mp hnv'
  subst hxv
  refine (key fun m hm => ?_).2 hd
  have hadj01 : g.adj m.v0 m.v1 ≠ none := by
    rw [← h.oldadj _ (h.mem m hm).1 _ (h.mem m hm).2.1, (hok.each m hm).adj]; simp
  refine ⟨fun e => ?_, fun e => ?_, ?_, ?_⟩
  · exact (hnp m hm).2 ((hx m.v1).mp (by rw [e]; exact hadj01)).symm
  · obtain ⟨y, y1, y2⟩ := hdeg m hm
    have e1 := (hx y).mp (by rw [e]; exact y2)
    have e2 := (hx m.v0).mp (by rw [e, hg.symm]; exact hadj01)
    exact y1 (e1.trans e2.symm)
  · by_contra hc
    exact (hnp m hm).1 ((hx m.v0).mp hc).symm
  · by_contra hc
    exact (hnp m hm).2 ((hx m.v1).mp hc).symm

/-! ### Pivots with gadgets -/

theorem mod2_int (q : ℚ) : ∃ k : ℤ, mod2 q = q + k := ⟨-2 * ⌊q / 2⌋, by unfold mod2; push_cast; ring⟩

/-- The graph returned by `match_pivot_gadget`. -/
theorem gadget_ext (hP : PhaseSet P) {g : Graph} (hg : g.ZX P) {s : Rules.GState (ℕ × ℕ → Bool)} (hs : GadInv g s)
    (hb : (s.g.plain s.el .simple).BDeg) :
    PivExt g (s.g.plain s.el .simple) s.ms ∧ (s.g.plain s.el .simple).ZX P ∧
    (∀ v ∈ (s.g.plain s.el .simple).verts, v ∉ g.verts → ∃ m ∈ s.ms, m.b1 = some v) ∧
    (∀ m ∈ s.ms, ∃ v, GadOK1 g s.g m v ∧ (s.g.plain s.el .simple).adj m.v1 v = some .simple ∧
      ∀ z, (s.g.plain s.el .simple).adj v z ≠ none → z = m.v1) := by
  have hent : ∀ p ∈ s.el, ∃ m ∈ s.ms, ∃ v, GadOK1 g s.g m v ∧ p = (v, m.v1) := by
    intro p hp
    rw [hs.el] at hp
    obtain ⟨m, hm, rfl⟩ := List.mem_map.mp hp
    obtain ⟨v, hok⟩ := hs.each m hm
    exact ⟨m, hm, v, hok, by simp [hok.b1]⟩
  have hmv : ∀ m ∈ s.ms, m.v0 ∈ g.verts ∧ m.v1 ∈ g.verts ∧ m.b0 = none := by
    intro m hm
    obtain ⟨v, hok⟩ := hs.each m hm
    exact ⟨hg.wf.mem _ _ hok.adj, hg.wf.toInv.mem' hok.adj, hok.b0⟩
  have hA : ∀ a ∈ g.verts, ∀ b ∈ g.verts, (s.g.plain s.el .simple).adj a b = g.adj a b := by
    intro a ha b hb
    simp only [plain]
    rw [if_neg, hs.adj]
    rintro ⟨p, hp, hsp⟩
    obtain ⟨m, hm, v, hok, rfl⟩ := hent p hp
    rcases hsp with ⟨e, -⟩ | ⟨-, e⟩
    · exact hok.fresh ((show a = v from e) ▸ ha)
    · exact hok.fresh ((show b = v from e) ▸ hb)
  have hold : ∀ a ∈ g.verts, (∀ m ∈ s.ms, a ≠ m.v1) → ∀ x, (s.g.plain s.el .simple).adj a x = g.adj a x := by
    intro a ha hne x
    simp only [plain]
    rw [if_neg, hs.adj]
    rintro ⟨p, hp, hsp⟩
    obtain ⟨m, hm, v, hok, rfl⟩ := hent p hp
    rcases hsp with ⟨e, -⟩ | ⟨e, -⟩
    · exact hok.fresh ((show a = v from e) ▸ ha)
    · exact hne m hm e
  have hnew : ∀ v ∈ (s.g.plain s.el .simple).verts, v ∉ g.verts → s.g.ty v = .Z ∧ ∃ m ∈ s.ms, m.b1 = some v := hs.news
  have hmono : ∀ a b, g.adj a b ≠ none → (s.g.plain s.el .simple).adj a b ≠ none := by
    intro a b hab
    rw [hA a (hg.wf.mem _ _ hab) b (hg.wf.toInv.mem' hab)]; exact hab
  have hred : ∀ p, P p → P (mod2 p) := fun p hp => by have := hP.add p 0 hp hP.zero; rwa [add_zero] at this
  refine ⟨⟨hs.pres.wf, hs.sub, hs.ty, fun v h1 h2 => (hnew v h1 h2).1, hold, hA, hs.phase, hmv⟩,
    ⟨hs.pres.wf, hb, ?_, ?_, ?_⟩, fun v h1 h2 => (hnew v h1 h2).2, ?_⟩
  · intro b hb' hbt
    have hbt : s.g.ty b = .boundary := hbt
    have hbg : b ∈ g.verts := by
      by_contra hc
      rw [(hnew b hb' hc).1] at hbt; simp at hbt
    obtain ⟨z, hz⟩ := hg.badj b hbg (by rw [← hs.ty b hbg]; exact hbt)
    exact ⟨z, hmono b z hz⟩
  · intro v hv
    show s.g.ty v = _ ∨ s.g.ty v = _ ∨ s.g.ty v = _
    by_cases hvg : v ∈ g.verts
    · rw [hs.ty v hvg]; exact hg.types v hvg
    · exact Or.inr (Or.inl (hnew v hv hvg).1)
  · intro v hv
    show P (s.g.phase v)
    by_cases hvg : v ∈ g.verts
    · by_cases hm : ∃ m ∈ s.ms, v = m.v1
      · obtain ⟨m, hm, rfl⟩ := hm
        obtain ⟨v, hok⟩ := hs.each m hm
        rw [hok.ph1']; exact hP.zero
      · rw [hs.phase v hvg fun m hm' e => hm ⟨m, hm', e⟩]; exact hg.phases v hvg
    · obtain ⟨-, m, hm, e⟩ := hnew v hv hvg
      obtain ⟨v', hok⟩ := hs.each m hm
      have e' := hok.b1
      rw [e, Option.some.injEq] at e'
      subst e'
      rw [hok.phase]
      exact hred _ (hg.phases _ (hmv m hm).2.1)
  · intro m hm
    obtain ⟨v, hok⟩ := hs.each m hm
    refine ⟨v, hok, ?_, fun z hz => ?_⟩
    · simp only [plain]
      rw [if_pos]
      refine ⟨(v, m.v1), ?_, Or.inr ⟨rfl, rfl⟩⟩
      rw [hs.el]
      exact List.mem_map.mpr ⟨m, hm, by simp [hok.b1]⟩
    · simp only [plain] at hz
      by_cases hc : ∃ p ∈ s.el, SamePair (v, z) p
      · obtain ⟨p, hp, hsp⟩ := hc
        obtain ⟨m', hm', v', hok', rfl⟩ := hent p hp
        rcases hsp with ⟨e1, e2⟩ | ⟨e1, e2⟩ <;> simp only at e1 e2
        · have : m = m' := by
            have := List.inj_on_of_nodup_map hs.nodup hm hm' (by rw [hok.b1, hok'.b1, e1])
            exact this
          rw [e2, this]
        · exact absurd (hmv m' hm').2.1 (e1 ▸ hok.fresh)
      · rw [if_neg hc, hs.adj] at hz
        exact absurd (hg.wf.mem _ _ hz) hok.fresh

/-- Pivots with gadgets make the set of candidates smaller. -/
theorem gadget_measure (hP : PhaseSet P) {g : Graph} (hg : g.ZX P) {s : Rules.GState (ℕ × ℕ → Bool)} (hs : GadInv g s)
    (hb : (s.g.plain s.el .simple).BDeg) {lst : Finset ℕ → List ℕ} (hlst : Rules.SetOrder lst)
    (hok : PivotOK (s.g.plain s.el .simple) s.ms) {g' : Graph} (hf : (Rules.pivot lst (s.g.plain s.el .simple) s.ms).finish = some g')
    (hz' : g'.ZX P) (hty : g'.ty = s.g.ty) (hv' : g'.verts = s.g.verts \ (s.ms.flatMap pivotRem).toFinset) {v : ℕ} (hc : g'.Cand v) :
    g.Cand v ∧ ∀ m ∈ s.ms, v ≠ m.v0 := by
  obtain ⟨hext, hzx, hnew, hleaf⟩ := gadget_ext hP hg hs hb
  have hsh : Shift (s.g.plain s.el .simple) g' := (pivot_shift lst fun m hm => by
    have hk := hok.each m hm
    exact ⟨(isPauli_iff (hP.reduced _ (hzx.phases _ (hext.sub (hext.mem m hm).1)))).mp hk.ph0,
      (isPauli_iff (hP.reduced _ (hzx.phases _ (hext.sub (hext.mem m hm).2.1)))).mp hk.ph1⟩).trans (finish_shift hf)
  have hvs : v ∈ s.g.verts ∧ v ∉ s.ms.flatMap pivotRem := by
    have := hc.1
    rw [hv', Finset.mem_sdiff] at this
    exact ⟨this.1, by simpa using this.2⟩
  have hv1 : ∀ m ∈ s.ms, v ≠ m.v1 := fun m hm e => hvs.2 (List.mem_flatMap.mpr ⟨m, hm, by simp [pivotRem, (hext.mem m hm).2.2, e]⟩)
  have hv0 : ∀ m ∈ s.ms, v ≠ m.v0 := by
    rintro m hm rfl
    obtain ⟨l, hl, -, hl2⟩ := hleaf m hm
    obtain ⟨t1, t2⟩ := pivot_transfer hext.wf hlst hok hf hz'.wf hm hl.b0 hl.b1 hl2
    refine (hc.2.2.2 l t1).2 ((degree_one hz'.wf).mpr ⟨m.v0, fun y => ⟨t2 y, ?_⟩⟩)
    rintro rfl
    rw [hz'.wf.symm]; exact t1
  have hvg : v ∈ g.verts := by
    by_contra hn
    obtain ⟨m, hm, e⟩ := hnew v hvs.1 hn
    obtain ⟨l, hl, -, -⟩ := hleaf m hm
    have e' := hl.b1
    rw [e, Option.some.injEq] at e'
    subst e'
    apply hl.ph1
    have h1 : ∃ k : ℤ, s.g.phase v = k := by
      have := (isPauli_iff (hP.reduced _ (hz'.phases v hc.1))).mp hc.2.2.1
      exact hsh.int.mp this
    rw [isPauli_iff (hP.reduced _ (hg.phases _ (hext.mem m hm).2.1))]
    obtain ⟨k, hk⟩ := h1
    obtain ⟨l, hl'⟩ := mod2_int (g.phase m.v1)
    rw [hl.phase, hl'] at hk
    exact ⟨k - l, by push_cast; rw [← hk]; ring⟩
  refine ⟨hext.cand hg.wf hlst hok hf hz'.wf hty hsh (fun v hv => hP.reduced _ (hg.phases v hv)) (fun v hv => hP.reduced _ (hz'.phases v hv))
    ?_ ?_ ?_ hvg (fun m hm => ⟨hv0 m hm, hv1 m hm⟩) hc, hv0⟩
  · intro m hm n hn hadj
    obtain ⟨l, hl, -, -⟩ := hleaf m hm
    exact absurd (hl.n1 n (by rw [hg.wf.symm]; exact hadj)) hn
  · intro m hm n hadj
    obtain ⟨l, hl, -, -⟩ := hleaf m hm
    exact (hl.n0 n hadj).1
  · intro m hm
    obtain ⟨l, hl, -, -⟩ := hleaf m hm
    by_contra hno
    refine hl.deg ((degree_one hg.wf).mpr ⟨m.v0, fun y => ⟨fun hy => ?_, ?_⟩⟩)
    · by_contra hne
      exact hno ⟨y, hne, hy⟩
    · rintro rfl
      rw [hg.wf.symm]; exact hl.adj

theorem gadget_v0 {g : Graph} (hg : g.WF) {s : Rules.GState (ℕ × ℕ → Bool)} (hs : GadInv g s) {m : Rules.PivotMatch} (hm : m ∈ s.ms) :
    g.Cand m.v0 := by
  obtain ⟨v, hok⟩ := hs.each m hm
  refine ⟨hg.mem _ _ hok.adj, hok.ty0, hok.ph0, fun n hn => ⟨(hok.n0 n hn).1, fun hd => ?_⟩⟩
  by_cases e : n = m.v1
  · exact hok.deg (e ▸ hd)
  · exact (hok.n0 n hn).2 ⟨hd, e⟩

theorem gadget_zHadOff (hP : PhaseSet P) {g : Graph} (hg : g.ZX P) (hz : g.ZHad) {s : Rules.GState (ℕ × ℕ → Bool)} (hs : GadInv g s)
    (hb : (s.g.plain s.el .simple).BDeg) : ZHadOff (fun v => v ∈ s.ms.flatMap pivotRem) (s.g.plain s.el .simple) := by
  obtain ⟨hext, hzx, hnew, hleaf⟩ := gadget_ext hP hg hs hb
  have key : ∀ u v, ¬ (v ∈ s.ms.flatMap pivotRem) → u ∉ g.verts → (s.g.plain s.el .simple).adj u v = none := by
    intro u v hv hu
    by_contra hc
    obtain ⟨m, hm, e⟩ := hnew u (hext.wf.mem _ _ hc) hu
    obtain ⟨l, hl, -, hl2⟩ := hleaf m hm
    have e' := hl.b1
    rw [e, Option.some.injEq] at e'
    subst e'
    exact hv (List.mem_flatMap.mpr ⟨m, hm, by simp [pivotRem, hl.b0, hl2 v hc]⟩)
  intro u v hu hv tu tv hne
  by_cases hug : u ∈ g.verts
  · by_cases hvg : v ∈ g.verts
    · rw [hext.oldadj u hug v hvg] at hne ⊢
      rw [hext.ty u hug] at tu
      rw [hext.ty v hvg] at tv
      exact hz u v tu tv hne
    · exact absurd (by rw [hext.wf.symm]; exact key v u hu hvg) hne
  · exact absurd (key u v hv hug) hne

end Graph
end PyZX
