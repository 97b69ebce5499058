import Verif.Proofs.Supp
import Verif.Spec.Example

/-!
# C21: supplementarity
-/

namespace PyZX
namespace Props
open Graph Rules

/-- C21: `apply_supplementarity` on any list of valid matches that do not touch each other succeeds and preserves the tensor, scalar included. -/
theorem applySupp_preserves {lst : Finset ℕ → List ℕ} (hl : SetOrder lst) {g : Graph} (hg : g.WF) {ms : List SuppMatch}
    (hok : ∀ m ∈ ms, SuppOK g m)
    (hd : ms.Pairwise fun m m' => ({m.v, m.w} : Finset ℕ) ∩ {m'.v, m'.w} = ∅ ∧
      ∀ a ∈ ({m.v, m.w} : Finset ℕ), ∀ b ∈ ({m'.v, m'.w} : Finset ℕ), g.adj a b = none) :
    ∃ g', applySupp g lst ms = some g' ∧ Preserves g g' ∧ g'.verts.card + 2 * ms.length = g.verts.card := by
  have hd' : ms.Pairwise fun m m' => Disjoint (suppG m) (suppG m') ∧ ∀ v ∈ suppG m, ∀ w ∈ suppG m', g.adj v w = none :=
    hd.imp fun h => ⟨Finset.disjoint_iff_inter_eq_empty.mpr h.1, h.2⟩
  obtain ⟨g', h1, h2, h3⟩ := applySupp_sound hl hg hok hd'
  refine ⟨g', h1, h2, ?_⟩
  have hcard : ∀ ms : List SuppMatch, (∀ m ∈ ms, SuppOK g m) → (ms.Pairwise fun m m' => Disjoint (suppG m) (suppG m')) →
      (unions ms suppG).card = 2 * ms.length ∧ unions ms suppG ⊆ g.verts := by
    intro ms
    induction ms with
    | nil => intro _ _; simp [unions]
    | cons m ms ih =>
      intro hok hd
      obtain ⟨i1, i2⟩ := ih (fun m' hm' => hok m' (by simp [hm'])) hd.of_cons
      have hm := hok m (by simp)
      have hu : unions (m :: ms) suppG = suppG m ∪ unions ms suppG := by
        ext v; rw [mem_unions, Finset.mem_union, mem_unions]; simp
      have hdis : Disjoint (suppG m) (unions ms suppG) := by
        rw [Finset.disjoint_left]
        intro v hv hv'
        obtain ⟨m', hm', h⟩ := mem_unions.mp hv'
        exact Finset.disjoint_left.mp ((List.pairwise_cons.mp hd).1 m' hm') hv h
      constructor
      · rw [hu, Finset.card_union_of_disjoint hdis, i1, show (suppG m).card = 2 from Finset.card_pair hm.ne, List.length_cons]
        ring
      · rw [hu]
        refine Finset.union_subset (fun v hv => ?_) i2
        simp only [suppG, Finset.mem_insert, Finset.mem_singleton] at hv
        rcases hv with hv | hv <;> rw [hv]
        · exact hm.v
        · exact hm.w
  obtain ⟨c1, c2⟩ := hcard ms hok (hd'.imp fun h => h.1)
  rw [h3, Finset.card_sdiff_of_subset c2, c1]
  have := Finset.card_le_card c2
  omega

/-- The diagrams to which the code applies the rule: green spiders, connected by Hadamard edges, boundaries without a phase. -/
structure SuppBase (g : Graph) : Prop where
  wf : g.WF
  deg : g.BDeg
  zx : ∀ v ∈ g.verts, g.ty v = .boundary ∨ g.ty v = .Z
  had : g.ZHad
  bphase : ∀ v ∈ g.verts, g.ty v = .boundary → g.phase v = 0

/-- Such diagrams without an isolated spider with a non-Clifford phase. -/
structure SuppGraph (g : Graph) : Prop extends SuppBase g where
  notIsolated : ∀ v ∈ g.verts, 2 < (g.phase v).den → ∃ w, g.adj v w ≠ none

private theorem nonCliff {g : Graph} {v : ℕ} (h : isCliff g v = false) : 2 < (g.phase v).den := by
  unfold isCliff at h
  simp only [Bool.or_eq_false_iff, decide_eq_false_iff_not] at h
  omega

private structure SInv (g : Graph) (done : List ℕ) (s : SuppState) : Prop where
  ok : ∀ m ∈ s.ms, SuppOK g m
  tk : ∀ m ∈ s.ms, g.nbrs m.v ⊆ s.taken ∧ g.nbrs m.w ⊆ s.taken ∧ m.v ∈ s.taken ∧ m.w ∈ s.taken
  pw : s.ms.Pairwise fun m m' => ((∃ u, g.adj m'.v u ≠ none) → ({m.v, m.w} : Finset ℕ) ∩ {m'.v, m'.w} = ∅) ∧
      ∀ a ∈ ({m.v, m.w} : Finset ℕ), ∀ b ∈ ({m'.v, m'.w} : Finset ℕ), g.adj a b = none
  nc : ∀ m ∈ s.ms, 2 < (g.phase m.v).den ∧ 2 < (g.phase m.w).den
  par : ∀ p ∈ s.par, ∀ w ∈ p.2, g.nbrs w = p.1 ∧ w ∈ done ∧ isCliff g w = false

private theorem SInv.grow {g : Graph} {done : List ℕ} {s : SuppState} (h : SInv g done s) (v : ℕ) : SInv g (done ++ [v]) s :=
  ⟨h.ok, h.tk, h.pw, h.nc, fun p hp w hw => by
    obtain ⟨h1, h2, h3⟩ := h.par p hp w hw
    exact ⟨h1, by simp [h2], h3⟩⟩

private theorem SInv.push {g : Graph} (hg : SuppBase g) {done : List ℕ} {s : SuppState} (h : SInv g done s) {v w t : ℕ} {nb : Finset ℕ}
    (hok : SuppOK g ⟨v, w, t, nb⟩) (hd : Disjoint (g.nbrs v) s.taken) (hw : w ∉ s.taken ∨ g.nbrs w = g.nbrs v) (hv : 2 < (g.phase v).den) (hcw : 2 < (g.phase w).den) :
    SInv g done (s.record g v w t nb) := by
  have hwf := hg.wf
  have nb1 : ∀ u, u ∈ g.nbrs v ↔ u ∈ nb ∨ (u = w ∧ g.adj v w ≠ none) := by
    intro u
    rw [mem_nbrs hwf.toInv, hok.nv u]
    constructor
    · intro h'
      by_cases e : u = w
      · exact Or.inr ⟨e, e ▸ h'⟩
      · exact Or.inl ⟨e, h'⟩
    · rintro (h' | ⟨e, h'⟩)
      · exact h'.2
      · rw [e]; exact h'
  have nb2 : ∀ u, u ∈ g.nbrs w → u ∈ g.nbrs v ∨ u = v := by
    intro u hu
    by_cases e : u = v
    · exact Or.inr e
    · exact Or.inl ((nb1 u).mpr (Or.inl ((hok.nw u).mpr ⟨e, (mem_nbrs hwf.toInv).mp hu⟩)))
  have htk : (s.record g v w t nb).taken = s.taken ∪ {v, w} ∪ g.nbrs v := rfl
  have hms : (s.record g v w t nb).ms = s.ms ++ [⟨v, w, t, nb⟩] := rfl
  refine ⟨fun m hm => ?_, fun m hm => ?_, ?_, fun m hm => ?_, h.par⟩
  · rw [hms, List.mem_append, List.mem_singleton] at hm
    rcases hm with hm | hm
    · exact h.ok m hm
    · rw [hm]; exact hok
  · rw [hms, List.mem_append, List.mem_singleton] at hm
    rw [htk]
    rcases hm with hm | hm
    · obtain ⟨t1, t2, t3, t4⟩ := h.tk m hm
      refine ⟨fun u hu => ?_, fun u hu => ?_, ?_, ?_⟩
      · simp [t1 hu]
      · simp [t2 hu]
      · simp [t3]
      · simp [t4]
    · rw [hm]
      refine ⟨fun u hu => ?_, fun u hu => ?_, ?_, ?_⟩
      · rw [Finset.mem_union]; exact Or.inr hu
      · rcases nb2 u hu with h' | h'
        · rw [Finset.mem_union]; exact Or.inr h'
        · simp [h']
      · simp
      · simp
  · rw [hms, List.pairwise_append]
    refine ⟨h.pw, by simp, fun m hm m' hm' => ?_⟩
    rw [List.mem_singleton] at hm'
    rw [hm']
    obtain ⟨t1, t2, t3, t4⟩ := h.tk m hm
    show ((∃ u, g.adj v u ≠ none) → ({m.v, m.w} : Finset ℕ) ∩ {v, w} = ∅) ∧
      ∀ a ∈ ({m.v, m.w} : Finset ℕ), ∀ b ∈ ({v, w} : Finset ℕ), g.adj a b = none
    by_cases hiso : ∃ u, g.adj v u ≠ none
    · obtain ⟨n, hn⟩ := hiso
      have hn' : n ∈ g.nbrs v := (mem_nbrs hwf.toInv).mpr hn
      have hnt : n ∉ s.taken := fun h' => Finset.disjoint_left.mp hd hn' h'
      have hfree : (v ≠ m.v ∧ v ≠ m.w) ∧ (w ≠ m.v ∧ w ≠ m.w) := by
        refine ⟨⟨fun e => hnt (t1 (e ▸ hn')), fun e => hnt (t2 (e ▸ hn'))⟩, ?_⟩
        rcases hw with hw | hw
        · exact ⟨fun e => hw (e ▸ t3), fun e => hw (e ▸ t4)⟩
        · exact ⟨fun e => hnt (t1 (by rw [← e, hw]; exact hn')), fun e => hnt (t2 (by rw [← e, hw]; exact hn'))⟩
      obtain ⟨⟨f1, f2⟩, f3, f4⟩ := hfree
      constructor
      · intro _
        ext u
        simp only [Finset.mem_inter, Finset.mem_insert, Finset.mem_singleton, Finset.notMem_empty, iff_false, not_and, not_or]
        rintro (rfl | rfl)
        · exact ⟨fun e => f1 e.symm, fun e => f3 e.symm⟩
        · exact ⟨fun e => f2 e.symm, fun e => f4 e.symm⟩
      · have hv0 : ∀ a ∈ s.taken, g.adj v a = none := by
          intro a ha
          by_contra h'
          exact Finset.disjoint_left.mp hd ((mem_nbrs hwf.toInv).mpr h') ha
        have hw0 : ∀ a ∈ s.taken, a ≠ v → g.adj w a = none := by
          intro a ha hav
          by_contra h'
          rcases nb2 a ((mem_nbrs hwf.toInv).mpr h') with h'' | h''
          · exact Finset.disjoint_left.mp hd h'' ha
          · exact hav h''
        intro a ha b hb
        have ha' : a ∈ s.taken ∧ a ≠ v := by
          simp only [Finset.mem_insert, Finset.mem_singleton] at ha
          rcases ha with ha | ha <;> rw [ha]
          · exact ⟨t3, Ne.symm f1⟩
          · exact ⟨t4, Ne.symm f2⟩
        rw [hwf.symm]
        simp only [Finset.mem_insert, Finset.mem_singleton] at hb
        rcases hb with hb | hb <;> rw [hb]
        · exact hv0 a ha'.1
        · exact hw0 a ha'.1 ha'.2
    · refine ⟨fun h' => absurd h' hiso, fun a _ b hb => ?_⟩
      push Not at hiso
      rw [hwf.symm]
      simp only [Finset.mem_insert, Finset.mem_singleton] at hb
      rcases hb with hb | hb <;> rw [hb]
      · exact hiso a
      · by_contra h'
        rcases nb2 a ((mem_nbrs hwf.toInv).mpr h') with h'' | h''
        · exact (mem_nbrs hwf.toInv).mp h'' (hiso a)
        · rw [h'', hwf.symm] at h'
          exact h' (hiso w)
  · rw [hms, List.mem_append, List.mem_singleton] at hm
    rcases hm with hm | hm
    · exact h.nc m hm
    · rw [hm]; exact ⟨hv, hcw⟩

private theorem isZ {g : Graph} (hg : SuppBase g) {v : ℕ} (hv : v ∈ g.verts) (hc : isCliff g v = false) : g.ty v = .Z := by
  rcases hg.zx v hv with h | h
  · unfold isCliff at hc
    rw [hg.bphase v hv h] at hc
    simp at hc
  · exact h

private theorem nbrZ {g : Graph} (hg : SuppBase g) {v w u : ℕ} (hvw : v ≠ w) (h1 : g.adj v u ≠ none) (h2 : g.adj w u ≠ none) :
    g.ty u = .Z := by
  obtain ⟨e, he⟩ := Option.ne_none_iff_exists'.mp h1
  have hu := (hg.wf.edge he).2.1
  rcases hg.zx u hu with h | h
  · exact absurd (hg.deg u hu h v w (by rw [hg.wf.symm]; exact h1) (by rw [hg.wf.symm]; exact h2)) hvw
  · exact h

private theorem conn_inv {g : Graph} (hg : SuppBase g) {lst : Finset ℕ → List ℕ} (hl : SetOrder lst) {done : List ℕ} {s : SuppState}
    (h : SInv g done s) {v : ℕ} (hv : v ∈ g.verts) (hc : isCliff g v = false) (hd : Disjoint (g.nbrs v) s.taken) :
    SInv g done (suppConn g lst s v) := by
  unfold suppConn
  cases hf : (lst (g.nbrs v)).find? (suppTest2 g s.taken v) with
  | none => exact h
  | some w =>
    have hw := List.find?_some hf
    have hwm : w ∈ g.nbrs v := by
      have := List.mem_of_find?_eq_some hf
      rwa [← List.mem_toFinset, (hl _).2] at this
    unfold suppTest2 at hw
    simp only [Bool.and_eq_true, Bool.or_eq_true, Bool.not_eq_true', Bool.or_eq_false_iff, decide_eq_true_eq, decide_eq_false_iff_not] at hw
    obtain ⟨⟨⟨w1, w2⟩, w3⟩, w4⟩ := hw
    have hwf := hg.wf
    have ha : g.adj v w ≠ none := (mem_nbrs hwf.toInv).mp hwm
    obtain ⟨e, he⟩ := Option.ne_none_iff_exists'.mp ha
    obtain ⟨-, hwv, hne, -, -⟩ := hwf.edge he
    have hvw : v ∈ g.nbrs w := (mem_nbrs hwf.toInv).mpr (by rw [hwf.symm]; exact ha)
    have hsd : symmDiff (g.nbrs v) (g.nbrs w) = {v, w} := by
      symm
      refine Finset.eq_of_subset_of_card_le (fun u hu => ?_) (by rw [w3, Finset.card_pair hne])
      simp only [Finset.mem_insert, Finset.mem_singleton] at hu
      rw [Finset.mem_symmDiff]
      rcases hu with hu | hu <;> rw [hu]
      · exact Or.inr ⟨hvw, fun h' => (mem_nbrs hwf.toInv).mp h' (hwf.loopless v)⟩
      · exact Or.inl ⟨hwm, fun h' => (mem_nbrs hwf.toInv).mp h' (hwf.loopless w)⟩
    have hadj : ∀ u, u ≠ v → u ≠ w → (g.adj v u ≠ none ↔ g.adj w u ≠ none) := by
      intro u h1 h2
      have : u ∉ symmDiff (g.nbrs v) (g.nbrs w) := by rw [hsd]; simp [h1, h2]
      rw [Finset.mem_symmDiff] at this
      rw [← mem_nbrs hwf.toInv, ← mem_nbrs hwf.toInv]
      tauto
    have tv := isZ hg hv hc
    have tw := isZ hg hwv w1
    have hself : g.adj v v = none := hwf.loopless v
    have hselfw : g.adj w w = none := hwf.loopless w
    have hnv : ∀ u, u ∈ (g.nbrs v).erase w ↔ u ≠ w ∧ g.adj v u ≠ none := by
      intro u
      rw [Finset.mem_erase, mem_nbrs hwf.toInv]
    have hnw : ∀ u, u ∈ (g.nbrs v).erase w ↔ u ≠ v ∧ g.adj w u ≠ none := by
      intro u
      rw [hnv]
      constructor
      · rintro ⟨h1, h2⟩
        have h3 : u ≠ v := fun e => h2 (e ▸ hself)
        exact ⟨h3, (hadj u h3 h1).mp h2⟩
      · rintro ⟨h1, h2⟩
        have h3 : u ≠ w := fun e => h2 (e ▸ hselfw)
        exact ⟨h3, (hadj u h1 h3).mpr h2⟩
    refine SInv.push hg h ⟨hv, hwv, hne, tv, tw, hnv, hnw, fun u hu => ?_, Or.inr ⟨rfl, hg.had v w tv tw ha, w4⟩⟩ hd (Or.inl w2) (nonCliff hc) (nonCliff w1)
    have h1 := ((hnv u).mp hu).2
    have h2 := ((hnw u).mp hu).2
    have hz := nbrZ hg hne h1 h2
    exact ⟨hz, hg.had v u tv hz h1, hg.had w u tw hz h2⟩

private theorem step_inv {g : Graph} (hg : SuppBase g) {lst : Finset ℕ → List ℕ} (hl : SetOrder lst) {done : List ℕ} {s : SuppState}
    (h : SInv g done s) {v : ℕ} (hv : v ∈ g.verts) (hnd : v ∉ done) (hdv : ∀ u ∈ done, u ∈ g.verts) :
    SInv g (done ++ [v]) (suppStep g lst s v) := by
  unfold suppStep
  by_cases c1 : v ∈ s.dead
  · rw [if_pos c1]; exact h.grow v
  rw [if_neg c1]
  by_cases c2 : isCliff g v = true
  · rw [if_pos c2]; exact h.grow v
  rw [if_neg c2]
  rw [Bool.not_eq_true] at c2
  by_cases c3 : ¬ Disjoint (g.nbrs v) s.taken
  · rw [if_pos c3]; exact h.grow v
  rw [if_neg c3]
  push Not at c3
  cases hp : s.par.lookup (g.nbrs v) with
  | none =>
    refine conn_inv (s := { s with par := s.par ++ [(g.nbrs v, [v])] }) hg hl ⟨h.ok, h.tk, h.pw, h.nc, fun p hp' w hw => ?_⟩ hv c2 c3
    rw [List.mem_append, List.mem_singleton] at hp'
    rcases hp' with hp' | hp'
    · obtain ⟨h1, h2, h3⟩ := h.par p hp' w hw
      exact ⟨h1, by simp [h2], h3⟩
    · rw [hp'] at hw ⊢
      have : w = v := by simpa using hw
      rw [this]
      exact ⟨rfl, by simp, c2⟩
  | some ws =>
    have hmem : (g.nbrs v, ws) ∈ s.par := by
      obtain ⟨l1, l2, h1, -⟩ := List.lookup_eq_some_iff.mp hp
      rw [h1]; simp
    show SInv g (done ++ [v]) (match ws.find? (suppTest1 g v) with
      | some w => s.record g v w 1 (g.nbrs v)
      | none => _)
    cases hf : ws.find? (suppTest1 g v) with
    | none =>
      have hs1 : SInv g (done ++ [v]) { s with par := s.par.map fun p => if p.1 = g.nbrs v then (p.1, p.2 ++ [v]) else p } := by
        refine ⟨h.ok, h.tk, h.pw, h.nc, fun p hp' w hw => ?_⟩
        obtain ⟨q, hq, e⟩ := List.mem_map.mp hp'
        by_cases c : q.1 = g.nbrs v
        · rw [if_pos c] at e
          rw [← e] at hw ⊢
          rw [List.mem_append, List.mem_singleton] at hw
          rcases hw with hw | hw
          · obtain ⟨h1, h2, h3⟩ := h.par q hq w hw
            exact ⟨h1, by simp [h2], h3⟩
          · rw [hw]
            exact ⟨c.symm, by simp, c2⟩
        · rw [if_neg c] at e
          rw [← e] at hw ⊢
          obtain ⟨h1, h2, h3⟩ := h.par q hq w hw
          exact ⟨h1, by simp [h2], h3⟩
      show SInv g (done ++ [v]) (if v ∈ s.taken then _ else _)
      by_cases c : v ∈ s.taken
      · rw [if_pos c]; exact hs1
      · rw [if_neg c]; exact conn_inv hg hl hs1 hv c2 c3
    | some w =>
      have hw := List.find?_some hf
      obtain ⟨p1, p2, p3⟩ := h.par _ hmem w (List.mem_of_find?_eq_some hf)
      have hwf := hg.wf
      have hwv := hdv w p2
      have hne : v ≠ w := fun e => hnd (e ▸ p2)
      have p1' : ∀ u, g.adj w u ≠ none ↔ g.adj v u ≠ none := by
        intro u
        rw [← mem_nbrs hwf.toInv, ← mem_nbrs hwf.toInv, p1]
      have hvw : g.adj v w = none := by
        by_contra h'
        exact (p1' w).mpr h' (hwf.loopless w)
      have hwv' : g.adj w v = none := by rw [hwf.symm]; exact hvw
      have tv := isZ hg hv c2
      have tw := isZ hg hwv p3
      unfold suppTest1 at hw
      simp only [Bool.or_eq_true, decide_eq_true_eq] at hw
      refine SInv.push hg (h.grow v) ⟨hv, hwv, hne, tv, tw, fun u => ?_, fun u => ?_, fun u hu => ?_, Or.inl ⟨rfl, hvw, hw⟩⟩ c3 (Or.inr p1) (nonCliff c2) (nonCliff p3)
      · rw [mem_nbrs hwf.toInv]
        exact ⟨fun h' => ⟨fun e => h' (e ▸ hvw), h'⟩, fun h' => h'.2⟩
      · rw [mem_nbrs hwf.toInv, ← p1']
        exact ⟨fun h' => ⟨fun e => h' (e ▸ hwv'), h'⟩, fun h' => h'.2⟩
      · have h1 := (mem_nbrs hwf.toInv).mp hu
        have h2 := (p1' u).mpr h1
        have hz := nbrZ hg hne h1 h2
        exact ⟨hz, hg.had v u tv hz h1, hg.had w u tw hz h2⟩

private theorem fold_inv {g : Graph} (hg : SuppBase g) {lst : Finset ℕ → List ℕ} (hl : SetOrder lst) (cands : List ℕ) :
    ∀ (done : List ℕ) (s : SuppState), SInv g done s → (done ++ cands).Nodup → (∀ c ∈ done ++ cands, c ∈ g.verts) →
      SInv g (done ++ cands) (cands.foldl (suppStep g lst) s) := by
  induction cands with
  | nil => intro done s h _ _; simpa using h
  | cons v cs ih =>
    intro done s h hn hc
    have h1 := step_inv hg hl h (hc v (by simp)) (fun h' => by
      rw [List.nodup_append] at hn
      exact hn.2.2 v h' v (by simp) rfl) (fun u hu => hc u (by simp [hu]))
    have := ih (done ++ [v]) _ h1 (by simpa using hn) (fun c hc' => hc c (by simpa using hc'))
    simpa using this

/-- C21: the matches found are valid and consist of non-Clifford spiders, and no two of them touch each other or, unless the second
is isolated, have a spider in common. -/
theorem matchSupp_weak {g : Graph} (hg : SuppBase g) {lst : Finset ℕ → List ℕ} (hl : SetOrder lst) {cands : List ℕ} (hn : cands.Nodup)
    (hc : ∀ c ∈ cands, c ∈ g.verts) :
    (∀ m ∈ matchSupp g lst cands, SuppOK g m) ∧ (∀ m ∈ matchSupp g lst cands, 2 < (g.phase m.v).den ∧ 2 < (g.phase m.w).den) ∧
    (matchSupp g lst cands).Pairwise fun m m' => ((∃ u, g.adj m'.v u ≠ none) → ({m.v, m.w} : Finset ℕ) ∩ {m'.v, m'.w} = ∅) ∧
      ∀ a ∈ ({m.v, m.w} : Finset ℕ), ∀ b ∈ ({m'.v, m'.w} : Finset ℕ), g.adj a b = none := by
  have h := fold_inv hg hl cands [] ⟨∅, [], [], ∅⟩ ⟨by simp, by simp, by simp, by simp, by simp⟩ (by simpa using hn) (by simpa using hc)
  exact ⟨h.ok, h.nc, h.pw⟩

/-- C21: the matches found are valid and do not touch each other. -/
theorem matchSupp_spec {g : Graph} (hg : SuppGraph g) {lst : Finset ℕ → List ℕ} (hl : SetOrder lst) {cands : List ℕ} (hn : cands.Nodup)
    (hc : ∀ c ∈ cands, c ∈ g.verts) :
    (∀ m ∈ matchSupp g lst cands, SuppOK g m) ∧
    (matchSupp g lst cands).Pairwise fun m m' => ({m.v, m.w} : Finset ℕ) ∩ {m'.v, m'.w} = ∅ ∧
      ∀ a ∈ ({m.v, m.w} : Finset ℕ), ∀ b ∈ ({m'.v, m'.w} : Finset ℕ), g.adj a b = none := by
  obtain ⟨h1, h2, h3⟩ := matchSupp_weak hg.toSuppBase hl hn hc
  refine ⟨h1, h3.imp_of_mem fun {m m'} _ hm' h => ⟨h.1 (hg.notIsolated _ (h1 m' hm').v (h2 m' hm').1), h.2⟩⟩

/-- C21: one round of `supplementarity_simp` (matching, then rewriting) never raises, preserves the tensor with its scalar and removes two spiders
for every match. Missing for the full claim: isolated spiders with a non-Clifford phase make the code raise (`supp_isolated_raises`). -/
theorem supp_partial {g : Graph} (hg : SuppGraph g) {lst : Finset ℕ → List ℕ} (hl : SetOrder lst) {cands : List ℕ} (hn : cands.Nodup)
    (hc : ∀ c ∈ cands, c ∈ g.verts) :
    ∃ g', applySupp g lst (matchSupp g lst cands) = some g' ∧ Preserves g g' ∧
      g'.verts.card + 2 * (matchSupp g lst cands).length = g.verts.card :=
  applySupp_preserves hl hg.wf (matchSupp_spec hg hl hn hc).1 (matchSupp_spec hg hl hn hc).2

/-! ### Completeness -/

private structure CInv (g : Graph) (done : List ℕ) (s : SuppState) : Prop where
  dead : s.dead = ∅
  taken : s.taken = ∅
  par : ∀ u ∈ done, isCliff g u = false → ∃ ws, s.par.lookup (g.nbrs u) = some ws ∧ u ∈ ws
  pair : ∀ v ∈ done, ∀ w ∈ done, isCliff g v = false → isCliff g w = false → v ≠ w → g.nbrs v = g.nbrs w → suppTest1 g v w = false

private theorem suppTest1_symm (g : Graph) (v w : ℕ) : suppTest1 g v w = suppTest1 g w v := by
  have h1 : mod2 (g.phase v - g.phase w) = 1 ↔ mod2 (g.phase w - g.phase v) = 1 := by
    have : ∀ a b : ℚ, mod2 (a - b) = 1 → mod2 (b - a) = 1 := by
      intro a b h
      unfold mod2 at h ⊢
      have e : b - a = 1 - 2 * ((⌊(a - b) / 2⌋ + 1 : ℤ) : ℚ) := by push_cast; linarith
      have f : ⌊(b - a) / 2⌋ = -(⌊(a - b) / 2⌋ + 1) := by
        rw [Int.floor_eq_iff, e]
        push_cast
        constructor <;> linarith
      rw [f, e]
      push_cast
      ring
    exact ⟨this _ _, this _ _⟩
  unfold suppTest1
  rw [add_comm (g.phase v)]
  simp only [h1]

private theorem ms_mono {g : Graph} {lst : Finset ℕ → List ℕ} (s : SuppState) (v : ℕ) (h : (suppStep g lst s v).ms = []) : s.ms = [] := by
  have hrec : ∀ (s : SuppState) a b t nb, (s.record g a b t nb).ms ≠ [] := by intro s a b t nb; simp [SuppState.record]
  have hconn : ∀ s : SuppState, (suppConn g lst s v).ms = [] → s.ms = [] := by
    intro s h
    unfold suppConn at h
    cases hf : (lst (g.nbrs v)).find? (suppTest2 g s.taken v) with
    | none => rw [hf] at h; exact h
    | some w => rw [hf] at h; exact absurd h (hrec _ _ _ _ _)
  unfold suppStep at h
  by_cases c1 : v ∈ s.dead
  · rw [if_pos c1] at h; exact h
  rw [if_neg c1] at h
  by_cases c2 : isCliff g v = true
  · rw [if_pos c2] at h; exact h
  rw [if_neg c2] at h
  by_cases c3 : ¬ Disjoint (g.nbrs v) s.taken
  · rw [if_pos c3] at h; exact h
  rw [if_neg c3] at h
  cases hp : s.par.lookup (g.nbrs v) with
  | none =>
    rw [hp] at h
    exact hconn { s with par := s.par ++ [(g.nbrs v, [v])] } h
  | some ws =>
    rw [hp] at h
    simp only at h
    cases hf : ws.find? (suppTest1 g v) with
    | some w => rw [hf] at h; exact absurd h (hrec _ _ _ _ _)
    | none =>
      rw [hf] at h
      simp only at h
      by_cases c : v ∈ s.taken
      · rw [if_pos c] at h; exact h
      · rw [if_neg c] at h
        exact hconn { s with par := s.par.map fun p => if p.1 = g.nbrs v then (p.1, p.2 ++ [v]) else p } h

private theorem fold_ms {g : Graph} {lst : Finset ℕ → List ℕ} (cands : List ℕ) : ∀ s : SuppState,
    (cands.foldl (suppStep g lst) s).ms = [] → s.ms = [] := by
  induction cands with
  | nil => exact fun s h => h
  | cons v cs ih => exact fun s h => ms_mono s v (ih _ h)

private theorem complete_fold {g : Graph} {lst : Finset ℕ → List ℕ} (cands : List ℕ) : ∀ (done : List ℕ) (s : SuppState), CInv g done s →
    (cands.foldl (suppStep g lst) s).ms = [] → CInv g (done ++ cands) (cands.foldl (suppStep g lst) s) := by
  induction cands with
  | nil => intro done s h _; simpa using h
  | cons v cs ih =>
    intro done s h he
    have hm : (suppStep g lst s v).ms = [] := fold_ms cs _ he
    have hconn : ∀ s : SuppState, (suppConn g lst s v).ms = [] → suppConn g lst s v = s := by
      intro s h
      unfold suppConn at h ⊢
      cases hf : (lst (g.nbrs v)).find? (suppTest2 g s.taken v) with
      | none => rfl
      | some w => rw [hf] at h; simp [SuppState.record] at h
    have key : CInv g (done ++ [v]) (suppStep g lst s v) := by
      unfold suppStep at hm ⊢
      rw [if_neg (by rw [h.dead]; simp)] at hm ⊢
      by_cases c2 : isCliff g v = true
      · rw [if_pos c2]
        have hc : ∀ u, isCliff g u = false → u ∈ done ++ [v] → u ∈ done := by
          intro u hu hu'
          rw [List.mem_append, List.mem_singleton] at hu'
          rcases hu' with hu' | hu'
          · exact hu'
          · rw [hu', c2] at hu; exact absurd hu (by simp)
        exact ⟨h.dead, h.taken, fun u hu hcu => h.par u (hc u hcu hu) hcu,
          fun a ha b hb hca hcb => h.pair a (hc a hca ha) b (hc b hcb hb) hca hcb⟩
      rw [if_neg c2] at hm ⊢
      rw [Bool.not_eq_true] at c2
      rw [if_neg (by rw [h.taken]; simp)] at hm ⊢
      cases hp : s.par.lookup (g.nbrs v) with
      | none =>
        rw [hp] at hm
        simp only at hm ⊢
        rw [hconn _ hm]
        refine ⟨h.dead, h.taken, fun u hu hcu => ?_, fun a ha b hb hca hcb hab hnb => ?_⟩
        · rw [List.mem_append, List.mem_singleton] at hu
          by_cases hud : u ∈ done
          · obtain ⟨ws, h1, h2⟩ := h.par u hud hcu
            exact ⟨ws, by simp [List.lookup_append, h1], h2⟩
          · have : u = v := hu.resolve_left hud
            rw [this]
            exact ⟨[v], by simp [List.lookup_append, hp], by simp⟩
        · rw [List.mem_append, List.mem_singleton] at ha hb
          have hno : ∀ u ∈ done, isCliff g u = false → g.nbrs u ≠ g.nbrs v := by
            intro u hu hcu e
            obtain ⟨ws, h1, -⟩ := h.par u hu hcu
            rw [e, hp] at h1
            simp at h1
          rcases ha with ha | ha <;> rcases hb with hb | hb
          · exact h.pair a ha b hb hca hcb hab hnb
          · rw [hb] at hnb; exact absurd hnb (hno a ha hca)
          · rw [ha] at hnb; exact absurd hnb.symm (hno b hb hcb)
          · exact absurd (ha.trans hb.symm) hab
      | some ws =>
        rw [hp] at hm
        simp only at hm ⊢
        cases hf : ws.find? (suppTest1 g v) with
        | some w => rw [hf] at hm; simp [SuppState.record] at hm
        | none =>
          rw [hf] at hm
          simp only at hm ⊢
          rw [if_neg (by rw [h.taken]; simp)] at hm ⊢
          rw [hconn _ hm]
          have hmap : ∀ (l : List (Finset ℕ × List ℕ)) (k : Finset ℕ) (us : List ℕ), l.lookup k = some us →
              (l.map fun p => if p.1 = g.nbrs v then (p.1, p.2 ++ [v]) else p).lookup k =
                some (if k = g.nbrs v then us ++ [v] else us) := by
            intro l k us
            induction l with
            | nil => intro hl; simp at hl
            | cons p l ihl =>
              intro hl
              rw [List.lookup_cons] at hl
              rw [List.map_cons, List.lookup_cons]
              have hk : (if p.1 = g.nbrs v then (p.1, p.2 ++ [v]) else p).1 = p.1 := by
                by_cases c : p.1 = g.nbrs v
                · rw [if_pos c]
                · rw [if_neg c]
              rw [hk]
              by_cases c : k = p.1
              · rw [beq_iff_eq.mpr c] at hl ⊢
                simp only at hl ⊢
                rw [Option.some.injEq] at hl
                by_cases c' : p.1 = g.nbrs v
                · rw [if_pos c', if_pos (c.trans c'), hl]
                · rw [if_neg c', if_neg (fun e => c' (c ▸ e)), hl]
              · rw [beq_eq_false_iff_ne.mpr c] at hl ⊢
                exact ihl hl
          have hfn : ∀ u ∈ ws, suppTest1 g v u = false := by
            intro u hu
            have := List.find?_eq_none.mp hf u hu
            simpa using this
          refine ⟨h.dead, h.taken, fun u hu hcu => ?_, fun a ha b hb hca hcb hab hnb => ?_⟩
          · rw [List.mem_append, List.mem_singleton] at hu
            by_cases hud : u ∈ done
            · obtain ⟨us, h1, h2⟩ := h.par u hud hcu
              refine ⟨_, hmap _ _ _ h1, ?_⟩
              by_cases c : g.nbrs u = g.nbrs v
              · rw [if_pos c]; simp [h2]
              · rw [if_neg c]; exact h2
            · have : u = v := hu.resolve_left hud
              rw [this]
              exact ⟨_, hmap _ _ _ hp, by rw [if_pos rfl]; simp⟩
          · rw [List.mem_append, List.mem_singleton] at ha hb
            have hin : ∀ u ∈ done, isCliff g u = false → g.nbrs u = g.nbrs v → u ∈ ws := by
              intro u hu hcu e
              obtain ⟨us, h1, h2⟩ := h.par u hu hcu
              rw [e, hp, Option.some.injEq] at h1
              rw [h1]; exact h2
            rcases ha with ha | ha <;> rcases hb with hb | hb
            · exact h.pair a ha b hb hca hcb hab hnb
            · rw [hb] at hnb ⊢
              rw [suppTest1_symm]
              exact hfn a (hin a ha hca hnb)
            · rw [ha] at hnb ⊢
              exact hfn b (hin b hb hcb hnb.symm)
            · exact absurd (ha.trans hb.symm) hab
    have := ih (done ++ [v]) _ key he
    simpa using this

/-- C21: when the matcher returns nothing, no two non-Clifford candidates with the same neighbours have phases that differ by π or add up to π. -/
theorem matchSupp_complete {g : Graph} {lst : Finset ℕ → List ℕ} {cands : List ℕ} (h : matchSupp g lst cands = []) :
    ∀ v ∈ cands, ∀ w ∈ cands, v ≠ w → 2 < (g.phase v).den → 2 < (g.phase w).den → g.nbrs v = g.nbrs w →
      mod2 (g.phase v - g.phase w) ≠ 1 ∧ mod2 (g.phase v + g.phase w) ≠ 1 := by
  intro v hv w hw hvw cv cw hn
  have hc : ∀ u, 2 < (g.phase u).den → isCliff g u = false := by
    intro u hu
    unfold isCliff
    simp only [Bool.or_eq_false_iff, decide_eq_false_iff_not]
    refine ⟨fun h0 => ?_, by omega⟩
    rw [h0] at hu
    simp at hu
  have := (complete_fold cands [] ⟨∅, [], [], ∅⟩ ⟨rfl, rfl, by simp, by simp⟩ h).pair v (by simpa using hv) w (by simpa using hw) (hc v cv) (hc w cw) hvw hn
  unfold suppTest1 at this
  simpa using this

/-- Two spiders with phases π/4 and 5π/4 on the same two neighbours. -/
noncomputable def exSupp : Graph := mkG [.Z, .Z, .Z, .Z, .boundary, .boundary] [1 / 4, 5 / 4, 0, 1 / 2, 0, 0]
  [(0, 2, .had), (0, 3, .had), (1, 2, .had), (1, 3, .had), (2, 4, .simple), (3, 5, .had)] [4] [5]

/-- `exSupp` meets the hypotheses of `supp_partial`. -/
theorem exSupp_graph : SuppGraph exSupp := by
  have hw : exSupp.WF := mkG_wf (by decide)
  refine ⟨⟨hw, mkG_bdeg (by decide) (by decide), fun v hv => ?_, mkG_zhad (by decide) (by decide), fun v hv hb => ?_⟩, fun v hv _ => ?_⟩
  · have : v < 6 := by simpa [exSupp, mkG] using hv
    interval_cases v <;> simp [exSupp, mkG]
  · have : v < 6 := by simpa [exSupp, mkG] using hv
    interval_cases v <;> first | (simp [exSupp, mkG] at hb; done) | simp [exSupp, mkG]
  · have : v < 6 := by simpa [exSupp, mkG] using hv
    interval_cases v
    · exact ⟨2, by simp [exSupp, mkG]⟩
    · exact ⟨2, by simp [exSupp, mkG]⟩
    · exact ⟨0, by simp [exSupp, mkG]⟩
    · exact ⟨0, by simp [exSupp, mkG]⟩
    · exact ⟨2, by simp [exSupp, mkG]⟩
    · exact ⟨3, by simp [exSupp, mkG]⟩

/-- The matcher finds the pair of `exSupp`. -/
theorem exSupp_found : matchSupp exSupp incSet [0, 1, 2, 3, 4, 5] ≠ [] := by
  intro h
  have hw : exSupp.WF := exSupp_graph.wf
  have n0 : exSupp.nbrs 0 = {2, 3} := by ext v; rw [mem_nbrs hw.toInv]; simp [exSupp, mkG]; omega
  have n1 : exSupp.nbrs 1 = {2, 3} := by ext v; rw [mem_nbrs hw.toInv]; simp [exSupp, mkG]; omega
  have p0 : exSupp.phase 0 = 1 / 4 := by simp [exSupp, mkG]
  have p1 : exSupp.phase 1 = 5 / 4 := by simp [exSupp, mkG]
  have h1 := (matchSupp_complete h 0 (by simp) 1 (by simp) (by decide)
    (by rw [p0, show (1 / 4 : ℚ) = mkRat 1 4 by norm_num [Rat.mkRat_eq_div]]; decide)
    (by rw [p1, show (5 / 4 : ℚ) = mkRat 5 4 by norm_num [Rat.mkRat_eq_div]]; decide) (n0.trans n1.symm)).1
  rw [p0, p1] at h1
  exact h1 (by norm_num [mod2])

example : ∃ g', applySupp exSupp incSet (matchSupp exSupp incSet [0, 1, 2, 3, 4, 5]) = some g' ∧ Preserves exSupp g' ∧
    g'.verts.card + 2 * (matchSupp exSupp incSet [0, 1, 2, 3, 4, 5]).length = exSupp.verts.card :=
  supp_partial exSupp_graph incSet_ok (by decide) (by simp [exSupp, mkG])

/-- Three isolated spiders with phases π/4, 3π/4, 3π/4. -/
noncomputable def exSupp3 : Graph := mkG [.Z, .Z, .Z] [1 / 4, 3 / 4, 3 / 4] [] [] []

/-- C21: on isolated spiders the matcher returns the same spider in two matches, and the rewrite raises. -/
theorem supp_isolated_raises : exSupp3.WF ∧ applySupp exSupp3 incSet (matchSupp exSupp3 incSet [0, 1, 2]) = none := by
  have hw : exSupp3.WF := mkG_wf (by decide)
  refine ⟨hw, ?_⟩
  have nb : ∀ v, exSupp3.nbrs v = ∅ := by
    intro v; ext u; rw [mem_nbrs hw.toInv]; simp [exSupp3, mkG]
  have p0 : exSupp3.phase 0 = 1 / 4 := by simp [exSupp3, mkG]
  have p1 : exSupp3.phase 1 = 3 / 4 := by simp [exSupp3, mkG]
  have p2 : exSupp3.phase 2 = 3 / 4 := by simp [exSupp3, mkG]
  have d1 : (1 / 4 : ℚ).den = 4 := by rw [show (1 / 4 : ℚ) = mkRat 1 4 by norm_num [Rat.mkRat_eq_div]]; rfl
  have d3 : (3 / 4 : ℚ).den = 4 := by rw [show (3 / 4 : ℚ) = mkRat 3 4 by norm_num [Rat.mkRat_eq_div]]; rfl
  have c0 : isCliff exSupp3 0 = false := by unfold isCliff; rw [p0, d1]; norm_num
  have c1 : isCliff exSupp3 1 = false := by unfold isCliff; rw [p1, d3]; norm_num
  have c2 : isCliff exSupp3 2 = false := by unfold isCliff; rw [p2, d3]; norm_num
  have t1 : suppTest1 exSupp3 1 0 = true := by unfold suppTest1; rw [p0, p1]; norm_num [mod2]
  have t2 : suppTest1 exSupp3 2 0 = true := by unfold suppTest1; rw [p0, p2]; norm_num [mod2]
  have hs : incSet (∅ : Finset ℕ) = [] := by simp [incSet]
  have hm : matchSupp exSupp3 incSet [0, 1, 2] = [⟨1, 0, 1, ∅⟩, ⟨2, 0, 1, ∅⟩] := by
    unfold matchSupp
    simp [suppStep, suppConn, SuppState.record, nb, c0, c1, c2, t1, t2, hs]
  rw [hm]
  unfold applySupp
  simp only [List.foldlM_cons, List.foldlM_nil]
  have hr : ∀ h : Graph, h.removeVertices [1, 0, 2, 0] = none := by
    intro h
    unfold removeVertices
    rw [Option.map_eq_none_iff]
    by_contra hne
    obtain ⟨g', e⟩ := Option.ne_none_iff_exists'.mp hne
    simp only [List.foldlM_cons, List.foldlM_nil, Option.bind_eq_bind, Option.bind_eq_some_iff] at e
    obtain ⟨g1, -, g2, e2, g3, e3, g4, e4, -⟩ := e
    have m4 := (removeVertex1_eq e4).1
    rw [(removeVertex1_eq e3).2] at m4
    have m3 := Finset.mem_of_mem_erase m4
    rw [(removeVertex1_eq e2).2] at m3
    simp at m3
  have ha : ∀ (h : Graph) (v : ℕ) (r : List ℕ), ∃ h', suppApply incSet (h, r) ⟨v, 0, 1, ∅⟩ = some (h', r ++ [v, 0]) :=
    fun h v r => ⟨_, rfl⟩
  obtain ⟨h1, e1⟩ := ha exSupp3 1 []
  obtain ⟨h2, e2⟩ := ha h1 2 ([] ++ [1, 0])
  rw [e1, Option.bind_eq_bind, Option.bind_some, e2]
  exact hr h2

end Props
end PyZX
