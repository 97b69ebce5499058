import Verif.Proofs.HPar2

/-! # What `match_par_hbox` returns -/

namespace PyZX
open Finset

namespace HRules
open Graph

variable {g : Graph} {ord : ℕ → List ℕ}

/-- The neighbour of a NOT gate that is not an H-box. -/
def parT (g : Graph) (ord : ℕ → List ℕ) (v : ℕ) : ℕ := ((ord v).filter fun w => g.ty w ≠ .hbox).headD 0

theorem parNot_spec (hg : g.HWF) (ho : Rules.NbrOrder g ord) {h v : ℕ} (hh : g.ty h = .hbox) (hv : v ∈ g.nbrs h) (hd : g.degree v = 2) {e : EType} {s s' : ParSt}
    (hs : parNot g ord h e s v = some s') :
    g.nbrs v = {h, parT g ord v} ∧ h ≠ parT g ord v ∧ g.ty (parT g ord v) = .Z ∧ g.adj v (parT g ord v) = some e ∧
      s' = ⟨s.reg, insert (parT g ord v) s.neg, s.nots ++ [v]⟩ := by
  have hvm : v ∈ g.verts := (Finset.mem_filter.mp hv).1
  obtain ⟨hn, ht⟩ := ho v hvm
  have hhv : h ∈ ord v := by
    rw [← List.mem_toFinset, ht, mem_nbrs hg.toInv, hg.symm]
    exact (mem_nbrs hg.toInv).mp hv
  have hl : (ord v).length = 2 := by
    rw [← List.toFinset_card_of_nodup hn, ht]
    exact hd
  unfold parNot at hs
  have key : ∀ w, g.ty w = .Z → h ≠ w → (ord v = [h, w] ∨ ord v = [w, h]) → parT g ord v = w ∧ g.nbrs v = {h, w} ∧ (ord v).filter (· ≠ h) = [w] := by
    intro w hw hne hc
    rw [← ht]
    unfold parT
    rcases hc with e | e <;> rw [e] <;> refine ⟨by simp [hh, hw], ?_, by simp [hne.symm]⟩
    · simp
    · ext x; simp; tauto
  obtain ⟨a, b, hab⟩ := List.length_eq_two.mp hl
  have hne : a ≠ b := by rw [hab] at hn; simpa using hn
  have : ∃ w, h ≠ w ∧ (ord v = [h, w] ∨ ord v = [w, h]) := by
    rw [hab] at hhv ⊢
    simp only [List.mem_cons, List.not_mem_nil, or_false] at hhv
    rcases hhv with rfl | rfl
    · exact ⟨b, hne, Or.inl rfl⟩
    · exact ⟨a, hne.symm, Or.inr rfl⟩
  obtain ⟨w, hw, hc⟩ := this
  have hf : (ord v).filter (· ≠ h) = [w] := by
    rcases hc with e | e <;> rw [e] <;> simp [hw.symm]
  rw [hf] at hs
  simp only at hs
  split at hs
  · exact absurd hs (by simp)
  · rename_i hcond
    rw [not_or, not_not, not_not] at hcond
    obtain ⟨e1, e2, -⟩ := key w hcond.1 hw hc
    rw [e1]
    exact ⟨e2, hw, hcond.1, hcond.2, (Option.some.inj hs).symm⟩

theorem parNbr_spec (hg : g.HWF) (ho : Rules.NbrOrder g ord) {h v : ℕ} (hh : g.ty h = .hbox) (hv : v ∈ g.nbrs h) {s s' : ParSt}
    (hs : parNbr g ord h s v = some s') :
    (g.White h v ∧ s' = { s with reg := insert v s.reg }) ∨
    (g.IsNot h v (parT g ord v) ∧ s' = ⟨s.reg, insert (parT g ord v) s.neg, s.nots ++ [v]⟩) := by
  have hadj : g.adj h v ≠ none := (mem_nbrs hg.toInv).mp hv
  unfold parNbr at hs
  split at hs
  · rename_i he
    rw [hg.symm] at he
    split at hs
    · rename_i hx
      exact Or.inl ⟨Or.inr ⟨he, hx⟩, (Option.some.inj hs).symm⟩
    · split at hs
      · rename_i hx
        obtain ⟨a, b, c, d, e⟩ := parNot_spec hg ho hh hv hx.2.1 hs
        exact Or.inr ⟨⟨hx.2.2, a, b, c, Or.inr ⟨hx.1, he, d⟩⟩, e⟩
      · exact absurd hs (by simp)
  · rename_i he
    rw [hg.symm] at he
    have he : g.adj h v = some .simple := by
      cases hq : g.adj h v with
      | none => exact absurd hq hadj
      | some e => cases e with
        | simple => rfl
        | had => exact absurd hq he
        | wio => exact absurd hq (hg.noWio h v)
    split at hs
    · rename_i hx
      exact Or.inl ⟨Or.inl ⟨he, by rw [hx]; decide, by rw [hx]; decide⟩, (Option.some.inj hs).symm⟩
    · split at hs
      · rename_i hx
        obtain ⟨a, b, c, d, e⟩ := parNot_spec hg ho hh hv hx.2.1 hs
        exact Or.inr ⟨⟨hx.2.2, a, b, c, Or.inl ⟨hx.1, he, d⟩⟩, e⟩
      · exact absurd hs (by simp)

theorem scan_fold (hg : g.HWF) (ho : Rules.NbrOrder g ord) {h : ℕ} (hh : g.ty h = .hbox) : ∀ (l : List ℕ) (s s' : ParSt), (∀ v ∈ l, v ∈ g.nbrs h) →
    l.foldlM (parNbr g ord h) s = some s' →
    ∃ A B : List ℕ, (A ++ B).Perm l ∧ s'.reg = s.reg ∪ A.toFinset ∧ s'.nots = s.nots ++ B ∧ s'.neg = s.neg ∪ B.toFinset.image (parT g ord) ∧
      (∀ v ∈ A, g.White h v) ∧ ∀ v ∈ B, g.IsNot h v (parT g ord v) := by
  intro l
  induction l with
  | nil =>
    intro s s' _ hs
    have : s = s' := by simpa using hs
    subst this
    exact ⟨[], [], by simp⟩
  | cons v l ih =>
    intro s s' hl hs
    rw [List.foldlM_cons] at hs
    obtain ⟨s1, h1, h2⟩ := Option.bind_eq_some_iff.mp hs
    obtain ⟨A, B, hp, e1, e2, e3, hA, hB⟩ := ih s1 s' (fun w hw => hl w (List.mem_cons_of_mem _ hw)) h2
    rcases parNbr_spec hg ho hh (hl v List.mem_cons_self) h1 with ⟨hw, rfl⟩ | ⟨hw, rfl⟩
    · refine ⟨v :: A, B, by simpa using hp, ?_, e2, e3, ?_, hB⟩
      · rw [e1]; ext x; simp
      · intro w hw'
        rcases List.mem_cons.mp hw' with rfl | h3
        · exact hw
        · exact hA w h3
    · refine ⟨A, v :: B, (List.perm_middle).trans (List.Perm.cons v hp), e1, ?_, ?_, hA, ?_⟩
      · rw [e2]; simp
      · rw [e3]; ext x; simp
      · intro w hw'
        rcases List.mem_cons.mp hw' with rfl | h3
        · exact hw
        · exact hB w h3

/-- The NOT gates of an H-box. -/
def scanN (g : Graph) (ord : ℕ → List ℕ) (h : ℕ) : List ℕ := match parScan g ord h with | some s => s.nots | none => []

/-- The white neighbours of an H-box. -/
def scanR (g : Graph) (ord : ℕ → List ℕ) (h : ℕ) : Finset ℕ := match parScan g ord h with | some s => s.reg | none => ∅

theorem scan_spec (hg : g.HWF) (ho : Rules.NbrOrder g ord) {h : ℕ} (hm : h ∈ g.verts) (hh : g.ty h = .hbox) {s : ParSt} (hs : parScan g ord h = some s) :
    (scanN g ord h).Nodup ∧ s.nots = scanN g ord h ∧ s.reg = scanR g ord h ∧ s.neg = (scanN g ord h).toFinset.image (parT g ord) ∧
      HLegs g h (scanR g ord h) (scanN g ord h).toFinset (parT g ord) := by
  obtain ⟨hn, ht⟩ := ho h hm
  have eN : scanN g ord h = s.nots := by unfold scanN; rw [hs]
  have eR : scanR g ord h = s.reg := by unfold scanR; rw [hs]
  obtain ⟨A, B, hp, e1, e2, e3, hA, hB⟩ := scan_fold hg ho hh (ord h) _ s (fun v hv => by rw [← ht]; exact List.mem_toFinset.mpr hv) hs
  simp only [Finset.empty_union, List.nil_append] at e1 e2 e3
  have hnd : (A ++ B).Nodup := hp.nodup_iff.mpr hn
  rw [eN, eR, e1, e2, e3]
  refine ⟨(List.nodup_append.mp hnd).2.1, rfl, rfl, rfl, hh, ?_, ?_, fun r hr => hA r (List.mem_toFinset.mp hr), fun v hv => hB v (List.mem_toFinset.mp hv)⟩
  · rw [← ht, ← List.toFinset_append]
    exact (List.toFinset_eq_of_perm _ _ hp).symm
  · rw [Finset.disjoint_left]
    intro v h1 h2
    exact List.disjoint_of_nodup_append hnd (List.mem_toFinset.mp h1) (List.mem_toFinset.mp h2)

/-- What holds of every group of the matcher. -/
def GroupOK (g : Graph) (ord : ℕ → List ℕ) (p : (Finset ℕ × Finset ℕ) × ParMatch) : Prop :=
  p.2.1 ≠ [] ∧ (∀ h ∈ p.2.1, h ∈ g.verts ∧ g.ty h = .hbox ∧ ∃ s, parScan g ord h = some s ∧ (s.reg, s.neg) = p.1) ∧
    (∀ h tl, p.2.1 = h :: tl → p.2.2.1 = scanN g ord h) ∧ p.2.2.2 = p.2.1.tail.flatMap (scanN g ord)

theorem parInsert_spec {h : ℕ} (hm : h ∈ g.verts) (hh : g.ty h = .hbox) {s : ParSt} (hs : parScan g ord h = some s) (hN : s.nots = scanN g ord h) :
    ∀ gs, (∀ p ∈ gs, GroupOK g ord p) → (∀ p ∈ parInsert (s.reg, s.neg) h s.nots gs, GroupOK g ord p) ∧
      ((parInsert (s.reg, s.neg) h s.nots gs).flatMap fun p => p.2.1).Perm (h :: gs.flatMap fun p => p.2.1) := by
  intro gs
  induction gs with
  | nil =>
    intro _
    refine ⟨?_, by simp [parInsert]⟩
    intro p hp
    simp only [parInsert, List.mem_singleton] at hp
    subst hp
    refine ⟨by simp, ?_, ?_, by simp⟩
    · intro a ha
      simp only [List.mem_singleton] at ha
      subst ha
      exact ⟨hm, hh, s, hs, rfl⟩
    · intro a tl e
      simp only [List.cons.injEq] at e
      rw [← e.1]; exact hN
  | cons q gs ih =>
    intro hgs
    obtain ⟨k, m⟩ := q
    obtain ⟨i1, i2⟩ := ih fun p hp => hgs p (List.mem_cons_of_mem _ hp)
    unfold parInsert
    split
    · rename_i hk
      obtain ⟨g1, g2, g3, g4⟩ := hgs (k, m) List.mem_cons_self
      simp only at g1 g2 g3 g4
      refine ⟨?_, ?_⟩
      · intro p hp
        rcases List.mem_cons.mp hp with rfl | hp
        · refine ⟨by simp, ?_, ?_, ?_⟩
          · intro a ha
            simp only [List.mem_append, List.mem_singleton] at ha
            rcases ha with ha | rfl
            · exact g2 a ha
            · exact ⟨hm, hh, s, hs, hk.symm⟩
          · intro a tl e
            obtain ⟨b, tl', e'⟩ := List.exists_cons_of_ne_nil g1
            simp only [e', List.cons_append, List.cons.injEq] at e
            rw [← e.1]
            exact g3 b tl' e'
          · simp only
            rw [g4, hN, List.tail_append_of_ne_nil g1]
            simp
        · exact hgs p (List.mem_cons_of_mem _ hp)
      · simp only [List.flatMap_cons, List.append_assoc, List.singleton_append]
        exact List.perm_middle
    · refine ⟨?_, ?_⟩
      · intro p hp
        rcases List.mem_cons.mp hp with rfl | hp
        · exact hgs _ List.mem_cons_self
        · exact i1 p hp
      · simp only [List.flatMap_cons]
        exact (List.Perm.append_left _ i2).trans List.perm_middle

theorem groups_spec (hg : g.HWF) (ho : Rules.NbrOrder g ord) : ∀ (cands : List ℕ) (gs : List ((Finset ℕ × Finset ℕ) × ParMatch)),
    (cands ++ gs.flatMap fun p => p.2.1).Nodup → (∀ v ∈ cands, v ∈ g.verts) → (∀ p ∈ gs, GroupOK g ord p) →
    (∀ p ∈ cands.foldl (parTry g ord) gs, GroupOK g ord p) ∧ ((cands.foldl (parTry g ord) gs).flatMap fun p => p.2.1).Nodup := by
  intro cands
  induction cands with
  | nil => intro gs hn _ hgs; exact ⟨hgs, by simpa using hn⟩
  | cons h cands ih =>
    intro gs hn hc hgs
    have hc' : ∀ v ∈ cands, v ∈ g.verts := fun v hv => hc v (List.mem_cons_of_mem _ hv)
    rw [List.cons_append, List.nodup_cons] at hn
    rw [List.foldl_cons]
    by_cases hh : g.ty h = .hbox
    · cases hs : parScan g ord h with
      | none =>
        rw [show parTry g ord gs h = gs by simp [parTry, hh, hs]]
        exact ih gs hn.2 hc' hgs
      | some s =>
        rw [show parTry g ord gs h = parInsert (s.reg, s.neg) h s.nots gs by simp [parTry, hh, hs]]
        have hm := hc h List.mem_cons_self
        obtain ⟨i1, i2⟩ := parInsert_spec hm hh hs (scan_spec hg ho hm hh hs).2.1 gs hgs
        refine ih _ ?_ hc' i1
        refine ((List.Perm.append_left cands i2).trans List.perm_middle).nodup_iff.mpr ?_
        exact List.nodup_cons.mpr hn
    · rw [show parTry g ord gs h = gs by simp [parTry, hh]]
      exact ih gs hn.2 hc' hgs

theorem matchPar_ok (hg : g.HWF) (ho : Rules.NbrOrder g ord) {cands : List ℕ} (hn : cands.Nodup) (hc : ∀ v ∈ cands, v ∈ g.verts) :
    ParOK g (matchPar g ord cands) (scanR g ord) (fun h => (scanN g ord h).toFinset) (parT g ord) := by
  obtain ⟨hG, hN⟩ := groups_spec hg ho cands [] (by simpa using hn) hc (by simp)
  set gs := cands.foldl (parTry g ord) [] with hgs
  have hmem : ∀ m ∈ matchPar g ord cands, 2 ≤ m.1.length ∧ ∃ k, (k, m) ∈ gs := by
    intro m hm
    obtain ⟨h1, h2⟩ := List.mem_filter.mp hm
    obtain ⟨⟨k, m'⟩, h3, rfl⟩ := List.mem_map.mp h1
    exact ⟨by simpa using h2, k, h3⟩
  have hnd : ((matchPar g ord cands).flatMap fun m => m.1).Nodup := by
    have h1 : ((gs.map Prod.snd).flatMap fun m : ParMatch => m.1).Nodup := by rw [List.flatMap_map]; exact hN
    rw [List.nodup_flatMap] at h1 ⊢
    exact ⟨fun m hm => h1.1 m (List.mem_filter.mp hm).1, h1.2.sublist List.filter_sublist⟩
  have hleg : ∀ m ∈ matchPar g ord cands, ∀ h ∈ m.1, (scanN g ord h).Nodup ∧ HLegs g h (scanR g ord h) (scanN g ord h).toFinset (parT g ord) := by
    intro m hm h hh
    obtain ⟨-, k, hk⟩ := hmem m hm
    obtain ⟨a, b, s, hs, -⟩ := (hG _ hk).2.1 h hh
    have := scan_spec hg ho a b hs
    exact ⟨this.1, this.2.2.2.2⟩
  refine ⟨hnd, ?_, fun m hm => (hmem m hm).1, fun m hm h hh => (hleg m hm h hh).2, ?_, ?_, ?_⟩
  · intro m hm h hh
    obtain ⟨-, k, hk⟩ := hmem m hm
    exact ((hG _ hk).2.1 h hh).1
  · intro m hm h hh h' hh'
    obtain ⟨-, k, hk⟩ := hmem m hm
    obtain ⟨a, b, s, hs, e⟩ := (hG _ hk).2.1 h hh
    obtain ⟨a', b', s', hs', e'⟩ := (hG _ hk).2.1 h' hh'
    obtain ⟨-, -, r, n, -⟩ := scan_spec hg ho a b hs
    obtain ⟨-, -, r', n', -⟩ := scan_spec hg ho a' b' hs'
    have e'' := e.trans e'.symm
    rw [Prod.mk.injEq] at e''
    exact ⟨by rw [← r, ← r', e''.1], by rw [← n, ← n', e''.2]⟩
  · intro m hm
    obtain ⟨-, k, hk⟩ := hmem m hm
    have h3 := (hG _ hk).2.2.1
    obtain ⟨b, tl, e⟩ := List.exists_cons_of_ne_nil (hG _ hk).1
    refine ⟨?_, fun h tl e => by rw [h3 h tl e]⟩
    rw [h3 b tl e]
    exact (hleg m hm b (by simp only at e; rw [e]; simp)).1
  · intro m hm
    obtain ⟨-, k, hk⟩ := hmem m hm
    have h4 := (hG _ hk).2.2.2
    simp only at h4
    have hmn : m.1.Nodup := (List.nodup_flatMap.mp hnd).1 m hm
    rw [h4]
    refine ⟨?_, by ext v; simp⟩
    rw [List.nodup_flatMap]
    refine ⟨fun h hh => (hleg m hm h (List.mem_of_mem_tail hh)).1, ?_⟩
    have hp : m.1.tail.Pairwise (· ≠ ·) := hmn.tail
    refine hp.imp_of_mem fun {a b} ha hb hab => ?_
    intro v h1 h2
    have ia := (hleg m hm a (List.mem_of_mem_tail ha)).2.isNot v (List.mem_toFinset.mpr h1)
    have la := (hleg m hm a (List.mem_of_mem_tail ha)).2
    have lb := (hleg m hm b (List.mem_of_mem_tail hb)).2
    have ib := lb.isNot v (List.mem_toFinset.mpr h2)
    have hb' : b ∈ g.nbrs v := by rw [ib.2.1]; simp
    rw [ia.2.1] at hb'
    simp only [Finset.mem_insert, Finset.mem_singleton] at hb'
    rcases hb' with e | e
    · exact hab e.symm
    · have := lb.ty
      rw [e, ia.2.2.2.1] at this
      exact absurd this (by decide)

theorem fam_same {A : List ℕ} {R N : ℕ → Finset ℕ} {t : ℕ → ℕ} (hg : g.HWF) (hfam : BoxFam g A R N t) {v a b : ℕ} (ha : a ∈ A) (hb : b ∈ A)
    (h1 : v = a ∨ v ∈ N a) (h2 : v = b ∨ v ∈ N b) : a = b := by
  rcases h1 with rfl | h1 <;> rcases h2 with rfl | h2
  · rfl
  · exact absurd ha (hfam.notBox hb h2)
  · exact absurd hb (hfam.notBox ha h1)
  · exact (hfam.nDisj hg ha hb h1 h2).symm

theorem rem_nodup {ms : List ParMatch} {R N : ℕ → Finset ℕ} {t : ℕ → ℕ} (hg : g.HWF) (h : ParOK g ms R N t) : (ms.flatMap (parRem g)).Nodup := by
  have hfam := h.fam hg
  have hmA : ∀ {m a}, m ∈ ms → a ∈ m.1 → a ∈ ms.flatMap (fun m => m.1) := fun hm ha => List.mem_flatMap.mpr ⟨_, hm, ha⟩
  have own : ∀ m ∈ ms, ∀ v ∈ parRem g m, ∃ a ∈ m.1, v = a ∨ v ∈ N a := by
    intro m hm v hv
    obtain ⟨a, tl, e, -⟩ := h.cons hm
    unfold parRem at hv
    rw [List.mem_append, List.mem_append] at hv
    rcases hv with (hv | hv) | hv
    · exact ⟨v, List.mem_of_mem_tail hv, Or.inl rfl⟩
    · rw [← List.mem_toFinset, (h.nots m hm).2, Finset.mem_biUnion] at hv
      obtain ⟨b, hb, hv⟩ := hv
      exact ⟨b, List.mem_of_mem_tail (List.mem_toFinset.mp hb), Or.inr hv⟩
    · split at hv
      · rcases List.mem_cons.mp hv with rfl | hv
        · exact ⟨_, h.headD hm, Or.inl rfl⟩
        · rw [← List.mem_toFinset, (h.first m hm).2 a tl e] at hv
          exact ⟨a, by rw [e]; simp, Or.inr hv⟩
      · simp at hv
  rw [List.nodup_flatMap]
  refine ⟨?_, ?_⟩
  · intro m hm
    obtain ⟨a, tl, e, -⟩ := h.cons hm
    have hnd := h.nd hm
    have hN := (h.nots m hm)
    have hF := (h.first m hm)
    have haA : a ∈ m.1 := by rw [e]; simp
    have hnt : a ∉ m.1.tail := by rw [e] at hnd ⊢; exact (List.nodup_cons.mp hnd).1
    have hmN : ∀ v ∈ m.2.2, ∃ b ∈ m.1.tail, v ∈ N b := by
      intro v hv
      rw [← List.mem_toFinset, hN.2, Finset.mem_biUnion] at hv
      obtain ⟨b, hb, hv⟩ := hv
      exact ⟨b, List.mem_toFinset.mp hb, hv⟩
    have hmF : ∀ v ∈ m.2.1, v ∈ N a := by
      intro v hv
      rw [← hF.2 a tl e]; exact List.mem_toFinset.mpr hv
    have h1 : (m.1.tail ++ m.2.2).Nodup := by
      rw [List.nodup_append]
      refine ⟨hnd.tail, hN.1, fun v hv w hw e => ?_⟩
      subst e
      obtain ⟨b, hb, hv'⟩ := hmN v hw
      exact hfam.notBox (hmA hm (List.mem_of_mem_tail hb)) hv' (hmA hm (List.mem_of_mem_tail hv))
    unfold parRem
    split
    · have eh : m.1.headD 0 = a := by rw [e]; rfl
      rw [eh, List.nodup_append]
      refine ⟨h1, List.nodup_cons.mpr ⟨fun hc => hfam.notBox (hmA hm haA) (hmF a hc) (hmA hm haA), hF.1⟩, fun v hv w hw e => ?_⟩
      subst e
      have o1 : ∃ b ∈ m.1.tail, v = b ∨ v ∈ N b := by
        rcases List.mem_append.mp hv with h2 | h2
        · exact ⟨v, h2, Or.inl rfl⟩
        · obtain ⟨b, hb, h3⟩ := hmN v h2
          exact ⟨b, hb, Or.inr h3⟩
      have o2 : v = a ∨ v ∈ N a := by
        rcases List.mem_cons.mp hw with h2 | h2
        · exact Or.inl h2
        · exact Or.inr (hmF v h2)
      obtain ⟨b, hb, o1⟩ := o1
      have := fam_same hg hfam (hmA hm haA) (hmA hm (List.mem_of_mem_tail hb)) o2 o1
      exact hnt (this ▸ hb)
    · simpa using h1
  · have hp := (List.nodup_flatMap.mp h.nodup).2
    refine hp.imp_of_mem fun {m m'} hm hm' hd => ?_
    intro v h1 h2
    obtain ⟨a, ha, oa⟩ := own m hm v h1
    obtain ⟨b, hb, ob⟩ := own m' hm' v h2
    have := fam_same hg hfam (hmA hm ha) (hmA hm' hb) oa ob
    subst this
    exact hd ha hb

theorem par_total {ms : List ParMatch} {R N : ℕ → Finset ℕ} {t : ℕ → ℕ} (hg : g.HWF) (h : ParOK g ms R N t) : ∃ g', (parHbox g ms).finish = some g' := by
  have hi1 : Graph.Inv { g with phase := parPhases g ms g.phase } := hg.toInv.congr rfl rfl rfl rfl rfl rfl
  obtain ⟨g', h3⟩ := removeVertices_isSome hi1 (rem_nodup hg h) (by
    intro v hv
    show v ∈ g.verts
    have hb : ∀ m ∈ ms, ∀ a ∈ m.1, v = a ∨ v ∈ N a → v ∈ g.verts := by
      rintro m hm a ha (rfl | hv)
      · exact h.mem m hm _ ha
      · have : v ∈ g.nbrs a := by rw [(h.legs m hm a ha).nbrs]; exact Finset.mem_union_right _ hv
        exact (Finset.mem_filter.mp this).1
    obtain ⟨m, hm, ⟨a, ha, -, ho⟩ | ⟨-, ho⟩⟩ := (mem_rem h).mp hv
    · exact hb m hm a ha ho
    · exact hb m hm _ (h.headD hm) ho)
  refine ⟨g', ?_⟩
  rw [par_eq h]
  simpa [RewriteState.finish, addEdgeTable, removeEdges] using h3

end HRules
end PyZX
