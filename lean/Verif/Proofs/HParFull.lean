import Verif.Proofs.HParMatch

/-! # `match_par_hbox` finds all parallel H-boxes -/

namespace PyZX
open Finset

namespace HRules
open Graph

variable {g : Graph} {ord : ℕ → List ℕ} {h : ℕ} {R N : Finset ℕ} {t : ℕ → ℕ}

theorem white_isNot {v w : ℕ} (h1 : g.White h v) (h2 : g.IsNot h v w) : False := by
  obtain ⟨-, -, -, -, h2⟩ := h2
  rcases h1 with ⟨a, b, c⟩ | ⟨a, b⟩ <;> rcases h2 with ⟨d, e, f⟩ | ⟨d, e, f⟩ <;> simp_all

theorem parNbr_white {v : ℕ} (hg : g.HWF) (hw : g.White h v) (ht : g.ty v = .Z ∨ g.ty v = .X) (s : ParSt) : ∃ s', parNbr g ord h s v = some s' := by
  unfold parNbr
  rcases hw with ⟨a, b, c⟩ | ⟨a, b⟩
  · rw [hg.symm] at a
    have hz : g.ty v = .Z := ht.resolve_right b
    exact ⟨_, by rw [a, hz]; simp; rfl⟩
  · rw [hg.symm] at a
    exact ⟨_, by rw [a, b]; simp; rfl⟩

theorem parNot_isNot {v w : ℕ} (ho : Rules.NbrOrder g ord) (hv : v ∈ g.verts) (hn : g.nbrs v = {h, w}) (hne : h ≠ w) (hz : g.ty w = .Z) {e : EType}
    (he : g.adj v w = some e) (s : ParSt) : ∃ s', parNot g ord h e s v = some s' := by
  obtain ⟨h1, h2⟩ := ho v hv
  have hf : (ord v).filter (· ≠ h) = [w] := by
    have e1 : ((ord v).filter (· ≠ h)).toFinset = {w} := by
      ext x
      rw [List.mem_toFinset, List.mem_filter, ← List.mem_toFinset, h2, hn]
      simp only [Finset.mem_insert, Finset.mem_singleton, decide_eq_true_eq]
      constructor
      · rintro ⟨a | a, b⟩
        · exact absurd a b
        · exact a
      · rintro rfl
        exact ⟨Or.inr rfl, hne.symm⟩
    have e2 : ((ord v).filter (· ≠ h)).length = 1 := by
      rw [← List.toFinset_card_of_nodup (h1.filter _), e1]; simp
    obtain ⟨y, hy⟩ := List.length_eq_one_iff.mp e2
    rw [hy] at e1 ⊢
    simpa using e1
  unfold parNot
  rw [hf]
  simp only [hz, he, ne_eq, not_true_eq_false, or_self, if_false]
  exact ⟨_, rfl⟩

theorem parNbr_isNot {v w : ℕ} (hg : g.HWF) (ho : Rules.NbrOrder g ord) (hv : v ∈ g.verts) (hn : g.IsNot h v w) (s : ParSt) :
    ∃ s', parNbr g ord h s v = some s' := by
  obtain ⟨p, nb, hne, hz, hc⟩ := hn
  have hd : g.degree v = 2 := by
    unfold Graph.degree; rw [nb, Finset.card_pair hne]
  unfold parNbr
  rcases hc with ⟨a, b, c⟩ | ⟨a, b, c⟩
  · rw [hg.symm] at b
    obtain ⟨s', hs⟩ := parNot_isNot ho hv nb hne hz c s
    exact ⟨s', by rw [b, a, hd, p]; simpa using hs⟩
  · rw [hg.symm] at b
    obtain ⟨s', hs⟩ := parNot_isNot ho hv nb hne hz c s
    exact ⟨s', by rw [b, a, hd, p]; simpa using hs⟩

theorem legs_unique {R' N' : Finset ℕ} {t' : ℕ → ℕ} (h1 : HLegs g h R N t) (h2 : HLegs g h R' N' t') : R = R' ∧ N = N' ∧ N.image t = N'.image t' := by
  have key : ∀ {R N R' N' : Finset ℕ} {t t' : ℕ → ℕ}, HLegs g h R N t → HLegs g h R' N' t' → R ⊆ R' ∧ N ⊆ N' := by
    intro R N R' N' t t' h1 h2
    constructor
    · intro v hv
      have hm : v ∈ g.nbrs h := by rw [h1.nbrs]; exact Finset.mem_union_left _ hv
      rw [h2.nbrs] at hm
      refine (Finset.mem_union.mp hm).resolve_right fun hc => white_isNot (h1.white v hv) (h2.isNot v hc)
    · intro v hv
      have hm : v ∈ g.nbrs h := by rw [h1.nbrs]; exact Finset.mem_union_right _ hv
      rw [h2.nbrs] at hm
      refine (Finset.mem_union.mp hm).resolve_left fun hc => white_isNot (h2.white v hc) (h1.isNot v hv)
  have eN := Finset.Subset.antisymm (key h1 h2).2 (key h2 h1).2
  refine ⟨Finset.Subset.antisymm (key h1 h2).1 (key h2 h1).1, eN, ?_⟩
  subst eN
  refine Finset.image_congr fun v hv => ?_
  obtain ⟨-, a, b, -⟩ := h1.isNot v hv
  obtain ⟨-, a', b', -⟩ := h2.isNot v hv
  have : t v ∈ ({h, t' v} : Finset ℕ) := by rw [← a', a]; simp
  simp only [Finset.mem_insert, Finset.mem_singleton] at this
  exact this.resolve_left b.symm

theorem scan_complete (hg : g.HWF) (ho : Rules.NbrOrder g ord) (hm : h ∈ g.verts) (hl : HLegs g h R N t) (hR : ∀ r ∈ R, g.ty r = .Z ∨ g.ty r = .X) :
    ∃ s, parScan g ord h = some s ∧ s.reg = R ∧ s.neg = N.image t := by
  have hfold : ∀ (l : List ℕ) (s : ParSt), (∀ v ∈ l, v ∈ g.nbrs h) → ∃ s', l.foldlM (parNbr g ord h) s = some s' := by
    intro l
    induction l with
    | nil => intro s _; exact ⟨s, rfl⟩
    | cons v l ih =>
      intro s hv
      have hvn := hv v List.mem_cons_self
      have : ∃ s', parNbr g ord h s v = some s' := by
        have hv' := hvn
        rw [hl.nbrs] at hv'
        rcases Finset.mem_union.mp hv' with h1 | h1
        · exact parNbr_white hg (hl.white v h1) (hR v h1) s
        · exact parNbr_isNot hg ho (Finset.mem_filter.mp hvn).1 (hl.isNot v h1) s
      obtain ⟨s1, h1⟩ := this
      obtain ⟨s2, h2⟩ := ih s1 fun w hw => hv w (List.mem_cons_of_mem _ hw)
      exact ⟨s2, by rw [List.foldlM_cons, h1]; exact h2⟩
  obtain ⟨s, hs⟩ := hfold (ord h) ⟨∅, ∅, []⟩ fun v hv => by rw [← (ho h hm).2]; exact List.mem_toFinset.mpr hv
  refine ⟨s, hs, ?_⟩
  obtain ⟨-, -, a, b, c⟩ := scan_spec hg ho hm hl.ty hs
  obtain ⟨e1, -, e3⟩ := legs_unique hl c
  exact ⟨by rw [a, e1], by rw [b, e3]⟩

theorem parInsert_keys (key : Finset ℕ × Finset ℕ) (h : ℕ) (nots : List ℕ) : ∀ gs : List ((Finset ℕ × Finset ℕ) × ParMatch), (gs.map Prod.fst).Nodup →
    ((parInsert key h nots gs).map Prod.fst).Nodup ∧ (∀ k, k ∈ (parInsert key h nots gs).map Prod.fst → k = key ∨ k ∈ gs.map Prod.fst) ∧
    (∃ p ∈ parInsert key h nots gs, p.1 = key ∧ h ∈ p.2.1) ∧ ∀ p ∈ gs, ∃ p' ∈ parInsert key h nots gs, p'.1 = p.1 ∧ ∀ a ∈ p.2.1, a ∈ p'.2.1 := by
  intro gs
  induction gs with
  | nil => intro _; simp [parInsert]
  | cons q gs ih =>
    intro hn
    obtain ⟨k, m⟩ := q
    rw [List.map_cons, List.nodup_cons] at hn
    obtain ⟨i1, i2, ⟨p, i3, i3'⟩, i4⟩ := ih hn.2
    unfold parInsert
    split
    · rename_i hk
      refine ⟨by rw [List.map_cons, List.nodup_cons]; exact hn, fun k' hk' => Or.inr (by simpa using hk'), ⟨_, List.mem_cons_self, hk, by simp⟩, ?_⟩
      intro p hp
      rcases List.mem_cons.mp hp with rfl | hp
      · exact ⟨_, List.mem_cons_self, rfl, fun a ha => by simp [ha]⟩
      · exact ⟨p, List.mem_cons_of_mem _ hp, rfl, fun a ha => ha⟩
    · rename_i hk
      refine ⟨?_, ?_, ⟨p, List.mem_cons_of_mem _ i3, i3'⟩, ?_⟩
      · rw [List.map_cons, List.nodup_cons]
        refine ⟨fun hc => ?_, i1⟩
        rcases i2 _ hc with h1 | h1
        · exact hk h1
        · exact hn.1 h1
      · intro k' hk'
        rw [List.map_cons, List.mem_cons] at hk' ⊢
        rcases hk' with h1 | h1
        · exact Or.inr (Or.inl h1)
        · exact (i2 k' h1).imp id Or.inr
      · intro p hp
        rcases List.mem_cons.mp hp with rfl | hp
        · exact ⟨_, List.mem_cons_self, rfl, fun a ha => ha⟩
        · obtain ⟨p', a, b⟩ := i4 p hp
          exact ⟨p', List.mem_cons_of_mem _ a, b⟩

theorem parTry_keys (g : Graph) (ord : ℕ → List ℕ) (gs : List ((Finset ℕ × Finset ℕ) × ParMatch)) (hn : (gs.map Prod.fst).Nodup) (a : ℕ) :
    ((parTry g ord gs a).map Prod.fst).Nodup ∧ (∀ p ∈ gs, ∃ p' ∈ parTry g ord gs a, p'.1 = p.1 ∧ ∀ x ∈ p.2.1, x ∈ p'.2.1) ∧
    (g.ty a = .hbox → ∀ s, parScan g ord a = some s → ∃ p ∈ parTry g ord gs a, p.1 = (s.reg, s.neg) ∧ a ∈ p.2.1) := by
  unfold parTry
  split
  · rename_i hc
    exact ⟨hn, fun p hp => ⟨p, hp, rfl, fun x hx => hx⟩, fun h1 => absurd h1 hc⟩
  · cases hs : parScan g ord a with
    | none => exact ⟨hn, fun p hp => ⟨p, hp, rfl, fun x hx => hx⟩, by simp⟩
    | some s =>
      obtain ⟨i1, -, i3, i4⟩ := parInsert_keys (s.reg, s.neg) a s.nots gs hn
      refine ⟨i1, i4, fun _ s' e => ?_⟩
      obtain rfl := Option.some.inj e
      exact i3

theorem fold_keys (g : Graph) (ord : ℕ → List ℕ) : ∀ (cands : List ℕ) (gs : List ((Finset ℕ × Finset ℕ) × ParMatch)), (gs.map Prod.fst).Nodup →
    ((cands.foldl (parTry g ord) gs).map Prod.fst).Nodup ∧
    (∀ p ∈ gs, ∃ p' ∈ cands.foldl (parTry g ord) gs, p'.1 = p.1 ∧ ∀ x ∈ p.2.1, x ∈ p'.2.1) ∧
    ∀ a ∈ cands, g.ty a = .hbox → ∀ s, parScan g ord a = some s → ∃ p ∈ cands.foldl (parTry g ord) gs, p.1 = (s.reg, s.neg) ∧ a ∈ p.2.1 := by
  intro cands
  induction cands with
  | nil => intro gs hn; exact ⟨hn, fun p hp => ⟨p, hp, rfl, fun x hx => hx⟩, by simp⟩
  | cons b cands ih =>
    intro gs hn
    obtain ⟨j1, j2, j3⟩ := parTry_keys g ord gs hn b
    obtain ⟨i1, i2, i3⟩ := ih (parTry g ord gs b) j1
    rw [List.foldl_cons]
    refine ⟨i1, ?_, ?_⟩
    · intro p hp
      obtain ⟨p1, a1, b1, c1⟩ := j2 p hp
      obtain ⟨p2, a2, b2, c2⟩ := i2 p1 a1
      exact ⟨p2, a2, b2.trans b1, fun x hx => c2 x (c1 x hx)⟩
    · intro a ha ht s hs
      rcases List.mem_cons.mp ha with rfl | ha
      · obtain ⟨p1, a1, b1, c1⟩ := j3 ht s hs
        obtain ⟨p2, a2, b2, c2⟩ := i2 p1 a1
        exact ⟨p2, a2, b2.trans b1, c2 a c1⟩
      · exact i3 a ha ht s hs

theorem matchPar_full (hg : g.HWF) (ho : Rules.NbrOrder g ord) {cands : List ℕ} (hc : ∀ v ∈ cands, v ∈ g.verts) {h' : ℕ} {N' : Finset ℕ} {t' : ℕ → ℕ}
    (h1 : h ∈ cands) (h2 : h' ∈ cands) (hne : h ≠ h') (l1 : HLegs g h R N t) (l2 : HLegs g h' R N' t') (hR : ∀ r ∈ R, g.ty r = .Z ∨ g.ty r = .X)
    (hN : N.image t = N'.image t') : ∃ m ∈ matchPar g ord cands, h ∈ m.1 ∧ h' ∈ m.1 := by
  obtain ⟨s, a1, a2, a3⟩ := scan_complete hg ho (hc h h1) l1 hR
  obtain ⟨s', b1, b2, b3⟩ := scan_complete hg ho (hc h' h2) l2 hR
  obtain ⟨hn, -, hf⟩ := fold_keys g ord cands [] (by simp)
  obtain ⟨p, p1, p2, p3⟩ := hf h h1 l1.ty s a1
  obtain ⟨q, q1, q2, q3⟩ := hf h' h2 l2.ty s' b1
  have e : p = q := List.inj_on_of_nodup_map hn p1 q1 (by rw [p2, q2, a2, b2, a3, b3, hN])
  subst e
  refine ⟨p.2, List.mem_filter.mpr ⟨List.mem_map.mpr ⟨p, p1, rfl⟩, ?_⟩, p3, q3⟩
  match hp : p.2.1 with
  | [] => rw [hp] at p3; simp at p3
  | [x] => rw [hp] at p3 q3; simp at p3 q3; exact absurd (p3.trans q3.symm) hne
  | x :: y :: l => simp

end HRules
end PyZX
