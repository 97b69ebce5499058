import Verif.Proofs.HPar
import Verif.Model.HPar

/-! # Parallel H-boxes: the rewrite -/

namespace PyZX
open Finset

namespace HRules
open Graph

/-- The removed vertices of a match. -/
def parRem (g : Graph) (m : ParMatch) : List ℕ := m.1.tail ++ m.2.2 ++ (if parPhase g m = 0 then m.1.headD 0 :: m.2.1 else [])

/-- The phases after the rewrite. -/
def parPhases (g : Graph) (ms : List ParMatch) (f : ℕ → ℚ) : ℕ → ℚ :=
  ms.foldl (fun f m => if parPhase g m = 0 then f else Function.update f (m.1.headD 0) (mod2 (parPhase g m))) f

theorem par_fold (g : Graph) (ms : List ParMatch) (hn : (ms.flatMap fun m => m.1).Nodup) (h2 : ∀ m ∈ ms, m.1 ≠ []) (k : Graph) (et : ETab)
    (rv : List ℕ) (re : List (ℕ × ℕ)) (hs : ∀ m ∈ ms, ∀ h ∈ m.1, k.phase h = g.phase h) :
    ms.foldl parStep ⟨k, et, rv, re⟩ = ⟨{ k with phase := parPhases g ms k.phase }, et, rv ++ ms.flatMap (parRem g), re⟩ := by
  induction ms generalizing k rv with
  | nil => simp [parPhases]
  | cons m ms ih =>
    rw [List.flatMap_cons, List.nodup_append] at hn
    have hp : parPhase k m = parPhase g m := by
      unfold parPhase
      congr 2
      exact List.map_congr_left fun h hh => hs m (by simp) h hh
    rw [List.foldl_cons]
    by_cases h0 : parPhase g m = 0
    · have e : parStep ⟨k, et, rv, re⟩ m = ⟨k, et, rv ++ parRem g m, re⟩ := by
        unfold parStep parRem
        simp only [hp, h0, if_true]
      rw [e, ih hn.2.1 (fun m' h' => h2 m' (by simp [h'])) k _ (fun m' h' => hs m' (by simp [h']))]
      simp [parPhases, h0]
    · have e : parStep ⟨k, et, rv, re⟩ m = ⟨k.setPhase (m.1.headD 0) (parPhase g m), et, rv ++ parRem g m, re⟩ := by
        unfold parStep parRem
        simp only [hp, h0, if_false]
        simp
      rw [e, ih hn.2.1 (fun m' h' => h2 m' (by simp [h']))]
      · simp [parPhases, h0, setPhase]
      · intro m' h' h hh
        have hne : h ≠ m.1.headD 0 := by
          obtain ⟨a, l, hl⟩ := List.exists_cons_of_ne_nil (h2 m (by simp))
          rw [hl]
          rintro rfl
          exact hn.2.2 _ (by rw [hl]; simp) _ (List.mem_flatMap.mpr ⟨m', h', hh⟩) rfl
        show Function.update k.phase _ _ h = _
        rw [Function.update_of_ne hne]
        exact hs m' (by simp [h']) h hh

theorem parPhases_other (g : Graph) (ms : List ParMatch) (f : ℕ → ℚ) (v : ℕ) (hv : ∀ m ∈ ms, m.1.headD 0 ≠ v) : parPhases g ms f v = f v := by
  induction ms generalizing f with
  | nil => rfl
  | cons m ms ih =>
    have : parPhases g (m :: ms) f = parPhases g ms (if parPhase g m = 0 then f else Function.update f (m.1.headD 0) (mod2 (parPhase g m))) := rfl
    rw [this, ih _ fun m' h' => hv m' (by simp [h'])]
    split
    · rfl
    · rw [Function.update_of_ne (hv m (by simp)).symm]

theorem parPhases_head (g : Graph) (ms : List ParMatch) (f : ℕ → ℚ) (hn : (ms.flatMap fun m => m.1).Nodup) (h2 : ∀ m ∈ ms, m.1 ≠ []) {m : ParMatch}
    (hm : m ∈ ms) (h0 : parPhase g m ≠ 0) : parPhases g ms f (m.1.headD 0) = mod2 (parPhase g m) := by
  induction ms generalizing f with
  | nil => simp at hm
  | cons m' ms ih =>
    rw [List.flatMap_cons, List.nodup_append] at hn
    have e : parPhases g (m' :: ms) f = parPhases g ms (if parPhase g m' = 0 then f else Function.update f (m'.1.headD 0) (mod2 (parPhase g m'))) := rfl
    rw [e]
    by_cases hmm : m ∈ ms
    · exact ih _ hn.2.1 (fun m' h' => h2 m' (by simp [h'])) hmm
    · have : m = m' := by simpa [hmm] using hm
      subst this
      rw [parPhases_other, if_neg h0, Function.update_self]
      intro m' h' heq
      obtain ⟨a, l, hl⟩ := List.exists_cons_of_ne_nil (h2 m (by simp))
      obtain ⟨a', l', hl'⟩ := List.exists_cons_of_ne_nil (h2 m' (by simp [h']))
      rw [hl, hl'] at heq
      simp only [List.headD_cons] at heq
      exact hn.2.2 a (by rw [hl]; simp) a' (List.mem_flatMap.mpr ⟨m', h', by rw [hl']; simp⟩) heq.symm

/-! ### The family of all H-boxes of the matches -/

variable {g : Graph} {ms : List ParMatch} {R N : ℕ → Finset ℕ} {t : ℕ → ℕ}

theorem _root_.PyZX.Graph.ParOK.cons (h : ParOK g ms R N t) {m : ParMatch} (hm : m ∈ ms) : ∃ a tl, m.1 = a :: tl ∧ tl ≠ [] := by
  have := h.two m hm
  match h1 : m.1 with
  | [] => rw [h1] at this; simp at this
  | [a] => rw [h1] at this; simp at this
  | a :: b :: tl => exact ⟨a, b :: tl, rfl, by simp⟩

theorem _root_.PyZX.Graph.ParOK.nd (h : ParOK g ms R N t) {m : ParMatch} (hm : m ∈ ms) : m.1.Nodup := (List.nodup_flatMap.mp h.nodup).1 m hm

theorem _root_.PyZX.Graph.ParOK.fam (hg : g.HWF) (h : ParOK g ms R N t) : BoxFam g (ms.flatMap fun m => m.1) R N t := by
  have hl : ∀ a ∈ ms.flatMap (fun m => m.1), HLegs g a (R a) (N a) t := by
    intro a ha
    obtain ⟨m, hm, ha⟩ := List.mem_flatMap.mp ha
    exact h.legs m hm a ha
  refine ⟨h.nodup, ?_, hl, ?_⟩
  · intro a ha
    obtain ⟨m, hm, ha⟩ := List.mem_flatMap.mp ha
    exact h.mem m hm a ha
  · intro a ha b hb v hv hc
    obtain ⟨m, hm, ham⟩ := List.mem_flatMap.mp ha
    obtain ⟨a2, ha2, hne⟩ : ∃ a2 ∈ m.1, a2 ≠ a := by
      obtain ⟨c, tl, hm1, htl⟩ := h.cons hm
      obtain ⟨d, tl', rfl⟩ := List.exists_cons_of_ne_nil htl
      have := h.nd hm
      rw [hm1] at this
      by_cases hca : c = a
      · refine ⟨d, by rw [hm1]; simp, ?_⟩
        rintro rfl
        subst hca
        simp at this
      · exact ⟨c, by rw [hm1]; simp, hca⟩
    have him : t v ∈ (N a2).image t := by rw [(h.same m hm a2 ha2 a ham).2]; exact Finset.mem_image_of_mem t hv
    obtain ⟨v2, hv2, htv⟩ := Finset.mem_image.mp him
    have key : ∀ u c, HLegs g c (R c) (N c) t → u ∈ N c → t u = t v → u = t (t v) := by
      intro u c hcl hu htu
      have hin := hcl.isNot u hu
      have h1 : u ∈ g.nbrs (t v) := by
        rw [mem_nbrs hg.toInv, hg.symm, ← htu]
        rcases hin.2.2.2.2 with ⟨-, -, e⟩ | ⟨-, -, e⟩ <;> rw [e] <;> simp
      rw [((hl b hb).isNot _ hc).2.1] at h1
      simp only [Finset.mem_insert, Finset.mem_singleton] at h1
      rcases h1 with e | e
      · exfalso
        have hty := (hl b hb).ty
        rw [← e] at hty
        rcases hin.2.2.2.2 with ⟨e', -⟩ | ⟨e', -⟩ <;> rw [e'] at hty <;> exact absurd hty (by decide)
      · exact e
    have e1 := key v a (hl a ha) hv rfl
    have e2 := key v2 a2 (h.legs m hm a2 ha2) hv2 htv
    have e3 : v2 = v := by rw [e1, ← e2]
    subst e3
    have hin := (hl a ha).isNot v2 hv
    have h3 : a2 ∈ g.nbrs v2 := by
      have : v2 ∈ g.nbrs a2 := by rw [(h.legs m hm a2 ha2).nbrs]; exact Finset.mem_union_right _ hv2
      rw [mem_nbrs hg.toInv] at this ⊢
      rwa [hg.symm]
    rw [hin.2.1] at h3
    simp only [Finset.mem_insert, Finset.mem_singleton] at h3
    rcases h3 with e | e
    · exact hne e
    · have := (h.legs m hm a2 ha2).ty
      rw [e, hin.2.2.2.1] at this
      exact absurd this (by decide)

/-- The H-boxes that stay. -/
def parHeads (g : Graph) (ms : List ParMatch) : List ℕ := ms.flatMap fun m => if parPhase g m = 0 then [] else [m.1.headD 0]

theorem mem_parHeads {v : ℕ} : v ∈ parHeads g ms ↔ ∃ m ∈ ms, parPhase g m ≠ 0 ∧ v = m.1.headD 0 := by
  unfold parHeads
  rw [List.mem_flatMap]
  constructor
  · rintro ⟨m, hm, hv⟩
    by_cases h0 : parPhase g m = 0
    · rw [if_pos h0] at hv; simp at hv
    · rw [if_neg h0] at hv
      exact ⟨m, hm, h0, by simpa using hv⟩
  · rintro ⟨m, hm, h0, hv⟩
    exact ⟨m, hm, by rw [if_neg h0]; simpa using hv⟩

theorem _root_.PyZX.Graph.ParOK.headD (h : ParOK g ms R N t) {m : ParMatch} (hm : m ∈ ms) : m.1.headD 0 ∈ m.1 := by
  obtain ⟨a, tl, e, -⟩ := h.cons hm
  rw [e]; simp

theorem _root_.PyZX.Graph.ParOK.uniq (h : ParOK g ms R N t) {m m' : ParMatch} (hm : m ∈ ms) (hm' : m' ∈ ms) {a : ℕ} (ha : a ∈ m.1) (ha' : a ∈ m'.1) : m = m' := by
  by_contra hne
  have hp := (List.nodup_flatMap.mp h.nodup).2
  obtain ⟨i, hi, rfl⟩ := List.getElem_of_mem hm
  obtain ⟨j, hj, rfl⟩ := List.getElem_of_mem hm'
  rcases lt_trichotomy i j with hij | hij | hij
  · exact List.pairwise_iff_getElem.mp hp i j hi hj hij ha ha'
  · subst hij; exact hne rfl
  · exact List.pairwise_iff_getElem.mp hp j i hj hi hij ha' ha

theorem heads_nodup (h : ParOK g ms R N t) : (parHeads g ms).Nodup := by
  unfold parHeads
  rw [List.nodup_flatMap]
  refine ⟨fun m _ => by split <;> simp, ?_⟩
  have hp := (List.nodup_flatMap.mp h.nodup).2
  have hm : ms.Pairwise fun i j => i ∈ ms ∧ j ∈ ms := by
    rw [List.pairwise_iff_forall_sublist]
    intro a b hab
    exact ⟨hab.subset (by simp), hab.subset (by simp)⟩
  refine (hp.and hm).imp fun {m m'} hx v hv hv' => ?_
  have k : ∀ m : ParMatch, m ∈ ms → v ∈ (if parPhase g m = 0 then [] else [m.1.headD 0]) → v ∈ m.1 := by
    intro m hm hv
    split at hv
    · simp at hv
    · rw [List.mem_singleton.mp hv]; exact h.headD hm
  exact hx.1 (k m hx.2.1 hv) (k m' hx.2.2 hv')

theorem mem_rem (h : ParOK g ms R N t) {v : ℕ} : v ∈ ms.flatMap (parRem g) ↔ ∃ m ∈ ms, (∃ a ∈ m.1, a ≠ m.1.headD 0 ∧ (v = a ∨ v ∈ N a)) ∨
    (parPhase g m = 0 ∧ (v = m.1.headD 0 ∨ v ∈ N (m.1.headD 0))) := by
  rw [List.mem_flatMap]
  refine exists_congr fun m => and_congr_right fun hm => ?_
  obtain ⟨a, tl, e, -⟩ := h.cons hm
  have hnd := h.nd hm
  have hf := (h.first m hm).2 a tl e
  have hn := (h.nots m hm).2
  have e1 : v ∈ m.2.1 ↔ v ∈ N a := by rw [← hf, List.mem_toFinset]
  have e2 : v ∈ m.2.2 ↔ ∃ b ∈ tl, v ∈ N b := by rw [← List.mem_toFinset, hn, e]; simp
  rw [e] at hnd
  have hat : a ∉ tl := (List.nodup_cons.mp hnd).1
  unfold parRem
  rw [e]
  simp only [List.tail_cons, List.headD_cons, List.mem_append, e2, List.mem_cons]
  have e3 : (v ∈ (if parPhase g m = 0 then a :: m.2.1 else [])) ↔ (parPhase g m = 0 ∧ (v = a ∨ v ∈ N a)) := by
    split
    · rename_i h0; simp [h0, e1]
    · rename_i h0; simp [h0]
  rw [e3]
  constructor
  · rintro ((h1 | ⟨b, hb, h1⟩) | h1)
    · exact Or.inl ⟨v, Or.inr h1, by rintro rfl; exact hat h1, Or.inl rfl⟩
    · exact Or.inl ⟨b, Or.inr hb, by rintro rfl; exact hat hb, Or.inr h1⟩
    · exact Or.inr h1
  · rintro (⟨b, rfl | hb, hne, h1⟩ | h1)
    · exact absurd rfl hne
    · rcases h1 with rfl | h1
      · exact Or.inl (Or.inl hb)
      · exact Or.inl (Or.inr ⟨b, hb, h1⟩)
    · exact Or.inr h1

/-- The factor of a group of parallel H-boxes. -/
theorem group_prod (h : ParOK g ms R N t) {m : ParMatch} (hm : m ∈ ms) (x : ℕ → Bool) :
    (m.1.map fun a => boxF (g.phase a) (R a) (N a) t x).prod = boxF (parPhase g m) (R (m.1.headD 0)) (N (m.1.headD 0)) t x := by
  have himg : ∀ a ∈ m.1, boxF (g.phase a) (R a) (N a) t x =
      if (∀ r ∈ R (m.1.headD 0), x r = true) ∧ ∀ v ∈ N (m.1.headD 0), x (t v) = false then ph (g.phase a) else 1 := by
    intro a ha
    obtain ⟨s1, s2⟩ := h.same m hm a ha _ (h.headD hm)
    have e : (∀ v ∈ N a, x (t v) = false) ↔ ∀ v ∈ N (m.1.headD 0), x (t v) = false := by
      have k : ∀ M : Finset ℕ, (∀ v ∈ M, x (t v) = false) ↔ ∀ w ∈ M.image t, x w = false := by
        intro M; simp
      rw [k, k, s2]
    unfold boxF
    rw [s1]
    exact if_congr (and_congr Iff.rfl e) rfl rfl
  rw [List.map_congr_left himg]
  unfold boxF parPhase
  rw [ph_mod2]
  by_cases hc : (∀ r ∈ R (m.1.headD 0), x r = true) ∧ ∀ v ∈ N (m.1.headD 0), x (t v) = false
  · simp only [if_pos hc]
    induction m.1 with
    | nil => simp
    | cons a l ih => simp [ph_add, ih]
  · simp only [if_neg hc]
    simp

theorem par_eq (h : ParOK g ms R N t) : parHbox g ms = ⟨{ g with phase := parPhases g ms g.phase }, [], ms.flatMap (parRem g), []⟩ := by
  unfold parHbox RewriteState.start
  rw [par_fold g ms h.nodup (fun m hm => by obtain ⟨a, tl, e, -⟩ := h.cons hm; rw [e]; simp) _ _ _ _ fun _ _ _ _ => rfl]
  simp

theorem par_sound (hg : g.HWF) (h : ParOK g ms R N t) {g' : Graph} (hfin : (parHbox g ms).finish = some g') :
    HPreserves g g' ∧ g'.verts = g.verts \ (ms.flatMap (parRem g)).toFinset := by
  rw [par_eq h] at hfin
  set rems := ms.flatMap (parRem g) with hrems
  set A := ms.flatMap (fun m => m.1) with hA
  set A' := parHeads g ms with hA'
  have h3 : Graph.removeVertices { g with phase := parPhases g ms g.phase } rems = some g' := by
    simpa [RewriteState.finish, addEdgeTable, removeEdges] using hfin
  set g1 : Graph := { g with phase := parPhases g ms g.phase } with hg1
  have hfam : BoxFam g A R N t := h.fam hg
  have hi1 : g1.Inv := hg.toInv.congr rfl rfl rfl rfl rfl rfl
  obtain ⟨hr, -, hi, -⟩ := removeVertices_spec h3
  have hinv' : g'.Inv := hi hi1
  have hv' : g'.verts = g.verts \ rems.toFinset := hr.verts
  have hty : g'.ty = g.ty := hr.ty
  have hmA : ∀ {m a}, m ∈ ms → a ∈ m.1 → a ∈ A := fun hm ha => List.mem_flatMap.mpr ⟨_, hm, ha⟩
  have hAA : ∀ a ∈ A', a ∈ A := by
    intro a ha
    obtain ⟨m, hm, -, rfl⟩ := mem_parHeads.mp ha
    exact hmA hm (h.headD hm)
  -- the removed vertices and the ones that stay
  set U := A.toFinset ∪ nots A N with hU
  set U' := A'.toFinset ∪ nots A' N with hU'
  have memU : ∀ v, v ∈ U ↔ ∃ a ∈ A, v = a ∨ v ∈ N a := by
    intro v
    simp only [hU, Finset.mem_union, List.mem_toFinset, mem_nots]
    constructor
    · rintro (a | ⟨b, hb, a⟩)
      · exact ⟨v, a, Or.inl rfl⟩
      · exact ⟨b, hb, Or.inr a⟩
    · rintro ⟨b, hb, rfl | a⟩
      · exact Or.inl hb
      · exact Or.inr ⟨b, hb, a⟩
  have memU' : ∀ v, v ∈ U' ↔ ∃ a ∈ A', v = a ∨ v ∈ N a := by
    intro v
    simp only [hU', Finset.mem_union, List.mem_toFinset, mem_nots]
    constructor
    · rintro (a | ⟨b, hb, a⟩)
      · exact ⟨v, a, Or.inl rfl⟩
      · exact ⟨b, hb, Or.inr a⟩
    · rintro ⟨b, hb, rfl | a⟩
      · exact Or.inl hb
      · exact Or.inr ⟨b, hb, a⟩
  have memR : ∀ v, v ∈ rems.toFinset ↔ ∃ a ∈ A, a ∉ A' ∧ (v = a ∨ v ∈ N a) := by
    intro v
    rw [List.mem_toFinset, mem_rem h]
    constructor
    · rintro ⟨m, hm, ⟨a, ha, hne, hva⟩ | ⟨h0, hva⟩⟩
      · refine ⟨a, hmA hm ha, fun hc => ?_, hva⟩
        obtain ⟨m', hm', -, e⟩ := mem_parHeads.mp hc
        have := h.uniq hm hm' ha (by rw [e]; exact h.headD hm')
        subst this
        exact hne e
      · refine ⟨_, hmA hm (h.headD hm), fun hc => ?_, hva⟩
        obtain ⟨m', hm', h0', e⟩ := mem_parHeads.mp hc
        have := h.uniq hm hm' (h.headD hm) (by rw [e]; exact h.headD hm')
        subst this
        exact h0' h0
    · rintro ⟨a, ha, hna, hva⟩
      obtain ⟨m, hm, ham⟩ := List.mem_flatMap.mp ha
      refine ⟨m, hm, ?_⟩
      by_cases hh : a = m.1.headD 0
      · refine Or.inr ⟨?_, hh ▸ hva⟩
        by_contra h0
        exact hna (mem_parHeads.mpr ⟨m, hm, h0, hh⟩)
      · exact Or.inl ⟨a, ham, hh, hva⟩
  have same : ∀ {v a b}, a ∈ A → b ∈ A → (v = a ∨ v ∈ N a) → (v = b ∨ v ∈ N b) → a = b := by
    rintro v a b ha hb (rfl | h1) (rfl | h2)
    · rfl
    · exact absurd ha (hfam.notBox hb h2)
    · exact absurd hb (hfam.notBox ha h1)
    · exact (hfam.nDisj hg ha hb h1 h2).symm
  have hRU : rems.toFinset ∪ U' = U := by
    ext v
    rw [Finset.mem_union, memR, memU', memU]
    constructor
    · rintro (⟨a, ha, -, hv⟩ | ⟨a, ha, hv⟩)
      · exact ⟨a, ha, hv⟩
      · exact ⟨a, hAA a ha, hv⟩
    · rintro ⟨a, ha, hv⟩
      by_cases hc : a ∈ A'
      · exact Or.inr ⟨a, hc, hv⟩
      · exact Or.inl ⟨a, ha, hc, hv⟩
  have hRd : ∀ v ∈ U', v ∉ rems.toFinset := by
    intro v h1 h2
    obtain ⟨a, ha, hva⟩ := (memU' v).mp h1
    obtain ⟨b, hb, hnb, hvb⟩ := (memR v).mp h2
    exact hnb (same (hAA a ha) hb hva hvb ▸ ha)
  have rU : ∀ a ∈ A, ∀ r ∈ R a, r ∉ U := by
    intro a ha r hr' hc
    obtain ⟨b, hb, rfl | h1⟩ := (memU r).mp hc
    · exact hfam.rNotBox ha hr' hb
    · exact hfam.rDisj hg hb ha h1 hr'
  have tU : ∀ a ∈ A, ∀ v ∈ N a, t v ∉ U := by
    intro a ha v hv hc
    obtain ⟨b, hb, e | h1⟩ := (memU _).mp hc
    · exact hfam.tNotBox ha hv (e ▸ hb)
    · exact hfam.targets a ha b hb v hv h1
  have nRU : ∀ v, v ∉ U → v ∉ rems.toFinset := fun v hv hc => hv (hRU ▸ Finset.mem_union_left _ hc)
  have hUint : ∀ v ∈ U, v ∈ g.verts ∧ g.ty v ≠ .boundary := by
    intro v hv
    obtain ⟨a, ha, rfl | h1⟩ := (memU v).mp hv
    · exact ⟨hfam.mem v ha, by rw [(hfam.legs v ha).ty]; decide⟩
    · have hn : v ∈ g.nbrs a := by rw [(hfam.legs a ha).nbrs]; exact Finset.mem_union_right _ h1
      refine ⟨(Finset.mem_filter.mp hn).1, ?_⟩
      rcases hfam.nty ha h1 with e | e <;> rw [e] <;> decide
  have hRU2 : ∀ v ∈ rems.toFinset, v ∈ U := fun v hv => hRU ▸ Finset.mem_union_left _ hv
  have hio : ∀ v, v ∈ g.inputs ∨ v ∈ g.outputs → v ∉ rems.toFinset := fun v hv hc => (hUint v (hRU2 v hc)).2 (hg.io v hv)
  have hin : g'.inputs = g.inputs := by
    rw [hr.inputs]
    refine List.filter_eq_self.mpr fun v hv => ?_
    simpa using hio v (Or.inl hv)
  have hout : g'.outputs = g.outputs := by
    rw [hr.outputs]
    refine List.filter_eq_self.mpr fun v hv => ?_
    simpa using hio v (Or.inr hv)
  have hnw : ∀ v ∈ g'.verts, g'.ty v ≠ .winput ∧ g'.ty v ≠ .woutput := by
    intro v hv
    rw [hty]
    rw [hv'] at hv
    exact hg.noW v (Finset.mem_sdiff.mp hv).1
  have hwf : g'.HWF := by
    refine { hinv' with noWio := ?_, noW := hnw, io := ?_ }
    · intro u w huw
      have hu : u ∈ g'.verts := hinv'.mem u w (by rw [huw]; simp)
      have hw : w ∈ g'.verts := hinv'.mem' (u := u) (by rw [huw]; simp)
      rw [hv'] at hu hw
      rw [hr.adj u w (Finset.mem_sdiff.mp hu).2 (Finset.mem_sdiff.mp hw).2] at huw
      exact hg.noWio u w huw
    · rw [hin, hout, hty]; exact hg.io
  -- the family of the H-boxes that stay
  have hnbr : ∀ u, u ∉ rems.toFinset → (∀ w ∈ g.nbrs u, w ∉ rems.toFinset) → g'.nbrs u = g.nbrs u := by
    intro u hu hw
    ext w
    rw [mem_nbrs hinv', mem_nbrs hg.toInv]
    by_cases hwR : w ∈ rems.toFinset
    · have e1 : g'.adj u w = none := by
        by_contra hc
        have := hinv'.mem' hc
        rw [hv'] at this
        exact (Finset.mem_sdiff.mp this).2 hwR
      have e2 : g.adj u w = none := by
        by_contra hc
        exact hw w ((mem_nbrs hg.toInv).mpr hc) hwR
      rw [e1, e2]
    · rw [hr.adj u w hu hwR]
  have hph : ∀ v, v ∉ A → g'.phase v = g.phase v := by
    intro v hv
    rw [hr.phase]
    refine parPhases_other g ms g.phase v fun m hm e => hv (e ▸ hmA hm (h.headD hm))
  have hfam' : BoxFam g' A' R N t := by
    have hout' : ∀ a ∈ A', ∀ w ∈ g.nbrs a, w ∉ rems.toFinset := by
      intro a ha w hw
      rw [(hfam.legs a (hAA a ha)).nbrs] at hw
      rcases Finset.mem_union.mp hw with h1 | h1
      · exact nRU w (rU a (hAA a ha) w h1)
      · exact hRd w ((memU' w).mpr ⟨a, ha, Or.inr h1⟩)
    have hself : ∀ a ∈ A', a ∉ rems.toFinset := fun a ha => hRd a ((memU' a).mpr ⟨a, ha, Or.inl rfl⟩)
    refine ⟨heads_nodup h, ?_, ?_, fun a ha b hb => hfam.targets a (hAA a ha) b (hAA b hb)⟩
    · intro a ha
      rw [hv']
      exact Finset.mem_sdiff.mpr ⟨hfam.mem a (hAA a ha), hself a ha⟩
    · intro a ha
      have hl := hfam.legs a (hAA a ha)
      refine ⟨by rw [hty]; exact hl.ty, by rw [hnbr a (hself a ha) (hout' a ha)]; exact hl.nbrs, hl.disj, ?_, ?_⟩
      · intro r hr'
        have e : g'.adj a r = g.adj a r := hr.adj a r (hself a ha) (nRU r (rU a (hAA a ha) r hr'))
        unfold White
        rw [e, hty]
        exact hl.white r hr'
      · intro v hv
        have hin := hl.isNot v hv
        have hvR : v ∉ rems.toFinset := hRd v ((memU' v).mpr ⟨a, ha, Or.inr hv⟩)
        have htR : t v ∉ rems.toFinset := nRU _ (tU a (hAA a ha) v hv)
        have e1 : g'.adj a v = g.adj a v := hr.adj a v (hself a ha) hvR
        have e2 : g'.adj v (t v) = g.adj v (t v) := hr.adj v (t v) hvR htR
        have e3 : g'.nbrs v = g.nbrs v := hnbr v hvR (by
          intro w hw
          rw [hin.2.1] at hw
          simp only [Finset.mem_insert, Finset.mem_singleton] at hw
          rcases hw with rfl | rfl
          · exact hself _ ha
          · exact htR)
        unfold IsNot
        rw [e1, e2, e3, hty, hph v (hfam.notBox (hAA a ha) hv)]
        exact hin
  refine ⟨⟨hwf, hin, hout, ?_, ?_⟩, hv'⟩
  · intro v
    rw [hty, hv', Finset.mem_sdiff]
    constructor
    · rintro ⟨⟨a, -⟩, b⟩; exact ⟨a, b⟩
    · rintro ⟨a, b⟩
      exact ⟨⟨a, fun hvR => (hUint v (hRU2 v hvR)).2 b⟩, b⟩
  · intro b
    rw [sem_eq_wH hinv' hnw, sem_eq_wH hg.toInv hg.noW]
    have hI : g.interior = (g.interior \ U) ∪ U := by
      rw [Finset.sdiff_union_of_subset]
      intro v hv
      exact Finset.mem_filter.mpr (hUint v hv)
    have hI' : g'.interior = (g.interior \ U) ∪ U' := by
      ext v
      simp only [Graph.interior, Finset.mem_union, Finset.mem_sdiff, Finset.mem_filter, hv', hty]
      constructor
      · rintro ⟨⟨a, c⟩, d⟩
        by_cases hvU : v ∈ U
        · rw [← hRU, Finset.mem_union] at hvU
          exact Or.inr (hvU.resolve_left c)
        · exact Or.inl ⟨⟨a, d⟩, hvU⟩
      · rintro (⟨⟨a, d⟩, c⟩ | a)
        · exact ⟨⟨a, nRU v c⟩, d⟩
        · have hvU : v ∈ U := hRU ▸ Finset.mem_union_right _ a
          exact ⟨⟨(hUint v hvU).1, hRd v a⟩, (hUint v hvU).2⟩
    have hd' : Disjoint (g.interior \ U) U' := by
      rw [Finset.disjoint_left]
      intro v hv hc
      exact (Finset.mem_sdiff.mp hv).2 (hRU ▸ Finset.mem_union_right _ hc)
    have hd : Disjoint (g.interior \ U) U := Finset.sdiff_disjoint
    rw [hI', psum_union hd']
    generalize g.interior \ U = I0 at hI hd
    rw [hI, psum_union hd]
    refine psum_congr fun x _ => ?_
    rw [fam_sum hwf hfam', fam_sum hg hfam]
    have hS : g'.verts \ (A'.toFinset ∪ nots A' N) = g.verts \ (A.toFinset ∪ nots A N) := by
      rw [← hU, ← hU', hv', ← hRU]
      ext v; simp only [Finset.mem_sdiff, Finset.mem_union]; tauto
    rw [hS]
    congr 1
    · rw [removed_wH h3 (removeVertices_scalar h3)]
      · refine wH_congr rfl (fun v hv => ?_) fun _ _ _ _ _ => rfl
        have hvA : v ∉ A := fun hc => (Finset.mem_sdiff.mp hv).2 (Finset.mem_union_left _ (List.mem_toFinset.mpr hc))
        have := hph v hvA
        rw [hr.phase] at this
        unfold wtH
        rw [this]
      · rw [Finset.disjoint_left]
        intro v hv hc
        exact (Finset.mem_sdiff.mp hv).2 (hRU2 v hc)
    · rw [hA, hA']
      unfold parHeads
      rw [List.map_flatMap, List.map_flatMap, List.flatMap_def, List.flatMap_def, List.prod_flatten, List.prod_flatten, List.map_map, List.map_map]
      congr 1
      refine List.map_congr_left fun m hm => ?_
      simp only [Function.comp_apply]
      rw [group_prod h hm]
      by_cases h0 : parPhase g m = 0
      · rw [if_pos h0, h0]
        simp [boxF]
      · rw [if_neg h0]
        simp only [List.map_cons, List.map_nil, List.prod_cons, List.prod_nil, mul_one]
        have e : g'.phase (m.1.headD 0) = mod2 (parPhase g m) := by
          rw [hr.phase]
          exact parPhases_head g ms g.phase h.nodup (fun m hm => by obtain ⟨a, tl, e, -⟩ := h.cons hm; rw [e]; simp) hm h0
        unfold boxF
        rw [e, ph_mod2]

end HRules
end PyZX
