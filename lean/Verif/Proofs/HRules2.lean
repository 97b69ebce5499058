import Verif.Proofs.HRules
import Verif.Spec.HForm

/-! # Conversion of H-boxes to Hadamard edges: the whole rewrite -/

namespace PyZX
open Finset

namespace HRules
open Graph

/-- The entry of the edge table written for `v`. -/
def entry (g : Graph) (ord : ℕ → List ℕ) (v : ℕ) : (ℕ × ℕ) × (ℕ × ℕ) :=
  (upair ((ord v).getD 0 0) ((ord v).getD 1 0), if g.adj ((ord v).getD 0 0) v = g.adj ((ord v).getD 1 0) v then (0, 1) else (1, 0))

theorem upd_fresh {t : ETab} {k : ℕ × ℕ} (h : ∀ e ∈ t, e.1 ≠ k) (f : ℕ × ℕ → ℕ × ℕ) : PyZX.ETab.upd t k f = t ++ [(k, f (0, 0))] := by
  induction t with
  | nil => rfl
  | cons e t ih =>
    obtain ⟨k', p⟩ := e
    simp only [PyZX.ETab.upd]
    rw [if_neg (h (k', p) (by simp)), ih fun e he => h e (by simp [he])]
    rfl

theorem upair_mem {a b : ℕ} : (upair a b).1 = a ∨ (upair a b).1 = b := by unfold upair; split <;> simp

theorem fold_eq (g : Graph) (ord : ℕ → List ℕ) (ms : List ℕ) (h2 : ∀ v ∈ ms, (ord v).length = 2)
    (hd : ms.Pairwise fun v w => (entry g ord v).1 ≠ (entry g ord w).1) (s : RewriteState)
    (hf : ∀ v ∈ ms, ∀ e ∈ s.etab, e.1 ≠ (entry g ord v).1) :
    ms.foldlM (hadStep g ord) s = some { s with remVerts := s.remVerts ++ ms, etab := s.etab ++ ms.map (entry g ord) } := by
  induction ms generalizing s with
  | nil => simp
  | cons v ms ih =>
    rw [List.pairwise_cons] at hd
    obtain ⟨a, b, hab⟩ : ∃ a b, ord v = [a, b] := List.length_eq_two.mp (h2 v (by simp))
    have e1 : (entry g ord v) = (upair a b, if g.adj a v = g.adj b v then (0, 1) else (1, 0)) := by simp [entry, hab]
    have hs : hadStep g ord s v = some { s with remVerts := s.remVerts ++ [v], etab := s.etab ++ [entry g ord v] } := by
      unfold hadStep
      rw [hab]
      simp only
      rw [upd_fresh (fun e he => by have := hf v (by simp) e he; rwa [e1] at this), e1]
    rw [List.foldlM_cons, hs]
    simp only [Option.bind_eq_bind, Option.bind_some]
    rw [ih (fun w hw => h2 w (by simp [hw])) hd.2]
    · simp
    · intro w hw e he
      simp only [List.mem_append, List.mem_singleton] at he
      rcases he with he | rfl
      · exact hf w (by simp [hw]) e he
      · exact hd.1 w hw

/-- The two neighbours of a match. -/
theorem ord_two {g : Graph} {ord : ℕ → List ℕ} (ho : Rules.NbrOrder g ord) {ms : List ℕ} (h : HadOK g ms) {v : ℕ} (hv : v ∈ ms) :
    ∃ a b, ord v = [a, b] ∧ a ≠ b ∧ g.nbrs v = {a, b} := by
  obtain ⟨h1, h2⟩ := ho v (h.mem v hv)
  have hl : (ord v).length = 2 := by rw [← List.toFinset_card_of_nodup h1, h2]; exact h.deg v hv
  obtain ⟨a, b, hab⟩ := List.length_eq_two.mp hl
  refine ⟨a, b, hab, ?_, ?_⟩
  · rw [hab] at h1; simpa using h1
  · rw [← h2, hab]; simp

theorem start_eq {g : Graph} {ord : ℕ → List ℕ} (ho : Rules.NbrOrder g ord) {ms : List ℕ} (h : HadOK g ms) :
    hadamardToHEdge g ord ms = some ⟨g.addPower ms.length, ms.map (entry g ord), ms, []⟩ := by
  unfold hadamardToHEdge
  rw [fold_eq]
  · simp [RewriteState.start]
  · intro v hv
    obtain ⟨a, b, hab, -⟩ := ord_two ho h hv
    rw [hab]; rfl
  · have hp : ms.Pairwise fun v w => v ≠ w ∧ v ∈ ms ∧ w ∈ ms := by
      have hm : ms.Pairwise fun i j => i ∈ ms ∧ j ∈ ms := by
        rw [List.pairwise_iff_forall_sublist]
        intro a b hab
        exact ⟨hab.subset (by simp), hab.subset (by simp)⟩
      exact (h.nodup.and hm).imp fun h => h
    refine hp.imp fun {v w} hvw heq => ?_
    obtain ⟨hne, hv, hw⟩ := hvw
    obtain ⟨a, b, hab, -, hn⟩ := ord_two ho h hv
    obtain ⟨c, d, hcd, -, hn'⟩ := ord_two ho h hw
    have hdis := h.apart v hv w hw hne
    have m1 : (upair a b).1 ∈ g.nbrs v := by
      rw [hn]; rcases @upair_mem a b with h | h <;> rw [h] <;> simp
    have m2 : (upair a b).1 ∈ g.nbrs w := by
      have : upair a b = upair c d := by simpa [entry, hab, hcd] using heq
      rw [this, hn']; rcases @upair_mem c d with h | h <;> rw [h] <;> simp
    exact Finset.disjoint_left.mp hdis m1 m2
  · intro v _ e he
    simp [RewriteState.start] at he

/-- The local sum at a match is the kernel of the entry of the table times √2. -/
theorem had_local {g : Graph} (hg : g.HWF) {ord : ℕ → List ℕ} (ho : Rules.NbrOrder g ord) {ms : List ℕ} (h : HadOK g ms) {v : ℕ} (hv : v ∈ ms)
    (x : ℕ → Bool) : psum {v} (g.localH v) x = sq2 * g.keyH x (entry g ord v).1 (entry g ord v).2 := by
  obtain ⟨a, b, hab, hne, hn⟩ := ord_two ho h hv
  have ma : a ∈ g.nbrs v := by rw [hn]; simp
  have mb : b ∈ g.nbrs v := by rw [hn]; simp
  rw [mem_nbrs hg.toInv] at ma mb
  have va : a ≠ v := by rintro rfl; exact ma (hg.loopless _)
  have vb : b ≠ v := by rintro rfl; exact mb (hg.loopless _)
  obtain ⟨e1, he1⟩ := Option.ne_none_iff_exists'.mp ma
  obtain ⟨e2, he2⟩ := Option.ne_none_iff_exists'.mp mb
  have n1 : e1 ≠ .wio := by rintro rfl; exact hg.noWio _ _ he1
  have n2 : e2 ≠ .wio := by rintro rfl; exact hg.noWio _ _ he2
  have hset : ({v} : Finset ℕ) = insert v ∅ := by simp
  rw [hset, psum_insert (by simp), psum_empty]
  unfold localH
  simp only [hn]
  rw [Finset.prod_pair hne, Finset.prod_pair hne, edgeH_some he1, edgeH_some he2, edgeH_some he1, edgeH_some he2]
  simp only [Function.update_self, Function.update_of_ne va, Function.update_of_ne vb]
  unfold wtH wtT
  rw [h.ty v hv, h.phase v hv]
  simp only [Bool.false_eq_true, if_false, if_true, ph_one]
  have key := had_contr n1 n2 (legT (g.ty a) (x a)) (legT (g.ty b) (x b))
  have hk : g.keyH x (entry g ord v).1 (entry g ord v).2 = contr (if e1 = e2 then .had else .simple) (legT (g.ty a) (x a)) (legT (g.ty b) (x b)) := by
    have hiff : (g.adj a v = g.adj b v) ↔ e1 = e2 := by
      rw [hg.symm a v, hg.symm b v, he1, he2]; simp
    have hentry : entry g ord v = (upair a b, if e1 = e2 then (0, 1) else (1, 0)) := by
      simp only [entry, hab, List.getD_cons_zero, List.getD_cons_succ]
      by_cases hh : e1 = e2
      · rw [if_pos hh, if_pos (hiff.mpr hh)]
      · rw [if_neg hh, if_neg (fun hc => hh (hiff.mp hc))]
    have hsw : ∀ e, contr e (legT (g.ty (upair a b).1) (x (upair a b).1)) (legT (g.ty (upair a b).2) (x (upair a b).2)) =
        contr e (legT (g.ty a) (x a)) (legT (g.ty b) (x b)) := by
      intro e
      unfold upair
      split
      · rfl
      · exact contr_comm _ _ _
    rw [hentry]
    unfold keyH
    rw [hsw, hsw]
    split <;> simp
  rw [hk, ← key]
  ring

theorem removed_wH {g g' : Graph} {vs : List ℕ} (h : g.removeVertices vs = some g') (hsc : g'.scalar = g.scalar) {S : Finset ℕ}
    (hS : Disjoint S vs.toFinset) (x : ℕ → Bool) : g'.wH S x = g.wH S x := by
  obtain ⟨hr, -⟩ := removeVertices_spec h
  refine wH_congr (by rw [hsc]) (fun v _ => by unfold wtH; rw [hr.ty, hr.phase, hr.label]) fun u hu w hw _ => ?_
  unfold edgeH
  rw [hr.ty, hr.adj u w (Finset.disjoint_left.mp hS hu) (Finset.disjoint_left.mp hS hw)]

theorem removeVertices_scalar {g g' : Graph} {vs : List ℕ} (h : g.removeVertices vs = some g') : g'.scalar = g.scalar := by
  unfold removeVertices at h
  obtain ⟨g1, h1, rfl⟩ := Option.map_eq_some_iff.mp h
  show g1.scalar = g.scalar
  clear h
  revert h1
  induction vs generalizing g with
  | nil =>
    intro h1
    simp only [List.foldlM_nil, Option.pure_def, Option.some.injEq] at h1
    rw [h1]
  | cons v vs ih =>
    intro h1
    rw [List.foldlM_cons] at h1
    obtain ⟨g2, h2, h3⟩ := Option.bind_eq_some_iff.mp h1
    have := ih h3
    obtain ⟨-, rfl⟩ := removeVertex1_eq h2
    exact this

theorem addEdgeN_noWio {g g' : Graph} {s t n : ℕ} {e : EType} (he : e ≠ .wio) (h : g.addEdgeN s t e n = some g')
    (hw : ∀ u v, g.adj u v ≠ some .wio) : ∀ u v, g'.adj u v ≠ some .wio := by
  induction n generalizing g with
  | zero => simp only [addEdgeN, Option.some.injEq] at h; rw [← h]; exact hw
  | succ n ih =>
    simp only [addEdgeN] at h
    obtain ⟨g1, h1, h2⟩ := Option.bind_eq_some_iff.mp h
    refine ih h2 ?_
    have key : ∀ f : Option EType, f ≠ some .wio → ∀ u v, (g.setAdj s t f).adj u v ≠ some .wio := by
      intro f hf u v
      simp only [Graph.setAdj]
      split
      · exact hf
      · exact hw u v
    obtain ⟨hs, ⟨hn, ht, rfl⟩ | ⟨e1, hn, -, -, ⟨-, -, rfl⟩ | ⟨-, f, hf, -, rfl⟩ | ⟨-, -, -, rfl⟩⟩⟩ := addEdge_cases h1
    · exact key _ (by simpa using he)
    · exact hw
    · intro u v
      have := key (some f) (by simpa using hf) u v
      split <;> exact this
    · exact key none (by simp)

theorem addEdgeTable_noWio {g g' : Graph} {t : ETab} (h : g.addEdgeTable t = some g') (hw : ∀ u v, g.adj u v ≠ some .wio) :
    ∀ u v, g'.adj u v ≠ some .wio := by
  induction t generalizing g with
  | nil => simp only [addEdgeTable, List.foldlM_nil, Option.pure_def, Option.some.injEq] at h; rw [← h]; exact hw
  | cons e t ih =>
    obtain ⟨g1, g2, h1, h2, h3⟩ := addEdgeTable_cons h
    exact ih h3 (addEdgeN_noWio (by decide) h2 (addEdgeN_noWio (by decide) h1 hw))

theorem entry_keys {g : Graph} {ord : ℕ → List ℕ} (ho : Rules.NbrOrder g ord) {ms : List ℕ} (h : HadOK g ms) :
    ∀ e ∈ ms.map (entry g ord), e.1.1 ∈ g.verts \ ms.toFinset ∧ e.1.2 ∈ g.verts \ ms.toFinset ∧ e.1.1 ≠ e.1.2 := by
  intro e he
  obtain ⟨v, hv, rfl⟩ := List.mem_map.mp he
  obtain ⟨a, b, hab, hne, hn⟩ := ord_two ho h hv
  have key : ∀ c, c ∈ g.nbrs v → c ∈ g.verts \ ms.toFinset := by
    intro c hc
    refine Finset.mem_sdiff.mpr ⟨(Finset.mem_filter.mp hc).1, fun hm => ?_⟩
    exact h.indep v hv c (List.mem_toFinset.mp hm) hc
  have ha := key a (by rw [hn]; simp)
  have hb := key b (by rw [hn]; simp)
  simp only [entry, hab, List.getD_cons_zero, List.getD_cons_succ]
  unfold upair
  split
  · exact ⟨ha, hb, hne⟩
  · exact ⟨hb, ha, hne.symm⟩

/-- Soundness of a rewrite that removes non-adjacent H-boxes. -/
theorem rule_soundH {g : Graph} (hg : g.HWF) {ms : List ℕ} {t : ETab} {n : ℤ} (hnd : ms.Nodup) (hmem : ∀ v ∈ ms, v ∈ g.verts)
    (hbx : ∀ v ∈ ms, g.ty v = .hbox) (hind : ∀ v ∈ ms, ∀ w ∈ ms, w ∉ g.nbrs v)
    (hkeys : ∀ e ∈ t, e.1.1 ∈ g.verts \ ms.toFinset ∧ e.1.2 ∈ g.verts \ ms.toFinset ∧ e.1.1 ≠ e.1.2)
    (hsum : ∀ x, (ms.map fun m => psum {m} (g.localH m) x).prod = sq2 ^ n * (t.map fun e => g.keyH x e.1 e.2).prod)
    {g' : Graph} (hfin : RewriteState.finish ⟨g.addPower n, t, ms, []⟩ = some g') :
    HPreserves g g' ∧ g'.verts = g.verts \ ms.toFinset := by
  unfold RewriteState.finish at hfin
  obtain ⟨g1, h1, hfin⟩ := Option.bind_eq_some_iff.mp hfin
  obtain ⟨g2, h2, h3⟩ := Option.bind_eq_some_iff.mp hfin
  simp only [removeEdges, List.foldlM_nil, Option.pure_def, Option.some.injEq] at h2
  subst h2
  simp only at h1 h3
  set R := ms.toFinset with hR
  have hi0 : (g.addPower n).Inv := hg.toInv.congr rfl rfl rfl rfl rfl rfl
  obtain ⟨hi1, hf1, hk1⟩ := addEdgeTable_specH h1 hi0 hkeys
  obtain ⟨hr, hm, hi, -⟩ := removeVertices_spec h3
  have hv' : g'.verts = g.verts \ R := by rw [hr.verts, hf1.verts]; rfl
  have hty : g'.ty = g.ty := by rw [hr.ty, hf1.ty]; rfl
  have hio : ∀ v, v ∈ g.inputs ∨ v ∈ g.outputs → v ∉ R := by
    intro v hv hvR
    have h1 := hg.io v hv
    rw [hbx v (List.mem_toFinset.mp hvR)] at h1
    exact absurd h1 (by decide)
  have hin : g'.inputs = g.inputs := by
    rw [hr.inputs, hf1.inputs]
    refine List.filter_eq_self.mpr fun v hv => ?_
    simpa [hR] using hio v (Or.inl hv)
  have hout : g'.outputs = g.outputs := by
    rw [hr.outputs, hf1.outputs]
    refine List.filter_eq_self.mpr fun v hv => ?_
    simpa [hR] using hio v (Or.inr hv)
  have hnw : ∀ v ∈ g'.verts, g'.ty v ≠ .winput ∧ g'.ty v ≠ .woutput := by
    intro v hv
    rw [hty]
    rw [hv'] at hv
    exact hg.noW v (Finset.mem_sdiff.mp hv).1
  have hinv' : g'.Inv := hi hi1
  have hwf : g'.HWF := by
    refine { hinv' with noWio := ?_, noW := hnw, io := ?_ }
    · intro u w huw
      have hu : u ∈ g'.verts := hinv'.mem u w (by rw [huw]; simp)
      have hw : w ∈ g'.verts := hinv'.mem' (u := u) (by rw [huw]; simp)
      rw [hv'] at hu hw
      rw [hr.adj u w (Finset.mem_sdiff.mp hu).2 (Finset.mem_sdiff.mp hw).2] at huw
      exact addEdgeTable_noWio h1 (fun u v => hg.noWio u v) u w huw
    · rw [hin, hout, hty]; exact hg.io
  refine ⟨⟨hwf, hin, hout, ?_, ?_⟩, hv'⟩
  · intro v
    rw [hty, hv', Finset.mem_sdiff]
    constructor
    · rintro ⟨⟨a, -⟩, b⟩; exact ⟨a, b⟩
    · rintro ⟨a, b⟩
      refine ⟨⟨a, fun hvR => ?_⟩, b⟩
      rw [hbx v (List.mem_toFinset.mp hvR)] at b
      exact absurd b (by decide)
  · intro b
    rw [sem_eq_wH hinv' hnw, sem_eq_wH hg.toInv hg.noW]
    have hI : g.interior = g'.interior ∪ R := by
      ext v
      simp only [Graph.interior, Finset.mem_union, Finset.mem_filter, hv', hty, Finset.mem_sdiff]
      constructor
      · rintro ⟨a, c⟩
        by_cases hvR : v ∈ R
        · exact Or.inr hvR
        · exact Or.inl ⟨⟨a, hvR⟩, c⟩
      · rintro (⟨⟨a, -⟩, c⟩ | a)
        · exact ⟨a, c⟩
        · have hvm := List.mem_toFinset.mp a
          exact ⟨hmem v hvm, by rw [hbx v hvm]; decide⟩
    have hd : Disjoint g'.interior R := by
      rw [Finset.disjoint_left]
      intro v a c
      simp only [Graph.interior, Finset.mem_filter, hv', Finset.mem_sdiff] at a
      exact a.1.2 c
    rw [hI, psum_union hd]
    refine psum_congr fun x _ => ?_
    rw [psum_singlesH hg.toInv ms hnd hmem hind, hv', removed_wH h3 (removeVertices_scalar h3) Finset.sdiff_disjoint, hk1 x,
      wH_addPower]
    rw [hsum x]
    have e3 : ∀ e : (ℕ × ℕ) × (ℕ × ℕ), (g.addPower n).keyH x e.1 e.2 = g.keyH x e.1 e.2 := fun _ => rfl
    simp only [e3]
    ring

theorem sound {g : Graph} (hg : g.HWF) {ord : ℕ → List ℕ} (ho : Rules.NbrOrder g ord) {ms : List ℕ} (h : HadOK g ms) {s : RewriteState}
    (hs : hadamardToHEdge g ord ms = some s) {g' : Graph} (hfin : s.finish = some g') :
    HPreserves g g' ∧ g'.verts = g.verts \ ms.toFinset := by
  rw [start_eq ho h, Option.some.injEq] at hs
  subst hs
  refine rule_soundH hg h.nodup h.mem h.ty h.indep (entry_keys ho h) (fun x => ?_) hfin
  have e1 : (ms.map fun m => psum {m} (g.localH m) x) = ms.map fun v => sq2 * g.keyH x (entry g ord v).1 (entry g ord v).2 :=
    List.map_congr_left fun v hv => had_local hg ho h hv x
  rw [e1, List.prod_map_mul, List.map_map]
  have e2 : (ms.map fun _ => sq2).prod = sq2 ^ (ms.length : ℤ) := by simp
  rw [e2]
  rfl

/-! ### The rewrite does not raise -/

theorem addEdge_isSomeH {g : Graph} {s t : ℕ} (hw : ∀ u v, g.adj u v ≠ some .wio) (hs : s ∈ g.verts) (ht : t ∈ g.verts) (hst : s ≠ t) {e : EType}
    (he : e ≠ .wio) (h : g.adj s t = none ∨ ((g.ty s).zxLike ∧ (g.ty t).zxLike)) : ∃ g', g.addEdge s t e = some g' := by
  unfold addEdge
  rw [if_neg (not_not.mpr hs)]
  cases ha : g.adj s t with
  | none => simp only; rw [if_neg (not_not.mpr ht)]; exact ⟨_, rfl⟩
  | some e1 =>
    have h1 : e1 ≠ .wio := by rintro rfl; exact hw _ _ ha
    rcases h with h | h
    · rw [ha] at h; exact absurd h (by simp)
    simp only
    rw [if_pos h]
    have hr : ∃ g', g.removeEdge s t = some g' := by
      unfold removeEdge
      rw [if_neg (by rw [ha]; simp [hst])]
      exact ⟨_, rfl⟩
    obtain ⟨g2, hr⟩ := hr
    rw [hr]
    cases e <;> cases e1 <;> first | exact absurd rfl he | exact absurd rfl h1 | skip
    all_goals by_cases hz : (g.ty s).zLike = (g.ty t).zLike <;> simp [hz]

theorem addEdgeTable_isSomeH {g : Graph} (hi : g.Inv) (hw : ∀ u v, g.adj u v ≠ some .wio) {t : ETab}
    (h1 : ∀ e ∈ t, e.1.1 ∈ g.verts ∧ e.1.2 ∈ g.verts ∧ e.1.1 ≠ e.1.2) (h2 : ∀ e ∈ t, e.2 = (0, 1) ∨ e.2 = (1, 0))
    (h3 : ∀ e ∈ t, g.adj e.1.1 e.1.2 = none ∨ ((g.ty e.1.1).zxLike ∧ (g.ty e.1.2).zxLike))
    (hd : t.Pairwise fun e f => ¬ SamePair f.1 e.1) : ∃ g', g.addEdgeTable t = some g' := by
  induction t generalizing g with
  | nil => exact ⟨g, rfl⟩
  | cons e t ih =>
    rw [List.pairwise_cons] at hd
    obtain ⟨a1, a2, a3⟩ := h1 e (by simp)
    obtain ⟨f, hf, he⟩ : ∃ f, f ≠ EType.wio ∧ ∀ g : Graph, (g.addEdgeN e.1.1 e.1.2 .simple e.2.1).bind (fun g1 => g1.addEdgeN e.1.1 e.1.2 .had e.2.2) =
        g.addEdge e.1.1 e.1.2 f := by
      rcases h2 e (by simp) with h | h
      · exact ⟨.had, by decide, fun g => by rw [h]; simp [addEdgeN]⟩
      · exact ⟨.simple, by decide, fun g => by rw [h]; simp [addEdgeN]⟩
    obtain ⟨g1, hg1⟩ := addEdge_isSomeH hw a1 a2 a3 hf (h3 e (by simp))
    have fr := addEdge_frame hg1
    obtain ⟨g', hg'⟩ := ih (hi.addEdge hg1 a3) (addEdgeN_noWio (s := e.1.1) (t := e.1.2) (n := 1) hf (by simp [addEdgeN, hg1]) hw)
      (fun e' he' => by rw [fr.verts]; exact h1 e' (by simp [he'])) (fun e' he' => h2 e' (by simp [he']))
      (fun e' he' => by rw [fr.ty, addEdge_adj_other hg1 (hd.1 e' he')]; exact h3 e' (by simp [he'])) hd.2
    refine ⟨g', ?_⟩
    simp only [addEdgeTable, List.foldlM_cons, Option.bind_eq_bind] at hg' ⊢
    rw [he g, hg1]
    exact hg'

theorem total {g : Graph} (hg : g.HWF) {ord : ℕ → List ℕ} (ho : Rules.NbrOrder g ord) {ms : List ℕ} (h : HadOK g ms)
    (hc : ∀ v ∈ ms, ∀ a ∈ g.nbrs v, ∀ b ∈ g.nbrs v, g.adj a b ≠ none → (g.ty a).zxLike) :
    ∃ s g', hadamardToHEdge g ord ms = some s ∧ s.finish = some g' := by
  suffices hh : ∃ g', RewriteState.finish ⟨g.addPower ms.length, ms.map (entry g ord), ms, []⟩ = some g' by
    obtain ⟨g', hg'⟩ := hh
    exact ⟨_, g', start_eq ho h, hg'⟩
  have hi0 : (g.addPower ms.length).Inv := hg.toInv.congr rfl rfl rfl rfl rfl rfl
  have key : ∀ v ∈ ms, (entry g ord v).1.1 ∈ g.nbrs v ∧ (entry g ord v).1.2 ∈ g.nbrs v := by
    intro v hv
    obtain ⟨a, b, hab, hne, hn⟩ := ord_two ho h hv
    simp only [entry, hab, List.getD_cons_zero, List.getD_cons_succ, hn]
    unfold upair
    split <;> simp
  obtain ⟨g1, h1⟩ := addEdgeTable_isSomeH (g := g.addPower ms.length) (t := ms.map (entry g ord)) hi0 (fun u v => hg.noWio u v)
    (fun e he => by
      obtain ⟨a, b, c⟩ := entry_keys ho h e he
      exact ⟨(Finset.mem_sdiff.mp a).1, (Finset.mem_sdiff.mp b).1, c⟩)
    (fun e he => by
      obtain ⟨v, hv, rfl⟩ := List.mem_map.mp he
      simp only [entry]
      split <;> simp)
    (fun e he => by
      obtain ⟨v, hv, rfl⟩ := List.mem_map.mp he
      obtain ⟨k1, k2⟩ := key v hv
      by_cases hn : g.adj (entry g ord v).1.1 (entry g ord v).1.2 = none
      · exact Or.inl hn
      · exact Or.inr ⟨hc v hv _ k1 _ k2 hn, hc v hv _ k2 _ k1 (by rw [hg.symm]; exact hn)⟩)
    (by
      rw [List.pairwise_map]
      have hm : ms.Pairwise fun i j => i ∈ ms ∧ j ∈ ms := by
        rw [List.pairwise_iff_forall_sublist]
        intro a b hab
        exact ⟨hab.subset (by simp), hab.subset (by simp)⟩
      refine (h.nodup.and hm).imp fun {v w} hvw hsp => ?_
      obtain ⟨hne, hv, hw⟩ := hvw
      have hd := Finset.disjoint_left.mp (h.apart v hv w hw hne)
      rcases hsp with ⟨a, -⟩ | ⟨a, -⟩
      · exact hd (key v hv).1 (a ▸ (key w hw).1)
      · exact hd (key v hv).2 (a ▸ (key w hw).1))
  obtain ⟨hi1, hf1, -⟩ := addEdgeTable_specH h1 hi0 (entry_keys ho h)
  obtain ⟨g', h3⟩ := removeVertices_isSome hi1 h.nodup (fun v hv => by rw [hf1.verts]; exact h.mem v hv)
  refine ⟨g', ?_⟩
  unfold RewriteState.finish
  simp only
  rw [h1]
  simp only [Option.bind_some, removeEdges, List.foldlM_nil, Option.pure_def]
  exact h3

/-! ### The matcher -/

theorem match_ok {g : Graph} (hg : g.Inv) {ord : ℕ → List ℕ} (ho : Rules.NbrOrder g ord) {cands : List ℕ} (hn : cands.Nodup)
    (hc : ∀ c ∈ cands, c ∈ g.verts) : HadOK g (matchHadamards g ord cands) ∧ ∀ v ∈ matchHadamards g ord cands, v ∈ cands := by
  have key : ∀ (cs : List ℕ) (s : HadSt), cs.Nodup → (∀ c ∈ cs, c ∈ g.verts) → HadOK g s.m → (∀ c ∈ cs, c ∉ s.m) →
      (∀ v ∈ s.m, ∀ u ∈ g.nbrs v, u ∈ s.taken) →
      HadOK g (cs.foldl (hadTry g ord) s).m ∧ ∀ v ∈ (cs.foldl (hadTry g ord) s).m, v ∈ s.m ∨ v ∈ cs := by
    intro cs
    induction cs with
    | nil => intro s _ _ h _ _; exact ⟨h, fun v hv => Or.inl hv⟩
    | cons v cs ih =>
      intro s hn hv h hf ht
      rw [List.nodup_cons] at hn
      rw [List.foldl_cons]
      have skip : hadTry g ord s v = s →
          HadOK g (cs.foldl (hadTry g ord) (hadTry g ord s v)).m ∧ ∀ w ∈ (cs.foldl (hadTry g ord) (hadTry g ord s v)).m, w ∈ s.m ∨ w ∈ v :: cs := by
        intro e
        rw [e]
        obtain ⟨a, b⟩ := ih s hn.2 (fun c hc => hv c (by simp [hc])) h (fun c hc => hf c (by simp [hc])) ht
        exact ⟨a, fun w hw => (b w hw).imp id fun h => by simp [h]⟩
      by_cases h1 : g.ty v = .hbox ∧ g.degree v = 2 ∧ g.phase v = 1
      swap
      · exact skip (by unfold hadTry; rw [if_neg h1])
      obtain ⟨t1, t2, t3⟩ := h1
      have hvv := hv v (by simp)
      obtain ⟨o1, o2⟩ := ho v hvv
      have hl : (ord v).length = 2 := by rw [← List.toFinset_card_of_nodup o1, o2]; exact t2
      obtain ⟨n1, n2, hab⟩ := List.length_eq_two.mp hl
      have hnb : g.nbrs v = {n1, n2} := by rw [← o2, hab]; simp
      by_cases h2 : n1 ∈ s.taken ∨ n2 ∈ s.taken
      · exact skip (by unfold hadTry; rw [if_pos ⟨t1, t2, t3⟩, hab]; simp only; rw [if_pos h2])
      by_cases h3 : n1 ∉ s.m ∧ n2 ∉ s.m
      swap
      · exact skip (by unfold hadTry; rw [if_pos ⟨t1, t2, t3⟩, hab]; simp only; rw [if_neg h2, if_neg h3])
      have e : hadTry g ord s v = ⟨s.m ++ [v], n2 :: n1 :: s.taken⟩ := by
        unfold hadTry; rw [if_pos ⟨t1, t2, t3⟩, hab]; simp only; rw [if_neg h2, if_pos h3]
      rw [e]
      push Not at h2
      have nm : ∀ w ∈ s.m, w ∉ g.nbrs v := by
        intro w hw hh
        rw [hnb] at hh
        simp only [Finset.mem_insert, Finset.mem_singleton] at hh
        rcases hh with rfl | rfl
        · exact h3.1 hw
        · exact h3.2 hw
      have nm' : ∀ w ∈ s.m, v ∉ g.nbrs w := by
        intro w hw hh
        refine nm w hw ?_
        rw [mem_nbrs hg] at hh ⊢
        rw [hg.symm]; exact hh
      have ap : ∀ w ∈ s.m, Disjoint (g.nbrs w) (g.nbrs v) := by
        intro w hw
        rw [Finset.disjoint_left]
        intro u hu hu'
        have := ht w hw u hu
        rw [hnb] at hu'
        simp only [Finset.mem_insert, Finset.mem_singleton] at hu'
        rcases hu' with rfl | rfl
        · exact h2.1 this
        · exact h2.2 this
      have vv : v ∉ g.nbrs v := by rw [mem_nbrs hg, not_not]; exact hg.loopless v
      have hok : HadOK g (s.m ++ [v]) := by
        have mm : ∀ w, w ∈ s.m ++ [v] ↔ w ∈ s.m ∨ w = v := by simp
        refine ⟨?_, ?_, ?_, ?_, ?_, ?_, ?_⟩
        · rw [List.nodup_append]
          refine ⟨h.nodup, by simp, ?_⟩
          rintro a ha b hb rfl
          simp only [List.mem_singleton] at hb
          subst hb
          exact hf a (by simp) ha
        · intro w hw; rcases (mm w).mp hw with hw | rfl
          · exact h.mem w hw
          · exact hvv
        · intro w hw; rcases (mm w).mp hw with hw | rfl
          · exact h.ty w hw
          · exact t1
        · intro w hw; rcases (mm w).mp hw with hw | rfl
          · exact h.phase w hw
          · exact t3
        · intro w hw; rcases (mm w).mp hw with hw | rfl
          · exact h.deg w hw
          · exact t2
        · intro w hw u hu
          rcases (mm w).mp hw with hw' | rfl <;> rcases (mm u).mp hu with hu' | rfl
          · exact h.indep w hw' u hu'
          · exact nm' w hw'
          · exact nm u hu'
          · exact vv
        · intro w hw u hu hne
          rcases (mm w).mp hw with hw' | rfl <;> rcases (mm u).mp hu with hu' | rfl
          · exact h.apart w hw' u hu' hne
          · exact ap w hw'
          · exact (ap u hu').symm
          · exact absurd rfl hne
      obtain ⟨a, b⟩ := ih ⟨s.m ++ [v], n2 :: n1 :: s.taken⟩ hn.2 (fun c hc => hv c (by simp [hc])) hok (by
        intro c hc hh
        simp only [List.mem_append, List.mem_singleton] at hh
        rcases hh with hh | rfl
        · exact hf c (by simp [hc]) hh
        · exact hn.1 hc) (by
        intro w hw u hu
        simp only [List.mem_append, List.mem_singleton] at hw
        rcases hw with hw | rfl
        · simp [ht w hw u hu]
        · rw [hnb] at hu
          simp only [Finset.mem_insert, Finset.mem_singleton] at hu
          rcases hu with rfl | rfl <;> simp)
      refine ⟨a, fun w hw => ?_⟩
      rcases b w hw with hh | hh
      · simp only [List.mem_append, List.mem_singleton] at hh
        rcases hh with hh | rfl
        · exact Or.inl hh
        · exact Or.inr (by simp)
      · exact Or.inr (by simp [hh])
  have := key cands ⟨[], []⟩ hn hc ⟨by simp, by simp, by simp, by simp, by simp, by simp, by simp⟩ (by simp) (by simp)
  exact ⟨this.1, fun v hv => by simpa using this.2 v hv⟩

end HRules
end PyZX
