import Verif.Proofs.HRules2
import Verif.Proofs.Match

/-! # Fusion of H-boxes -/

namespace PyZX
open Finset

namespace HRules
open Graph

/-- The entry of the edge table written for the neighbour `n` of the removed H-box `r`. -/
def fent (g : Graph) (k r n : ℕ) : (ℕ × ℕ) × (ℕ × ℕ) := (upair k n, if g.adj r n = some .simple then (1, 0) else (0, 1))

/-- All entries written for a match. -/
def fents (g : Graph) (ord : ℕ → List ℕ) (m : ℕ × ℕ) : ETab := ((ord m.2).filter (· ≠ m.1)).map (fent g m.1 m.2)

theorem upair_eq {a b c d : ℕ} (h : upair a b = upair c d) : (a = c ∧ b = d) ∨ (a = d ∧ b = c) := by
  unfold upair at h
  split at h <;> split at h <;> simp only [Prod.mk.injEq] at h <;> omega

theorem nbr_fold (g : Graph) (k r : ℕ) (ns : List ℕ) (hn : ns.Nodup) (t : ETab) (hf : ∀ n ∈ ns, n ≠ k → ∀ e ∈ t, e.1 ≠ upair k n) :
    ns.foldl (fuseNbr g k r) t = t ++ (ns.filter (· ≠ k)).map (fent g k r) := by
  induction ns generalizing t with
  | nil => simp
  | cons n ns ih =>
    rw [List.nodup_cons] at hn
    rw [List.foldl_cons]
    by_cases hk : n = k
    · have e1 : fuseNbr g k r t n = t := by unfold fuseNbr; rw [if_pos hk]
      rw [e1, ih hn.2 t fun n' h' => hf n' (by simp [h'])]
      simp [hk]
    · have e1 : fuseNbr g k r t n = t ++ [fent g k r n] := by
        unfold fuseNbr
        rw [if_neg hk, upd_fresh (hf n (by simp) hk)]
        rfl
      rw [e1, ih hn.2]
      · simp [hk]
      · intro n' h' hk' e he
        simp only [List.mem_append, List.mem_singleton] at he
        rcases he with he | rfl
        · exact hf n' (by simp [h']) hk' e he
        · intro heq
          rcases upair_eq heq with ⟨-, h⟩ | ⟨h, -⟩
          · exact hn.1 (h ▸ h')
          · exact hk' h.symm

theorem addPower_addPower (g : Graph) (a b : ℤ) : (g.addPower a).addPower b = g.addPower (a + b) := by
  simp [addPower, Scalar.addPower, add_assoc]

theorem fuse_fold (g : Graph) (ord : ℕ → List ℕ) (ms : List (ℕ × ℕ)) (hn : ∀ m ∈ ms, (ord (orient g m).2).Nodup) (s : RewriteState)
    (hf : ∀ m ∈ ms, ∀ e ∈ fents g ord (orient g m), ∀ e' ∈ s.etab, e'.1 ≠ e.1)
    (hd : ms.Pairwise fun m m' => ∀ e ∈ fents g ord (orient g m), ∀ e' ∈ fents g ord (orient g m'), e.1 ≠ e'.1) :
    ms.foldl (fuseStep g ord) s = { s with
      g := s.g.addPower ms.length
      remVerts := s.remVerts ++ ms.map fun m => (orient g m).2
      etab := s.etab ++ ms.flatMap fun m => fents g ord (orient g m) } := by
  induction ms generalizing s with
  | nil => simp [addPower, Scalar.addPower]
  | cons m ms ih =>
    rw [List.pairwise_cons] at hd
    rw [List.foldl_cons]
    have e1 : fuseStep g ord s m = { s with
        g := s.g.addPower 1
        remVerts := s.remVerts ++ [(orient g m).2]
        etab := s.etab ++ fents g ord (orient g m) } := by
      unfold fuseStep
      rw [nbr_fold g _ _ _ (hn m (by simp))]
      · rfl
      · intro n h1 h2 e he
        refine hf m (by simp) (fent g (orient g m).1 (orient g m).2 n) ?_ e he
        exact List.mem_map.mpr ⟨n, by simp [h1, h2], rfl⟩
    rw [e1, ih (fun m' h' => hn m' (by simp [h'])) _ _ hd.2]
    · simp only [addPower_addPower, List.append_assoc, List.map_cons, List.flatMap_cons, List.singleton_append, List.length_cons, Nat.cast_add,
        Nat.cast_one, add_comm]
    · intro m' h' e he e' he'
      simp only [List.mem_append] at he'
      rcases he' with he' | he'
      · exact hf m' (by simp [h']) e he e' he'
      · exact hd.1 m' h' e' he' e he

/-- The vertices of a match. -/
theorem _root_.PyZX.Graph.FuseOK.mem {g : Graph} (hg : g.Inv) {os : List (ℕ × ℕ)} (h : FuseOK g os) {m : ℕ × ℕ} (hm : m ∈ os) : m.1 ∈ g.verts ∧ m.2 ∈ g.verts :=
  ⟨hg.mem m.1 m.2 (by rw [h.edge m hm]; simp), hg.mem' (u := m.1) (by rw [h.edge m hm]; simp)⟩

theorem fents_mem {g : Graph} (hg : g.Inv) {ord : ℕ → List ℕ} (ho : Rules.NbrOrder g ord) {os : List (ℕ × ℕ)} (h : FuseOK g os) {m : ℕ × ℕ} (hm : m ∈ os)
    {e : (ℕ × ℕ) × (ℕ × ℕ)} (he : e ∈ fents g ord m) : ∃ n, g.adj m.2 n ≠ none ∧ n ≠ m.1 ∧ e = fent g m.1 m.2 n := by
  obtain ⟨n, hn, rfl⟩ := List.mem_map.mp he
  simp only [List.mem_filter, decide_eq_true_eq] at hn
  refine ⟨n, ?_, hn.2, rfl⟩
  rw [← mem_nbrs hg, ← (ho m.2 (h.mem hg hm).2).2]
  exact List.mem_toFinset.mpr hn.1

theorem fents_fresh {g : Graph} (hg : g.Inv) {ord : ℕ → List ℕ} (ho : Rules.NbrOrder g ord) {os : List (ℕ × ℕ)} (h : FuseOK g os) {m m' : ℕ × ℕ}
    (hm : m ∈ os) (hm' : m' ∈ os) (hne : m ≠ m') {e e' : (ℕ × ℕ) × (ℕ × ℕ)} (he : e ∈ fents g ord m) (he' : e' ∈ fents g ord m') : e.1 ≠ e'.1 := by
  obtain ⟨n, a1, -, rfl⟩ := fents_mem hg ho h hm he
  obtain ⟨n', a1', -, rfl⟩ := fents_mem hg ho h hm' he'
  intro heq
  rcases upair_eq heq with ⟨hk, -⟩ | ⟨hk, hk'⟩
  · exact (h.disj m hm m' hm' hne).1 hk
  · subst hk'
    rw [← hk] at a1'
    exact h.uncrossed m hm m' hm' hne ⟨a1, a1'⟩

theorem pairwise_mem {α : Type*} (ms : List α) : ms.Pairwise fun i j => i ∈ ms ∧ j ∈ ms := by
  rw [List.pairwise_iff_forall_sublist]
  intro a b hab
  exact ⟨hab.subset (by simp), hab.subset (by simp)⟩

theorem fuse_eq {g : Graph} (hg : g.Inv) {ord : ℕ → List ℕ} (ho : Rules.NbrOrder g ord) {ms : List (ℕ × ℕ)} (h : FuseOK g (ms.map (orient g))) :
    fuseHboxes g ord ms = ⟨g.addPower (ms.map (orient g)).length, (ms.map (orient g)).flatMap (fents g ord), (ms.map (orient g)).map Prod.snd, []⟩ := by
  unfold fuseHboxes
  have hmm : ∀ m ∈ ms, orient g m ∈ ms.map (orient g) := fun m hm => List.mem_map.mpr ⟨m, hm, rfl⟩
  rw [fuse_fold]
  · simp [RewriteState.start, List.flatMap_map, Function.comp_def]
  · intro m hm
    exact (ho _ (h.mem hg (hmm m hm)).2).1
  · intro m _ e _ e' he'
    simp [RewriteState.start] at he'
  · have hp : (ms.map (orient g)).Pairwise fun m m' => ∀ e ∈ fents g ord m, ∀ e' ∈ fents g ord m', e.1 ≠ e'.1 :=
      (h.nodup.and (pairwise_mem _)).imp fun {m m'} hx e he e' he' => fents_fresh hg ho h hx.2.1 hx.2.2 hx.1 he he'
    rw [List.pairwise_map] at hp
    exact hp

theorem fuse_contr (c : Bool) (P0 P1 : ℂ) :
    contr .had (legT .hbox false) (legT .hbox c) * P0 - 2 * (contr .had (legT .hbox true) (legT .hbox c) * P1) = sq2 * (if c then P1 else P0) := by
  have hs : sq2⁻¹ * sq2⁻¹ = (1 / 2 : ℂ) := by
    rw [← mul_inv, sq2_mul_self]; norm_num
  have hi : sq2 * sq2⁻¹ = 1 := mul_inv_cancel₀ sq2_ne_zero
  have hsq : sq2 = 2 * sq2⁻¹ := by
    have := sq2_mul_self
    linear_combination sq2⁻¹ * this - sq2 * hi
  cases c
  · simp [contr, legT, edgeMat, hmat]
    exact Or.inl (by linear_combination -hsq)
  · simp [contr, legT, edgeMat, hmat]
    linear_combination (-P1) * hsq

theorem keyH_fent {g : Graph} {k r n : ℕ} {e : EType} (hw : e ≠ .wio) (he : g.adj r n = some e) (x : ℕ → Bool) :
    g.keyH x (fent g k r n).1 (fent g k r n).2 = contr e (legT (g.ty k) (x k)) (legT (g.ty n) (x n)) := by
  have hsw : ∀ e, contr e (legT (g.ty (upair k n).1) (x (upair k n).1)) (legT (g.ty (upair k n).2) (x (upair k n).2)) =
      contr e (legT (g.ty k) (x k)) (legT (g.ty n) (x n)) := by
    intro e
    unfold upair
    split
    · rfl
    · exact contr_comm _ _ _
  unfold keyH fent
  rw [hsw, hsw, he]
  cases e
  · simp
  · simp
  · exact absurd rfl hw

/-- The local sum at a removed H-box. -/
theorem fuse_local {g : Graph} (hg : g.HWF) {ord : ℕ → List ℕ} (ho : Rules.NbrOrder g ord) {os : List (ℕ × ℕ)} (h : FuseOK g os) {m : ℕ × ℕ} (hm : m ∈ os)
    (x : ℕ → Bool) : psum {m.2} (g.localH m.2) x = sq2 * ((fents g ord m).map fun e => g.keyH x e.1 e.2).prod := by
  obtain ⟨k, r⟩ := m
  have hrv := (h.mem hg.toInv hm).2
  have hadj : g.adj r k = some .had := by rw [hg.symm]; exact h.edge _ hm
  obtain ⟨tk, tr⟩ := h.hbox _ hm
  have hph := h.phase _ hm
  simp only at hrv tk tr hph ⊢
  have hk : k ∈ g.nbrs r := by rw [mem_nbrs hg.toInv, hadj]; simp
  have hkr : k ≠ r := by rintro rfl; rw [hg.loopless] at hadj; exact absurd hadj (by simp)
  have hself : ∀ w ∈ (g.nbrs r).erase k, w ≠ r := by
    rintro w hw rfl
    exact (mem_nbrs hg.toInv).mp (Finset.mem_of_mem_erase hw) (hg.loopless _)
  obtain ⟨hnd, hfs⟩ := ho r hrv
  have hprod : ((fents g ord (k, r)).map fun e => g.keyH x e.1 e.2).prod = ∏ w ∈ (g.nbrs r).erase k, g.edgeH (Function.update x r (x k)) r w := by
    have hset : (g.nbrs r).erase k = ((ord r).filter (· ≠ k)).toFinset := by
      ext w
      rw [← hfs]
      simp [and_comm]
    rw [hset, List.prod_toFinset _ (hnd.filter _)]
    unfold fents
    rw [List.map_map]
    congr 1
    refine List.map_congr_left fun w hw => ?_
    have hw' : w ∈ (g.nbrs r).erase k := by rw [hset]; exact List.mem_toFinset.mpr hw
    have hn := (mem_nbrs hg.toInv).mp (Finset.mem_of_mem_erase hw')
    obtain ⟨e, he⟩ := Option.ne_none_iff_exists'.mp hn
    simp only [Function.comp_apply]
    rw [keyH_fent (by rintro rfl; exact hg.noWio _ _ he) he, edgeH_some he, tk, tr, Function.update_self, Function.update_of_ne (hself w hw')]
  have hset : ({r} : Finset ℕ) = insert r ∅ := by simp
  rw [hset, psum_insert (by simp), psum_empty, hprod]
  unfold localH
  simp only [← Finset.mul_prod_erase _ _ hk, edgeH_some hadj, Function.update_self, Function.update_of_ne hkr, tk, tr]
  unfold wtH wtT
  rw [tr, hph]
  simp only [Bool.false_eq_true, if_false, if_true, ph_one]
  have key := fuse_contr (x k) (∏ w ∈ (g.nbrs r).erase k, g.edgeH (Function.update x r false) r w)
    (∏ w ∈ (g.nbrs r).erase k, g.edgeH (Function.update x r true) r w)
  have hif : (∏ w ∈ (g.nbrs r).erase k, g.edgeH (Function.update x r (x k)) r w) =
      if x k then (∏ w ∈ (g.nbrs r).erase k, g.edgeH (Function.update x r true) r w)
      else (∏ w ∈ (g.nbrs r).erase k, g.edgeH (Function.update x r false) r w) := by
    cases x k <;> simp
  rw [hif, ← key]
  ring

theorem fuse_keys {g : Graph} (hg : g.Inv) {ord : ℕ → List ℕ} (ho : Rules.NbrOrder g ord) {os : List (ℕ × ℕ)} (h : FuseOK g os) :
    ∀ e ∈ os.flatMap (fents g ord), e.1.1 ∈ g.verts \ (os.map Prod.snd).toFinset ∧ e.1.2 ∈ g.verts \ (os.map Prod.snd).toFinset ∧ e.1.1 ≠ e.1.2 := by
  intro e he
  obtain ⟨m, hm, he⟩ := List.mem_flatMap.mp he
  obtain ⟨n, hn, hk, rfl⟩ := fents_mem hg ho h hm he
  have h1 : m.1 ∈ g.verts \ (os.map Prod.snd).toFinset := by
    refine Finset.mem_sdiff.mpr ⟨(h.mem hg hm).1, fun hc => ?_⟩
    obtain ⟨m', hm', hc⟩ := List.mem_map.mp (List.mem_toFinset.mp hc)
    by_cases hmm : m = m'
    · have := h.edge m hm
      rw [← hc, ← hmm, hg.loopless] at this
      exact absurd this (by simp)
    · exact (h.disj m hm m' hm' hmm).2.1 hc.symm
  have h2 : n ∈ g.verts \ (os.map Prod.snd).toFinset := by
    refine Finset.mem_sdiff.mpr ⟨hg.mem' hn, fun hc => ?_⟩
    obtain ⟨m', hm', hc⟩ := List.mem_map.mp (List.mem_toFinset.mp hc)
    rw [← hc] at hn
    exact hn (h.apart m hm m' hm')
  simp only [fent]
  unfold upair
  split
  · exact ⟨h1, h2, fun e => hk e.symm⟩
  · exact ⟨h2, h1, hk⟩

theorem fuse_rems {g : Graph} {os : List (ℕ × ℕ)} (h : FuseOK g os) : (os.map Prod.snd).Nodup := by
  rw [List.nodup_iff_pairwise_ne, List.pairwise_map]
  exact (h.nodup.and (pairwise_mem _)).imp fun {m m'} hx => (h.disj m hx.2.1 m' hx.2.2 hx.1).2.2.2

theorem fuse_sound {g : Graph} (hg : g.HWF) {ord : ℕ → List ℕ} (ho : Rules.NbrOrder g ord) {ms : List (ℕ × ℕ)} (h : FuseOK g (ms.map (orient g)))
    {g' : Graph} (hfin : (fuseHboxes g ord ms).finish = some g') :
    HPreserves g g' ∧ g'.verts = g.verts \ (ms.map fun m => (orient g m).2).toFinset := by
  rw [fuse_eq hg.toInv ho h] at hfin
  have hmm : (ms.map fun m => (orient g m).2) = (ms.map (orient g)).map Prod.snd := by simp
  rw [hmm]
  generalize ms.map (orient g) = os at *
  refine rule_soundH hg (fuse_rems h) ?_ ?_ ?_ (fuse_keys hg.toInv ho h) (fun x => ?_) hfin
  · intro v hv
    obtain ⟨m, hm, rfl⟩ := List.mem_map.mp hv
    exact (h.mem hg.toInv hm).2
  · intro v hv
    obtain ⟨m, hm, rfl⟩ := List.mem_map.mp hv
    exact (h.hbox m hm).2
  · intro v hv w hw
    obtain ⟨m, hm, rfl⟩ := List.mem_map.mp hv
    obtain ⟨m', hm', rfl⟩ := List.mem_map.mp hw
    rw [mem_nbrs hg.toInv, not_not]
    exact h.apart m hm m' hm'
  · have e1 : ((os.map Prod.snd).map fun v => psum {v} (g.localH v) x) = os.map fun m => sq2 * ((fents g ord m).map fun e => g.keyH x e.1 e.2).prod := by
      rw [List.map_map]
      exact List.map_congr_left fun m hm => fuse_local hg ho h hm x
    rw [e1, List.prod_map_mul, List.map_flatMap, List.flatMap_def, List.prod_flatten, List.map_map]
    have e2 : (os.map fun _ => sq2).prod = sq2 ^ (os.length : ℤ) := by simp
    rw [e2]
    rfl

theorem fuse_total {g : Graph} (hg : g.HWF) {ord : ℕ → List ℕ} (ho : Rules.NbrOrder g ord) {ms : List (ℕ × ℕ)} (h : FuseOK g (ms.map (orient g)))
    (hc : ∀ m ∈ ms, ∀ n, g.adj m.1 n ≠ none → g.adj m.2 n = none) : ∃ g', (fuseHboxes g ord ms).finish = some g' := by
  rw [fuse_eq hg.toInv ho h]
  have hc' : ∀ m ∈ ms.map (orient g), ∀ n, g.adj m.2 n ≠ none → g.adj m.1 n = none := by
    intro m hm n hn
    obtain ⟨m0, hm0, rfl⟩ := List.mem_map.mp hm
    unfold orient at hn ⊢
    split
    · rename_i hp
      rw [if_pos hp] at hn
      by_contra hx
      rw [hc m0 hm0 n hn] at hx
      exact hx rfl
    · rename_i hp
      rw [if_neg hp] at hn
      by_contra hx
      exact hn (hc m0 hm0 n hx)
  set os := ms.map (orient g)
  have hi0 : (g.addPower os.length).Inv := hg.toInv.congr rfl rfl rfl rfl rfl rfl
  have hd : (os.flatMap (fents g ord)).Pairwise fun e f => ¬ SamePair f.1 e.1 := by
    have hle : ∀ e ∈ os.flatMap (fents g ord), e.1.1 ≤ e.1.2 := by
      intro e he
      obtain ⟨m, hm, he⟩ := List.mem_flatMap.mp he
      obtain ⟨n, -, -, rfl⟩ := fents_mem hg.toInv ho h hm he
      simp only [fent]
      unfold upair
      split <;> simp only <;> omega
    have hne : (os.flatMap (fents g ord)).Pairwise fun e f => e.1 ≠ f.1 := by
      rw [List.pairwise_flatMap]
      refine ⟨fun m hm => ?_, (h.nodup.and (pairwise_mem _)).imp fun {m m'} hx e he e' he' => fents_fresh hg.toInv ho h hx.2.1 hx.2.2 hx.1 he he'⟩
      unfold fents
      rw [List.pairwise_map]
      have hnd := ((ho m.2 (h.mem hg.toInv hm).2).1).filter (fun n => decide (n ≠ m.1))
      refine (hnd.and (pairwise_mem _)).imp fun {a b} hx heq => ?_
      rcases upair_eq heq with ⟨-, hab⟩ | ⟨hab, -⟩
      · exact hx.1 hab
      · have := (List.mem_filter.mp hx.2.2).2
        simp only [decide_eq_true_eq] at this
        exact this hab.symm
    refine (hne.and (pairwise_mem _)).imp fun {e f} hx hsp => ?_
    have h1 := hle e hx.2.1
    have h2 := hle f hx.2.2
    rcases hsp with ⟨a, b⟩ | ⟨a, b⟩
    · exact hx.1 (Prod.ext a.symm b.symm)
    · exact (hx.1 (Prod.ext (by omega) (by omega)))
  obtain ⟨g1, h1⟩ := addEdgeTable_isSomeH (g := g.addPower os.length) (t := os.flatMap (fents g ord)) hi0 (fun u v => hg.noWio u v)
    (fun e he => by
      obtain ⟨a, b, c⟩ := fuse_keys hg.toInv ho h e he
      exact ⟨(Finset.mem_sdiff.mp a).1, (Finset.mem_sdiff.mp b).1, c⟩)
    (fun e he => by
      obtain ⟨m, hm, he⟩ := List.mem_flatMap.mp he
      obtain ⟨n, -, -, rfl⟩ := fents_mem hg.toInv ho h hm he
      simp only [fent]
      split <;> simp)
    (fun e he => by
      obtain ⟨m, hm, he⟩ := List.mem_flatMap.mp he
      obtain ⟨n, hn, -, rfl⟩ := fents_mem hg.toInv ho h hm he
      refine Or.inl ?_
      have := hc' m hm n hn
      simp only [fent]
      unfold upair
      split
      · exact this
      · exact (hg.symm n m.1).trans this)
    hd
  obtain ⟨hi1, hf1, -⟩ := addEdgeTable_specH h1 hi0 (fuse_keys hg.toInv ho h)
  obtain ⟨g', h3⟩ := removeVertices_isSome hi1 (fuse_rems h) (fun v hv => by
    obtain ⟨m, hm, rfl⟩ := List.mem_map.mp hv
    rw [hf1.verts]; exact (h.mem hg.toInv hm).2)
  refine ⟨g', ?_⟩
  unfold RewriteState.finish
  simp only
  rw [h1]
  simp only [Option.bind_some, removeEdges, List.foldlM_nil, Option.pure_def]
  exact h3

end HRules
end PyZX
