import Verif.Proofs.HZero

/-! # Parallel H-boxes: summing out H-boxes with white neighbours and NOT gates -/

namespace PyZX
open Finset

namespace HRules
open Graph

/-- Kernel of a NOT gate between an H-box and a spider. -/
noncomputable def notK (a b : Bool) : ℂ := if a then (if b then 0 else 1) else 1

theorem not_local {g : Graph} (hg : g.HWF) {h v w : ℕ} (hh : g.ty h = .hbox) (hn : g.IsNot h v w) (x : ℕ → Bool) :
    psum {v} (g.localH v) x = notK (x h) (x w) := by
  obtain ⟨hp, hnb, hne, hw, hc⟩ := hn
  have hs : sq2⁻¹ * sq2⁻¹ = (1 / 2 : ℂ) := by
    rw [← mul_inv, sq2_mul_self]; norm_num
  have hself : v ∉ g.nbrs v := by rw [mem_nbrs hg.toInv, not_not]; exact hg.loopless v
  have h1 : h ≠ v := by rintro rfl; exact hself (by rw [hnb]; simp)
  have h2 : w ≠ v := by rintro rfl; exact hself (by rw [hnb]; simp)
  have hset : ({v} : Finset ℕ) = insert v ∅ := by simp
  rw [hset, psum_insert (by simp), psum_empty]
  unfold localH
  rw [hnb, Finset.prod_pair hne, Finset.prod_pair hne]
  unfold notK
  rcases hc with ⟨ht, a1, a2⟩ | ⟨ht, a1, a2⟩
  · rw [hg.symm] at a1
    simp only [edgeH_some a1, edgeH_some a2, Function.update_self, Function.update_of_ne h1, Function.update_of_ne h2, ht, hh, hw]
    unfold wtH wtT
    rw [ht, hp, ph_one]
    cases x h <;> cases x w <;> simp [contr, legT, edgeMat, hmat, dmat] <;> ring_nf <;> (try rw [inv_pow, sq2_sq]) <;> norm_num
  · rw [hg.symm] at a1
    simp only [edgeH_some a1, edgeH_some a2, Function.update_self, Function.update_of_ne h1, Function.update_of_ne h2, ht, hh, hw]
    unfold wtH wtT
    rw [ht, hp, ph_one]
    cases x h <;> cases x w <;> simp [contr, legT, edgeMat, hmat, dmat] <;> ring_nf <;> (try rw [inv_pow, sq2_sq]) <;> norm_num

/-- Peeling off vertices whose neighbours in `S` are known. -/
theorem wH_peelR {g : Graph} (hg : g.Inv) (Rr : ℕ → Finset ℕ) (vs : List ℕ) (hn : vs.Nodup) {S : Finset ℕ} (hS : ∀ v ∈ vs, v ∈ S)
    (hnb : ∀ v ∈ vs, Rr v ⊆ S \ vs.toFinset) (hno : ∀ v ∈ vs, ∀ u ∈ S, u ∉ Rr v → g.adj v u = none) (x : ℕ → Bool) :
    g.wH S x = g.wH (S \ vs.toFinset) x * (vs.map fun v => g.wtH v (x v) * ∏ w ∈ Rr v, g.edgeH x v w).prod := by
  induction vs generalizing S with
  | nil => simp
  | cons v vs ih =>
    have hv := List.nodup_cons.mp hn
    have e0 : g.wH S x = g.wtH v (x v) * (∏ w ∈ S.erase v, g.edgeH x v w) * g.wH (S.erase v) x := by
      conv_lhs => rw [← Finset.insert_erase (hS v (by simp))]
      exact wH_insert hg.symm (Finset.notMem_erase v S) x
    have e1 : ∏ w ∈ S.erase v, g.edgeH x v w = ∏ w ∈ Rr v, g.edgeH x v w := by
      symm
      refine Finset.prod_subset ?_ fun w hw hw' => ?_
      · intro u hu
        have := hnb v (by simp) hu
        simp only [List.toFinset_cons, Finset.mem_sdiff, Finset.mem_insert, not_or, Finset.mem_erase] at *
        tauto
      · exact edgeH_none (hno v (by simp) w (Finset.mem_of_mem_erase hw) hw')
    rw [e0, e1, ih hv.2 (S := S.erase v)]
    · have : S.erase v \ vs.toFinset = S \ (v :: vs).toFinset := by
        ext w; simp only [List.toFinset_cons, Finset.mem_sdiff, Finset.mem_erase, Finset.mem_insert]; tauto
      rw [this]
      simp only [List.map_cons, List.prod_cons]
      ring
    · intro w hw
      refine Finset.mem_erase.mpr ⟨?_, hS w (by simp [hw])⟩
      rintro rfl; exact hv.1 hw
    · intro w hw u hu
      have := hnb w (by simp [hw]) hu
      simp only [List.toFinset_cons, Finset.mem_sdiff, Finset.mem_insert, not_or, Finset.mem_erase] at *
      tauto
    · intro w hw u hu
      exact hno w (by simp [hw]) u (Finset.mem_of_mem_erase hu)

/-- What an H-box with its NOT gates does. -/
noncomputable def boxF (p : ℚ) (R N : Finset ℕ) (t : ℕ → ℕ) (x : ℕ → Bool) : ℂ :=
  if (∀ r ∈ R, x r = true) ∧ ∀ v ∈ N, x (t v) = false then ph p else 1

/-- The local function of an H-box after its NOT gates have been summed out. -/
noncomputable def boxL (g : Graph) (h : ℕ) (R N : Finset ℕ) (t : ℕ → ℕ) (x : ℕ → Bool) : ℂ :=
  (g.wtH h (x h) * ∏ r ∈ R, g.edgeH x h r) * ∏ v ∈ N, notK (x h) (x (t v))

theorem boxL_sum {g : Graph} {h : ℕ} {R N : Finset ℕ} {t : ℕ → ℕ} (hl : HLegs g h R N t) (hR : h ∉ R) (x : ℕ → Bool) :
    psum {h} (boxL g h R N t) x = boxF (g.phase h) R N t x := by
  have ht : ∀ v ∈ N, t v ≠ h := fun v hv => (hl.isNot v hv).2.2.1.symm
  have hset : ({h} : Finset ℕ) = insert h ∅ := by simp
  rw [hset, psum_insert (by simp), psum_empty]
  have key : ∀ c, boxL g h R N t (Function.update x h c) = (if c then ph (g.phase h) - 1 else 1) *
      (if c then (if ∀ r ∈ R, x r = true then 1 else 0) else 1) * (if c then (if ∀ v ∈ N, x (t v) = false then 1 else 0) else 1) := by
    intro c
    unfold boxL
    have e : ∏ n ∈ R, g.edgeH (Function.update x h c) h n = ∏ n ∈ R, if c then (if x n = true then (1 : ℂ) else 0) else 1 := by
      refine Finset.prod_congr rfl fun n hn => ?_
      rw [white_edge hl.ty (hl.white n hn), Function.update_self, Function.update_of_ne (by rintro rfl; exact hR hn)]
    have e' : ∏ v ∈ N, notK (Function.update x h c h) (Function.update x h c (t v)) = ∏ v ∈ N, if c then (if x (t v) = false then (1 : ℂ) else 0) else 1 := by
      refine Finset.prod_congr rfl fun v hv => ?_
      rw [Function.update_self, Function.update_of_ne (ht v hv)]
      unfold notK
      cases c <;> cases x (t v) <;> simp
    rw [e, e', Function.update_self]
    congr 1
    · congr 1
      · unfold wtH wtT; rw [hl.ty]
      · cases c
        · simp
        · simp only [if_true]
          rw [Finset.prod_ite_zero]
          simp
    · cases c
      · simp
      · simp only [if_true]
        rw [Finset.prod_ite_zero]
        simp
  rw [key, key]
  unfold boxF
  by_cases ha : ∀ n ∈ R, x n = true
  · by_cases hb : ∀ v ∈ N, x (t v) = false
    · rw [if_pos (And.intro ha hb)]
      simp only [if_pos ha, if_pos hb]; simp
    · rw [if_neg (not_and_of_not_right _ hb)]
      simp only [if_neg hb]; simp
  · rw [if_neg (not_and_of_not_left _ ha)]
    simp only [if_neg ha]; simp

/-- A family of H-boxes with NOT gates, all of which can be summed out. -/
structure BoxFam (g : Graph) (A : List ℕ) (R N : ℕ → Finset ℕ) (t : ℕ → ℕ) : Prop where
  nodup : A.Nodup
  mem : ∀ h ∈ A, h ∈ g.verts
  legs : ∀ h ∈ A, HLegs g h (R h) (N h) t
  targets : ∀ h ∈ A, ∀ h' ∈ A, ∀ v ∈ N h, t v ∉ N h'

variable {g : Graph} {A : List ℕ} {R N : ℕ → Finset ℕ} {t : ℕ → ℕ}

theorem BoxFam.nty (hf : BoxFam g A R N t) {h v : ℕ} (hh : h ∈ A) (hv : v ∈ N h) : g.ty v = .X ∨ g.ty v = .Z := by
  rcases ((hf.legs h hh).isNot v hv).2.2.2.2 with ⟨e, -⟩ | ⟨e, -⟩ <;> simp [e]

theorem BoxFam.notBox (hf : BoxFam g A R N t) {h v : ℕ} (hh : h ∈ A) (hv : v ∈ N h) : v ∉ A := by
  intro hva
  have := (hf.legs v hva).ty
  rcases hf.nty hh hv with e | e <;> rw [e] at this <;> exact absurd this (by decide)

theorem BoxFam.rNotBox (hf : BoxFam g A R N t) {h v : ℕ} (hh : h ∈ A) (hv : v ∈ R h) : v ∉ A := by
  intro hva
  have := (hf.legs v hva).ty
  rcases (hf.legs h hh).white v hv with ⟨-, -, e⟩ | ⟨-, e⟩
  · exact e this
  · rw [e] at this; exact absurd this (by decide)

theorem BoxFam.tNotBox (hf : BoxFam g A R N t) {h v : ℕ} (hh : h ∈ A) (hv : v ∈ N h) : t v ∉ A := by
  intro hva
  have := (hf.legs _ hva).ty
  rw [((hf.legs h hh).isNot v hv).2.2.2.1] at this
  exact absurd this (by decide)

theorem BoxFam.owner (hg : g.HWF) (hf : BoxFam g A R N t) {h h' v : ℕ} (hh : h ∈ A) (hv : v ∈ N h) (hb : g.ty h' = .hbox) (hn : v ∈ g.nbrs h') : h' = h := by
  have h1 := (hf.legs h hh).isNot v hv
  have : h' ∈ g.nbrs v := by
    rw [mem_nbrs hg.toInv] at hn ⊢
    rwa [hg.symm]
  rw [h1.2.1] at this
  simp only [Finset.mem_insert, Finset.mem_singleton] at this
  rcases this with h | h
  · exact h
  · rw [h, h1.2.2.2.1] at hb; exact absurd hb (by decide)

theorem BoxFam.nDisj (hg : g.HWF) (hf : BoxFam g A R N t) {h h' v : ℕ} (hh : h ∈ A) (hh' : h' ∈ A) (hv : v ∈ N h) (hv' : v ∈ N h') : h' = h :=
  hf.owner hg hh hv (hf.legs h' hh').ty (by rw [(hf.legs h' hh').nbrs]; exact Finset.mem_union_right _ hv')

theorem BoxFam.rDisj (hg : g.HWF) (hf : BoxFam g A R N t) {h h' v : ℕ} (hh : h ∈ A) (hh' : h' ∈ A) (hv : v ∈ N h) : v ∉ R h' := by
  intro hv'
  have e := hf.owner hg hh hv (hf.legs h' hh').ty (by rw [(hf.legs h' hh').nbrs]; exact Finset.mem_union_left _ hv')
  subst e
  exact Finset.disjoint_left.mp (hf.legs h' hh').disj hv' hv

/-- All NOT gates of a family. -/
def nots (A : List ℕ) (N : ℕ → Finset ℕ) : Finset ℕ := A.toFinset.biUnion N

theorem mem_nots {v : ℕ} : v ∈ nots A N ↔ ∃ h ∈ A, v ∈ N h := by simp [nots]

theorem nots_list (hg : g.HWF) (hf : BoxFam g A R N t) :
    (A.flatMap fun h => (N h).toList).Nodup ∧ (A.flatMap fun h => (N h).toList).toFinset = nots A N := by
  constructor
  · rw [List.nodup_flatMap]
    refine ⟨fun h _ => Finset.nodup_toList _, ?_⟩
    have hm : A.Pairwise fun i j => i ∈ A ∧ j ∈ A := by
      rw [List.pairwise_iff_forall_sublist]
      intro a b hab
      exact ⟨hab.subset (by simp), hab.subset (by simp)⟩
    refine (hf.nodup.and hm).imp fun {a b} hx => ?_
    intro v hv hv'
    rw [Finset.mem_toList] at hv hv'
    exact hx.1 (hf.nDisj hg hx.2.1 hx.2.2 hv hv').symm
  · ext v
    simp [mem_nots]

/-- Summing out a family of H-boxes with their NOT gates. -/
theorem fam_sum (hg : g.HWF) (hf : BoxFam g A R N t) (x : ℕ → Bool) :
    psum (A.toFinset ∪ nots A N) (g.wH g.verts) x =
      g.wH (g.verts \ (A.toFinset ∪ nots A N)) x * (A.map fun h => boxF (g.phase h) (R h) (N h) t x).prod := by
  obtain ⟨hnd, hfs⟩ := nots_list hg hf
  have hAB : Disjoint A.toFinset (nots A N) := by
    rw [Finset.disjoint_left]
    intro v hv hv'
    obtain ⟨h, hh, hvn⟩ := mem_nots.mp hv'
    exact hf.notBox hh hvn (List.mem_toFinset.mp hv)
  have hmem : ∀ v, v ∈ nots A N → v ∈ g.verts := by
    intro v hv
    obtain ⟨h, hh, hvn⟩ := mem_nots.mp hv
    have : v ∈ g.nbrs h := by rw [(hf.legs h hh).nbrs]; exact Finset.mem_union_right _ hvn
    exact (Finset.mem_filter.mp this).1
  rw [psum_union hAB]
  have hB : psum (nots A N) (g.wH g.verts) = fun y => g.wH (g.verts \ (A.toFinset ∪ nots A N)) y * (A.map fun h => boxL g h (R h) (N h) t y).prod := by
    funext y
    rw [← hfs, psum_singlesH hg.toInv _ hnd]
    · rw [hfs, wH_peelR hg.toInv R A hf.nodup]
      · have e1 : (g.verts \ nots A N) \ A.toFinset = g.verts \ (A.toFinset ∪ nots A N) := by
          ext v; simp only [Finset.mem_sdiff, Finset.mem_union]; tauto
        rw [e1, mul_assoc]
        congr 1
        have e3 : (A.map fun h => boxL g h (R h) (N h) t y).prod = (A.map fun h => g.wtH h (y h) * ∏ r ∈ R h, g.edgeH y h r).prod *
            (A.map fun h => ∏ v ∈ N h, notK (y h) (y (t v))).prod := List.prod_map_mul
        rw [e3]
        congr 1
        rw [List.map_flatMap, List.flatMap_def, List.prod_flatten, List.map_map]
        congr 1
        refine List.map_congr_left fun h hh => ?_
        simp only [Function.comp_apply]
        have e2 : ((N h).toList.map fun m => psum {m} (g.localH m) y) = (N h).toList.map fun v => notK (y h) (y (t v)) := by
          refine List.map_congr_left fun v hv => ?_
          rw [Finset.mem_toList] at hv
          exact not_local hg (hf.legs h hh).ty ((hf.legs h hh).isNot v hv) y
        rw [e2, Finset.prod_map_toList]
      · intro h hh
        refine Finset.mem_sdiff.mpr ⟨hf.mem h hh, fun hc => ?_⟩
        exact Finset.disjoint_left.mp hAB (List.mem_toFinset.mpr hh) hc
      · intro h hh r hr
        have hrn : r ∈ g.nbrs h := by rw [(hf.legs h hh).nbrs]; exact Finset.mem_union_left _ hr
        refine Finset.mem_sdiff.mpr ⟨Finset.mem_sdiff.mpr ⟨(Finset.mem_filter.mp hrn).1, fun hc => ?_⟩, fun hc => ?_⟩
        · obtain ⟨h', hh', hv⟩ := mem_nots.mp hc
          exact hf.rDisj hg hh' hh hv hr
        · exact hf.rNotBox hh hr (List.mem_toFinset.mp hc)
      · intro h hh u hu hur
        by_contra hc
        have : u ∈ g.nbrs h := (mem_nbrs hg.toInv).mpr hc
        rw [(hf.legs h hh).nbrs] at this
        rcases Finset.mem_union.mp this with h1 | h1
        · exact hur h1
        · exact (Finset.mem_sdiff.mp hu).2 (mem_nots.mpr ⟨h, hh, h1⟩)
    · intro v hv
      exact hmem v (hfs ▸ List.mem_toFinset.mpr hv)
    · intro v hv v' hv' hc
      rw [← List.mem_toFinset, hfs] at hv hv'
      obtain ⟨h, hh, hvn⟩ := mem_nots.mp hv
      obtain ⟨h', hh', hvn'⟩ := mem_nots.mp hv'
      rw [((hf.legs h hh).isNot v hvn).2.1] at hc
      simp only [Finset.mem_insert, Finset.mem_singleton] at hc
      rcases hc with e | e
      · exact hf.notBox hh' hvn' (e ▸ hh)
      · exact hf.targets h hh h' hh' v hvn (e ▸ hvn')
  rw [hB]
  have hfold : A.foldr (fun i s => ({i} : Finset ℕ) ∪ s) ∅ = A.toFinset := by
    have := foldr_singletons A id
    simpa using this
  have hdisj : A.Pairwise fun i j => Disjoint ({i} : Finset ℕ) {j} := hf.nodup.imp fun {a b} hab => by simpa using hab
  have hmemP : A.Pairwise fun i j => i ∈ A ∧ j ∈ A := by
    rw [List.pairwise_iff_forall_sublist]
    intro a b hab
    exact ⟨hab.subset (by simp), hab.subset (by simp)⟩
  have hins : ∀ a ∈ A, ∀ b ∈ A, a ≠ b → Insens (boxL g a (R a) (N a) t) {b} := by
    intro a ha b hb hab y z hyz
    have ea : y a = z a := hyz a (by simpa using hab)
    unfold boxL
    rw [ea]
    congr 1
    · congr 1
      refine Finset.prod_congr rfl fun r hr => edgeH_congr_env ea (hyz r ?_)
      rw [Finset.mem_singleton]; rintro rfl; exact hf.rNotBox ha hr hb
    · refine Finset.prod_congr rfl fun v hv => ?_
      rw [hyz (t v) (by rw [Finset.mem_singleton]; rintro e; exact hf.tNotBox ha hv (e ▸ hb))]
  have hbatch := psum_batch A (fun h => {h}) (fun h => boxL g h (R h) (N h) t) (g.wH (g.verts \ (A.toFinset ∪ nots A N))) hdisj (by
      intro m hm a b hab
      refine wH_congr_env fun v hv => hab v ?_
      simp only [Finset.mem_sdiff, Finset.mem_union, not_or, List.mem_toFinset] at hv
      rw [Finset.mem_singleton]
      rintro rfl
      exact hv.2.1 hm) ((hdisj.and hmemP).imp (by
        rintro a b ⟨h1, ha, hb⟩
        rw [Finset.disjoint_singleton_right, Finset.mem_singleton] at h1
        exact ⟨hins a ha b hb fun e => h1 e.symm, hins b hb a ha h1⟩)) x
  rw [hfold] at hbatch
  rw [hbatch]
  congr 1
  congr 1
  refine List.map_congr_left fun h hh => ?_
  exact boxL_sum (hf.legs h hh) (fun hc => hf.rNotBox hh hc hh) x

end HRules
end PyZX
