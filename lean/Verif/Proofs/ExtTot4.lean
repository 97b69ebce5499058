import Verif.Proofs.ExtTot3
import Mathlib.LinearAlgebra.Matrix.NonsingularInverse
import Mathlib.LinearAlgebra.Dimension.Constructions

/-!
# Circuit extraction does not get stuck: the biadjacency matrix is invertible
-/

namespace PyZX

open Finset

namespace Graph

/-- Rows that add up to zero do not influence the sign. -/
theorem mSign_flip {r c : ℕ} {m : Mat2.Data} {T : ℕ → Bool}
    (hT : ∀ j < c, ∏ i ∈ Finset.range r, (if T i then bsgn (Mat2.get m i j) else 1) = 1) (Y X : ℕ → Bool) :
    mSign r c m (fun i => xor (Y i) (T i)) X = mSign r c m Y X := by
  have h1 : ∏ i ∈ Finset.range r, (if T i then rowSign c m X i else 1) = 1 := by
    have e : ∀ i ∈ Finset.range r, (if T i then rowSign c m X i else 1) =
        ∏ j ∈ Finset.range c, (if X j then (if T i then bsgn (Mat2.get m i j) else 1) else 1) := by
      intro i _
      unfold rowSign
      cases hTi : T i
      · simp
      · simp only [if_true]
        refine Finset.prod_congr rfl fun j _ => ?_
        cases X j <;> simp [bsgn]
    rw [Finset.prod_congr rfl e, Finset.prod_comm]
    refine Finset.prod_eq_one fun j hj => ?_
    cases X j
    · simp
    · simpa using hT j (Finset.mem_range.mp hj)
  have h2 : ∏ i ∈ Finset.range r, (if Y i = true then rowSign c m X i else 1) =
      (∏ i ∈ Finset.range r, (if Y i = true then rowSign c m X i else 1)) * ∏ i ∈ Finset.range r, (if T i then rowSign c m X i else 1) := by
    rw [h1, mul_one]
  rw [mSign_eq, mSign_eq, h2, ← Finset.prod_mul_distrib]
  clear h1 h2
  refine Finset.prod_congr rfl fun i _ => ?_
  have := rowSign_sq c m X i
  cases Y i <;> cases T i <;> simp [this]

theorem theta_flip {g : Graph} {fs ns : List ℕ} {out : ℕ → ℕ} {m : Mat2.Data} (h : FrontForm g fs.toFinset ns.toFinset out) {T : ℕ → Bool}
    (hT : ∀ j < ns.length, ∏ i ∈ Finset.range fs.length, (if T i then bsgn (Mat2.get m i j) else 1) = 1) {b b' : ℕ → Bool}
    (h1 : ∀ u, (∀ f ∈ fs, u ≠ out f) → b' u = b u) (h2 : ∀ i < fs.length, b' (out (fs.getD i 0)) = xor (b (out (fs.getD i 0))) (T i)) :
    theta g fs ns out m b' = theta g fs ns out m b := by
  unfold theta psum
  refine Finset.sum_congr rfl fun S _ => ?_
  have hs : ∀ u, (∀ f ∈ fs, u ≠ out f) → setOn (g.interior \ fs.toFinset) S b' u = setOn (g.interior \ fs.toFinset) S b u := by
    intro u hu
    unfold setOn
    rw [h1 u hu]
  refine congrArg₂ (· * ·) ?_ ?_
  · refine wOn_congr_env fun v hv => hs v fun f hf hc => ?_
    exact (Finset.mem_sdiff.mp hv).2 (Finset.mem_union_right _ (Finset.mem_image.mpr ⟨f, List.mem_toFinset.mpr hf, hc.symm⟩))
  · rw [← mSign_flip hT]
    unfold mSign
    refine Finset.prod_congr rfl fun i hi => Finset.prod_congr rfl fun j hj => ?_
    have hj := Finset.mem_range.mp hj
    simp only
    rw [h2 i (Finset.mem_range.mp hi), hs, Bool.xor_assoc, Bool.xor_self, Bool.xor_false]
    intro f hf hc
    have hm : ns.getD j 0 ∈ ns.toFinset := by rw [List.mem_toFinset, List.getD_eq_getElem _ _ hj]; exact List.getElem_mem hj
    have h3 := (h.nbZ _ hm).2
    rw [hc, (h.leaf f (List.mem_toFinset.mpr hf)).bnd] at h3
    simp at h3

theorem Onto.sep {g : Graph} (h : g.Onto) {y y' : ℕ → Bool} (e : ∀ x, g.mat x y = g.mat x y') {q : ℕ} (hq : q < g.outputs.length) : y q = y' q := by
  by_contra hne
  have h1 : ∀ ψ ∈ Submodule.span ℂ (Set.range g.mat), ψ y = ψ y' := by
    intro ψ hψ
    induction hψ using Submodule.span_induction with
    | mem ψ h => obtain ⟨x, rfl⟩ := h; exact e x
    | zero => rfl
    | add a b _ _ ha hb => rw [Pi.add_apply, Pi.add_apply, ha, hb]
    | smul k a _ ha => rw [Pi.smul_apply, Pi.smul_apply, ha]
  have h2 := h1 _ (h y)
  unfold basisState at h2
  rw [if_pos (fun _ _ => rfl), if_neg (fun hc => hne (hc q hq).symm)] at h2
  simp at h2

end Graph

namespace Extract

open Graph Simplify

/-- The rows of the biadjacency matrix of the frontier are independent. -/
theorem rows_indep {g : Graph} (hg : g.WF) (hio : g.IO) (hon : g.Onto) {qmap : ℕ → Option ℕ} {fs ns : List ℕ} (hf : fs.Nodup) (hn : ns.Nodup)
    (h : FrontForm g fs.toFinset ns.toFinset (outOf g qmap)) (hq : ∀ f ∈ fs, ∃ q o, qmap f = some q ∧ g.outputs[q]? = some o) {T : ℕ → Bool}
    (hT : ∀ j < ns.length, ∏ i ∈ Finset.range fs.length, (if T i then bsgn (Mat2.get (GFlow.biAdj g ns fs) i j) else 1) = 1) :
    ∀ i < fs.length, T i = false := by
  intro i hi
  obtain ⟨k, -, e⟩ := sem_theta hg hf hn h
  -- the bits of the outputs
  classical
  obtain ⟨y', hy'⟩ : ∃ y' : ℕ → Bool, y' = fun q => decide (∃ i < fs.length, T i = true ∧ qmap (fs.getD i 0) = some q) := ⟨_, rfl⟩
  have key : ∀ i < fs.length, ∀ q, qmap (fs.getD i 0) = some q → y' q = T i := by
    intro i hi q hqi
    rw [hy']
    simp only
    cases hTi : T i
    · rw [decide_eq_false_iff_not]
      rintro ⟨i', hi', h1, h2⟩
      obtain ⟨q1, o1, a1, a2⟩ := hq _ (getD_mem hi)
      obtain ⟨q2, o2, b1, b2⟩ := hq _ (getD_mem hi')
      rw [hqi, Option.some.injEq] at a1
      rw [h2, Option.some.injEq] at b1
      subst a1
      subst b1
      rw [a2, Option.some.injEq] at b2
      subst b2
      have := getD_inj hf hi hi' (h.inj (List.mem_toFinset.mpr (getD_mem hi)) (List.mem_toFinset.mpr (getD_mem hi')) (by
        rw [outOf_eq hqi a2, outOf_eq h2 a2]))
      rw [this, h1] at hTi
      simp at hTi
    · rw [decide_eq_true_eq]
      exact ⟨i, hi, hTi, hqi⟩
  have hmat : ∀ x, g.mat x y' = g.mat x fun _ => false := by
    intro x
    show g.sem _ = g.sem _
    rw [e, e]
    congr 1
    refine theta_flip h hT (fun u hu => ?_) fun i hi => ?_
    · unfold bval
      by_cases c1 : u ∈ g.inputs
      · rw [if_pos c1, if_pos c1]
      rw [if_neg c1, if_neg c1]
      rw [hy', decide_eq_false_iff_not]
      rintro ⟨i', hi', h1, h2⟩
      obtain ⟨q2, o2, b1, b2⟩ := hq _ (getD_mem hi')
      rw [h2, Option.some.injEq] at b1
      subst b1
      by_cases c2 : u ∈ g.outputs
      · have := List.idxOf_lt_length_of_mem c2
        have h3 : g.outputs[g.outputs.idxOf u]? = some u := by
          rw [List.getElem?_eq_getElem this]; simp
        rw [h3, Option.some.injEq] at b2
        exact hu _ (getD_mem hi') (by rw [outOf_eq h2 h3])
      · have := List.idxOf_eq_length c2
        have h4 := (List.getElem?_eq_some_iff.mp b2).1
        omega
    · obtain ⟨q1, o1, a1, a2⟩ := hq _ (getD_mem hi)
      rw [outOf_eq a1 a2, bval_out hio a2, bval_out hio a2, key i hi q1 a1]
      simp
  obtain ⟨q1, o1, a1, a2⟩ := hq _ (getD_mem hi)
  rw [← key i hi q1 a1]
  exact hon.sep hmat (List.getElem?_eq_some_iff.mp a2).1

/-! ### Counting -/

/-- There are at most as many spiders that are next to an input but not next to an output as frontier spiders. -/
theorem count_far {g : Graph} (h : GLike g) {fr : List ℕ} (hfin : FinP g fr) (hlen : g.inputs.length = g.outputs.length)
    (hfn : fr.Nodup) {ns : List ℕ} (hn : ns.Nodup) (hfar : ∀ w ∈ ns, Far g w) (hin : ∀ w ∈ ns, ∃ i ∈ g.inputs, g.adj w i ≠ none) :
    ns.length ≤ fr.length := by
  have hw := h.zx.wf
  have hbo : ∀ o ∈ g.outputs, g.ty o = .boundary := fun o ho => hw.io o (Or.inr ho)
  have hbi : ∀ i ∈ g.inputs, g.ty i = .boundary := fun i hi => hw.io i (Or.inl hi)
  -- the relation
  let R : ℕ ⊕ ℕ → ℕ ⊕ ℕ → Prop := fun a t => match a, t with
    | .inl o, .inr v => v ∈ fr ∧ g.adj v o ≠ none
    | .inl o, .inl i => i ∈ g.inputs ∧ (g.adj i o ≠ none ∨ ∃ v, g.ty v = .Z ∧ g.adj v o ≠ none ∧ g.adj v i ≠ none)
    | .inr w, .inl i => i ∈ g.inputs ∧ g.adj w i ≠ none
    | .inr _, .inr _ => False
  have hex : ∀ a ∈ g.outputs.toFinset.disjSum ns.toFinset, ∃ t ∈ g.inputs.toFinset.disjSum fr.toFinset, R a t := by
    intro a ha
    rcases a with o | w
    · rw [Finset.inl_mem_disjSum, List.mem_toFinset] at ha
      obtain ⟨z, hz⟩ := h.zx.badj o (hw.out o ha) (hbo o ha)
      have hz' : g.adj z o ≠ none := by rw [hw.symm]; exact hz
      have hzm := hw.toInv.mem' hz
      by_cases c1 : z ∈ fr
      · exact ⟨.inr z, by rw [Finset.inr_mem_disjSum, List.mem_toFinset]; exact c1, c1, hz'⟩
      rcases h.tys z hzm with h1 | h1
      · rcases h.io.all z hzm h1 with h2 | h2
        · exact ⟨.inl z, by rw [Finset.inl_mem_disjSum, List.mem_toFinset]; exact h2, h2, Or.inl hz'⟩
        · exact absurd (h.oo o z ha h2) hz
      · rcases hfin z h1 o ha hz' with h2 | ⟨-, i, h2, h3⟩
        · exact absurd h2 c1
        · exact ⟨.inl i, by rw [Finset.inl_mem_disjSum, List.mem_toFinset]; exact h2, h2, Or.inr ⟨z, h1, hz', h3⟩⟩
    · rw [Finset.inr_mem_disjSum, List.mem_toFinset] at ha
      obtain ⟨i, h1, h2⟩ := hin w ha
      exact ⟨.inl i, by rw [Finset.inl_mem_disjSum, List.mem_toFinset]; exact h1, h1, h2⟩
  have huniq : ∀ i ∈ g.inputs, ∀ x y, g.adj x i ≠ none → g.adj y i ≠ none → x = y := fun i hi x y hx hy =>
    h.zx.bdeg i (hw.inp i hi) (hbi i hi) x y (by rw [hw.symm]; exact hx) (by rw [hw.symm]; exact hy)
  have hOI : ∀ o ∈ g.outputs, ∀ i ∈ g.inputs, ∀ v, g.ty v = .Z → g.adj i o ≠ none → g.adj v i ≠ none → False := by
    intro o ho i hi v hv h1 h2
    have := huniq i hi o v (by rw [hw.symm]; exact h1) h2
    rw [← this, hbo o ho] at hv; simp at hv
  have hinj : ∀ a ∈ g.outputs.toFinset.disjSum ns.toFinset, ∀ a' ∈ g.outputs.toFinset.disjSum ns.toFinset, ∀ t, R a t → R a' t → a = a' := by
    have hOO : ∀ o ∈ g.outputs, ∀ o' ∈ g.outputs, ∀ t, R (.inl o) t → R (.inl o') t → o = o' := by
      intro o ho o' ho' t r r'
      rcases t with i | v
      · obtain ⟨hi, r⟩ := r
        obtain ⟨-, r'⟩ := r'
        rcases r with r | ⟨v, v1, v2, v3⟩
        · rcases r' with r' | ⟨v', v1', v2', v3'⟩
          · exact huniq i hi o o' (by rw [hw.symm]; exact r) (by rw [hw.symm]; exact r')
          · exact (hOI o ho i hi v' v1' r v3').elim
        · rcases r' with r' | ⟨v', v1', v2', v3'⟩
          · exact (hOI o' ho' i hi v v1 r' v3).elim
          · have := huniq i hi v v' v3 v3'
            subst this
            exact h.out1 v o o' ho ho' v2 v2'
      · exact h.out1 v o o' ho ho' r.2 r'.2
    have hOW : ∀ o ∈ g.outputs, ∀ w ∈ ns, ∀ t, R (.inl o) t → R (.inr w) t → False := by
      intro o ho w hwn t r r'
      rcases t with i | v
      · obtain ⟨hi, r⟩ := r
        obtain ⟨-, r'⟩ := r'
        rcases r with r | ⟨v, v1, v2, v3⟩
        · exact hOI o ho i hi w (hfar w hwn).1 r r'
        · have := huniq i hi v w v3 r'
          subst this
          exact v2 ((hfar v hwn).2 o ho)
      · exact r'
    intro a ha a' ha' t r r'
    rcases a with o | w <;> rcases a' with o' | w'
    · rw [Finset.inl_mem_disjSum, List.mem_toFinset] at ha ha'
      rw [hOO o ha o' ha' t r r']
    · rw [Finset.inl_mem_disjSum, List.mem_toFinset] at ha
      rw [Finset.inr_mem_disjSum, List.mem_toFinset] at ha'
      exact (hOW o ha w' ha' t r r').elim
    · rw [Finset.inr_mem_disjSum, List.mem_toFinset] at ha
      rw [Finset.inl_mem_disjSum, List.mem_toFinset] at ha'
      exact (hOW o' ha' w ha t r' r).elim
    · rcases t with i | v
      · rw [huniq i r.1 w w' r.2 r'.2]
      · exact r.elim
  choose! F hF1 hF2 using hex
  have hcard := Finset.card_le_card_of_injOn F hF1 (fun a ha a' ha' e => by
    refine hinj a ha a' ha' (F a) (hF2 a ha) ?_
    rw [e]; exact hF2 a' ha')
  rw [Finset.card_disjSum, Finset.card_disjSum, List.toFinset_card_of_nodup h.io.nodupOut, List.toFinset_card_of_nodup h.io.nodupIn,
    List.toFinset_card_of_nodup hn, List.toFinset_card_of_nodup hfn] at hcard
  omega

/-! ### The matrix -/

theorem prod_bsgn {ι : Type*} [DecidableEq ι] (s : Finset ι) (c : ι → Bool) :
    ∏ i ∈ s, bsgn (c i) = if (∑ i ∈ s, (if c i then (1 : ZMod 2) else 0)) = 0 then 1 else -1 := by
  induction s using Finset.induction_on with
  | empty => simp
  | insert a s ha ih =>
    rw [Finset.prod_insert ha, Finset.sum_insert ha, ih]
    generalize (∑ i ∈ s, (if c i then (1 : ZMod 2) else 0)) = z
    have : z = 0 ∨ z = 1 := by revert z; decide
    rcases this with rfl | rfl <;> cases c a <;> simp [bsgn]
    decide

/-- Independent rows, and not more columns than rows: the matrix is square and invertible. -/
theorem mat_unit {k l : ℕ} {m : Mat2.Data} (hlk : l ≤ k)
    (h : ∀ T : ℕ → Bool, (∀ j < l, ∏ i ∈ Finset.range k, (if T i then bsgn (Mat2.get m i j) else 1) = 1) → ∀ i < k, T i = false) :
    l = k ∧ IsUnit (Mat2.mat k k m) := by
  have hi : LinearIndependent (ZMod 2) (Mat2.mat k l m).row := by
    rw [Fintype.linearIndependent_iff]
    intro v hv i
    have h1 := h (fun i => if hi : i < k then decide (v ⟨i, hi⟩ = 1) else false) (by
      intro j hj
      have e : ∀ i ∈ Finset.range k, (if (if hi : i < k then decide (v ⟨i, hi⟩ = 1) else false) = true then bsgn (Mat2.get m i j) else 1) =
          bsgn ((if hi : i < k then decide (v ⟨i, hi⟩ = 1) else false) && Mat2.get m i j) := by
        intro i _
        generalize (if hi : i < k then decide (v ⟨i, hi⟩ = 1) else false) = b
        cases b <;> simp [bsgn]
      rw [Finset.prod_congr rfl e, prod_bsgn, if_pos]
      rw [Finset.sum_range]
      have h2 := congrFun hv ⟨j, hj⟩
      rw [Finset.sum_apply] at h2
      refine Eq.trans ?_ h2
      refine Finset.sum_congr rfl fun i _ => ?_
      simp only [Fin.is_lt, dite_true, Fin.eta, Pi.smul_apply, smul_eq_mul, Matrix.row, Mat2.mat]
      generalize v i = z
      have : z = 0 ∨ z = 1 := by revert z; decide
      rcases this with rfl | rfl <;> cases Mat2.get m i j <;> simp [Mat2.bit]) i i.2
    simp only [Fin.is_lt, dite_true, Fin.eta, decide_eq_false_iff_not] at h1
    revert h1
    generalize v i = z
    revert z
    decide
  have hle := hi.fintype_card_le_finrank
  rw [Module.finrank_fintype_fun_eq_card, Fintype.card_fin, Fintype.card_fin] at hle
  obtain rfl : l = k := by omega
  exact ⟨rfl, Matrix.linearIndependent_rows_iff_isUnit.mp hi⟩

end Extract
end PyZX
