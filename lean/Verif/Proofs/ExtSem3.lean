import Verif.Proofs.ExtSem2
import Verif.Proofs.Linalg
import Verif.Model.Extract

/-!
# The amplitudes of a diagram in terms of the biadjacency matrix of its frontier
-/

namespace PyZX

open Finset

namespace Graph

/-- The vertices of `F` are phase-free spiders, each connected by a simple edge to an output of its own and by Hadamard edges to spiders in
`N`. -/
structure FrontForm (g : Graph) (F N : Finset ℕ) (out : ℕ → ℕ) : Prop where
  leaf : ∀ f ∈ F, Leaf g (out f) f
  simple : ∀ f ∈ F, g.adj f (out f) = some .simple
  ty : ∀ f ∈ F, g.ty f = .Z
  ph : ∀ f ∈ F, g.phase f = 0
  nb : ∀ f ∈ F, ∀ u, g.adj f u ≠ none → u = out f ∨ u ∈ N
  nbZ : ∀ j ∈ N, j ∈ g.verts ∧ g.ty j = .Z
  nbF : ∀ j ∈ N, j ∉ F
  had : ∀ f ∈ F, ∀ j ∈ N, g.adj f j ≠ none → g.adj f j = some .had

/-- The other vertices. -/
def restOf (g : Graph) (F : Finset ℕ) (out : ℕ → ℕ) : Finset ℕ := g.verts \ (F ∪ F.image out)

/-- The factor of an edge that may be there. -/
noncomputable def hadIf (c : Bool) (a b : Bool) : ℂ := if c then hmat a b else 1

variable {g : Graph} {F N : Finset ℕ} {out : ℕ → ℕ}

theorem FrontForm.inj (h : FrontForm g F N out) {f f' : ℕ} (hf : f ∈ F) (hf' : f' ∈ F) (e : out f = out f') : f = f' :=
  (h.leaf f' hf').only f (by rw [← e]; exact (h.leaf f hf).adj)

theorem FrontForm.out_notMem (h : FrontForm g F N out) {f f' : ℕ} (hf : f ∈ F) (hf' : f' ∈ F) : out f ≠ f' := by
  intro e
  have h1 := (h.leaf f hf).bnd
  rw [e, h.ty f' hf'] at h1
  simp at h1

theorem FrontForm.N_sub (h : FrontForm g F N out) : N ⊆ restOf g F out := by
  intro j hj
  refine Finset.mem_sdiff.mpr ⟨(h.nbZ j hj).1, ?_⟩
  rw [Finset.mem_union, Finset.mem_image]
  rintro (h1 | ⟨f, hf, rfl⟩)
  · exact h.nbF j hj h1
  · have := (h.leaf f hf).bnd
    rw [(h.nbZ _ hj).2] at this
    simp at this

theorem wOn_front (hg : g.Inv) (h : FrontForm g F N out) (x : ℕ → Bool) {T : Finset ℕ} (hT : T ⊆ F) :
    g.wOn (restOf g F out ∪ (T ∪ T.image out)) x =
      g.wOn (restOf g F out) x * ∏ f ∈ T, (kern false (x (out f)) (x f) * ∏ j ∈ N, hadIf (decide (g.adj f j ≠ none)) (x f) (x j)) := by
  induction T using Finset.induction_on with
  | empty => simp
  | insert f T hf ih =>
    have hfF : f ∈ F := hT (Finset.mem_insert_self f T)
    have hTF : T ⊆ F := fun u hu => hT (Finset.mem_insert_of_mem hu)
    set B := restOf g F out ∪ (T ∪ T.image out) with hB
    have hset : restOf g F out ∪ (insert f T ∪ (insert f T).image out) = insert (out f) (insert f B) := by
      rw [hB, Finset.image_insert]
      ext u
      simp only [Finset.mem_union, Finset.mem_insert]
      tauto
    have hfB : f ∉ B := by
      rw [hB]
      rw [Finset.mem_union, Finset.mem_union, Finset.mem_image, restOf, Finset.mem_sdiff]
      rintro (⟨-, hc⟩ | hc | ⟨f', hf', e⟩)
      · exact hc (Finset.mem_union_left _ hfF)
      · exact hf hc
      · exact h.out_notMem (hTF hf') hfF e
    have hoB : out f ∉ insert f B := by
      rw [hB]
      rw [Finset.mem_insert, Finset.mem_union, Finset.mem_union, Finset.mem_image, restOf, Finset.mem_sdiff]
      rintro (hc | ⟨-, hc⟩ | hc | ⟨f', hf', e⟩)
      · exact h.out_notMem hfF hfF hc
      · exact hc (Finset.mem_union_right _ (Finset.mem_image_of_mem out hfF))
      · exact h.out_notMem hfF (hTF hc) rfl
      · have := h.inj (hTF hf') hfF e
        subst this
        exact hf hf'
    rw [hset, wOn_leaf hg (h.leaf f hfF) (Finset.mem_insert_self _ _) (by simp), Finset.erase_insert hoB, wOn_insert hg.symm hfB,
      Finset.prod_insert hf, ih hTF]
    have e1 : g.vwt f (x f) = 1 := by
      unfold vwt vval; rw [h.ty f hfF, h.ph f hfF]; simp [ph_zero]
    have e2 : g.edgeK x (out f) f = kern false (x (out f)) (x f) := by
      rw [edgeK_leaf (e := .simple) (h.leaf f hfF).bnd (isX_Z (h.ty f hfF)) (by rw [hg.symm]; exact h.simple f hfF)]
      simp
    have e3 : ∏ u ∈ B, g.edgeK x f u = ∏ j ∈ N, hadIf (decide (g.adj f j ≠ none)) (x f) (x j) := by
      have hNB : N ⊆ B := fun j hj => by rw [hB]; exact Finset.mem_union_left _ (h.N_sub hj)
      rw [← Finset.prod_subset (f := fun u => g.edgeK x f u) hNB]
      · refine Finset.prod_congr rfl fun j hj => ?_
        by_cases hn : g.adj f j = none
        · simp [edgeK_none hn, hadIf, hn]
        · rw [edgeK_Z (isX_Z (h.ty f hfF)) (isX_Z (h.nbZ j hj).2) (h.had f hfF j hj hn)]
          simp [hadIf, hn, kern]
      · intro u hu huN
        refine edgeK_none ?_
        by_contra hc
        rcases h.nb f hfF u hc with rfl | h1
        · exact hoB (Finset.mem_insert_of_mem hu)
        · exact huN h1
    rw [e1, e2, e3]
    ring

theorem psum_delta {F : Finset ℕ} {out : ℕ → ℕ} (ho : ∀ f ∈ F, out f ∉ F) (G : (ℕ → Bool) → ℂ) (b : ℕ → Bool) :
    psum F (fun x => G x * ∏ f ∈ F, kern false (x (out f)) (x f)) b = G (fun u => if u ∈ F then b (out u) else b u) := by
  unfold psum
  rw [Finset.sum_eq_single (F.filter fun f => b (out f) = true)]
  · have e1 : setOn F (F.filter fun f => b (out f) = true) b = fun u => if u ∈ F then b (out u) else b u := by
      funext u
      unfold setOn
      by_cases hu : u ∈ F
      · simp [hu]
      · simp [hu]
    have e2 : ∏ f ∈ F, kern false (setOn F (F.filter fun f => b (out f) = true) b (out f)) (setOn F (F.filter fun f => b (out f) = true) b f) = 1 := by
      refine Finset.prod_eq_one fun f hf => ?_
      rw [e1]
      simp [ho f hf, hf, kern, dmat]
    beta_reduce
    rw [e2, mul_one, e1]
  · intro T hT hne
    have hT := Finset.mem_powerset.mp hT
    have : ∃ f ∈ F, ¬ (f ∈ T ↔ b (out f) = true) := by
      by_contra hc
      push Not at hc
      refine hne ?_
      ext u
      rw [Finset.mem_filter]
      constructor
      · intro hu; exact ⟨hT hu, (hc u (hT hu)).mp hu⟩
      · rintro ⟨h1, h2⟩; exact (hc u h1).mpr h2
    obtain ⟨f, hf, hn⟩ := this
    have : ∏ f ∈ F, kern false (setOn F T b (out f)) (setOn F T b f) = 0 := by
      refine Finset.prod_eq_zero hf ?_
      have h1 : setOn F T b (out f) = b (out f) := setOn_notMem (ho f hf)
      have h2 : setOn F T b f = decide (f ∈ T) := by simp [setOn, hf]
      rw [h1, h2]
      unfold kern dmat
      simp only [Bool.false_eq_true, if_false]
      rw [if_neg]
      intro e
      refine hn ?_
      rw [e]
      simp
    beta_reduce
    rw [this, mul_zero]
  · intro hc
    exact absurd (Finset.mem_powerset.mpr (Finset.filter_subset _ _)) hc

/-- The amplitudes of a diagram with a frontier. -/
theorem sem_front (hg : g.WF) (h : FrontForm g F N out) (b : ℕ → Bool) :
    g.sem b = psum (g.interior \ F) (fun x => g.wOn (restOf g F out) x *
      ∏ f ∈ F, ∏ j ∈ N, hadIf (decide (g.adj f j ≠ none)) (b (out f)) (x j)) b := by
  have hFv : F ⊆ g.verts := fun f hf => hg.toInv.mem' (h.leaf f hf).adj
  have hFi : F ⊆ g.interior := fun f hf => Finset.mem_filter.mpr ⟨hFv hf, by rw [h.ty f hf]; simp⟩
  have hall : restOf g F out ∪ (F ∪ F.image out) = g.verts := by
    unfold restOf
    refine Finset.sdiff_union_of_subset ?_
    intro u hu
    rcases Finset.mem_union.mp hu with h1 | h1
    · exact hFv h1
    · obtain ⟨f, hf, rfl⟩ := Finset.mem_image.mp h1
      exact (h.leaf f hf).mem
  have hwt : ∀ x, g.weight x = (g.wOn (restOf g F out) x * ∏ f ∈ F, ∏ j ∈ N, hadIf (decide (g.adj f j ≠ none)) (x f) (x j)) *
      ∏ f ∈ F, kern false (x (out f)) (x f) := by
    intro x
    rw [weight_eq_wOn, ← hall, wOn_front hg.toInv h x (Finset.Subset.refl F), Finset.prod_mul_distrib]
    ring
  have hoF : ∀ f ∈ F, out f ∉ F := fun f hf hc => h.out_notMem hf hc rfl
  rw [sem_eq_amp hg]
  unfold amp
  rw [← Finset.sdiff_union_of_subset hFi, psum_union Finset.sdiff_disjoint, Finset.sdiff_union_of_subset hFi]
  refine psum_congr fun x hx => ?_
  have e1 : psum F g.weight x = psum F (fun x => (g.wOn (restOf g F out) x *
      ∏ f ∈ F, ∏ j ∈ N, hadIf (decide (g.adj f j ≠ none)) (x f) (x j)) * ∏ f ∈ F, kern false (x (out f)) (x f)) x :=
    psum_congr fun y _ => hwt y
  rw [e1, psum_delta hoF]
  congr 1
  · refine wOn_congr_env fun v hv => ?_
    have hvF : v ∉ F := fun hc => (Finset.mem_sdiff.mp hv).2 (Finset.mem_union_left _ hc)
    rw [if_neg hvF]
  · refine Finset.prod_congr rfl fun f hf => Finset.prod_congr rfl fun j hj => ?_
    beta_reduce
    rw [if_pos hf, if_neg (h.nbF j hj), hx (out f)]
    intro hc
    exact notMem_interior (h.leaf f hf).bnd (Finset.mem_sdiff.mp hc).1

/-! ### Signs -/

/-- The sign `-1` if `c` holds. -/
noncomputable def bsgn (c : Bool) : ℂ := if c then -1 else 1

theorem bsgn_xor (a b : Bool) : bsgn (xor a b) = bsgn a * bsgn b := by cases a <;> cases b <;> simp [bsgn]

theorem bsgn_mul_self (a : Bool) : bsgn a * bsgn a = 1 := by cases a <;> simp [bsgn]

theorem hadIf_eq (c a b : Bool) : hadIf c a b = (if c then sq2⁻¹ else 1) * bsgn (c && a && b) := by
  cases c <;> cases a <;> cases b <;> simp [hadIf, hmat, bsgn]

/-- The product of the signs of the ones of a matrix with `r` rows and `c` columns. -/
noncomputable def mSign (r c : ℕ) (m : Mat2.Data) (Y X : ℕ → Bool) : ℂ :=
  ∏ i ∈ Finset.range r, ∏ j ∈ Finset.range c, bsgn (Mat2.get m i j && Y i && X j)

/-- The sign of a row. -/
noncomputable def rowSign (c : ℕ) (m : Mat2.Data) (X : ℕ → Bool) (i : ℕ) : ℂ := ∏ j ∈ Finset.range c, bsgn (Mat2.get m i j && X j)

theorem mSign_eq (r c : ℕ) (m : Mat2.Data) (Y X : ℕ → Bool) : mSign r c m Y X = ∏ i ∈ Finset.range r, (if Y i then rowSign c m X i else 1) := by
  refine Finset.prod_congr rfl fun i _ => ?_
  cases Y i <;> simp [rowSign, bsgn]

theorem rowSign_sq (c : ℕ) (m : Mat2.Data) (X : ℕ → Bool) (i : ℕ) : rowSign c m X i * rowSign c m X i = 1 := by
  unfold rowSign
  rw [← Finset.prod_mul_distrib]
  exact Finset.prod_eq_one fun j _ => bsgn_mul_self _

/-- A row addition acts as a CNOT on the bits of the rows. -/
theorem mSign_rowAdd {r c : ℕ} {m : Mat2.Data} (h : Mat2.Rect r c m) {a t : ℕ} (ha : a < r) (ht : t < r) (hat : a ≠ t) (Y X : ℕ → Bool) :
    mSign r c (Mat2.rowAdd t a m) Y X = mSign r c m (Function.update Y t (xor (Y t) (Y a))) X := by
  have e : ∀ i, rowSign c (Mat2.rowAdd t a m) X i = if i = a then rowSign c m X a * rowSign c m X t else rowSign c m X i := by
    intro i
    unfold rowSign
    by_cases hi : i = a
    · rw [if_pos hi, ← Finset.prod_mul_distrib]
      refine Finset.prod_congr rfl fun j _ => ?_
      rw [Mat2.get_rowAdd h ht ha, if_pos hi, ← bsgn_xor]
      congr 1
      cases Mat2.get m a j <;> cases Mat2.get m t j <;> cases X j <;> rfl
    · rw [if_neg hi]
      refine Finset.prod_congr rfl fun j _ => ?_
      rw [Mat2.get_rowAdd h ht ha, if_neg hi]
  rw [mSign_eq, mSign_eq]
  have hra : a ∈ Finset.range r := Finset.mem_range.mpr ha
  have hrt : t ∈ (Finset.range r).erase a := Finset.mem_erase.mpr ⟨Ne.symm hat, Finset.mem_range.mpr ht⟩
  rw [← Finset.mul_prod_erase _ _ hra, ← Finset.mul_prod_erase _ _ hrt, ← Finset.mul_prod_erase _ _ hra, ← Finset.mul_prod_erase _ _ hrt]
  have e2 : ∏ i ∈ ((Finset.range r).erase a).erase t, (if Y i = true then rowSign c (Mat2.rowAdd t a m) X i else 1) =
      ∏ i ∈ ((Finset.range r).erase a).erase t, (if Function.update Y t (xor (Y t) (Y a)) i = true then rowSign c m X i else 1) := by
    refine Finset.prod_congr rfl fun i hi => ?_
    have h1 : i ≠ t := Finset.ne_of_mem_erase hi
    have h2 : i ≠ a := Finset.ne_of_mem_erase (Finset.mem_of_mem_erase hi)
    rw [e, if_neg h2, Function.update_of_ne h1]
  rw [e2, e, if_pos rfl, e, if_neg (Ne.symm hat), Function.update_self, Function.update_of_ne hat]
  have hs := rowSign_sq c m X t
  generalize rowSign c m X a = sa at *
  generalize rowSign c m X t = st at *
  generalize ∏ i ∈ ((Finset.range r).erase a).erase t, (if Function.update Y t (xor (Y t) (Y a)) i = true then rowSign c m X i else 1) = P
  cases Y a <;> cases Y t <;> simp
  all_goals first | ring1 | linear_combination (-(sa * P)) * hs | linear_combination (sa * P) * hs

/-! ### Row operations as CNOT gates -/

theorem prod_map_range {M : Type*} [CommMonoid M] (l : List ℕ) (f : ℕ → M) : (l.map f).prod = ∏ i ∈ Finset.range l.length, f (l.getD i 0) := by
  induction l with
  | nil => simp
  | cons a l ih =>
    rw [List.map_cons, List.prod_cons, List.length_cons, Finset.prod_range_succ', ih, mul_comm]
    simp

theorem prod_toFinset_range {M : Type*} [CommMonoid M] {l : List ℕ} (hl : l.Nodup) (f : ℕ → M) :
    ∏ v ∈ l.toFinset, f v = ∏ i ∈ Finset.range l.length, f (l.getD i 0) := by
  rw [List.prod_toFinset f hl, prod_map_range]

/-- The amplitudes of the diagram with the connectivity between frontier and neighbours given by a matrix, without normalisation. -/
noncomputable def theta (g : Graph) (fs ns : List ℕ) (out : ℕ → ℕ) (m : Mat2.Data) (b : ℕ → Bool) : ℂ :=
  psum (g.interior \ fs.toFinset) (fun x => g.wOn (restOf g fs.toFinset out) x *
    mSign fs.length ns.length m (fun i => b (out (fs.getD i 0))) (fun j => x (ns.getD j 0))) b

theorem get_biAdj (g : Graph) (ns fs : List ℕ) {i j : ℕ} (hi : i < fs.length) (hj : j < ns.length) :
    Mat2.get (GFlow.biAdj g ns fs) i j = decide (g.adj (ns.getD j 0) (fs.getD i 0) ≠ none) := by
  simp [Mat2.get, GFlow.biAdj, List.getD_eq_getElem?_getD, hi, hj]

theorem biAdj_rect (g : Graph) (ns fs : List ℕ) : Mat2.Rect fs.length ns.length (GFlow.biAdj g ns fs) := by
  refine ⟨by simp [GFlow.biAdj], fun row hrow => ?_⟩
  simp only [GFlow.biAdj, List.mem_map] at hrow
  obtain ⟨w, -, rfl⟩ := hrow
  simp

/-- The frontier form, in terms of the biadjacency matrix. -/
theorem sem_theta (hg : g.WF) {fs ns : List ℕ} (hf : fs.Nodup) (hn : ns.Nodup) (h : FrontForm g fs.toFinset ns.toFinset out) :
    ∃ k : ℂ, k ≠ 0 ∧ ∀ b, g.sem b = k * theta g fs ns out (GFlow.biAdj g ns fs) b := by
  refine ⟨∏ i ∈ Finset.range fs.length, ∏ j ∈ Finset.range ns.length, (if Mat2.get (GFlow.biAdj g ns fs) i j then sq2⁻¹ else 1), ?_, fun b => ?_⟩
  · refine Finset.prod_ne_zero_iff.mpr fun i _ => Finset.prod_ne_zero_iff.mpr fun j _ => ?_
    split
    · exact inv_ne_zero sq2_ne_zero
    · exact one_ne_zero
  · rw [sem_front hg h]
    unfold theta
    rw [← psum_const_mul]
    refine psum_congr fun x _ => ?_
    have e : ∏ f ∈ fs.toFinset, ∏ j ∈ ns.toFinset, hadIf (decide (g.adj f j ≠ none)) (b (out f)) (x j) =
        (∏ i ∈ Finset.range fs.length, ∏ j ∈ Finset.range ns.length, (if Mat2.get (GFlow.biAdj g ns fs) i j then sq2⁻¹ else 1)) *
          mSign fs.length ns.length (GFlow.biAdj g ns fs) (fun i => b (out (fs.getD i 0))) (fun j => x (ns.getD j 0)) := by
      rw [prod_toFinset_range hf]
      unfold mSign
      rw [← Finset.prod_mul_distrib]
      refine Finset.prod_congr rfl fun i hi => ?_
      rw [prod_toFinset_range hn, ← Finset.prod_mul_distrib]
      refine Finset.prod_congr rfl fun j hj => ?_
      rw [hadIf_eq, get_biAdj g ns fs (Finset.mem_range.mp hi) (Finset.mem_range.mp hj), hg.symm]
    rw [e]
    ring

theorem theta_rowAdd {fs ns : List ℕ} {m : Mat2.Data} (hm : Mat2.Rect fs.length ns.length m) (hf : fs.Nodup)
    (h : FrontForm g fs.toFinset ns.toFinset out) {a t : ℕ} (ha : a < fs.length) (ht : t < fs.length) (hat : a ≠ t) (b : ℕ → Bool) :
    theta g fs ns out (Mat2.rowAdd t a m) b =
      theta g fs ns out m (Function.update b (out (fs.getD t 0)) (xor (b (out (fs.getD t 0))) (b (out (fs.getD a 0))))) := by
  have hmem : ∀ i, i < fs.length → fs.getD i 0 ∈ fs.toFinset := fun i hi => by
    rw [List.mem_toFinset, List.getD_eq_getElem _ _ hi]; exact List.getElem_mem hi
  set o := out (fs.getD t 0) with ho
  have hoI : o ∉ g.interior \ fs.toFinset := fun hc =>
    notMem_interior (h.leaf _ (hmem t ht)).bnd (Finset.mem_sdiff.mp hc).1
  have hoS : o ∉ restOf g fs.toFinset out := fun hc =>
    (Finset.mem_sdiff.mp hc).2 (Finset.mem_union_right _ (Finset.mem_image_of_mem out (hmem t ht)))
  unfold theta
  rw [← psum_update hoI]
  refine psum_congr fun x hx => ?_
  have e1 : ∀ z, g.wOn (restOf g fs.toFinset out) (Function.update x o z) = g.wOn (restOf g fs.toFinset out) x := fun z =>
    wOn_congr_env fun v hv => Function.update_of_ne (by rintro rfl; exact hoS hv) _ _
  rw [e1, mSign_rowAdd hm ha ht hat]
  congr 1
  unfold mSign
  refine Finset.prod_congr rfl fun i hi => Finset.prod_congr rfl fun j hj => ?_
  have hi := Finset.mem_range.mp hi
  have hj := Finset.mem_range.mp hj
  have e3 : Function.update x o (xor (b o) (b (out (fs.getD a 0)))) (ns.getD j 0) = x (ns.getD j 0) := by
    refine Function.update_of_ne ?_ _ _
    intro e
    have : ns.getD j 0 ∈ ns.toFinset := by rw [List.mem_toFinset, List.getD_eq_getElem _ _ hj]; exact List.getElem_mem hj
    rw [e] at this
    exact hoS (h.N_sub this)
  beta_reduce
  rw [e3]
  congr 3
  by_cases hit : i = t
  · subst hit
    rw [Function.update_self, ← ho, Function.update_self]
  · rw [Function.update_of_ne hit, Function.update_of_ne]
    intro e
    refine hit ?_
    have := h.inj (hmem i hi) (hmem t ht) e
    rw [List.getD_eq_getElem _ _ hi, List.getD_eq_getElem _ _ ht] at this
    exact (hf.getElem_inj_iff).mp this

end Graph
end PyZX
