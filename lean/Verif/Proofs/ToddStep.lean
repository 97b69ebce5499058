import Verif.Proofs.ToddPoly
import Verif.Props.Linalg

/-!
# The steps of the TODD algorithm
-/

namespace PyZX
namespace Todd

open Mat2

/-! ### Transposition -/

theorem rect_transpose {k n : ℕ} {C : Data} (h : Rect k n C) (hk : 0 < k) : Rect n k (transpose C) := by
  unfold transpose
  rw [h.1, rect_cols h hk]
  exact rect_of_map fun j i => get C i j

theorem get_transpose {k n : ℕ} {C : Data} (h : Rect k n C) {i j : ℕ} (hi : i < k) (hj : j < n) : get (transpose C) j i = get C i j := by
  unfold transpose
  rw [h.1, rect_cols h (by omega)]
  exact get_of_map (fun j i => get C i j) hj hi

theorem transpose_transpose {k n : ℕ} {C : Data} (h : Rect k n C) (hn : 0 < n) : transpose (transpose C) = C := by
  rcases Nat.eq_zero_or_pos k with rfl | hk
  · rw [List.length_eq_zero_iff.mp h.1]; rfl
  · have h1 := rect_transpose h hk
    have h2 := rect_transpose h1 hn
    refine mat_inj h2 h ?_
    ext i j
    simp only [mat]
    rw [get_transpose h1 j.2 i.2, get_transpose h i.2 j.2]

/-! ### Trivial columns -/

/-- The changes made by `remove_trivial_cols`. -/
inductive Triv : Data → Data → Prop
  | refl (d) : Triv d d
  | zero {d z d' e} (hz : true ∉ z) (hp : d.Perm (z :: d')) (h : Triv d' e) : Triv d e
  | pair {d r d' e} (hp : d.Perm (r :: r :: d')) (h : Triv d' e) : Triv d e

theorem getD_false_of_not_mem {z : Row} (h : true ∉ z) (k : ℕ) : z.getD k false = false := by
  cases hz : z.getD k false with
  | false => rfl
  | true =>
    have := mem_supp.mpr hz
    rw [supp, List.mem_filter, List.mem_range] at this
    rw [List.getD_eq_getElem _ _ this.1] at hz
    exact absurd (hz ▸ List.getElem_mem _) h

theorem sig_perm {C C' : Data} (h : C.Perm C') (u v w : ℕ) : sig C u v w = sig C' u v w := (h.map _).sum_eq

theorem sig_cons (c : Row) (C : Data) (u v w : ℕ) :
    sig (c :: C) u v w = bit (c.getD u false) * (bit (c.getD v false) * bit (c.getD w false)) + sig C u v w := by simp [sig]

theorem dbl (a : ZMod 2) : a + a = 0 := by revert a; decide

theorem sig_pair (r : Row) (C : Data) (u v w : ℕ) : sig (r :: r :: C) u v w = sig C u v w := by
  rw [sig_cons, sig_cons, ← add_assoc, dbl, zero_add]

theorem Triv.sig {d e : Data} (h : Triv d e) (u v w : ℕ) : sig e u v w = sig d u v w := by
  induction h with
  | refl d => rfl
  | zero hz hp _ ih => rw [ih, sig_perm hp, sig_cons, getD_false_of_not_mem hz]; simp [bit]
  | pair hp _ ih => rw [ih, sig_perm hp, sig_pair]

theorem Triv.length_le {d e : Data} (h : Triv d e) : e.length ≤ d.length := by
  induction h with
  | refl d => exact le_rfl
  | zero hz hp _ ih => rw [hp.length_eq, List.length_cons]; omega
  | pair hp _ ih => rw [hp.length_eq, List.length_cons, List.length_cons]; omega

theorem Triv.subset {d e : Data} (h : Triv d e) : e ⊆ d := by
  induction h with
  | refl d => exact fun _ h => h
  | zero hz hp _ ih => exact fun a ha => hp.mem_iff.mpr (List.mem_cons_of_mem _ (ih ha))
  | pair hp _ ih => exact fun a ha => hp.mem_iff.mpr (List.mem_cons_of_mem _ (List.mem_cons_of_mem _ (ih ha)))

theorem Triv.count {d e : Data} (h : Triv d e) {c : Row} (hc : true ∈ c) : e.count c % 2 = d.count c % 2 := by
  induction h with
  | refl d => rfl
  | zero hz hp _ ih =>
    rename_i d z d' e _
    have : z ≠ c := fun he => hz (he ▸ hc)
    rw [ih, hp.count_eq, List.count_cons_of_ne this]
  | pair hp _ ih =>
    rename_i d r d' e _
    rw [ih, hp.count_eq, List.count_cons, List.count_cons]
    by_cases hr : (r == c) = true
    · rw [if_pos hr]; omega
    · rw [if_neg hr]; omega

theorem mem_after {a b n : ℕ} : b ∈ after a n ↔ a < b ∧ b < n := by
  rw [after, List.mem_range'_1]; omega

theorem perm_eraseIdx {d : Data} {a : ℕ} (ha : a < d.length) : d.Perm (d.getD a [] :: d.eraseIdx a) := by
  rw [List.getD_eq_getElem _ _ ha]
  exact (List.getElem_cons_eraseIdx_perm ha).symm

theorem perm_eraseIdx2 {d : Data} {a b : ℕ} (hab : a < b) (hb : b < d.length) :
    d.Perm (d.getD b [] :: d.getD a [] :: (d.eraseIdx b).eraseIdx a) := by
  refine (perm_eraseIdx hb).trans (List.Perm.cons _ ?_)
  have ha : a < (d.eraseIdx b).length := by rw [List.length_eraseIdx_of_lt hb]; omega
  have := perm_eraseIdx ha
  rwa [List.getD_eq_getElem _ _ ha, List.getElem_eraseIdx_of_lt ha hab, ← List.getD_eq_getElem d []] at this

theorem any_id_iff {r : Row} : r.any id = true ↔ true ∈ r := by simp

theorem trivialStep_some {d d' : Data} (h : trivialStep d = some d') :
    d'.length < d.length ∧ ((∃ z, true ∉ z ∧ d.Perm (z :: d')) ∨ ∃ r, d.Perm (r :: r :: d')) := by
  unfold trivialStep at h
  obtain ⟨a, ha, h⟩ := List.exists_of_findSome?_eq_some h
  have ha := List.mem_range.mp ha
  by_cases hz : ¬ (d.getD a []).any id = true
  · rw [if_pos hz] at h
    obtain rfl := Option.some.inj h
    exact ⟨by rw [List.length_eraseIdx_of_lt ha]; omega, Or.inl ⟨_, fun hm => hz (any_id_iff.mpr hm), perm_eraseIdx ha⟩⟩
  · rw [if_neg hz] at h
    obtain ⟨b, hb, rfl⟩ := Option.map_eq_some_iff.mp h
    have h1 := mem_after.mp (List.mem_of_find?_eq_some hb)
    have h2 : d.getD a [] = d.getD b [] := by simpa using List.find?_some hb
    have hp := perm_eraseIdx2 h1.1 h1.2
    refine ⟨by have := hp.length_eq; simp only [List.length_cons] at this; omega, Or.inr ⟨d.getD b [], ?_⟩⟩
    rwa [h2] at hp

theorem trivialStep_none {d : Data} (h : trivialStep d = none) : d.Nodup ∧ ∀ c ∈ d, true ∈ c := by
  unfold trivialStep at h
  rw [List.findSome?_eq_none_iff] at h
  have key : ∀ a < d.length, true ∈ d.getD a [] ∧ ∀ b, a < b → b < d.length → d.getD a [] ≠ d.getD b [] := by
    intro a ha
    have := h a (List.mem_range.mpr ha)
    by_cases hz : ¬ (d.getD a []).any id = true
    · rw [if_pos hz] at this; cases this
    · rw [if_neg hz] at this
      rw [not_not] at hz
      refine ⟨any_id_iff.mp hz, fun b hab hb he => ?_⟩
      rw [Option.map_eq_none_iff, List.find?_eq_none] at this
      exact this b (mem_after.mpr ⟨hab, hb⟩) (by simpa using he)
  constructor
  · rw [List.nodup_iff_pairwise_ne, List.pairwise_iff_getElem]
    intro i j hi hj hij he
    refine (key i hi).2 j hij hj ?_
    rwa [List.getD_eq_getElem _ _ hi, List.getD_eq_getElem _ _ hj]
  · intro c hc
    obtain ⟨a, ha, rfl⟩ := List.mem_iff_getElem.mp hc
    have := (key a ha).1
    rwa [List.getD_eq_getElem _ _ ha] at this

theorem removeLoop_spec : ∀ (fuel : ℕ) {d : Data}, d.length ≤ fuel →
    Triv d (removeLoop fuel d) ∧ (removeLoop fuel d).Nodup ∧ ∀ c ∈ removeLoop fuel d, true ∈ c
  | 0, d, h => by
    obtain rfl := List.length_eq_zero_iff.mp (by omega : d.length = 0)
    exact ⟨.refl _, by simp [removeLoop], by simp [removeLoop]⟩
  | fuel + 1, d, h => by
    rw [removeLoop]
    cases e : trivialStep d with
    | none => exact ⟨.refl _, trivialStep_none e⟩
    | some d' =>
      obtain ⟨h1, h2⟩ := trivialStep_some e
      obtain ⟨h3, h4⟩ := removeLoop_spec fuel (d := d') (by omega)
      refine ⟨?_, h4⟩
      rcases h2 with ⟨z, hz, hp⟩ | ⟨r, hp⟩
      · exact .zero hz hp h3
      · exact .pair hp h3

theorem removeTrivial_spec (d : Data) : Triv d (removeTrivial d) ∧ (removeTrivial d).Nodup ∧ ∀ c ∈ removeTrivial d, true ∈ c :=
  removeLoop_spec d.length le_rfl

/-! ### Null vectors -/

theorem null_row {r c : ℕ} {d : Data} (hd : Rect r c d) (hc : cols d = c) {y : Row} (hy : y ∈ nullspace [] d) :
    y.length = c ∧ ∀ row ∈ d, ∑ i ∈ Finset.range c, bit (row.getD i false) * bit (y.getD i false) = 0 := by
  obtain ⟨h1, -, h3⟩ := Props.nullspace_spec hd hc []
  refine ⟨h1 y hy, fun row hrow => ?_⟩
  obtain ⟨k, hk, rfl⟩ := List.mem_iff_getElem.mp hy
  have h4 : Matrix.mulVec (mat r c d) (rowVec c ((nullspace [] d).get ⟨k, hk⟩)) = 0 :=
    (h3 _).mp (Submodule.subset_span ⟨⟨k, hk⟩, rfl⟩)
  obtain ⟨q, hq, rfl⟩ := List.mem_iff_getElem.mp hrow
  have h5 := congrFun h4 ⟨q, by rw [← hd.1]; exact hq⟩
  rw [Matrix.mulVec, dotProduct, Pi.zero_apply] at h5
  rw [Finset.sum_range]
  refine Eq.trans ?_ h5
  refine Finset.sum_congr rfl fun i _ => ?_
  simp only [mat, Mat2.get, rowVec]
  rw [List.getD_eq_getElem d _ hq]
  rfl

/-! ### One step -/

theorem getD_zipWith {n : ℕ} {f : Bool → Bool → Bool} (hf : f false false = false) {a b : Row} (ha : a.length = n) (hb : b.length = n) (k : ℕ) :
    (List.zipWith f a b).getD k false = f (a.getD k false) (b.getD k false) := by
  by_cases hk : k < n
  · rw [List.getD_eq_getElem _ _ (by rw [List.length_zipWith]; omega), List.getD_eq_getElem _ _ (by omega), List.getD_eq_getElem _ _ (by omega),
      List.getElem_zipWith]
  · rw [List.getD_eq_default _ _ (by rw [List.length_zipWith]; omega), List.getD_eq_default _ _ (by omega), List.getD_eq_default _ _ (by omega), hf]

theorem ext_getD {n : ℕ} {a b : Row} (ha : a.length = n) (hb : b.length = n) (h : ∀ k < n, a.getD k false = b.getD k false) : a = b := by
  refine List.ext_getElem (by omega) fun i hi hi' => ?_
  have := h i (by omega)
  rwa [List.getD_eq_getElem _ _ hi, List.getD_eq_getElem _ _ hi'] at this

theorem bit_and (a b : Bool) : bit (a && b) = bit a * bit b := by revert a b; decide

/-- The value of the row of `xi` for three indices, or zero. -/
theorem xiRow_spec {k : ℕ} (za zb zg : Bool) {ra rb rg : Row} (ha : ra.length = k) (hb : rb.length = k) (hg : rg.length = k) :
    (∀ row, xiRow za zb zg ra rb rg = some row → row.length = k ∧ ∀ i, bit (row.getD i false) =
      bit za * (bit (rb.getD i false) * bit (rg.getD i false)) + bit zb * (bit (ra.getD i false) * bit (rg.getD i false)) + bit zg * (bit (ra.getD i false) * bit (rb.getD i false))) ∧
    (xiRow za zb zg ra rb rg = none → za = false ∧ zb = false ∧ zg = false) := by
  have l1 : ∀ {a b : Row}, a.length = k → b.length = k → (rmul a b).length = k := fun h1 h2 => by rw [rmul, List.length_zipWith, h1, h2, min_self]
  have l2 : ∀ {a b : Row}, a.length = k → b.length = k → (radd a b).length = k := fun h1 h2 => by rw [radd, List.length_zipWith, h1, h2, min_self]
  have g1 : ∀ {a b : Row}, a.length = k → b.length = k → ∀ i, bit ((rmul a b).getD i false) = bit (a.getD i false) * bit (b.getD i false) := fun h1 h2 i => by
    rw [rmul, getD_zipWith rfl h1 h2, bit_and]
  have g2 : ∀ {a b : Row}, a.length = k → b.length = k → ∀ i, bit ((radd a b).getD i false) = bit (a.getD i false) + bit (b.getD i false) := fun h1 h2 i => by
    rw [radd, getD_zipWith rfl h1 h2, bit_xor]
  refine ⟨fun row h => ?_, fun h => ?_⟩
  · cases za <;> cases zb <;> cases zg <;> simp only [xiRow, Bool.not_true, Bool.not_false, if_true, if_false, Bool.false_eq_true, Option.some.injEq, reduceCtorEq] at h <;> subst h
    · exact ⟨l1 ha hb, fun i => by rw [g1 ha hb]; simp only [show bit true = 1 from rfl, show bit false = 0 from rfl]; ring⟩
    · exact ⟨l1 ha hg, fun i => by rw [g1 ha hg]; simp only [show bit true = 1 from rfl, show bit false = 0 from rfl]; ring⟩
    · exact ⟨l2 (l1 ha hb) (l1 ha hg), fun i => by rw [g2 (l1 ha hb) (l1 ha hg), g1 ha hb, g1 ha hg]; simp only [show bit true = 1 from rfl, show bit false = 0 from rfl]; ring⟩
    · exact ⟨l1 hb hg, fun i => by rw [g1 hb hg]; simp only [show bit true = 1 from rfl, show bit false = 0 from rfl]; ring⟩
    · exact ⟨l2 (l1 hb hg) (l1 ha hb), fun i => by rw [g2 (l1 hb hg) (l1 ha hb), g1 hb hg, g1 ha hb]; simp only [show bit true = 1 from rfl, show bit false = 0 from rfl]; ring⟩
    · exact ⟨l2 (l1 hb hg) (l1 ha hg), fun i => by rw [g2 (l1 hb hg) (l1 ha hg), g1 hb hg, g1 ha hg]; simp only [show bit true = 1 from rfl, show bit false = 0 from rfl]; ring⟩
    · exact ⟨l2 (l2 (l1 ha hb) (l1 ha hg)) (l1 hb hg), fun i => by
        rw [g2 (l2 (l1 ha hb) (l1 ha hg)) (l1 hb hg), g2 (l1 ha hb) (l1 ha hg), g1 ha hb, g1 ha hg, g1 hb hg]; simp only [show bit true = 1 from rfl]; ring⟩
  · cases za <;> cases zb <;> cases zg <;> simp_all [xiRow]

theorem sum_map_range {α R : Type} [AddCommMonoid R] (f : α → R) (a0 : α) : ∀ C : List α, (C.map f).sum = ∑ i ∈ Finset.range C.length, f (C.getD i a0)
  | [] => by simp
  | a :: C => by
    rw [List.map_cons, List.sum_cons, List.length_cons, Finset.sum_range_succ', sum_map_range f a0 C, add_comm]
    simp

theorem length_getD {k n : ℕ} {C : Data} (h : Rect k n C) {i : ℕ} (hi : i < k) : (C.getD i []).length = n := by
  rw [List.getD_eq_getElem _ _ (by rw [h.1]; exact hi)]
  exact h.2 _ (List.getElem_mem _)

/-- The vector `z` is the sum of two columns. -/
theorem zVec_eq {k n : ℕ} {C : Data} (h : Rect k n C) {a b : ℕ} (ha : a < k) (hb : b < k) :
    zVec (transpose C) a b = List.zipWith xor (C.getD a []) (C.getD b []) := by
  have hr := rect_transpose h (by omega)
  have la := length_getD h ha
  have lb := length_getD h hb
  refine ext_getD (n := n) (by rw [zVec, List.length_map, hr.1]) (by rw [List.length_zipWith, la, lb, min_self]) fun u hu => ?_
  rw [getD_zipWith rfl la lb]
  have e1 := get_transpose h ha hu
  have e2 := get_transpose h hb hu
  simp only [Mat2.get] at e1 e2
  rw [← e1, ← e2, zVec, List.getD_eq_getElem _ _ (by rw [List.length_map, hr.1]; exact hu), List.getElem_map, List.getD_eq_getElem (transpose C) _ (by rw [hr.1]; exact hu)]
  generalize List.getD _ a false = p
  generalize List.getD _ b false = q
  cases p <;> cases q <;> rfl

/-- What is found. -/
structure Match (k n : ℕ) (C : Data) (a b : ℕ) (z y : Row) : Prop where
  lt : a < b
  bound : b < k
  zdef : z = List.zipWith xor (C.getD a []) (C.getD b [])
  ydef : xor (y.getD a false) (y.getD b false) = true
  len : y.length = k
  lin : ∀ u, ∑ i ∈ Finset.range k, bit ((C.getD i []).getD u false) * bit (y.getD i false) = 0
  cub : ∀ u v w, u < v → v < w → ∑ i ∈ Finset.range k, (bit (z.getD u false) * (bit ((C.getD i []).getD v false) * bit ((C.getD i []).getD w false)) +
    bit (z.getD v false) * (bit ((C.getD i []).getD u false) * bit ((C.getD i []).getD w false)) +
    bit (z.getD w false) * (bit ((C.getD i []).getD u false) * bit ((C.getD i []).getD v false))) * bit (y.getD i false) = 0

theorem findMatch_spec {k n : ℕ} {C : Data} (h : Rect k n C) (hk : 0 < k) (hn : 0 < n) {a b : ℕ} {z y : Row} (hm : findMatch (transpose C) = some (a, b, z, y)) :
    Match k n C a b z y := by
  have hr := rect_transpose h hk
  have hc := rect_cols hr hn
  unfold findMatch at hm
  rw [hc] at hm
  obtain ⟨a', ha, hm⟩ := List.exists_of_findSome?_eq_some hm
  obtain ⟨b', hb, hm⟩ := List.exists_of_findSome?_eq_some hm
  obtain ⟨y', hy, e⟩ := Option.map_eq_some_iff.mp hm
  simp only [Prod.mk.injEq] at e
  obtain ⟨rfl, rfl, e3, rfl⟩ := e
  have hab := mem_after.mp hb
  have hyn := List.mem_of_find?_eq_some hy
  have hyx := List.find?_some hy
  have hz := zVec_eq h (by omega : a' < k) hab.2
  have hzl : z.length = n := by rw [← e3, hz, List.length_zipWith, length_getD h (by omega), length_getD h hab.2, min_self]
  have rowlen : ∀ u < n, ((transpose C).getD u []).length = k := fun u hu => length_getD hr hu
  have hrow : ∀ row ∈ xi (transpose C) z, row.length = k := by
    intro row hrow
    rw [xi, List.mem_append] at hrow
    rcases hrow with hrow | hrow
    · simp only [List.mem_flatMap, List.mem_filterMap] at hrow
      obtain ⟨u, hu, v, hv, w, hw, e⟩ := hrow
      rw [hr.1] at hu hv hw
      have hu := List.mem_range.mp hu
      have hv := mem_after.mp hv
      have hw := mem_after.mp hw
      exact ((xiRow_spec _ _ _ (rowlen u hu) (rowlen v hv.2) (rowlen w hw.2)).1 row e).1
    · exact hr.2 row hrow
  have hR : Rect (xi (transpose C) z).length k (xi (transpose C) z) := ⟨rfl, hrow⟩
  have hpos : 0 < (xi (transpose C) z).length := by
    rw [xi, List.length_append, hr.1]; omega
  rw [e3] at hyn
  obtain ⟨y1, y2⟩ := null_row hR (rect_cols hR hpos) hyn
  have ge : ∀ i < k, ∀ u < n, ((transpose C).getD u []).getD i false = (C.getD i []).getD u false := fun i hi u hu => get_transpose h hi hu
  refine ⟨hab.1, hab.2, by rw [← e3, hz], hyx, y1, ?_, ?_⟩
  · intro u
    by_cases hu : u < n
    · have := y2 ((transpose C).getD u []) (by
        rw [xi, List.mem_append]
        right
        rw [List.getD_eq_getElem _ _ (by rw [hr.1]; exact hu)]
        exact List.getElem_mem _)
      refine Eq.trans (Finset.sum_congr rfl fun i hi => ?_) this
      rw [ge i (Finset.mem_range.mp hi) u hu]
    · refine Finset.sum_eq_zero fun i hi => ?_
      rw [List.getD_eq_default (C.getD i []) _ (by rw [length_getD h (Finset.mem_range.mp hi)]; omega)]
      simp [bit]
  · intro u v w huv hvw
    by_cases hw : w < n
    · obtain ⟨x1, x2⟩ := xiRow_spec (z.getD u false) (z.getD v false) (z.getD w false) (rowlen u (by omega)) (rowlen v (by omega)) (rowlen w hw)
      cases e : xiRow (z.getD u false) (z.getD v false) (z.getD w false) ((transpose C).getD u []) ((transpose C).getD v []) ((transpose C).getD w []) with
      | none =>
        obtain ⟨q1, q2, q3⟩ := x2 e
        rw [q1, q2, q3]
        refine Finset.sum_eq_zero fun i hi => ?_
        simp [bit]
      | some row =>
        have := y2 row (by
          rw [xi, List.mem_append]
          left
          simp only [List.mem_flatMap, List.mem_filterMap]
          rw [hr.1]
          exact ⟨u, List.mem_range.mpr (by omega), v, mem_after.mpr ⟨huv, by omega⟩, w, mem_after.mpr ⟨hvw, hw⟩, e⟩)
        refine Eq.trans (Finset.sum_congr rfl fun i hi => ?_) this
        have hi := Finset.mem_range.mp hi
        rw [(x1 row e).2, ge i hi u (by omega), ge i hi v (by omega), ge i hi w hw]
    · refine Finset.sum_eq_zero fun i hi => ?_
      rw [List.getD_eq_default (C.getD i []) (n := w) _ (by rw [length_getD h (Finset.mem_range.mp hi)]; omega), List.getD_eq_default z (n := w) _ (by omega)]
      simp [bit]

theorem sq2 (a : ZMod 2) : a * a = a := by revert a; decide

/-- The condition on three indices holds for all indices. -/
theorem Match.cub_all {k n : ℕ} {C : Data} {a b : ℕ} {z y : Row} (h : Match k n C a b z y) (u v w : ℕ) :
    ∑ i ∈ Finset.range k, (bit (z.getD u false) * (bit ((C.getD i []).getD v false) * bit ((C.getD i []).getD w false)) +
    bit (z.getD v false) * (bit ((C.getD i []).getD u false) * bit ((C.getD i []).getD w false)) +
    bit (z.getD w false) * (bit ((C.getD i []).getD u false) * bit ((C.getD i []).getD v false))) * bit (y.getD i false) = 0 := by
  have eq2 : ∀ u w, ∑ i ∈ Finset.range k, (bit (z.getD u false) * (bit ((C.getD i []).getD u false) * bit ((C.getD i []).getD w false)) +
    bit (z.getD u false) * (bit ((C.getD i []).getD u false) * bit ((C.getD i []).getD w false)) +
    bit (z.getD w false) * (bit ((C.getD i []).getD u false) * bit ((C.getD i []).getD u false))) * bit (y.getD i false) = 0 := by
    intro u w
    have : bit (z.getD w false) * ∑ i ∈ Finset.range k, bit ((C.getD i []).getD u false) * bit (y.getD i false) = 0 := by rw [h.lin, mul_zero]
    rw [Finset.mul_sum] at this
    refine Eq.trans (Finset.sum_congr rfl fun i _ => ?_) this
    rw [dbl, sq2]; ring
  have srt := h.cub
  rcases lt_trichotomy u v with huv | rfl | huv
  · rcases lt_trichotomy v w with hvw | rfl | hvw
    · exact srt u v w huv hvw
    · exact Eq.trans (Finset.sum_congr rfl fun i _ => by ring) (eq2 v u)
    · rcases lt_trichotomy u w with huw | rfl | huw
      · exact Eq.trans (Finset.sum_congr rfl fun i _ => by ring) (srt u w v huw hvw)
      · exact Eq.trans (Finset.sum_congr rfl fun i _ => by ring) (eq2 u v)
      · exact Eq.trans (Finset.sum_congr rfl fun i _ => by ring) (srt w u v huw huv)
  · exact eq2 u w
  · rcases lt_trichotomy u w with huw | rfl | huw
    · exact Eq.trans (Finset.sum_congr rfl fun i _ => by ring) (srt v u w huv huw)
    · exact Eq.trans (Finset.sum_congr rfl fun i _ => by ring) (eq2 u v)
    · rcases lt_trichotomy v w with hvw | rfl | hvw
      · exact Eq.trans (Finset.sum_congr rfl fun i _ => by ring) (srt v w u hvw huw)
      · exact Eq.trans (Finset.sum_congr rfl fun i _ => by ring) (eq2 v u)
      · exact Eq.trans (Finset.sum_congr rfl fun i _ => by ring) (srt w v u hvw huv)

/-- The columns after the addition of `z`. -/
def addZ (C : Data) (z y : Row) : Data := C.mapIdx fun i c => if y.getD i false then List.zipWith xor c z else c

theorem getD_addZ {C : Data} {z y : Row} {i : ℕ} (hi : i < C.length) :
    (addZ C z y).getD i [] = if y.getD i false then List.zipWith xor (C.getD i []) z else C.getD i [] := by
  rw [List.getD_eq_getElem _ _ (by rw [addZ, List.length_mapIdx]; exact hi), List.getD_eq_getElem C _ hi]
  simp only [addZ, List.getElem_mapIdx]

theorem Match.zlen {k n : ℕ} {C : Data} (h : Rect k n C) {a b : ℕ} {z y : Row} (hm : Match k n C a b z y) : z.length = n := by
  rw [hm.zdef, List.length_zipWith, length_getD h (by have := hm.lt; have := hm.bound; omega), length_getD h hm.bound, min_self]

theorem sum_bits_count (y : Row) : ∑ i ∈ Finset.range y.length, bit (y.getD i false) = (y.count true : ZMod 2) := by
  rw [← sum_map_range bit false y]
  induction y with
  | nil => rfl
  | cons b y ih =>
    rw [List.map_cons, List.sum_cons, ih]
    cases b
    · simp [bit]
    · simp [bit]; ring

theorem cast_odd (c : ℕ) : (c : ZMod 2) = if c % 2 = 1 then 1 else 0 := by
  have h : (c : ZMod 2) = ((c % 2 : ℕ) : ZMod 2) := (ZMod.natCast_mod c 2).symm
  rw [h]
  rcases Nat.mod_two_eq_zero_or_one c with e | e <;> rw [e] <;> rfl

theorem Match.sig {k n : ℕ} {C : Data} (h : Rect k n C) {a b : ℕ} {z y : Row} (hm : Match k n C a b z y) (u v w : ℕ) :
    sig (if y.count true % 2 = 1 then addZ C z y ++ [z] else addZ C z y) u v w = sig C u v w := by
  have hz := hm.zlen h
  have e1 : Todd.sig (addZ C z y) u v w = Todd.sig C u v w + (if y.count true % 2 = 1 then 1 else 0) * (bit (z.getD u false) * (bit (z.getD v false) * bit (z.getD w false))) := by
    unfold Todd.sig
    rw [sum_map_range _ [], sum_map_range _ []]
    have hl : (addZ C z y).length = k := by rw [addZ, List.length_mapIdx, h.1]
    rw [hl, h.1]
    have pt : ∀ i ∈ Finset.range k, bit (((addZ C z y).getD i []).getD u false) * (bit (((addZ C z y).getD i []).getD v false) * bit (((addZ C z y).getD i []).getD w false)) =
        bit ((C.getD i []).getD u false) * (bit ((C.getD i []).getD v false) * bit ((C.getD i []).getD w false)) +
        (bit (z.getD u false) * (bit ((C.getD i []).getD v false) * bit ((C.getD i []).getD w false)) +
          bit (z.getD v false) * (bit ((C.getD i []).getD u false) * bit ((C.getD i []).getD w false)) +
          bit (z.getD w false) * (bit ((C.getD i []).getD u false) * bit ((C.getD i []).getD v false))) * bit (y.getD i false) +
        bit (z.getD u false) * bit (z.getD v false) * (bit ((C.getD i []).getD w false) * bit (y.getD i false)) +
        bit (z.getD u false) * bit (z.getD w false) * (bit ((C.getD i []).getD v false) * bit (y.getD i false)) +
        bit (z.getD v false) * bit (z.getD w false) * (bit ((C.getD i []).getD u false) * bit (y.getD i false)) +
        bit (z.getD u false) * (bit (z.getD v false) * bit (z.getD w false)) * bit (y.getD i false) := by
      intro i hi
      have hi := Finset.mem_range.mp hi
      have hci := length_getD h hi
      rw [getD_addZ (by rw [h.1]; exact hi)]
      cases y.getD i false with
      | false => simp [bit]
      | true =>
        rw [if_pos rfl, getD_zipWith rfl hci hz, getD_zipWith rfl hci hz, getD_zipWith rfl hci hz, bit_xor, bit_xor, bit_xor, show bit true = 1 from rfl]
        ring
    rw [Finset.sum_congr rfl pt]
    rw [Finset.sum_add_distrib, Finset.sum_add_distrib, Finset.sum_add_distrib, Finset.sum_add_distrib, Finset.sum_add_distrib,
      ← Finset.mul_sum, ← Finset.mul_sum, ← Finset.mul_sum, ← Finset.mul_sum, hm.cub_all, hm.lin, hm.lin, hm.lin]
    have hy := sum_bits_count y
    rw [hm.len, cast_odd] at hy
    rw [hy]
    ring
  by_cases hodd : y.count true % 2 = 1
  · rw [if_pos hodd] at e1 ⊢
    have : Todd.sig (addZ C z y ++ [z]) u v w = Todd.sig (addZ C z y) u v w + bit (z.getD u false) * (bit (z.getD v false) * bit (z.getD w false)) := by
      simp [Todd.sig]
    rw [this, e1, one_mul, add_assoc, dbl, add_zero]
  · rw [if_neg hodd] at e1 ⊢
    rw [e1]; ring

/-- The two columns become equal. -/
theorem Match.eq {k n : ℕ} {C : Data} (h : Rect k n C) {a b : ℕ} {z y : Row} (hm : Match k n C a b z y) : (addZ C z y).getD a [] = (addZ C z y).getD b [] := by
  have hb := hm.bound
  have ha : a < k := by have := hm.lt; omega
  have la := length_getD h ha
  have lb := length_getD h hb
  have hz := hm.zlen h
  have hy := hm.ydef
  rw [getD_addZ (by rw [h.1]; exact ha), getD_addZ (by rw [h.1]; exact hb)]
  cases h1 : y.getD a false <;> cases h2 : y.getD b false <;> rw [h1, h2] at hy
  · cases hy
  · rw [if_pos rfl, if_neg (by simp)]
    refine ext_getD la (by rw [List.length_zipWith, lb, hz, min_self]) fun k _ => ?_
    rw [getD_zipWith rfl lb hz, hm.zdef, getD_zipWith rfl la lb]
    generalize List.getD _ k false = p
    generalize List.getD _ k false = q
    cases p <;> cases q <;> rfl
  · rw [if_pos rfl, if_neg (by simp)]
    refine ext_getD (by rw [List.length_zipWith, la, hz, min_self]) lb fun k _ => ?_
    rw [getD_zipWith rfl la hz, hm.zdef, getD_zipWith rfl la lb]
    generalize List.getD _ k false = p
    generalize List.getD _ k false = q
    cases p <;> cases q <;> rfl
  · cases hy

/-- What the algorithm keeps. -/
structure Kept (n : ℕ) (C C' : Data) : Prop where
  rows : ∀ c ∈ C', c.length = n
  nodup : C'.Nodup
  ne : ∀ c ∈ C', true ∈ c
  sig : ∀ u v w, sig C' u v w = sig C u v w
  le : C'.length ≤ C.length

theorem Match.step {k n : ℕ} {C : Data} (h : Rect k n C) {a b : ℕ} {z y : Row} (hm : Match k n C a b z y) :
    Kept n C (removeTrivial (((if y.count true % 2 = 1 then addZ C z y ++ [z] else addZ C z y).eraseIdx b).eraseIdx a)) ∧
      (removeTrivial (((if y.count true % 2 = 1 then addZ C z y ++ [z] else addZ C z y).eraseIdx b).eraseIdx a)).length < C.length := by
  have hz := hm.zlen h
  set D := if y.count true % 2 = 1 then addZ C z y ++ [z] else addZ C z y with hD
  have hl : (addZ C z y).length = k := by rw [addZ, List.length_mapIdx, h.1]
  have hDl : k ≤ D.length ∧ D.length ≤ k + 1 := by
    rw [hD]
    split
    · rw [List.length_append, hl]; simp
    · rw [hl]; omega
  have hDget : ∀ i < k, D.getD i [] = (addZ C z y).getD i [] := by
    intro i hi
    rw [hD]
    split
    · rw [List.getD_append _ _ _ _ (by rw [hl]; exact hi)]
    · rfl
  have hDrow : ∀ c ∈ D, c.length = n := by
    have : ∀ c ∈ addZ C z y, c.length = n := by
      intro c hc
      obtain ⟨i, hi, rfl⟩ := List.mem_iff_getElem.mp hc
      rw [← List.getD_eq_getElem _ [], getD_addZ (by rw [h.1, ← hl]; exact hi)]
      have lc := length_getD h (i := i) (by rw [← hl]; exact hi)
      split
      · rw [List.length_zipWith, lc, hz, min_self]
      · exact lc
    intro c hc
    rw [hD] at hc
    split at hc
    · rcases List.mem_append.mp hc with hc | hc
      · exact this c hc
      · rw [List.mem_singleton.mp hc]; exact hz
    · exact this c hc
  have ha : a < k := by have := hm.lt; have := hm.bound; omega
  have hp := perm_eraseIdx2 (d := D) hm.lt (by have := hm.bound; omega)
  rw [hDget b hm.bound, hDget a ha, hm.eq h] at hp
  obtain ⟨t1, t2, t3⟩ := removeTrivial_spec ((D.eraseIdx b).eraseIdx a)
  have hlen := hp.length_eq
  simp only [List.length_cons] at hlen
  have hlt : (removeTrivial ((D.eraseIdx b).eraseIdx a)).length < C.length := by
    have := t1.length_le
    have := h.1
    omega
  refine ⟨⟨?_, t2, t3, ?_, hlt.le⟩, hlt⟩
  · intro c hc
    exact hDrow c (hp.mem_iff.mpr (List.mem_cons_of_mem _ (List.mem_cons_of_mem _ (t1.subset hc))))
  · intro u v w
    rw [t1.sig, ← hm.sig h u v w, ← hD, sig_perm hp, sig_pair]

theorem Kept.trans {n : ℕ} {A B C : Data} (h1 : Kept n A B) (h2 : Kept n B C) : Kept n A C :=
  ⟨h2.rows, h2.nodup, h2.ne, fun u v w => (h2.sig u v w).trans (h1.sig u v w), h2.le.trans h1.le⟩

theorem toddLoop_spec {n : ℕ} (hn : 0 < n) : ∀ (fuel : ℕ) {C : Data}, Kept n C C → C.length < fuel → ∃ C', toddLoop fuel (transpose C) = some (transpose C') ∧ Kept n C C'
  | 0, C, _, hf => by omega
  | fuel + 1, C, h, hf => by
    have hR : Rect C.length n C := ⟨rfl, h.rows⟩
    rw [toddLoop]
    cases hm : findMatch (transpose C) with
    | none =>
      have : doTodd (transpose C) = (transpose C, 0) := by rw [doTodd, hm]
      rw [this, if_pos rfl]
      exact ⟨C, rfl, h⟩
    | some m =>
      obtain ⟨a, b, z, y⟩ := m
      have hk : 0 < C.length := by
        rcases Nat.eq_zero_or_pos C.length with h0 | h0
        · rw [List.length_eq_zero_iff.mp h0] at hm
          cases hm
        · exact h0
      have hM := findMatch_spec hR hk hn hm
      obtain ⟨s1, s2⟩ := hM.step hR
      have hc : cols (transpose C) = C.length := rect_cols (rect_transpose hR hk) hn
      set C' := removeTrivial (((if y.count true % 2 = 1 then addZ C z y ++ [z] else addZ C z y).eraseIdx b).eraseIdx a) with hC'
      have : doTodd (transpose C) = (transpose C', (C.length : ℤ) - C'.length) := by
        rw [doTodd, hm]
        simp only
        rw [hc, transpose_transpose hR hn]
        rfl
      rw [this, if_neg (by simp only; omega)]
      obtain ⟨C'', e, h''⟩ := toddLoop_spec hn fuel (C := C') ⟨s1.rows, s1.nodup, s1.ne, fun _ _ _ => rfl, le_rfl⟩ (by omega)
      exact ⟨C'', e, s1.trans h''⟩

theorem toddIter_spec {n : ℕ} (hn : 0 < n) {C : Data} (hC : ∀ c ∈ C, c.length = n) {shuffle : Data → Data} (hs : ∀ d, (shuffle d).Perm d) :
    ∃ C', toddIter shuffle (transpose C) = some (transpose C') ∧ Kept n C C' ∧ C'.length ≤ (removeTrivial C).length := by
  have hR : Rect C.length n C := ⟨rfl, hC⟩
  obtain ⟨t1, t2, t3⟩ := removeTrivial_spec C
  set C1 := shuffle (removeTrivial C) with hC1
  have hp : C1.Perm (removeTrivial C) := hs _
  have k1 : Kept n C C1 := ⟨fun c hc => hC c (t1.subset (hp.mem_iff.mp hc)), hp.nodup_iff.mpr t2, fun c hc => t3 c (hp.mem_iff.mp hc),
    fun u v w => by rw [sig_perm hp, t1.sig], by rw [hp.length_eq]; exact t1.length_le⟩
  unfold toddIter
  simp only
  rw [transpose_transpose hR hn, ← hC1]
  by_cases h0 : cols (transpose C1) = 0 ∨ (transpose C1).length = 0
  · rw [if_pos h0]
    exact ⟨C1, rfl, k1, hp.length_eq.le⟩
  · rw [if_neg h0]
    have hR1 : Rect C1.length n C1 := ⟨rfl, k1.rows⟩
    have hc : cols (transpose C1) = C1.length := by
      rcases Nat.eq_zero_or_pos C1.length with e | e
      · rw [List.length_eq_zero_iff.mp e]; rfl
      · exact rect_cols (rect_transpose hR1 e) hn
    obtain ⟨C2, e, k2⟩ := toddLoop_spec hn (cols (transpose C1) + 1) (C := C1) ⟨k1.rows, k1.nodup, k1.ne, fun _ _ _ => rfl, le_rfl⟩ (by omega)
    exact ⟨C2, e, k1.trans k2, k2.le.trans hp.length_eq.le⟩

end Todd
end PyZX
