import Verif.Proofs.LinalgAlg

/-!
# Applications of Gaussian elimination: `factor`, `inverse`, `solve`, `nullspace`
-/

namespace PyZX
namespace Mat2

open Matrix

theorem mat_inj {r c : ℕ} {d d' : Data} (h : Rect r c d) (h' : Rect r c d') (he : mat r c d = mat r c d') : d = d' := by
  refine List.ext_getElem (by rw [h.1, h'.1]) fun i hi hi' => ?_
  have hir : i < r := h.1 ▸ hi
  have l1 : d[i].length = c := h.2 _ (List.getElem_mem hi)
  have l2 : d'[i].length = c := h'.2 _ (List.getElem_mem hi')
  refine List.ext_getElem (by rw [l1, l2]) fun j hj hj' => ?_
  have := congrFun (congrFun he ⟨i, hir⟩) ⟨j, l1 ▸ hj⟩
  simp only [mat, bit_inj, get] at this
  rwa [List.getD_eq_getElem _ _ hi, List.getD_eq_getElem _ _ hi', List.getD_eq_getElem _ _ hj, List.getD_eq_getElem _ _ hj'] at this

theorem rect_of_map {r c : ℕ} (f : ℕ → ℕ → Bool) : Rect r c ((List.range r).map fun i => (List.range c).map fun j => f i j) := by
  refine ⟨by simp, fun row hrow => ?_⟩
  simp only [List.mem_map] at hrow
  obtain ⟨i, -, rfl⟩ := hrow
  simp

theorem get_of_map {r c : ℕ} (f : ℕ → ℕ → Bool) {i j : ℕ} (hi : i < r) (hj : j < c) :
    get ((List.range r).map fun i => (List.range c).map fun j => f i j) i j = f i j := by
  simp [get, List.getD_eq_getElem?_getD, hi, hj]

theorem rect_ident (n : ℕ) : Rect n n (ident n) := rect_of_map fun i j => decide (i = j)

theorem mat_ident (n : ℕ) : mat n n (ident n) = 1 := by
  ext i j
  simp only [mat, ident, Matrix.one_apply]
  rw [get_of_map (fun i j => decide (i = j)) i.2 j.2]
  by_cases h : i = j
  · simp [h, bit]
  · have : ¬ (i.1 = j.1) := fun e => h (Fin.ext e)
    simp [h, this, bit]

theorem sum_foldl (f g : ℕ → Bool) (n : ℕ) :
    (((List.range n).foldl (fun (s : ℕ) k => s + (f k).toNat * (g k).toNat) 0 : ℕ) : ZMod 2) =
      ∑ k : Fin n, bit (f k) * bit (g k) := by
  induction n with
  | zero => simp
  | succ n ih =>
    rw [List.range_succ, List.foldl_append, List.foldl_cons, List.foldl_nil, Nat.cast_add, ih, Fin.sum_univ_castSucc]
    simp only [Fin.val_castSucc, Fin.val_last]
    congr 1
    cases f n <;> cases g n <;> simp [bit]

theorem bit_mod (n : ℕ) : bit (n % 2 == 1) = (n : ZMod 2) := by
  rw [← Nat.mod_add_div n 2]
  have : (2 : ZMod 2) = 0 := by decide
  rcases Nat.mod_two_eq_zero_or_one n with h | h <;> rw [h] <;> push_cast <;> rw [this] <;> simp [bit]

/-- `__mul__` is the product of matrices. -/
theorem mul_spec {r k c : ℕ} {a b : Data} (ha : Rect r k a) (hb : Rect k c b) (hk : 0 < k) :
    ∃ p, mul a b = some p ∧ Rect r c p ∧ mat r c p = mat r k a * mat k c b := by
  have hbne : b ≠ [] := by
    rintro rfl
    have := hb.1
    simp at this; omega
  refine ⟨_, by rw [mul, if_neg (by simp [hbne])], ?_, ?_⟩
  · rw [ha.1, rect_cols hb hk]
    exact rect_of_map _
  · ext i j
    rw [ha.1, rect_cols hb hk, hb.1]
    simp only [mat]
    rw [get_of_map _ i.2 j.2, bit_mod, sum_foldl, Matrix.mul_apply]
    rfl

theorem mul_raises {a b : Data} (ha : a ≠ []) (hb : b = []) : mul a b = none := by
  rw [mul, if_pos ⟨hb, ha⟩]

/-! ### factor -/

theorem factor_core (stale : List ℕ) {d : Data} (hd : Rect d.length (cols d) d) :
    Rect d.length (mat d.length (cols d) d).rank (factor stale d).1 ∧
      Rect (mat d.length (cols d) d).rank (cols d) (factor stale d).2 ∧
      mat d.length _ (factor stale d).1 * mat (mat d.length (cols d) d).rank (cols d) (factor stale d).2 = mat d.length (cols d) d := by
  set r := d.length with hr
  set c := cols d with hc
  obtain ⟨piv, h1, h2, h3, L, hL, hrun⟩ := gauss_core (ra := noOp) (ca := colAdd) (b := 6) (by norm_num)
    (s := ⟨d, (), ident r⟩) hd false stale
  obtain ⟨E, E', e1, e2, e3, e4, -⟩ := log_mats L hL
  set G := gauss noOp colAdd false 6 stale ⟨d, (), ident r⟩ with hG
  have hm : G.1.m = L.foldl (fun d p => rowAdd p.1 p.2 d) d := by rw [hrun, runs_m]
  have hy : G.1.y = L.foldl (fun y p => colAdd p.2 p.1 y) (ident r) := by rw [hrun, runs_y]
  obtain ⟨a1, a2⟩ := e3 c d hd
  obtain ⟨b1, b2⟩ := e4 r _ (rect_ident r)
  rw [← hm] at a1 a2
  rw [← hy] at b1 b2
  rw [mat_ident, Matrix.one_mul] at b2
  have hF : Fwd r c c piv G.1.m := h1.fwd
  have hrank : (mat r c d).rank = piv.length := by
    rw [← hF.rank, a2, rank_eq_rowSpace, rank_eq_rowSpace, rowSpace_mul_unit e2]
  have hf : factor stale d = (G.1.y.map fun row => (List.range piv.length).map fun i => row.getD i false,
      (List.range piv.length).map fun i => G.1.m.getD i []) := by
    unfold factor
    simp only [← hr, ← hG, h2]
  rw [hf, hrank]
  have hle := hF.le
  refine ⟨⟨by simp [b1.1], ?_⟩, ⟨by simp, ?_⟩, ?_⟩
  · intro row hrow
    simp only [List.mem_map] at hrow
    obtain ⟨i, -, rfl⟩ := hrow
    simp
  · intro row hrow
    simp only [List.mem_map, List.mem_range] at hrow
    obtain ⟨i, hi, rfl⟩ := hrow
    exact a1.length_getD (by omega)
  · have hmul : mat r c d = mat r r G.1.y * mat r c G.1.m := by
      rw [a2, b2, ← Matrix.mul_assoc, e2, Matrix.one_mul]
    rw [hmul]
    ext i j
    rw [Matrix.mul_apply, Matrix.mul_apply]
    have g1 : ∀ k < piv.length, get (G.1.y.map fun row => (List.range piv.length).map fun i => row.getD i false) i k = get G.1.y i k := by
      intro k hk
      have : i.1 < G.1.y.length := by rw [b1.1]; exact i.2
      simp [get, List.getD_eq_getElem?_getD, List.getElem?_eq_getElem this, hk]
    have g2 : ∀ k < piv.length, get ((List.range piv.length).map fun i => G.1.m.getD i []) k j = get G.1.m k j := by
      intro k hk
      simp [get, List.getD_eq_getElem?_getD, hk]
    have hsplit : ∑ k : Fin r, mat r r G.1.y i k * mat r c G.1.m k j = ∑ k ∈ Finset.range r, bit (get G.1.y i k) * bit (get G.1.m k j) := by
      rw [Finset.sum_range]; rfl
    have hz : ∑ k ∈ Finset.range piv.length, bit (get G.1.y i k) * bit (get G.1.m k j) =
        ∑ k ∈ Finset.range r, bit (get G.1.y i k) * bit (get G.1.m k j) := by
      refine Finset.sum_subset (Finset.range_mono hle) fun k hk hk' => ?_
      rw [Finset.mem_range] at hk hk'
      rw [hF.below k (by omega) hk j j.2, bit_false, mul_zero]
    rw [hsplit, ← hz, Finset.sum_range]
    refine Finset.sum_congr rfl fun k _ => ?_
    simp only [mat]
    rw [g1 k k.2, g2 k k.2]

/-! ### inverse -/

theorem Bwd.full_one {r : ℕ} {piv : List ℕ} {m : Data} (h : Bwd r r piv 0 m) (hlen : piv.length = r) : mat r r m = 1 := by
  have hpiv : ∀ i < r, piv.getD i 0 = i := by
    have hge : ∀ i, i < r → i ≤ piv.getD i 0 := by
      intro i
      induction i with
      | zero => intro _; exact Nat.zero_le _
      | succ i ih =>
        intro hi
        have := ih (by omega)
        have := h.fwd.mono i (i + 1) (by omega) (by omega)
        omega
    have hle : ∀ k i, i + k + 1 = r → piv.getD i 0 ≤ i := by
      intro k
      induction k with
      | zero =>
        intro i hi
        have := h.fwd.lt i (by omega)
        omega
      | succ k ih =>
        intro i hi
        have := ih (i + 1) (by omega)
        have := h.fwd.mono i (i + 1) (by omega) (by omega)
        omega
    intro i hi
    exact le_antisymm (hle (r - i - 1) i (by omega)) (hge i hi)
  ext i j
  simp only [mat, Matrix.one_apply]
  have hj := hpiv j j.2
  by_cases hij : i = j
  · subst hij
    have := h.fwd.one i (by rw [hlen]; exact i.2)
    rw [hj] at this
    simp [this, bit]
  · have := h.col (k := j) (i := i) (by rw [hlen]; exact j.2) i.2 fun e => hij (Fin.ext e)
    rw [hj] at this
    simp [this, hij, bit]

theorem inverse_core (stale : List ℕ) {r : ℕ} {d : Data} (hd : Rect r r d) :
    (∀ n, inverse stale d = some n → Rect r r n ∧ mat r r n * mat r r d = 1 ∧ mat r r d * mat r r n = 1) ∧
      (inverse stale d = none → (mat r r d).rank < r) := by
  have hcols : cols d = r := by
    rcases Nat.eq_zero_or_pos r with rfl | h
    · have := hd.1
      rw [List.length_eq_zero_iff] at this
      subst this; rfl
    · exact rect_cols hd h
  obtain ⟨piv, h1, h2, h3, L, hL, hrun⟩ := gauss_core (ra := rowAdd) (ca := noOp) (r := r) (b := 6) (by norm_num)
    (s := ⟨d, ident r, ()⟩) (by rw [hcols]; exact hd) true stale
  obtain ⟨E, E', e1, e2, e3, -⟩ := log_mats L hL
  set G := gauss rowAdd noOp true 6 stale ⟨d, ident r, ()⟩ with hG
  rw [hcols] at h1
  have hm : G.1.m = L.foldl (fun d p => rowAdd p.1 p.2 d) d := by rw [hrun, runs_m]
  have hx : G.1.x = L.foldl (fun d p => rowAdd p.1 p.2 d) (ident r) := by rw [hrun, runs_x]
  obtain ⟨a1, a2⟩ := e3 r d hd
  obtain ⟨b1, b2⟩ := e3 r _ (rect_ident r)
  rw [← hm] at a1 a2
  rw [← hx] at b1 b2
  rw [mat_ident, Matrix.mul_one] at b2
  have hrank : (mat r r d).rank = piv.length := by
    rw [← h1.fwd.rank, a2, rank_eq_rowSpace, rank_eq_rowSpace, rowSpace_mul_unit e2]
  have hf : inverse stale d = if piv.length < r then none else some G.1.x := by
    unfold inverse
    rw [if_neg (by rw [hd.1, hcols]; simp), hd.1]
    simp only [← hG, h2]
  rw [hf]
  refine ⟨fun n hn => ?_, fun hn => ?_⟩
  · split_ifs at hn with hlt
    have hn := Option.some.inj hn
    subst hn
    have hlen : piv.length = r := by have := h1.fwd.le; omega
    have hone := h1.full_one hlen
    have hEd : E * mat r r d = 1 := by rw [← a2, hone]
    have hd' : mat r r d = E' := by
      calc mat r r d = (E' * E) * mat r r d := by rw [e2, Matrix.one_mul]
        _ = E' := by rw [Matrix.mul_assoc, hEd, Matrix.mul_one]
    exact ⟨b1, by rw [b2, hEd], by rw [b2, hd', e2]⟩
  · split_ifs at hn with hlt
    rw [hrank]; exact hlt

/-! ### solve -/

theorem findIdx_lead {r c : ℕ} {piv : List ℕ} {m : Data} (h : Fwd r c c piv m) {i : ℕ} (hi : i < r) :
    (m.getD i []).findIdx? id = if i < piv.length then some (piv.getD i 0) else none := by
  have hl := h.rect.length_getD hi
  split_ifs with hip
  · have hlt := h.lt i hip
    rw [List.findIdx?_eq_some_iff_getElem]
    refine ⟨by rw [hl]; exact hlt, ?_, fun j hj => ?_⟩
    · have := h.one i hip
      unfold get at this
      rw [List.getD_eq_getElem _ _ (by rw [hl]; exact hlt)] at this
      exact this
    · have := h.left i hip j hj
      unfold get at this
      rw [List.getD_eq_getElem _ _ (by rw [hl]; omega)] at this
      simpa using this
  · rw [List.findIdx?_eq_none_iff]
    intro x hx
    obtain ⟨j, hj, rfl⟩ := List.getElem_of_mem hx
    have := h.below i (by omega) hi j (by omega)
    unfold get at this
    rw [List.getD_eq_getElem _ _ hj] at this
    exact this

theorem get_set_one {c : ℕ} {x : Data} (hx : Rect c 1 x) {j : ℕ} (hj : j < c) (v : Bool) (k : ℕ) :
    get (x.set j [v]) k 0 = if k = j then v else get x k 0 := by
  unfold get
  by_cases hk : k = j
  · subst hk
    rw [if_pos rfl, List.getD_eq_getElem?_getD (l := x.set k [v]), List.getElem?_set_self (by rw [hx.1]; exact hj)]
    rfl
  · rw [if_neg hk, List.getD_eq_getElem?_getD (l := x.set j [v]), List.getElem?_set_ne (Ne.symm hk), ← List.getD_eq_getElem?_getD]

theorem rect_set_one {c : ℕ} {x : Data} (hx : Rect c 1 x) (j : ℕ) (v : Bool) : Rect c 1 (x.set j [v]) := by
  refine ⟨by rw [List.length_set, hx.1], fun row hrow => ?_⟩
  rcases List.mem_or_eq_of_mem_set hrow with h | rfl
  · exact hx.2 _ h
  · rfl

theorem solveLoop_spec {r c : ℕ} {piv : List ℕ} {m b1 : Data} (h : Fwd r c c piv m) (n : ℕ) {i : ℕ} (hi : i + n = r) {x : Data}
    (hx : Rect c 1 x) (hx0 : ∀ k, i ≤ k → k < piv.length → get x (piv.getD k 0) 0 = false)
    (hx1 : ∀ k < i, k < piv.length → get x (piv.getD k 0) 0 = get b1 k 0)
    (hx2 : ∀ j, (∀ k < piv.length, piv.getD k 0 ≠ j) → get x j 0 = false) :
    (∀ x', solveLoop b1 i (m.drop i) x = some x' → Rect c 1 x' ∧ (∀ k < piv.length, get x' (piv.getD k 0) 0 = get b1 k 0) ∧
      (∀ j, (∀ k < piv.length, piv.getD k 0 ≠ j) → get x' j 0 = false) ∧
      ∀ k, i ≤ k → piv.length ≤ k → k < r → get b1 k 0 = false) ∧
    (solveLoop b1 i (m.drop i) x = none → ∃ k, piv.length ≤ k ∧ k < r ∧ get b1 k 0 = true) := by
  have hlen := h.rect.1
  have hple := h.le
  induction n generalizing i x with
  | zero =>
    rw [List.drop_eq_nil_of_le (by omega)]
    refine ⟨fun x' hx' => ?_, fun hn => by simp [solveLoop] at hn⟩
    simp only [solveLoop, Option.some.injEq] at hx'
    subst hx'
    exact ⟨hx, fun k hk => hx1 k (by omega) hk, hx2, fun k h1 _ h2 => by omega⟩
  | succ n ih =>
    have hd : m.drop i = m.getD i [] :: m.drop (i + 1) := by
      rw [List.getD_eq_getElem _ _ (by omega), List.drop_eq_getElem_cons (by omega)]
    rw [hd]
    unfold solveLoop
    rw [findIdx_lead h (by omega)]
    by_cases hip : i < piv.length
    · simp only [if_pos hip]
      have hlt := h.lt i hip
      have hne : ∀ k < piv.length, k ≠ i → piv.getD k 0 ≠ piv.getD i 0 := by
        intro k hk hki
        rcases lt_or_gt_of_ne hki with h1 | h1
        · have := h.mono k i h1 hip; omega
        · have := h.mono i k h1 hk; omega
      obtain ⟨q1, q2⟩ := ih (i := i + 1) (by omega) (rect_set_one hx (piv.getD i 0) (get b1 i 0))
        (fun k hk hkl => by rw [get_set_one hx hlt, if_neg (hne k hkl (by omega))]; exact hx0 k (by omega) hkl)
        (fun k hk hkl => by
          rw [get_set_one hx hlt]
          by_cases hki : k = i
          · rw [if_pos (by rw [hki]), hki]
          · rw [if_neg (hne k hkl hki)]; exact hx1 k (by omega) hkl)
        (fun j hj => by rw [get_set_one hx hlt, if_neg (Ne.symm (hj i hip))]; exact hx2 j hj)
      refine ⟨fun x' hx' => ?_, q2⟩
      obtain ⟨p1, p2, p3, p4⟩ := q1 x' hx'
      exact ⟨p1, p2, p3, fun k h1 h2 h3 => p4 k (by omega) h2 h3⟩
    · simp only [if_neg hip]
      by_cases hb : get b1 i 0 = true
      · rw [if_pos hb]
        exact ⟨fun x' hx' => by simp at hx', fun _ => ⟨i, by omega, by omega, hb⟩⟩
      · rw [if_neg hb]
        obtain ⟨q1, q2⟩ := ih (i := i + 1) (by omega) hx (fun k hk hkl => by omega) (fun k hk hkl => hx1 k (by omega) hkl) hx2
        refine ⟨fun x' hx' => ?_, q2⟩
        obtain ⟨p1, p2, p3, p4⟩ := q1 x' hx'
        refine ⟨p1, p2, p3, fun k h1 h2 h3 => ?_⟩
        rcases Nat.eq_or_lt_of_le h1 with rfl | h1
        · simpa using hb
        · exact p4 k h1 h2 h3

/-- A row of a matrix in reduced echelon form times a vector. -/
theorem Bwd.row_mul {r c : ℕ} {piv : List ℕ} {m : Data} (h : Bwd r c piv 0 m) (v : Fin c → ZMod 2) {i : ℕ} (hi : i < piv.length) :
    (mat r c m).mulVec v ⟨i, lt_of_lt_of_le hi h.fwd.le⟩ = v ⟨piv.getD i 0, h.fwd.lt i hi⟩ +
      ∑ j ∈ Finset.univ.filter (fun j : Fin c => ∀ k < piv.length, piv.getD k 0 ≠ j), bit (get m i j) * v j := by
  rw [Matrix.mulVec, dotProduct, ← Finset.add_sum_erase _ _ (Finset.mem_univ (⟨piv.getD i 0, h.fwd.lt i hi⟩ : Fin c))]
  congr 1
  · simp only [mat]
    rw [h.fwd.one i hi, bit_true, one_mul]
  · symm
    refine Finset.sum_subset_zero_on_sdiff ?_ ?_ ?_
    · intro j hj
      rw [Finset.mem_filter] at hj
      exact Finset.mem_erase.mpr ⟨fun e => hj.2 i hi (by rw [e]), Finset.mem_univ _⟩
    · intro j hj
      simp only [Finset.mem_sdiff, Finset.mem_erase, Finset.mem_filter, Finset.mem_univ, true_and, not_forall, and_true, not_not,
        ne_eq] at hj
      obtain ⟨hj1, k, hk, hkj⟩ := hj
      have hki : i ≠ k := by
        rintro rfl
        exact hj1 (Fin.ext hkj.symm)
      have := h.col hk (lt_of_lt_of_le hi h.fwd.le) hki
      simp only [mat]
      rw [← hkj, this, bit_false, zero_mul]
    · intros; rfl

theorem row_zero {r c : ℕ} {piv : List ℕ} {m : Data} (h : Fwd r c c piv m) (v : Fin c → ZMod 2) {i : Fin r} (hi : piv.length ≤ i) :
    (mat r c m).mulVec v i = 0 := by
  rw [Matrix.mulVec, dotProduct]
  refine Finset.sum_eq_zero fun j _ => ?_
  simp only [mat]
  rw [h.below i hi i.2 j j.2, bit_false, zero_mul]

theorem vec_eq_mat {c : ℕ} (x : Data) (j : Fin c) : vec c x j = mat c 1 x j 0 := rfl

theorem solve_core (stale : List ℕ) {r : ℕ} {d b : Data} (hd : Rect r (cols d) d) (hb : Rect r 1 b) :
    (∀ x, solve stale d b = some x → Rect (cols d) 1 x ∧ (mat r (cols d) d).mulVec (vec (cols d) x) = vec r b) ∧
      (solve stale d b = none → ∀ v, (mat r (cols d) d).mulVec v ≠ vec r b) := by
  set c := cols d with hc
  obtain ⟨piv, h1, h2, h3, L, hL, hrun⟩ := gauss_core (ra := rowAdd) (ca := noOp) (r := r) (b := 6) (by norm_num)
    (s := ⟨d, b, ()⟩) hd true stale
  obtain ⟨E, E', e1, e2, e3, -⟩ := log_mats L hL
  set G := gauss rowAdd noOp true 6 stale ⟨d, b, ()⟩ with hG
  have hm : G.1.m = L.foldl (fun d p => rowAdd p.1 p.2 d) d := by rw [hrun, runs_m]
  have hx : G.1.x = L.foldl (fun d p => rowAdd p.1 p.2 d) b := by rw [hrun, runs_x]
  obtain ⟨a1, a2⟩ := e3 c d hd
  obtain ⟨b1, b2⟩ := e3 1 b hb
  rw [← hm] at a1 a2
  rw [← hx] at b1 b2
  have hbv : vec r G.1.x = E.mulVec (vec r b) := by
    funext i
    rw [vec_eq_mat, b2]
    rfl
  have hmv : ∀ v, (mat r c G.1.m).mulVec v = E.mulVec ((mat r c d).mulVec v) := by
    intro v; rw [a2, Matrix.mulVec_mulVec]
  have hinj : ∀ v w : Fin r → ZMod 2, E.mulVec v = E.mulVec w → v = w := by
    intro v w hvw
    have := congrArg E'.mulVec hvw
    rwa [Matrix.mulVec_mulVec, Matrix.mulVec_mulVec, e2, Matrix.one_mulVec, Matrix.one_mulVec] at this
  have hz : Rect c 1 (zeros c 1) := rect_of_map _
  have hz0 : ∀ j, get (zeros c 1) j 0 = false := by
    intro j
    by_cases hj : j < c
    · exact get_of_map (fun _ _ => false) hj (by norm_num)
    · simp [get, zeros, List.getD_eq_getElem?_getD, hj]
  have hB : Bwd r c piv 0 G.1.m := h1
  obtain ⟨q1, q2⟩ := solveLoop_spec (b1 := G.1.x) hB.fwd r (i := 0) (by omega) hz (fun k _ _ => hz0 _) (fun k hk => by omega)
    (fun j _ => hz0 j)
  rw [List.drop_zero] at q1 q2
  have hs : solve stale d b = solveLoop G.1.x 0 G.1.m (zeros c 1) := rfl
  rw [hs]
  refine ⟨fun x hx' => ?_, fun hn v hv => ?_⟩
  · obtain ⟨p1, p2, p3, p4⟩ := q1 x hx'
    refine ⟨p1, hinj _ _ ?_⟩
    rw [← hmv, ← hbv]
    funext i
    by_cases hi : i.1 < piv.length
    · have := hB.row_mul (vec c x) hi
      rw [this, Finset.sum_eq_zero]
      · simp only [vec, add_zero]
        rw [p2 i hi]
      · intro j hj
        rw [Finset.mem_filter] at hj
        simp only [vec]
        rw [p3 j hj.2, bit_false, mul_zero]
    · rw [row_zero hB.fwd _ (by omega)]
      simp only [vec]
      rw [p4 i (Nat.zero_le _) (by omega) i.2, bit_false]
  · obtain ⟨k, k1, k2, k3⟩ := q2 hn
    have := congrFun (congrArg E.mulVec hv) ⟨k, k2⟩
    rw [← hmv, ← hbv, row_zero hB.fwd _ (i := ⟨k, k2⟩) k1] at this
    simp only [vec, k3, bit_true] at this
    exact absurd this (by decide)

/-! ### nullspace -/

theorem bit_add_self (a : Bool) : bit a + bit a = 0 := by cases a <;> decide

theorem zmod2_eq_of_add {a b : ZMod 2} (h : a + b = 0) : a = b := by revert a b; decide


theorem findPivots_spec {r c : ℕ} {piv : List ℕ} {m : Data} (h : Fwd r c c piv m) (n : ℕ) {i : ℕ} (hi : i + n = r) (np p : List ℕ) :
    findPivots (m.drop i) np p = ((piv.drop i).foldl List.erase np, p ++ piv.drop i) := by
  have hlen := h.rect.1
  have hple := h.le
  induction n generalizing i np p with
  | zero =>
    rw [List.drop_eq_nil_of_le (by omega), List.drop_eq_nil_of_le (by omega)]
    simp [findPivots]
  | succ n ih =>
    have hd : m.drop i = m.getD i [] :: m.drop (i + 1) := by
      rw [List.getD_eq_getElem _ _ (by omega), List.drop_eq_getElem_cons (by omega)]
    rw [hd]
    unfold findPivots
    rw [findIdx_lead h (by omega)]
    by_cases hip : i < piv.length
    · simp only [if_pos hip]
      rw [ih (by omega), List.drop_eq_getElem_cons hip, List.getD_eq_getElem _ _ hip, List.foldl_cons, List.append_assoc,
        List.singleton_append]
    · simp only [if_neg hip]
      rw [ih (by omega), List.drop_eq_nil_of_le (as := piv) (i := i) (by omega), List.drop_eq_nil_of_le (by omega)]

theorem mem_foldl_erase {np : List ℕ} (hn : np.Nodup) (l : List ℕ) (j : ℕ) : (l.foldl List.erase np).Nodup ∧
    (j ∈ l.foldl List.erase np ↔ j ∈ np ∧ j ∉ l) := by
  induction l generalizing np with
  | nil => simp [hn]
  | cons a l ih =>
    obtain ⟨h1, h2⟩ := ih (hn.erase a)
    refine ⟨h1, ?_⟩
    rw [List.foldl_cons, h2, hn.mem_erase_iff]
    simp only [List.mem_cons, not_or]
    tauto

theorem nullVec_fold {l : List (List Bool × ℕ)} {n : ℕ} (v : List Bool) (hp : (l.map Prod.snd).Nodup) (hv : ∀ q ∈ l, q.2 < v.length)
    (j : ℕ) : (l.foldl (fun v rp => if rp.1.getD n false then v.set rp.2 true else v) v).length = v.length ∧
      (l.foldl (fun v rp => if rp.1.getD n false then v.set rp.2 true else v) v).getD j false =
        (v.getD j false || l.any fun q => q.2 == j && q.1.getD n false) := by
  induction l generalizing v with
  | nil => simp
  | cons q l ih =>
    simp only [List.map_cons, List.nodup_cons] at hp
    have hl : (if q.1.getD n false = true then v.set q.2 true else v).length = v.length := by split <;> simp
    obtain ⟨h1, h2⟩ := ih (if q.1.getD n false = true then v.set q.2 true else v) hp.2 (fun q' hq' => by rw [hl]; exact hv q' (by simp [hq']))
    rw [List.foldl_cons]
    refine ⟨by rw [h1, hl], ?_⟩
    rw [h2, List.any_cons, ← Bool.or_assoc]
    congr 1
    by_cases hq : q.1.getD n false = true
    · rw [if_pos hq, hq]
      by_cases hj : q.2 = j
      · subst hj
        rw [List.getD_eq_getElem?_getD, List.getElem?_set_self (hv q (by simp))]
        simp
      · rw [List.getD_eq_getElem?_getD, List.getElem?_set_ne hj, ← List.getD_eq_getElem?_getD]
        simp [hj]
    · rw [if_neg hq]
      simp only [Bool.not_eq_true] at hq
      rw [hq, Bool.and_false, Bool.or_false]

/-- The vector of the kernel for the non-pivot column `n`. -/
theorem nullVec_spec {r c : ℕ} {piv : List ℕ} {m : Data} (h : Fwd r c c piv m) {n : ℕ} (hn : n < c) (hnp : ∀ k < piv.length, piv.getD k 0 ≠ n) :
    (nullVec m c piv n).length = c ∧ (∀ k < piv.length, (nullVec m c piv n).getD (piv.getD k 0) false = get m k n) ∧
      ∀ j, (∀ k < piv.length, piv.getD k 0 ≠ j) → (nullVec m c piv n).getD j false = decide (j = n) := by
  have hlen := h.rect.1
  have hple := h.le
  have hsnd : (m.zip piv).map Prod.snd = piv := List.map_snd_zip (by omega)
  have hnd : piv.Nodup := by
    rw [List.nodup_iff_injective_getElem]
    intro a b hab
    have hab : piv.getD a 0 = piv.getD b 0 := by
      rw [List.getD_eq_getElem _ _ a.2, List.getD_eq_getElem _ _ b.2]; exact hab
    rcases lt_trichotomy a.1 b.1 with h1 | h1 | h1
    · have := h.mono a b h1 b.2; omega
    · exact Fin.ext h1
    · have := h.mono b a h1 a.2; omega
  have hf := fun j => nullVec_fold (l := m.zip piv) (n := n) ((List.replicate c false).set n true) (by rw [hsnd]; exact hnd)
    (fun q hq => by
      have : q.2 ∈ piv := by rw [← hsnd]; exact List.mem_map_of_mem hq
      obtain ⟨k, hk, hk2⟩ := List.getElem_of_mem this
      have := h.lt k hk
      rw [List.getD_eq_getElem _ _ hk, hk2] at this
      simpa using this) j
  have hbase : ∀ j, ((List.replicate c false).set n true).getD j false = decide (j = n) := by
    intro j
    by_cases hj : j = n
    · subst hj
      rw [List.getD_eq_getElem?_getD, List.getElem?_set_self (by simpa using hn)]; simp
    · rw [List.getD_eq_getElem?_getD, List.getElem?_set_ne (Ne.symm hj)]
      simp only [hj, decide_false, List.getElem?_replicate]
      split <;> rfl
  have hmem : ∀ q, q ∈ m.zip piv ↔ ∃ k < piv.length, q = (m.getD k [], piv.getD k 0) := by
    intro q
    rw [List.mem_iff_getElem]
    constructor
    · rintro ⟨k, hk, rfl⟩
      rw [List.length_zip] at hk
      refine ⟨k, by omega, ?_⟩
      rw [List.getElem_zip, List.getD_eq_getElem _ _ (by omega), List.getD_eq_getElem _ _ (by omega)]
    · rintro ⟨k, hk, rfl⟩
      refine ⟨k, by rw [List.length_zip]; omega, ?_⟩
      rw [List.getElem_zip, List.getD_eq_getElem _ _ (by omega), List.getD_eq_getElem _ _ (by omega)]
  refine ⟨by rw [nullVec, (hf 0).1]; simp, fun k hk => ?_, fun j hj => ?_⟩
  · rw [nullVec, (hf _).2, hbase, decide_eq_false (hnp k hk), Bool.false_or, Bool.eq_iff_iff, List.any_eq_true]
    constructor
    · rintro ⟨q, hq, hq2⟩
      obtain ⟨k', hk', rfl⟩ := (hmem q).mp hq
      simp only [Bool.and_eq_true, beq_iff_eq] at hq2
      have : k' = k := by
        rcases lt_trichotomy k' k with h1 | h1 | h1
        · have := h.mono k' k h1 hk; omega
        · exact h1
        · have := h.mono k k' h1 hk'; omega
      subst this
      exact hq2.2
    · intro hg
      exact ⟨_, (hmem _).mpr ⟨k, hk, rfl⟩, by rw [beq_self_eq_true, Bool.true_and]; exact hg⟩
  · rw [nullVec, (hf _).2, hbase]
    have : (m.zip piv).any (fun q => q.2 == j && q.1.getD n false) = false := by
      rw [List.any_eq_false]
      intro q hq
      obtain ⟨k', hk', rfl⟩ := (hmem q).mp hq
      rw [beq_eq_false_iff_ne.mpr (hj k' hk'), Bool.false_and]
      simp
    rw [this, Bool.or_false]

theorem nullspace_core (stale : List ℕ) {r : ℕ} {d : Data} (hd : Rect r (cols d) d) :
    KerBasis (mat r (cols d) d) (nullspace stale d) := by
  have : Fact (Nat.Prime 2) := ⟨Nat.prime_two⟩
  set c := cols d with hc
  obtain ⟨piv, h1, h2, h3, L, hL, hrun⟩ := gauss_core (ra := noOp) (ca := noOp) (r := r) (b := 6) (by norm_num)
    (s := ⟨d, (), ()⟩) hd true stale
  obtain ⟨E, E', e1, e2, e3, -⟩ := log_mats L hL
  set G := gauss noOp noOp true 6 stale ⟨d, (), ()⟩ with hG
  have hm : G.1.m = L.foldl (fun d p => rowAdd p.1 p.2 d) d := by rw [hrun, runs_m]
  obtain ⟨a1, a2⟩ := e3 c d hd
  rw [← hm] at a1 a2
  have hB : Bwd r c piv 0 G.1.m := h1
  have hker : ∀ v, (mat r c d).mulVec v = 0 ↔ (mat r c G.1.m).mulVec v = 0 := by
    intro v
    rw [a2, ← Matrix.mulVec_mulVec]
    constructor
    · intro h; rw [h, Matrix.mulVec_zero]
    · intro h
      have := congrArg E'.mulVec h
      rwa [Matrix.mulVec_mulVec, e2, Matrix.one_mulVec, Matrix.mulVec_zero] at this
  have hfp := findPivots_spec hB.fwd r (i := 0) (by omega) (List.range c) []
  rw [List.drop_zero, List.drop_zero, List.nil_append] at hfp
  set np := piv.foldl List.erase (List.range c) with hnp
  have hns : nullspace stale d = np.map (nullVec G.1.m c piv) := by
    unfold nullspace
    simp only [← hG, ← hc, hfp]
  have hnd : np.Nodup := (mem_foldl_erase List.nodup_range piv 0).1
  have hmem : ∀ j, j ∈ np ↔ j < c ∧ ∀ k < piv.length, piv.getD k 0 ≠ j := by
    intro j
    rw [hnp, (mem_foldl_erase List.nodup_range piv j).2, List.mem_range]
    refine and_congr_right fun _ => ⟨fun h k hk e => h ?_, fun h hj => ?_⟩
    · rw [List.getD_eq_getElem _ _ hk] at e
      exact e ▸ List.getElem_mem hk
    · obtain ⟨k, hk, rfl⟩ := List.getElem_of_mem hj
      exact h k hk (List.getD_eq_getElem _ _ hk)
  have hspec := fun n (hn : n ∈ np) => nullVec_spec hB.fwd ((hmem n).mp hn).1 ((hmem n).mp hn).2
  rw [hns]
  have hidx : ∀ k : Fin (np.map (nullVec G.1.m c piv)).length, k.1 < np.length := fun k => by simpa using k.2
  have hget : ∀ k : Fin (np.map (nullVec G.1.m c piv)).length, (np.map (nullVec G.1.m c piv)).get k = nullVec G.1.m c piv (np[k.1]'(hidx k)) := by
    intro k; simp
  have hcoord : ∀ (k : Fin (np.map (nullVec G.1.m c piv)).length) (j : Fin c), (∀ k < piv.length, piv.getD k 0 ≠ j.1) →
      rowVec c ((np.map (nullVec G.1.m c piv)).get k) j = if j.1 = np[k.1]'(hidx k) then 1 else 0 := by
    intro k j hj
    rw [hget, rowVec, (hspec _ (List.getElem_mem (hidx k))).2.2 j hj]
    by_cases h : j.1 = np[k.1]'(hidx k) <;> simp [h, bit]
  refine ⟨fun v hv => ?_, ?_, fun w => ?_⟩
  · obtain ⟨n, hn, rfl⟩ := List.mem_map.mp hv
    exact (hspec n hn).1
  · rw [Fintype.linearIndependent_iff]
    intro g hg k
    have hk := (hmem _).mp (List.getElem_mem (hidx k))
    have h1 := congrFun hg ⟨np[k.1]'(hidx k), hk.1⟩
    rw [Finset.sum_apply, Finset.sum_eq_single k] at h1
    · rw [Pi.smul_apply, hcoord k _ hk.2] at h1
      simpa using h1
    · intro k' _ hkk
      rw [Pi.smul_apply, hcoord k' _ hk.2, if_neg, smul_zero]
      intro e
      exact hkk (Fin.ext (hnd.getElem_inj_iff.mp e).symm)
    · simp
  · rw [hker]
    constructor
    · intro hw
      induction hw using Submodule.span_induction with
      | mem x hx =>
        obtain ⟨k, rfl⟩ := hx
        simp only
        rw [hget]
        have hk := (hmem _).mp (List.getElem_mem (hidx k))
        have hsp := hspec _ (List.getElem_mem (hidx k))
        set n := np[k.1]'(hidx k) with hn
        funext i
        by_cases hi : i.1 < piv.length
        · have := hB.row_mul (rowVec c (nullVec G.1.m c piv n)) hi
          rw [this, Finset.sum_eq_single ⟨n, hk.1⟩]
          · simp only [rowVec, Pi.zero_apply]
            rw [hsp.2.1 i hi, hsp.2.2 n hk.2, decide_eq_true rfl, bit_true, mul_one]
            exact bit_add_self _
          · intro j hj hjn
            rw [Finset.mem_filter] at hj
            simp only [rowVec]
            rw [hsp.2.2 j hj.2, decide_eq_false (fun e => hjn (Fin.ext e)), bit_false, mul_zero]
          · intro hcon
            exact absurd (Finset.mem_filter.mpr ⟨Finset.mem_univ _, hk.2⟩) hcon
        · exact row_zero hB.fwd _ (by omega)
      | zero => exact Matrix.mulVec_zero _
      | add x y _ _ hx hy => rw [Matrix.mulVec_add, hx, hy, add_zero]
      | smul a x _ hx => rw [Matrix.mulVec_smul, hx, smul_zero]
    · intro hw
      have hrepr : w = ∑ k : Fin (np.map (nullVec G.1.m c piv)).length,
          w ⟨np[k.1]'(hidx k), ((hmem _).mp (List.getElem_mem (hidx k))).1⟩ • rowVec c ((np.map (nullVec G.1.m c piv)).get k) := by
        funext j
        rw [Finset.sum_apply]
        by_cases hj : ∀ k < piv.length, piv.getD k 0 ≠ j.1
        · obtain ⟨k, hk, hk2⟩ := List.getElem_of_mem ((hmem j).mpr ⟨j.2, hj⟩)
          rw [Finset.sum_eq_single ⟨k, by simpa using hk⟩]
          · rw [Pi.smul_apply, hcoord _ _ hj]
            simp only [hk2, if_true, smul_eq_mul, mul_one]
          · intro k' _ hkk
            rw [Pi.smul_apply, hcoord _ _ hj, if_neg, smul_zero]
            intro e
            rw [← hk2] at e
            exact hkk (Fin.ext (hnd.getElem_inj_iff.mp e).symm)
          · simp
        · push Not at hj
          obtain ⟨i, hi, hij⟩ := hj
          have h5 := congrFun hw ⟨i, lt_of_lt_of_le hi hB.fwd.le⟩
          rw [hB.row_mul w hi] at h5
          have hji : (⟨piv.getD i 0, hB.fwd.lt i hi⟩ : Fin c) = j := Fin.ext hij
          rw [hji] at h5
          rw [zmod2_eq_of_add h5]
          symm
          refine Finset.sum_bij (fun k _ => (⟨np[k.1]'(hidx k), ((hmem _).mp (List.getElem_mem (hidx k))).1⟩ : Fin c)) ?_ ?_ ?_ ?_
          · intro k _
            exact Finset.mem_filter.mpr ⟨Finset.mem_univ _, ((hmem _).mp (List.getElem_mem (hidx k))).2⟩
          · intro k _ k' _ e
            exact Fin.ext (hnd.getElem_inj_iff.mp (Fin.mk.inj e))
          · intro j' hj'
            rw [Finset.mem_filter] at hj'
            obtain ⟨k, hk, hk2⟩ := List.getElem_of_mem ((hmem j').mpr ⟨j'.2, hj'.2⟩)
            exact ⟨⟨k, by simpa using hk⟩, Finset.mem_univ _, Fin.ext hk2⟩
          · intro k _
            rw [Pi.smul_apply, hget, rowVec, ← hij, (hspec _ (List.getElem_mem (hidx k))).2.1 i hi, smul_eq_mul, mul_comm]
      rw [hrepr]
      exact Submodule.sum_mem _ fun k _ => Submodule.smul_mem _ _ (Submodule.subset_span ⟨k, rfl⟩)

/-! ### to_cnots -/

theorem cnot_fold (L l0 : List (ℕ × ℕ)) : L.foldl (fun x p => cnotMaker p.1 p.2 x) l0 = l0 ++ L.map Prod.swap := by
  induction L generalizing l0 with
  | nil => simp
  | cons p L ih => rw [List.foldl_cons, ih]; simp [cnotMaker, Prod.swap]

/-- The circuit built by one elimination. -/
theorem cnots_core {r b : ℕ} (hb : 0 < b) (stale : List ℕ) {d : Data} (hd : Rect r r d) (hinv : (mat r r d).rank = r) (v : Fin r → ZMod 2) :
    circAct (gauss cnotMaker noOp true b stale ⟨d, [], ()⟩).1.x v = v ᵥ* mat r r d := by
  have hcols : cols d = r := by
    rcases Nat.eq_zero_or_pos r with rfl | h
    · have := hd.1
      rw [List.length_eq_zero_iff] at this
      subst this; rfl
    · exact rect_cols hd h
  obtain ⟨piv, h1, h2, h3, L, hL, hrun⟩ := gauss_core (ra := cnotMaker) (ca := noOp) (r := r) hb
    (s := ⟨d, [], ()⟩) (by rw [hcols]; exact hd) true stale
  obtain ⟨E, E', e1, e2, e3, -, e5⟩ := log_mats L hL
  rw [hrun, runs_x, cnot_fold, List.nil_append, e5]
  set G := gauss cnotMaker noOp true b stale ⟨d, [], ()⟩ with hG
  rw [hcols] at h1
  have hm : G.1.m = L.foldl (fun d p => rowAdd p.1 p.2 d) d := by rw [hrun, runs_m]
  obtain ⟨a1, a2⟩ := e3 r d hd
  rw [← hm] at a1 a2
  have hrank : (mat r r d).rank = piv.length := by
    rw [← h1.fwd.rank, a2, rank_eq_rowSpace, rank_eq_rowSpace, rowSpace_mul_unit e2]
  have hone := Bwd.full_one h1 (by rw [← hrank, hinv])
  have hEd : E * mat r r d = 1 := by rw [← a2, hone]
  have hd' : mat r r d = E' := by
    calc mat r r d = (E' * E) * mat r r d := by rw [e2, Matrix.one_mul]
      _ = E' := by rw [Matrix.mul_assoc, hEd, Matrix.mul_one]
  rw [hd']

theorem bestCnots_mem {stale : ℕ → List ℕ} {d : Data} {sizes : List ℕ} {best : ℕ} {bc : Option (List (ℕ × ℕ))} {gs : List (ℕ × ℕ)}
    (h : bestCnots stale d sizes best bc = some gs) :
    bc = some gs ∨ ∃ b ∈ sizes, gs = (gauss cnotMaker noOp true b (stale b) ⟨d, [], ()⟩).1.x := by
  induction sizes generalizing best bc with
  | nil => exact Or.inl h
  | cons a sizes ih =>
    unfold bestCnots at h
    simp only at h
    split at h
    · rcases ih h with h1 | ⟨b, h1, h2⟩
      · exact Or.inr ⟨a, by simp, (Option.some.inj h1).symm⟩
      · exact Or.inr ⟨b, by simp [h1], h2⟩
    · rcases ih h with h1 | ⟨b, h1, h2⟩
      · exact Or.inl h1
      · exact Or.inr ⟨b, by simp [h1], h2⟩

end Mat2
end PyZX
