import Verif.Proofs.LinalgCost
import Mathlib.Algebra.Field.ZMod

/-!
# C01-C09: linear algebra over the field with two elements

`stale` is everywhere the content of the list `pivot_cols` at the time of the call, that is, whatever earlier calls have left in
the shared default argument.
-/

namespace PyZX
namespace Props

open Matrix Mat2

section gauss

variable {X Y : Type*} (ra : ℕ → ℕ → X → X) (ca : ℕ → ℕ → Y → Y)

/-- C01: for every block size and whatever the observers `x` and `y`, `gauss` keeps the row space and reaches (reduced) row echelon
form. -/
theorem gauss_echelon {r c b : ℕ} (hb : 0 < b) {s : St X Y} (hs : Rect r c s.m) (hc : cols s.m = c) (full : Bool) (stale : List ℕ) :
    Rect r c (gauss ra ca full b stale s).1.m ∧
      rowSpace (mat r c (gauss ra ca full b stale s).1.m) = rowSpace (mat r c s.m) ∧
      Echelon (mat r c (gauss ra ca full b stale s).1.m) ∧
      (full = true → Reduced (mat r c (gauss ra ca full b stale s).1.m)) := by
  subst hc
  obtain ⟨piv, h1, h2, h3, L, hL, hrun⟩ := gauss_core (ra := ra) (ca := ca) hb hs full stale
  obtain ⟨E, E', e1, e2, e3, -⟩ := log_mats L hL
  refine ⟨h1.fwd.rect, ?_, h1.fwd.echelon, fun hf => ?_⟩
  · rw [hrun, runs_m, (e3 _ _ hs).2, rowSpace_mul_unit e2]
  · subst hf
    exact Bwd.reduced h1

/-- C02: `gauss` returns the rank. -/
theorem gauss_rank {r c b : ℕ} (hb : 0 < b) {s : St X Y} (hs : Rect r c s.m) (hc : cols s.m = c) (full : Bool) (stale : List ℕ) :
    (gauss ra ca full b stale s).2.1 = (mat r c s.m).rank := by
  subst hc
  obtain ⟨piv, h1, h2, h3, L, hL, hrun⟩ := gauss_core (ra := ra) (ca := ca) hb hs full stale
  obtain ⟨E, E', e1, e2, e3, -⟩ := log_mats L hL
  rw [h2, ← h1.fwd.rank, hrun, runs_m, (e3 _ _ hs).2, rank_eq_rowSpace, rank_eq_rowSpace, rowSpace_mul_unit e2]

/-- C04: the result (matrix, the observers, the returned rank, and the pivots appended to the list) does not depend on the content of
the list `pivot_cols`. -/
theorem gauss_history {r c b : ℕ} (hb : 0 < b) {s : St X Y} (hs : Rect r c s.m) (hc : cols s.m = c) (full : Bool) (stale : List ℕ) :
    (gauss ra ca full b stale s).1 = (gauss ra ca full b [] s).1 ∧
      (gauss ra ca full b stale s).2.1 = (gauss ra ca full b [] s).2.1 ∧
      (gauss ra ca full b stale s).2.2 = stale ++ (gauss ra ca full b [] s).2.2 := by
  subst hc
  exact ⟨gauss_stale hb hs full stale, rfl, by simp [gauss]⟩

end gauss

/-- C02: `rank`. -/
theorem rank_eq {r c : ℕ} {d : Data} (hd : Rect r c d) (hc : cols d = c) (stale : List ℕ) : Mat2.rank stale d = (mat r c d).rank :=
  gauss_rank noOp noOp (by norm_num) (s := ⟨d, (), ()⟩) hd hc false stale

/-- C03: the new matrix is `E * m`, the new `x` is `E * x` and the new `y` is `y * E⁻¹` for one invertible `E`. -/
theorem gauss_trace {r c b cx ry : ℕ} (hb : 0 < b) {s : St Data Data} (hs : Rect r c s.m) (hc : cols s.m = c) (hx : Rect r cx s.x)
    (hy : Rect ry r s.y) (full : Bool) (stale : List ℕ) :
    ∃ E E' : Matrix (Fin r) (Fin r) (ZMod 2), E * E' = 1 ∧ E' * E = 1 ∧
      mat r c (gauss rowAdd colAdd full b stale s).1.m = E * mat r c s.m ∧
      Rect r cx (gauss rowAdd colAdd full b stale s).1.x ∧
      mat r cx (gauss rowAdd colAdd full b stale s).1.x = E * mat r cx s.x ∧
      Rect ry r (gauss rowAdd colAdd full b stale s).1.y ∧
      mat ry r (gauss rowAdd colAdd full b stale s).1.y = mat ry r s.y * E' := by
  subst hc
  obtain ⟨piv, h1, h2, h3, L, hL, hrun⟩ := gauss_core (ra := rowAdd) (ca := colAdd) hb hs full stale
  obtain ⟨E, E', e1, e2, e3, e4, -⟩ := log_mats L hL
  obtain ⟨a1, a2⟩ := e3 _ _ hs
  obtain ⟨b1, b2⟩ := e3 _ _ hx
  obtain ⟨c1, c2⟩ := e4 _ _ hy
  refine ⟨E, E', e1, e2, ?_⟩
  rw [hrun, runs_m, runs_x, runs_y]
  exact ⟨a2, b1, b2, c1, c2⟩

/-- C03: with `y` the identity, `y * m` is the original matrix afterwards. -/
theorem gauss_factors {r c b : ℕ} (hb : 0 < b) {d x : Data} (hs : Rect r c d) (hc : cols d = c) (hx : Rect r c x) (full : Bool) (stale : List ℕ) :
    mat r r (gauss rowAdd colAdd full b stale ⟨d, x, ident r⟩).1.y * mat r c (gauss rowAdd colAdd full b stale ⟨d, x, ident r⟩).1.m =
      mat r c d := by
  obtain ⟨E, E', e1, e2, h1, -, -, -, h2⟩ := gauss_trace hb (s := ⟨d, x, ident r⟩) hs hc hx (rect_ident r) full stale
  rw [h1, h2, mat_ident, Matrix.one_mul, ← Matrix.mul_assoc, e2, Matrix.one_mul]

/-- C03: any observer `x` sees exactly the row additions applied to the matrix, and any observer `y` the corresponding column
additions. -/
theorem gauss_observers {X Y : Type*} (ra : ℕ → ℕ → X → X) (ca : ℕ → ℕ → Y → Y) {r c b : ℕ} (hb : 0 < b) {s : St X Y} (hs : Rect r c s.m)
    (hc : cols s.m = c) (full : Bool) (stale : List ℕ) :
    ∃ L : List (ℕ × ℕ), (∀ p ∈ L, p.1 < r ∧ p.2 < r ∧ p.1 ≠ p.2) ∧
      (gauss ra ca full b stale s).1.m = L.foldl (fun d p => rowAdd p.1 p.2 d) s.m ∧
      (gauss ra ca full b stale s).1.x = L.foldl (fun x p => ra p.1 p.2 x) s.x ∧
      (gauss ra ca full b stale s).1.y = L.foldl (fun y p => ca p.2 p.1 y) s.y := by
  subst hc
  obtain ⟨piv, h1, h2, h3, L, hL, hrun⟩ := gauss_core (ra := ra) (ca := ca) hb hs full stale
  exact ⟨L, hL, by rw [hrun, runs_m], by rw [hrun, runs_x], by rw [hrun, runs_y]⟩

/-- A 3 by 4 matrix of rank 2 with a duplicate row. -/
def exMat : Data := [[true, true, false, true], [true, true, false, true], [false, true, true, false]]

example : Rect 3 4 exMat ∧ cols exMat = 4 := ⟨⟨rfl, by decide⟩, rfl⟩

/-- C05: `factor` returns a factorisation whose inner dimension is the rank. -/
theorem factor_spec {r c : ℕ} {d : Data} (hd : Rect r c d) (hc : cols d = c) (stale : List ℕ) :
    Rect r (mat r c d).rank (factor stale d).1 ∧ Rect (mat r c d).rank c (factor stale d).2 ∧
      mat r _ (factor stale d).1 * mat (mat r c d).rank c (factor stale d).2 = mat r c d := by
  obtain rfl := hc
  obtain rfl := hd.1
  exact factor_core stale hd

/-- C05: the product `m0 * m1` computed by the library is the original list of lists, if the rank is not zero. -/
theorem factor_mul {r c : ℕ} {d : Data} (hd : Rect r c d) (hc : cols d = c) (hk : (mat r c d).rank ≠ 0) (stale : List ℕ) :
    mul (factor stale d).1 (factor stale d).2 = some d := by
  obtain ⟨h1, h2, h3⟩ := factor_spec hd hc stale
  obtain ⟨p, q1, q2, q3⟩ := mul_spec h1 h2 (Nat.pos_of_ne_zero hk)
  rw [q1]
  exact congrArg some (mat_inj q2 hd (by rw [q3, h3]))

/-- The hypothesis on the rank is needed: for a zero matrix `m0 * m1` raises. -/
theorem factor_zero_raises {r c : ℕ} {d : Data} (hd : Rect r c d) (hc : cols d = c) (hr : r ≠ 0) (hk : (mat r c d).rank = 0)
    (stale : List ℕ) : mul (factor stale d).1 (factor stale d).2 = none := by
  obtain ⟨h1, h2, h3⟩ := factor_spec hd hc stale
  rw [hk] at h2
  refine mul_raises (fun e => hr ?_) (List.length_eq_zero_iff.mp h2.1)
  rw [← h1.1, e]; rfl

/-- C06: a returned matrix is a two-sided inverse. -/
theorem inverse_sound {r c : ℕ} {d n : Data} (hd : Rect r c d) (hc : cols d = c) (stale : List ℕ) (h : inverse stale d = some n) :
    c = r ∧ Rect r r n ∧ mat r r n * mat r r d = 1 ∧ mat r r d * mat r r n = 1 := by
  have e : c = r := by
    by_contra hne
    unfold inverse at h
    rw [if_pos (by rw [hd.1, hc]; exact fun e => hne e.symm)] at h
    simp at h
  subst e
  obtain ⟨h1, -⟩ := inverse_core stale hd
  obtain ⟨q1, q2, q3⟩ := h1 n h
  exact ⟨rfl, q1, q2, q3⟩

/-- C06: `None` is returned exactly for matrices that are not square or not invertible. -/
theorem inverse_none_iff {r c : ℕ} {d : Data} (hd : Rect r c d) (hc : cols d = c) (stale : List ℕ) :
    inverse stale d = none ↔ ¬ (r = c ∧ ∃ N : Matrix (Fin c) (Fin r) (ZMod 2), N * mat r c d = 1) := by
  constructor
  · rintro h ⟨rfl, N, hN⟩
    have : Fact (Nat.Prime 2) := ⟨Nat.prime_two⟩
    obtain ⟨-, h1⟩ := inverse_core stale hd
    have h2 := h1 h
    have h3 := rank_mul_le_right N (mat r r d)
    rw [hN, rank_one, Fintype.card_fin] at h3
    omega
  · intro h
    by_contra hne
    obtain ⟨n, hn⟩ := Option.ne_none_iff_exists'.mp hne
    obtain ⟨rfl, h1, h2, -⟩ := inverse_sound hd hc stale hn
    exact h ⟨rfl, _, h2⟩

/-- C07: a returned vector is a solution. -/
theorem solve_sound {r c : ℕ} {d b x : Data} (hd : Rect r c d) (hc : cols d = c) (hb : Rect r 1 b) (stale : List ℕ)
    (h : solve stale d b = some x) : Rect c 1 x ∧ (mat r c d).mulVec (vec c x) = vec r b := by
  subst hc
  exact (solve_core stale hd hb).1 x h

/-- C07: `None` is returned exactly if there is no solution. -/
theorem solve_none_iff {r c : ℕ} {d b : Data} (hd : Rect r c d) (hc : cols d = c) (hb : Rect r 1 b) (stale : List ℕ) :
    solve stale d b = none ↔ ¬ ∃ v, (mat r c d).mulVec v = vec r b := by
  subst hc
  constructor
  · rintro h ⟨v, hv⟩
    exact (solve_core stale hd hb).2 h v hv
  · intro h
    by_contra hne
    obtain ⟨x, hx⟩ := Option.ne_none_iff_exists'.mp hne
    exact h ⟨_, ((solve_core stale hd hb).1 x hx).2⟩

example : Rect 3 1 [[true], [true], [false]] := ⟨rfl, by decide⟩

/-- C08: `nullspace` returns a basis of the kernel. -/
theorem nullspace_spec {r c : ℕ} {d : Data} (hd : Rect r c d) (hc : cols d = c) (stale : List ℕ) :
    KerBasis (mat r c d) (nullspace stale d) := by
  subst hc
  exact nullspace_core stale hd

/-- C08: it has `cols - rank` elements. -/
theorem nullspace_length {r c : ℕ} {d : Data} (hd : Rect r c d) (hc : cols d = c) (stale : List ℕ) :
    (nullspace stale d).length + (mat r c d).rank = c := by
  have : Fact (Nat.Prime 2) := ⟨Nat.prime_two⟩
  obtain ⟨-, h1, h2⟩ := nullspace_spec hd hc stale
  have h3 : Submodule.span (ZMod 2) (Set.range fun k : Fin (nullspace stale d).length => rowVec c ((nullspace stale d).get k)) =
      LinearMap.ker (mat r c d).mulVecLin := by
    ext w
    rw [h2, LinearMap.mem_ker, mulVecLin_apply]
  have h4 := finrank_span_eq_card h1
  rw [h3, Fintype.card_fin] at h4
  have h5 := LinearMap.finrank_range_add_finrank_ker (mat r c d).mulVecLin
  rw [h4, Module.finrank_fin_fun] at h5
  rw [Matrix.rank]
  omega

/-- C09: for an invertible matrix `m` the returned circuit maps the basis state `|v⟩` to `|v * m⟩`, for all options. -/
theorem toCnots_sound {r : ℕ} {d : Data} (hd : Rect r r d) {N : Matrix (Fin r) (Fin r) (ZMod 2)} (hN : N * mat r r d = 1)
    (stale : ℕ → List ℕ) (optimize useLog : Bool) {gs : List (ℕ × ℕ)} (h : toCnots stale optimize useLog d = some gs)
    (v : Fin r → ZMod 2) : circAct gs v = v ᵥ* mat r r d := by
  have : Fact (Nat.Prime 2) := ⟨Nat.prime_two⟩
  have hrank : (mat r r d).rank = r := by
    have h3 := rank_mul_le_right N (mat r r d)
    rw [hN, rank_one, Fintype.card_fin] at h3
    exact le_antisymm (by simpa using rank_le_height (mat r r d)) h3
  unfold toCnots at h
  cases optimize with
  | true =>
    simp only [if_true] at h
    rcases bestCnots_mem h with h1 | ⟨b, hb, rfl⟩
    · simp at h1
    · rw [List.mem_range'_1] at hb
      exact cnots_core (by omega) _ hd hrank v
  | false =>
    simp only [Bool.false_eq_true, if_false] at h
    by_cases hb0 : (if useLog = true then Nat.log 2 d.length else 5) = 0
    · rw [if_pos hb0] at h
      simp at h
    · rw [if_neg hb0] at h
      rw [← Option.some.inj h]
      exact cnots_core (Nat.pos_of_ne_zero hb0) _ hd hrank v

/-- C09: without `optimize` a circuit is returned, except for fewer than two rows with `use_log_blocksize`. -/
theorem toCnots_defined {r : ℕ} {d : Data} (hd : Rect r r d) (stale : ℕ → List ℕ) (useLog : Bool) :
    toCnots stale false useLog d = none ↔ useLog = true ∧ r < 2 := by
  have hl := hd.1
  unfold toCnots
  cases useLog with
  | false => simp
  | true =>
    simp only [Bool.false_eq_true, if_false, if_true, true_and]
    rw [hl]
    by_cases h2 : r < 2
    · rw [if_pos (Nat.log_of_lt h2)]; simp [h2]
    · rw [if_neg (by have := Nat.log_pos (b := 2) (by norm_num) (by omega : 2 ≤ r); omega)]; simp [h2]

/-- C09: with `optimize` a circuit is returned for 2 to 499 rows, and an exception occurs for fewer than two rows. -/
theorem toCnots_optimize_defined {r : ℕ} {d : Data} (hd : Rect r r d) (stale : ℕ → List ℕ) (useLog : Bool) :
    (2 ≤ r → r < 500 → (toCnots stale true useLog d).isSome) ∧ (r < 2 → toCnots stale true useLog d = none) := by
  have hl := hd.1
  unfold toCnots
  simp only [if_true, hl]
  refine ⟨fun h1 h2 => ?_, fun h1 => ?_⟩
  · have hcols : cols d = r := rect_cols hd (by omega)
    refine bestCnots_isSome (Or.inr ⟨1, List.mem_range'_1.mpr ⟨le_rfl, by omega⟩, ?_⟩)
    have := gauss_cost (ra := cnotMaker) (ca := noOp) (μ := List.length) (fun a b x => by simp [cnotMaker]) (r := r) (b := 1) (by norm_num)
      (s := ⟨d, [], ()⟩) (by rw [hcols]; exact hd) (by rw [hcols]) (stale 1)
    simp only [hcols, List.length_nil, Nat.zero_add] at this
    have h3 : r * r ≤ 499 * 499 := Nat.mul_le_mul (by omega) (by omega)
    omega
  · rw [show r - 1 = 0 by omega]; rfl

/-- An invertible matrix. -/
example : Rect 2 2 [[true, true], [false, true]] ∧
    mat 2 2 [[true, true], [false, true]] * mat 2 2 [[true, true], [false, true]] = 1 := by
  refine ⟨⟨rfl, by decide⟩, ?_⟩
  ext i j
  fin_cases i <;> fin_cases j <;> decide

end Props
end PyZX
