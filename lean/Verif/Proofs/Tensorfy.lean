import Verif.Model.Tensorfy
import Verif.Proofs.Compose
import Mathlib.Data.List.GetD
import Mathlib.Data.List.Sort

/-!
# Helper lemmas for `tensorfy`
-/

namespace PyZX
namespace Tensorfy

open Finset Graph

/-! ### Axis bookkeeping -/

theorem prod_range_getD {M : Type*} [CommMonoid M] (l : List ℕ) (F : ℕ → M) : ∏ i ∈ range l.length, F (l.getD i 0) = (l.map F).prod := by
  induction l with
  | nil => simp
  | cons a l ih =>
    rw [List.length_cons, prod_range_succ', List.map_cons, List.prod_cons, mul_comm]
    congr 1

theorem pos_eq {la : List ℕ} (hn : la.Nodup) (j : ℕ) : NT.pos la j = j - la.countP (fun i => decide (i < j)) := by
  unfold NT.pos
  have h := List.length_eq_length_filter_add (l := List.range j) (fun i => decide (i ∉ la))
  rw [List.length_range] at h
  have h2 : ((List.range j).filter fun i => !decide (i ∉ la)).length = la.countP (fun i => decide (i < j)) := by
    rw [List.countP_eq_length_filter]
    refine List.Perm.length_eq ?_
    rw [List.perm_ext_iff_of_nodup (List.Nodup.filter _ List.nodup_range) (hn.filter _)]
    intro a
    simp only [List.mem_filter, List.mem_range, Bool.not_eq_true', decide_eq_false_iff_not, not_not, decide_eq_true_eq]
    exact And.comm
  omega

/-- One shift of one entry. -/
def sh1 (j i : ℕ) : ℕ := if j > i then j - 1 else j

theorem foldl_sh1 : ∀ (r : List ℕ) (j : ℕ), r.Pairwise (fun a b => b < a) → j ∉ r →
    r.foldl sh1 j = j - r.countP (fun i => decide (i < j))
  | [], j, _, _ => rfl
  | a :: r, j, hp, hj => by
    obtain ⟨h1, h2⟩ := List.pairwise_cons.mp hp
    rw [List.mem_cons, not_or] at hj
    rw [List.foldl_cons]
    by_cases h : j > a
    · have e : sh1 j a = j - 1 := if_pos h
      have hm : j - 1 ∉ r := fun hm => by have := h1 _ hm; omega
      rw [e, foldl_sh1 r (j - 1) h2 hm, List.countP_cons_of_pos (by simpa using h)]
      have c1 : r.countP (fun i => decide (i < j)) = r.length := List.countP_eq_length.mpr fun b hb => by
        have := h1 b hb; simp; omega
      have c2 : r.countP (fun i => decide (i < j - 1)) = r.length := List.countP_eq_length.mpr fun b hb => by
        have := h1 b hb; simp; omega
      omega
    · have e : sh1 j a = j := if_neg h
      rw [e, foldl_sh1 r j h2 hj.2, List.countP_cons_of_neg (by simpa using h)]

theorem foldl_shift (r : List ℕ) (ind : Ind) (w : ℕ) :
    r.foldl (fun (ind : Ind) i w => (ind w).map (shift i)) ind w = (ind w).map fun l => l.map fun j => r.foldl sh1 j := by
  induction r generalizing ind with
  | nil =>
    simp only [List.foldl_nil, List.map_id', Option.map_id']
  | cons a r ih =>
    rw [List.foldl_cons, ih]
    cases ind w with
    | none => rfl
    | some l =>
      simp only [Option.map_some, shift, List.map_map, List.foldl_cons]
      rfl

theorem sorted_desc {r : List ℕ} (hn : r.Nodup) : (r.mergeSort fun a b => decide (b ≤ a)).Pairwise (fun a b => b < a) := by
  have h1 : (r.mergeSort fun a b => decide (b ≤ a)).Pairwise (fun a b => decide (b ≤ a) = true) := by
    refine List.pairwise_mergeSort ?_ ?_ r
    · intro a b c h h'
      simp only [decide_eq_true_eq] at *
      omega
    · intro a b
      simp only [Bool.or_eq_true, decide_eq_true_eq]
      omega
  have h2 : (r.mergeSort fun a b => decide (b ≤ a)).Nodup := (List.mergeSort_perm r _).nodup_iff.mpr hn
  refine (h1.and h2).imp fun h => ?_
  have := h.1
  simp only [decide_eq_true_eq] at this
  exact lt_of_le_of_ne this (Ne.symm h.2)

theorem popAll_spec : ∀ (nn : List ℕ) (ind : Ind) (L : ℕ → List ℕ) (p : ℕ → ℕ), nn.Nodup → (∀ u ∈ nn, ind u = some (L u ++ [p u])) →
    popAll nn ind = some (nn.map p, fun u => if u ∈ nn then some (L u) else ind u)
  | [], ind, L, p, _, _ => by simp [popAll]
  | v :: vs, ind, L, p, hn, h => by
    obtain ⟨hv, hn'⟩ := List.nodup_cons.mp hn
    have ih := popAll_spec vs (Function.update ind v (some (L v))) L p hn' fun u hu => by
      rw [Function.update_of_ne (fun (e : u = v) => hv (e ▸ hu))]
      exact h u (List.mem_cons_of_mem _ hu)
    unfold popAll
    rw [h v List.mem_cons_self]
    simp only [Option.bind_eq_bind, Option.bind_some, List.getLast?_append, List.getLast?_singleton, Option.some_or,
      List.dropLast_concat, ih, List.map_cons]
    congr 2
    funext u
    by_cases hu : u = v
    · subst hu
      rw [if_neg hv, if_pos List.mem_cons_self, Function.update_self]
    · rw [Function.update_of_ne hu]
      simp only [List.mem_cons, hu, false_or]

theorem popAndShift_spec {nn : List ℕ} {ind : Ind} {L : ℕ → List ℕ} {p : ℕ → ℕ} (hn : nn.Nodup)
    (h : ∀ u ∈ nn, ind u = some (L u ++ [p u])) (hp : (nn.map p).Nodup)
    (hout : ∀ u l, (if u ∈ nn then some (L u) else ind u) = some l → ∀ a ∈ l, a ∉ nn.map p) :
    popAndShift nn ind = some (nn.map p, fun u => (if u ∈ nn then some (L u) else ind u).map (List.map (NT.pos (nn.map p)))) := by
  unfold popAndShift
  rw [popAll_spec nn ind L p hn h]
  simp only [Option.bind_eq_bind, Option.bind_some]
  congr 2
  funext u
  rw [foldl_shift]
  cases hl : (if u ∈ nn then some (L u) else ind u) with
  | none => rfl
  | some l =>
    simp only [Option.map_some]
    congr 1
    refine List.map_congr_left fun a ha => ?_
    have hperm := List.mergeSort_perm (nn.map p) fun a b => decide (b ≤ a)
    rw [foldl_sh1 _ _ (sorted_desc hp) (fun hm => hout u l hl a ha (hperm.mem_iff.mp hm)), pos_eq hp, hperm.countP_eq]

/-! ### Positions among the remaining axes -/

theorem pos_nil (j : ℕ) : NT.pos [] j = j := by
  unfold NT.pos
  simp

theorem pos_lt {la : List ℕ} {i j : ℕ} (hi : i ∉ la) (h : i < j) : NT.pos la i < NT.pos la j := by
  unfold NT.pos
  obtain ⟨m, rfl⟩ : ∃ m, j = i + 1 + m := ⟨j - (i + 1), by omega⟩
  rw [List.range_add, List.range_succ, List.filter_append, List.filter_append, List.length_append, List.length_append]
  simp [hi]
  omega

theorem pos_inj {la : List ℕ} {i j : ℕ} (hi : i ∉ la) (hj : j ∉ la) (h : NT.pos la i = NT.pos la j) : i = j := by
  rcases lt_trichotomy i j with h' | h' | h'
  · have := pos_lt hi h'; omega
  · exact h'
  · have := pos_lt hj h'; omega

theorem pos_top {la : List ℕ} (hn : la.Nodup) {n : ℕ} (h : ∀ a ∈ la, a < n) : NT.pos la n = n - la.length := by
  rw [pos_eq hn]
  congr 1
  exact List.countP_eq_length.mpr fun a ha => by simpa using h a ha

/-- Every position below the number of remaining axes is that of a remaining axis. -/
theorem pos_surj {la : List ℕ} {n k : ℕ} (h : k < NT.pos la n) : ∃ j < n, j ∉ la ∧ NT.pos la j = k := by
  induction n with
  | zero => simp [NT.pos] at h
  | succ n ih =>
    by_cases hk : k < NT.pos la n
    · obtain ⟨j, h1, h2, h3⟩ := ih hk
      exact ⟨j, by omega, h2, h3⟩
    · by_cases hn : n ∈ la
      · refine absurd h ?_
        have : NT.pos la (n + 1) = NT.pos la n := by
          unfold NT.pos
          rw [List.range_succ, List.filter_append]
          simp [hn]
        omega
      · have : NT.pos la (n + 1) = NT.pos la n + 1 := by
          unfold NT.pos
          rw [List.range_succ, List.filter_append]
          simp [hn]
        exact ⟨n, by omega, hn, by omega⟩

/-! ### Tensors of vertices -/

/-- The array is a sum over one bit of a product over its axes; `L` tells for every axis whether it is a Hadamard leg. -/
structure LegForm (t : NT) (w : Bool → ℂ) (L : List Bool) : Prop where
  rank : t.rank = L.length
  val : ∀ idx, t.val idx = ∑ s : Bool, w s * ∏ j ∈ range L.length, kern (L.getD j false) s (idx j)

theorem prod_kern_false (n : ℕ) (s : Bool) (idx : ℕ → Bool) :
    ∏ j ∈ range n, kern false s (idx j) = if ∀ j < n, idx j = s then 1 else 0 := by
  have h := prod_dmat (range n) s idx
  simp only [mem_range] at h
  exact h

theorem prod_kern_true (n : ℕ) (s : Bool) (idx : ℕ → Bool) :
    ∏ j ∈ range n, kern true s (idx j) =
      (sq2⁻¹) ^ n * (if s then (-1) ^ ((List.range n).filter fun j => idx j).length else 1) := by
  induction n with
  | zero => simp
  | succ n ih =>
    rw [prod_range_succ, ih, List.range_succ, List.filter_append, List.length_append, pow_succ]
    cases s <;> cases h : idx n <;> simp [kern, hmat, h, pow_succ] <;> ring

theorem replicate_prod (n : ℕ) (b s : Bool) (idx : ℕ → Bool) :
    ∏ j ∈ range (List.replicate n b).length, kern ((List.replicate n b).getD j false) s (idx j) = ∏ j ∈ range n, kern b s (idx j) := by
  rw [List.length_replicate]
  refine prod_congr rfl fun j hj => ?_
  rw [List.getD_replicate _ (mem_range.mp hj)]

theorem id2_form : LegForm NT.id2 (fun _ => 1) (List.replicate 2 false) := by
  refine ⟨rfl, fun idx => ?_⟩
  simp only [replicate_prod, Fintype.sum_bool, one_mul]
  unfold NT.id2
  simp only [prod_range_succ, prod_range_zero, one_mul]
  cases idx 0 <;> cases idx 1 <;> simp [kern, dmat]

theorem zBox_form (n : ℕ) (c : ℂ) : LegForm (NT.zBox n c) (fun s => if s then c else 1) (List.replicate n false) := by
  refine ⟨by simp [NT.zBox], fun idx => ?_⟩
  simp only [replicate_prod, Fintype.sum_bool, prod_kern_false]
  unfold NT.zBox
  simp only
  rcases Nat.eq_zero_or_pos n with h0 | h0
  · subst h0
    simp only [if_true, Bool.false_eq_true, if_false, Nat.not_lt_zero, false_imp_iff, implies_true]
    ring
  · rw [if_neg (by omega : ¬ n = 0)]
    by_cases h1 : ∀ j < n, idx j = true
    · have h2 : ¬ ∀ j < n, idx j = false := fun h => by have := h 0 h0; rw [h1 0 h0] at this; cases this
      rw [if_pos h1, if_neg h2, if_pos h1]
      simp
    · rw [if_neg h1, if_neg h1]
      simp

theorem xSpider_form {n : ℕ} (h : n ≠ 0) (c : ℂ) : LegForm (NT.xSpider n c) (fun s => if s then c else 1) (List.replicate n true) := by
  unfold NT.xSpider
  rw [if_neg h]
  refine ⟨by simp, fun idx => ?_⟩
  simp only [replicate_prod, Fintype.sum_bool, prod_kern_true, if_true, Bool.false_eq_true, if_false]
  by_cases hp : ((List.range n).filter fun j => idx j).length % 2 = 0
  · rw [if_pos hp, Even.neg_one_pow (Nat.even_iff.mpr hp)]
    ring
  · rw [if_neg hp, Odd.neg_one_pow (Nat.odd_iff.mpr (by omega))]
    ring

theorem psum_range_one (f : (ℕ → Bool) → ℂ) (b : ℕ → Bool) :
    psum (range 1) f b = f (Function.update b 0 false) + f (Function.update b 0 true) := by
  rw [show range 1 = insert 0 ∅ from rfl, psum_insert (by simp)]
  simp

/-- Contracting the first leg with the Hadamard matrix moves it to the end and changes its kind. -/
theorem had_step {t : NT} {w : Bool → ℂ} {b : Bool} {L : List Bool} (h : LegForm t w (b :: L)) :
    ∃ t', t.dot NT.had [0] [0] = some t' ∧ LegForm t' w (L ++ [!b]) := by
  have hr : t.rank = L.length + 1 := h.rank
  have hpos : ∀ j, NT.pos [0] (j + 1) = j := by
    intro j
    rw [pos_eq (List.nodup_singleton 0)]
    simp
  unfold NT.dot
  rw [if_pos ⟨rfl, List.nodup_singleton _, List.nodup_singleton _, by simp [hr], by simp [NT.had]⟩]
  refine ⟨_, rfl, by simp [hr, NT.had], fun idx => ?_⟩
  simp only [List.length_singleton]
  rw [psum_range_one]
  simp only [List.length_cons, h.val, hr, Nat.add_sub_cancel]
  have e1 : ∀ (c s : Bool), (∏ j ∈ range (L.length + 1), kern ((b :: L).getD j false) s
      (if j ∈ [0] then Function.update (fun _ => false) 0 c ([0].idxOf j) else idx (NT.pos [0] j))) =
      (∏ j ∈ range L.length, kern (L.getD j false) s (idx j)) * kern b s c := by
    intro c s
    rw [prod_range_succ']
    congr 1
    refine prod_congr rfl fun j _ => ?_
    rw [if_neg (by simp), hpos, List.getD_cons_succ]
  have e2 : ∀ c : Bool, NT.had.val (fun j => if j ∈ [0] then Function.update (fun _ => false) 0 c ([0].idxOf j) else idx (L.length + NT.pos [0] j)) =
      kern true c (idx L.length) := by
    intro c
    have : NT.pos [0] 1 = 0 := hpos 0
    unfold NT.had
    simp [kern, hmat, this]
  have e3 : ∀ s, ∏ j ∈ range (L ++ [!b]).length, kern ((L ++ [!b]).getD j false) s (idx j) =
      (∏ j ∈ range L.length, kern (L.getD j false) s (idx j)) * kern (!b) s (idx L.length) := by
    intro s
    rw [List.length_append, List.length_singleton, prod_range_succ]
    congr 1
    · refine prod_congr rfl fun j hj => ?_
      rw [List.getD_append _ _ _ _ (mem_range.mp hj)]
    · rw [List.getD_append_right _ _ _ _ (le_refl _), Nat.sub_self]
      rfl
  simp only [e1, e2, e3]
  have e4 : ∀ s, kern b s false * kern true false (idx L.length) + kern b s true * kern true true (idx L.length) = kern (!b) s (idx L.length) := by
    intro s
    rw [kern_comm b s false, kern_comm b s true, kern_comp, Bool.xor_true]
  rw [sum_mul, sum_mul, ← sum_add_distrib]
  refine sum_congr rfl fun s _ => ?_
  rw [← e4 s]
  ring

theorem had_steps {w : Bool → ℂ} {b : Bool} {d : ℕ} : ∀ (l : List ℕ) (m : ℕ) (t : NT), l.length + m ≤ d →
    LegForm t w (List.replicate (d - m) b ++ List.replicate m (!b)) →
    ∃ t', l.foldlM (fun t _ => t.dot NT.had [0] [0]) t = some t' ∧
      LegForm t' w (List.replicate (d - (m + l.length)) b ++ List.replicate (m + l.length) (!b))
  | [], m, t, _, h => ⟨t, rfl, by simpa using h⟩
  | a :: l, m, t, hm, h => by
    rw [List.length_cons] at hm
    obtain ⟨k, hk⟩ : ∃ k, d - m = k + 1 := ⟨d - m - 1, by omega⟩
    rw [hk, List.replicate_succ, List.cons_append] at h
    obtain ⟨t1, h1, h2⟩ := had_step h
    rw [List.append_assoc, ← List.replicate_succ', show k = d - (m + 1) by omega] at h2
    obtain ⟨t2, h3, h4⟩ := had_steps l (m + 1) t1 (by omega) h2
    refine ⟨t2, ?_, ?_⟩
    · rw [List.foldlM_cons, h1]
      exact h3
    · rw [List.length_cons, show m + (l.length + 1) = m + 1 + l.length by omega]
      exact h4

/-! ### The main contraction -/

theorem psum_contract (k : ℕ) (A : ℂ) (B : Bool → ℂ) (f : ℕ → Bool → ℂ) (h : Bool → ℕ → Bool → ℂ) (z : ℕ → Bool) :
    psum (range k) (fun c => (A * ∏ i ∈ range k, f i (c i)) * ∑ s : Bool, B s * ∏ i ∈ range k, h s i (c i)) z =
      A * ∑ s : Bool, B s * ∏ i ∈ range k, (f i false * h s i false + f i true * h s i true) := by
  have e : (fun c : ℕ → Bool => (A * ∏ i ∈ range k, f i (c i)) * ∑ s : Bool, B s * ∏ i ∈ range k, h s i (c i)) =
      fun c => A * B true * (∏ i ∈ range k, f i (c i) * h true i (c i)) +
        A * B false * (∏ i ∈ range k, f i (c i) * h false i (c i)) := by
    funext c
    rw [Fintype.sum_bool, prod_mul_distrib, prod_mul_distrib]
    ring
  have e2 : ∀ s, (∏ v ∈ range k, if v ∈ range k then f v false * h s v false + f v true * h s v true else f v (z v) * h s v (z v)) =
      ∏ i ∈ range k, (f i false * h s i false + f i true * h s i true) := fun s => prod_congr rfl fun i hi => by rw [if_pos hi]
  have e3 : ∀ s, psum (range k) (fun c => ∏ i ∈ range k, f i (c i) * h s i (c i)) z =
      ∏ i ∈ range k, (f i false * h s i false + f i true * h s i true) :=
    fun s => (psum_prod _ _ (Subset.refl _) (fun i c => f i c * h s i c) z).trans (e2 s)
  rw [e, psum_add, psum_const_mul, psum_const_mul, e3, e3, Fintype.sum_bool]
  ring

/-- Contraction of the array built so far with the array of a new vertex `v`. -/
theorem contract {P : Finset ℕ} {T t : NT} {C : (ℕ → Bool) → ℂ} {κ τ : ℕ → Bool} {legs rest : ℕ → List ℕ} {p : ℕ → ℕ} {nn : List ℕ}
    {v m : ℕ} {w : Bool → ℂ} {b : Bool} (hv : v ∉ P)
    (hT : ∀ idx, T.val idx = psum P (fun x => C x * ∏ u ∈ P, ((legs u).map fun a => kern (κ u) (x u) (idx a)).prod) fun _ => false)
    (hC : ∀ x y, (∀ u ∈ P, x u = y u) → C x = C y) (hn : nn.Nodup) (hP : ∀ u ∈ nn, u ∈ P) (hp : (nn.map p).Nodup)
    (hlegs : ∀ u ∈ P, legs u = rest u ++ if u ∈ nn then [p u] else []) (hrest : ∀ u ∈ P, ∀ a ∈ rest u, a ∉ nn.map p)
    (hlt : ∀ u ∈ nn, p u < T.rank) (hr : t.rank = m + nn.length)
    (ht : ∀ idx, t.val idx = ∑ s : Bool, (w s * ∏ j ∈ range m, kern b s (idx j)) *
      ∏ i ∈ range nn.length, kern (τ (nn.getD i 0)) s (idx (m + i))) :
    ∃ T', T.dot t (nn.map p) ((List.range nn.length).map fun i => m + i) = some T' ∧ T'.rank = T.rank - nn.length + m ∧
      ∀ idx, T'.val idx = psum (insert v P) (fun x => C x * (w (x v) * ∏ u ∈ nn.toFinset, kern (xor (κ u) (τ u)) (x u) (x v)) *
        ((∏ u ∈ P, ((rest u).map fun a => kern (κ u) (x u) (idx (NT.pos (nn.map p) a))).prod) *
          ∏ j ∈ range m, kern b (x v) (idx (T.rank - nn.length + j)))) fun _ => false := by
  have hk : (nn.map p).length = nn.length := List.length_map _
  have hlb : ((List.range nn.length).map fun i => m + i).Nodup := List.nodup_range.map fun a b h => by simpa using h
  unfold NT.dot
  rw [if_pos ⟨by rw [hk]; simp, hp, hlb, by simpa using hlt, by simp [hr]⟩]
  refine ⟨_, rfl, by simp [hr], fun idx => ?_⟩
  simp only [hk]
  -- the two factors
  have hA : ∀ c : ℕ → Bool, T.val (fun j => if j ∈ nn.map p then c ((nn.map p).idxOf j) else idx (NT.pos (nn.map p) j)) =
      psum P (fun x => (C x * ∏ u ∈ P, ((rest u).map fun a => kern (κ u) (x u) (idx (NT.pos (nn.map p) a))).prod) *
        ∏ i ∈ range nn.length, kern (κ (nn.getD i 0)) (x (nn.getD i 0)) (c i)) fun _ => false := by
    intro c
    rw [hT]
    refine psum_congr fun x _ => ?_
    rw [mul_assoc]
    congr 1
    have e1 : ∀ u ∈ P, ((legs u).map fun a => kern (κ u) (x u)
        (if a ∈ nn.map p then c ((nn.map p).idxOf a) else idx (NT.pos (nn.map p) a))).prod =
        ((rest u).map fun a => kern (κ u) (x u) (idx (NT.pos (nn.map p) a))).prod *
          if u ∈ nn.toFinset then kern (κ u) (x u) (c ((nn.map p).idxOf (p u))) else 1 := by
      intro u hu
      rw [hlegs u hu, List.map_append, List.prod_append]
      congr 1
      · refine congrArg List.prod (List.map_congr_left fun a ha => ?_)
        rw [if_neg (hrest u hu a ha)]
      · by_cases hm : u ∈ nn
        · rw [if_pos hm, if_pos (List.mem_toFinset.mpr hm), List.map_singleton, List.prod_singleton,
            if_pos (List.mem_map_of_mem hm)]
        · rw [if_neg hm, if_neg (fun h => hm (List.mem_toFinset.mp h))]
          rfl
    rw [prod_congr rfl e1, prod_mul_distrib]
    congr 1
    rw [prod_ite_mem, inter_eq_right.mpr (fun u hu => hP u (List.mem_toFinset.mp hu)), List.prod_toFinset _ hn, ← prod_range_getD]
    refine prod_congr rfl fun i hi => ?_
    have hi' := mem_range.mp hi
    congr 2
    rw [List.getD_eq_getElem _ _ hi', show p nn[i] = (nn.map p)[i]'(by rw [hk]; exact hi') by simp]
    exact hp.idxOf_getElem i _
  have hB : ∀ c : ℕ → Bool, t.val (fun j => if j ∈ (List.range nn.length).map (fun i => m + i) then
        c (((List.range nn.length).map fun i => m + i).idxOf j)
        else idx (T.rank - nn.length + NT.pos ((List.range nn.length).map fun i => m + i) j)) =
      ∑ s : Bool, (w s * ∏ j ∈ range m, kern b s (idx (T.rank - nn.length + j))) *
        ∏ i ∈ range nn.length, kern (τ (nn.getD i 0)) s (c i) := by
    intro c
    rw [ht]
    refine sum_congr rfl fun s _ => ?_
    congr 1
    · congr 1
      refine prod_congr rfl fun j hj => ?_
      have hj' := mem_range.mp hj
      rw [if_neg (by simp; omega), pos_eq hlb, List.countP_eq_zero.mpr (by simp; omega), Nat.sub_zero]
    · refine prod_congr rfl fun i hi => ?_
      have hi' := mem_range.mp hi
      rw [if_pos (by simpa using hi')]
      congr 2
      rw [show m + i = ((List.range nn.length).map fun i => m + i)[i]'(by simpa using hi') by simp]
      exact hlb.idxOf_getElem i _
  simp only [hA, hB]
  have hC1 : ∀ c : ℕ → Bool, psum P (fun x => (C x * ∏ u ∈ P, ((rest u).map fun a => kern (κ u) (x u) (idx (NT.pos (nn.map p) a))).prod) *
        ∏ i ∈ range nn.length, kern (κ (nn.getD i 0)) (x (nn.getD i 0)) (c i)) (fun _ => false) *
      (∑ s : Bool, (w s * ∏ j ∈ range m, kern b s (idx (T.rank - nn.length + j))) *
        ∏ i ∈ range nn.length, kern (τ (nn.getD i 0)) s (c i)) =
      psum P (fun x => ((C x * ∏ u ∈ P, ((rest u).map fun a => kern (κ u) (x u) (idx (NT.pos (nn.map p) a))).prod) *
        ∏ i ∈ range nn.length, kern (κ (nn.getD i 0)) (x (nn.getD i 0)) (c i)) *
        (∑ s : Bool, (w s * ∏ j ∈ range m, kern b s (idx (T.rank - nn.length + j))) *
        ∏ i ∈ range nn.length, kern (τ (nn.getD i 0)) s (c i))) (fun _ => false) := fun c => (psum_mul_const _ _ _ _).symm
  simp only [hC1]
  rw [psum_comm, psum_insert hv]
  refine psum_congr fun x _ => ?_
  rw [psum_contract nn.length (C x * ∏ u ∈ P, ((rest u).map fun a => kern (κ u) (x u) (idx (NT.pos (nn.map p) a))).prod)
    (fun s => w s * ∏ j ∈ range m, kern b s (idx (T.rank - nn.length + j)))
    (fun i c => kern (κ (nn.getD i 0)) (x (nn.getD i 0)) c) (fun s i c => kern (τ (nn.getD i 0)) s c)]
  have hD : ∀ s, (∏ i ∈ range nn.length, (kern (κ (nn.getD i 0)) (x (nn.getD i 0)) false * kern (τ (nn.getD i 0)) s false +
      kern (κ (nn.getD i 0)) (x (nn.getD i 0)) true * kern (τ (nn.getD i 0)) s true)) =
      ∏ u ∈ nn.toFinset, kern (xor (κ u) (τ u)) (x u) s := by
    intro s
    rw [List.prod_toFinset _ hn, ← prod_range_getD]
    refine prod_congr rfl fun i _ => ?_
    rw [← kern_comp, kern_comm _ (x (nn.getD i 0)), kern_comm _ (x (nn.getD i 0)), kern_comm _ s, kern_comm _ s]
  simp only [hD]
  have hu : ∀ (s : Bool), ∀ u ∈ P, Function.update x v s u = x u := fun s u hu =>
    Function.update_of_ne (fun (e : u = v) => hv (e ▸ hu)) _ _
  have hE : ∀ s, C (Function.update x v s) = C x := fun s => hC _ _ (hu s)
  have hF : ∀ s, (∏ u ∈ nn.toFinset, kern (xor (κ u) (τ u)) (Function.update x v s u) (Function.update x v s v)) =
      ∏ u ∈ nn.toFinset, kern (xor (κ u) (τ u)) (x u) s := fun s => prod_congr rfl fun u hm => by
    rw [hu s u (hP u (List.mem_toFinset.mp hm)), Function.update_self]
  have hG : ∀ s, (∏ u ∈ P, ((rest u).map fun a => kern (κ u) (Function.update x v s u) (idx (NT.pos (nn.map p) a))).prod) =
      ∏ u ∈ P, ((rest u).map fun a => kern (κ u) (x u) (idx (NT.pos (nn.map p) a))).prod := fun s => prod_congr rfl fun u hm => by
    rw [hu s u hm]
  rw [Fintype.sum_bool, hE, hE, hF, hF, hG, hG, Function.update_self, Function.update_self]
  ring

/-! ### The loop invariant -/

/-- The axes belonging to a processed vertex: for an input also the axis of the result (number `outer i` for the `i`-th input). -/
def legsOf (g : Graph) (ind : Ind) (outer : ℕ → ℕ) (u : ℕ) : List ℕ :=
  (if u ∈ g.inputs then [outer (g.inputs.idxOf u)] else []) ++ (ind u).getD []

/-- The invariant of the main loop after the vertices `P`. -/
structure State (g : Graph) (P : Finset ℕ) (T : NT) (ind : Ind) (outer : ℕ → ℕ) : Prop where
  inp : ∀ u ∈ g.inputs, u ∈ P
  val : ∀ idx, T.val idx = psum P (fun x => g.coreW P x * ∏ u ∈ P, ((legsOf g ind outer u).map fun a => kern (g.isX u) (x u) (idx a)).prod)
    fun _ => false
  dom : ∀ u, ind u ≠ none ↔ u ∈ P
  nodup : ∀ u ∈ P, (legsOf g ind outer u).Nodup
  disj : ∀ u ∈ P, ∀ w ∈ P, u ≠ w → ∀ a ∈ legsOf g ind outer u, a ∉ legsOf g ind outer w
  lt : ∀ u ∈ P, ∀ a ∈ legsOf g ind outer u, a < T.rank
  cover : ∀ a < T.rank, ∃ u ∈ P, a ∈ legsOf g ind outer u
  len : ∀ u ∈ P, ((ind u).getD []).length = ((g.nbrs u).filter (· ∉ P)).card + if u ∈ g.outputs then 1 else 0
  mono : ∀ i j, i < j → j < g.inputs.length → outer i < outer j
  low : ∀ u ∈ P, u ∉ g.inputs → ∀ a ∈ legsOf g ind outer u, ∀ i < g.inputs.length, outer i < a

/-- The tensor chosen for a vertex that is not an input. -/
theorem tensor_form {g : Graph} {v n : ℕ} (hg : g.WF) (hv : v ∈ g.verts) (hout : v ∈ g.outputs → n = 1)
    (hz : g.ty v = .zbox → g.phase v = 0) (hx : g.ty v = .X → n ≠ 0) (hbd : g.ty v = .boundary → v ∈ g.outputs) :
    ∃ d t, (if v ∈ g.outputs then
        if n ≠ 1 then none
        else if g.ty v ≠ .boundary then none
        else some (n + 1, NT.id2)
      else (vertexTensor g v n).map fun t => (n, t)) = some (d, t) ∧ d = n + (if v ∈ g.outputs then 1 else 0) ∧
      LegForm t (g.vwt v) (List.replicate d (g.isX v)) := by
  by_cases ho : v ∈ g.outputs
  · have hb : g.ty v = .boundary := hg.io v (Or.inr ho)
    have e1 : g.vwt v = fun _ => 1 := by
      funext s
      unfold vwt vval
      rw [hb]
      simp
    have e2 : g.isX v = false := by unfold isX; rw [hb]; rfl
    refine ⟨n + 1, NT.id2, ?_, by rw [if_pos ho], ?_⟩
    · rw [if_pos ho, if_neg (by simpa using hout ho), if_neg (by simpa using hb)]
    · rw [e1, e2, hout ho]
      exact id2_form
  · simp only [if_neg ho]
    rcases hg.types v hv with h | h | h | h
    · exact absurd (hbd h) ho
    · refine ⟨n, NT.zBox n (ph (g.phase v)), by simp [vertexTensor, h], rfl, ?_⟩
      have e1 : g.vwt v = fun s => if s then ph (g.phase v) else 1 := by
        funext s; unfold vwt vval; rw [h]
      have e2 : g.isX v = false := by unfold isX; rw [h]; rfl
      rw [e1, e2]
      exact zBox_form n _
    · refine ⟨n, NT.xSpider n (ph (g.phase v)), by simp [vertexTensor, h], rfl, ?_⟩
      have e1 : g.vwt v = fun s => if s then ph (g.phase v) else 1 := by
        funext s; unfold vwt vval; rw [h]
      have e2 : g.isX v = true := by unfold isX; rw [h]; rfl
      rw [e1, e2]
      exact xSpider_form (hx h) _
    · refine ⟨n, NT.zBox n (g.label v), by simp [vertexTensor, h, hz h], rfl, ?_⟩
      have e1 : g.vwt v = fun s => if s then g.label v else 1 := by
        funext s; unfold vwt vval; rw [h]
      have e2 : g.isX v = false := by unfold isX; rw [h]; rfl
      rw [e1, e2]
      exact zBox_form n _

/-- The array of a vertex after the Hadamard contractions. -/
theorem moved_form {t : NT} {w : Bool → ℂ} {b : Bool} {m : ℕ} {A B : List ℕ} {τ : ℕ → Bool}
    (h : LegForm t w (List.replicate (m + A.length) b ++ List.replicate B.length (!b)))
    (hA : ∀ u ∈ A, τ u = b) (hB : ∀ u ∈ B, τ u = !b) :
    t.rank = m + (A ++ B).length ∧ ∀ idx, t.val idx = ∑ s : Bool, (w s * ∏ j ∈ range m, kern b s (idx j)) *
      ∏ i ∈ range (A ++ B).length, kern (τ ((A ++ B).getD i 0)) s (idx (m + i)) := by
  refine ⟨by rw [h.rank]; simp; omega, fun idx => ?_⟩
  rw [h.val]
  refine sum_congr rfl fun s _ => ?_
  rw [mul_assoc]
  congr 1
  have e : (List.replicate (m + A.length) b ++ List.replicate B.length (!b)).length = m + (A ++ B).length := by simp; omega
  rw [e, prod_range_add]
  congr 1
  · refine prod_congr rfl fun j hj => ?_
    have hj' := mem_range.mp hj
    rw [List.getD_append _ _ _ _ (by simp; omega), List.getD_replicate _ (by omega)]
  · refine prod_congr rfl fun i hi => ?_
    have hi' := mem_range.mp hi
    rw [List.length_append] at hi'
    by_cases hA' : i < A.length
    · rw [List.getD_append _ _ _ _ (by simp; omega), List.getD_replicate _ (by omega), List.getD_append _ _ _ _ hA',
        List.getD_eq_getElem _ _ hA', hA _ (List.getElem_mem hA')]
    · have hB' : i - A.length < B.length := by omega
      rw [List.getD_append_right _ _ _ _ (by simp; omega), List.getD_replicate _ (by simp; omega),
        List.getD_append_right _ _ _ _ (by omega), List.getD_eq_getElem _ _ hB', hB _ (List.getElem_mem hB')]

/-- The processed neighbours, simple edges first. -/
theorem nn_facts {g : Graph} {ord : ℕ → List ℕ} {rows : ℕ → ℚ} {P : Finset ℕ} {v : ℕ}
    (hg : g.WF) (hord : Rules.NbrOrder g ord) (hv : v ∈ g.verts) (hb : ∀ n, g.adj v n ≠ none → (before rows n v = true ↔ n ∈ P))
    {A B : List ℕ} (hA : A = ((ord v).filter fun n => before rows n v).filter fun n => g.adj v n ≠ some .had)
    (hB : B = ((ord v).filter fun n => before rows n v).filter fun n => g.adj v n = some .had) :
    (A ++ B).filter (fun n => g.adj v n = some .had) = B ∧ (∀ u, u ∈ A ++ B ↔ g.adj v u ≠ none ∧ u ∈ P) ∧ (A ++ B).Nodup ∧
      (A ++ B).length ≤ (ord v).length ∧ (∀ u ∈ A, g.adj v u ≠ some .had) ∧ ∀ u ∈ B, g.adj v u = some .had := by
  obtain ⟨hnd, hset⟩ := hord v hv
  have hmem : ∀ n, n ∈ ord v ↔ g.adj v n ≠ none := fun n => by
    rw [← List.mem_toFinset, hset]; exact mem_nbrs hg.toInv
  have fA : ∀ u ∈ A, g.adj v u ≠ some .had := fun u hu => by
    rw [hA, List.mem_filter] at hu
    simpa using hu.2
  have fB : ∀ u ∈ B, g.adj v u = some .had := fun u hu => by
    rw [hB, List.mem_filter] at hu
    simpa using hu.2
  have hBf : (A ++ B).filter (fun n => g.adj v n = some .had) = B := by
    rw [List.filter_append]
    have e1 : A.filter (fun n => g.adj v n = some .had) = [] := by
      rw [List.filter_eq_nil_iff]
      intro n hn
      simpa using fA n hn
    have e2 : B.filter (fun n => g.adj v n = some .had) = B := by
      rw [List.filter_eq_self]
      intro n hn
      simpa using fB n hn
    rw [e1, e2, List.nil_append]
  have hnn : ∀ u, u ∈ A ++ B ↔ g.adj v u ≠ none ∧ u ∈ P := by
    intro u
    rw [List.mem_append, hA, hB]
    simp only [List.mem_filter, decide_eq_true_eq, hmem]
    constructor
    · rintro (⟨⟨h1, h2⟩, -⟩ | ⟨⟨h1, h2⟩, -⟩) <;> exact ⟨h1, (hb u h1).mp h2⟩
    · rintro ⟨h1, h2⟩
      by_cases h3 : g.adj v u = some .had
      · exact Or.inr ⟨⟨h1, (hb u h1).mpr h2⟩, h3⟩
      · exact Or.inl ⟨⟨h1, (hb u h1).mpr h2⟩, h3⟩
  have hnnd : (A ++ B).Nodup := by
    rw [List.nodup_append]
    refine ⟨by rw [hA]; exact (hnd.filter _).filter _, by rw [hB]; exact (hnd.filter _).filter _, ?_⟩
    intro a ha b hb' e
    exact fA a ha (e ▸ fB b hb')
  refine ⟨hBf, hnn, hnnd, ?_, fA, fB⟩
  have h1 : (A ++ B) ⊆ ord v := fun u hu => (hmem u).mpr ((hnn u).mp hu).1
  exact (hnnd.subperm h1).length_le

/-- The popped axes `p` and the remaining ones. -/
structure Pop (g : Graph) (P : Finset ℕ) (T : NT) (ind : Ind) (outer : ℕ → ℕ) (nn : List ℕ) (L : ℕ → List ℕ) (p : ℕ → ℕ)
    (rest : ℕ → List ℕ) : Prop where
  nnd : nn.Nodup
  nnP : ∀ u ∈ nn, u ∈ P
  split : ∀ u ∈ nn, ind u = some (L u ++ [p u])
  rest_eq : ∀ u, rest u = (if u ∈ g.inputs then [outer (g.inputs.idxOf u)] else []) ++ if u ∈ nn then L u else (ind u).getD []
  legs : ∀ u, legsOf g ind outer u = rest u ++ if u ∈ nn then [p u] else []
  nodup : (nn.map p).Nodup
  out : ∀ u ∈ P, ∀ a ∈ rest u, a ∉ nn.map p
  lt : ∀ u ∈ nn, p u < T.rank

theorem pop_exists {g : Graph} {P : Finset ℕ} {T : NT} {ind : Ind} {outer : ℕ → ℕ} {v : ℕ} {nn : List ℕ}
    (hg : g.WF) (S : State g P T ind outer) (hvP : v ∉ P) (hnnd : nn.Nodup) (hnn : ∀ u, u ∈ nn ↔ g.adj v u ≠ none ∧ u ∈ P) :
    ∃ L p rest, Pop g P T ind outer nn L p rest := by
  have hsome : ∀ u ∈ P, ind u = some ((ind u).getD []) := fun u hu => by
    cases h : ind u with
    | none => exact absurd h ((S.dom u).mpr hu)
    | some l => rfl
  have hnbr : ∀ u, v ∈ g.nbrs u ↔ g.adj v u ≠ none := fun u => by rw [mem_nbrs hg.toInv, hg.symm]
  have hne : ∀ u ∈ nn, (ind u).getD [] ≠ [] := by
    intro u hu h0
    obtain ⟨h1, h2⟩ := (hnn u).mp hu
    have h3 := S.len u h2
    rw [h0, List.length_nil] at h3
    have h4 : v ∈ (g.nbrs u).filter (· ∉ P) := mem_filter.mpr ⟨(hnbr u).mpr h1, hvP⟩
    have h5 : 0 < ((g.nbrs u).filter (· ∉ P)).card := card_pos.mpr ⟨v, h4⟩
    omega
  have hsplit : ∀ u ∈ nn, (ind u).getD [] = ((ind u).getD []).dropLast ++ [((ind u).getD []).getLast?.getD 0] := by
    intro u hu
    have h1 := List.dropLast_append_getLast (hne u hu)
    rw [List.getLast?_eq_getLast_of_ne_nil (hne u hu)]
    exact h1.symm
  have hlegs : ∀ u, legsOf g ind outer u = ((if u ∈ g.inputs then [outer (g.inputs.idxOf u)] else []) ++
      if u ∈ nn then ((ind u).getD []).dropLast else (ind u).getD []) ++ if u ∈ nn then [((ind u).getD []).getLast?.getD 0] else [] := by
    intro u
    unfold legsOf
    by_cases hu : u ∈ nn
    · rw [if_pos hu, if_pos hu, List.append_assoc, ← hsplit u hu]
    · rw [if_neg hu, if_neg hu, List.append_nil]
  have hpl : ∀ u ∈ nn, ((ind u).getD []).getLast?.getD 0 ∈ legsOf g ind outer u := fun u hu => by
    rw [hlegs]; simp [hu]
  have hnP : ∀ u ∈ nn, u ∈ P := fun u hu => ((hnn u).mp hu).2
  refine ⟨fun u => ((ind u).getD []).dropLast, fun u => ((ind u).getD []).getLast?.getD 0,
    fun u => (if u ∈ g.inputs then [outer (g.inputs.idxOf u)] else []) ++
      if u ∈ nn then ((ind u).getD []).dropLast else (ind u).getD [], hnnd, hnP,
    fun u hu => (hsome u (hnP u hu)).trans (congrArg some (hsplit u hu)), fun u => rfl, hlegs, ?_, ?_, fun u hu => S.lt u (hnP u hu) _ (hpl u hu)⟩
  · rw [List.nodup_map_iff_inj_on hnnd]
    intro a ha b hb' e
    by_contra hab
    exact S.disj a (hnP a ha) b (hnP b hb') hab _ (hpl a ha) (by rw [e]; exact hpl b hb')
  · intro u hu a ha hm'
    obtain ⟨w, hw, e⟩ := List.mem_map.mp hm'
    by_cases huw : u = w
    · subst huw
      have h1 := S.nodup u hu
      rw [hlegs, if_pos hw, List.nodup_append] at h1
      refine h1.2.2 a (by simpa [hw] using ha) a (by rw [← e, if_pos hw]; simp) rfl
    · exact S.disj u hu w (hnP w hw) huw a (by rw [hlegs]; exact List.mem_append_left _ ha) (e ▸ hpl w hw)

/-- The invariant after one more vertex. -/
theorem state_next {g : Graph} {P : Finset ℕ} {T T' : NT} {ind : Ind} {outer : ℕ → ℕ} {v m : ℕ} {nn : List ℕ} {L : ℕ → List ℕ} {p : ℕ → ℕ}
    {rest : ℕ → List ℕ} (hg : g.WF) (hin : g.inputs.Nodup) (S : State g P T ind outer) (hvP : v ∉ P)
    (hnn : ∀ u, u ∈ nn ↔ g.adj v u ≠ none ∧ u ∈ P) (Q : Pop g P T ind outer nn L p rest)
    (hm : m + nn.length = (g.nbrs v).card + if v ∈ g.outputs then 1 else 0)
    (hrT : T'.rank = T.rank - nn.length + m)
    (hvT : ∀ idx, T'.val idx = psum (insert v P) (fun x => g.coreW P x * (g.vwt v (x v) *
        ∏ u ∈ nn.toFinset, kern (xor (g.isX u) (xor (g.isX v) (decide (g.adj v u = some .had)))) (x u) (x v)) *
        ((∏ u ∈ P, ((rest u).map fun a => kern (g.isX u) (x u) (idx (NT.pos (nn.map p) a))).prod) *
          ∏ j ∈ range m, kern (g.isX v) (x v) (idx (T.rank - nn.length + j)))) fun _ => false) :
    State g (insert v P) T' (Function.update (fun u => (if u ∈ nn then some (L u) else ind u).map (List.map (NT.pos (nn.map p)))) v
      (some ((List.range m).map fun i => T.rank - nn.length + i))) (fun i => NT.pos (nn.map p) (outer i)) := by
  have hvin : v ∉ g.inputs := fun h => hvP (S.inp v h)
  have hk : (nn.map p).length = nn.length := List.length_map _
  have hsome : ∀ u ∈ P, ind u = some ((ind u).getD []) := fun u hu => by
    cases h : ind u with
    | none => exact absurd h ((S.dom u).mpr hu)
    | some l => rfl
  obtain ⟨r, hr⟩ : ∃ r, T.rank - nn.length = r := ⟨_, rfl⟩
  obtain ⟨q, hq⟩ : ∃ q : ℕ → ℕ, NT.pos (nn.map p) = q := ⟨_, rfl⟩
  rw [hr, hq]
  rw [hr] at hrT hvT
  rw [hq] at hvT
  obtain ⟨ind', hind'⟩ : ∃ ind' : Ind, Function.update (fun u => (if u ∈ nn then some (L u) else ind u).map (List.map q)) v
      (some ((List.range m).map fun i => r + i)) = ind' := ⟨_, rfl⟩
  rw [hind']
  have hrl : ∀ u, ∀ a ∈ rest u, a ∈ legsOf g ind outer u := fun u a ha => by rw [Q.legs]; exact List.mem_append_left _ ha
  have hnv : ∀ u ∈ P, u ≠ v := fun u hu h => hvP (h ▸ hu)
  have hleg' : ∀ u ∈ P, legsOf g ind' (fun i => q (outer i)) u = (rest u).map q := by
    intro u hu
    unfold legsOf
    rw [← hind', Function.update_of_ne (hnv u hu), Q.rest_eq, List.map_append]
    congr 1
    · by_cases hi : u ∈ g.inputs
      · rw [if_pos hi, if_pos hi]; rfl
      · rw [if_neg hi, if_neg hi]; rfl
    · by_cases hu' : u ∈ nn
      · rw [if_pos hu', if_pos hu']; rfl
      · rw [if_neg hu', if_neg hu', hsome u hu]; rfl
  have hlegv : legsOf g ind' (fun i => q (outer i)) v = (List.range m).map fun i => r + i := by
    unfold legsOf
    rw [if_neg hvin, ← hind', Function.update_self]
    rfl
  have hqlt : ∀ {a b : ℕ}, a ∉ nn.map p → a < b → q a < q b := fun {a b} ha h => by rw [← hq]; exact pos_lt ha h
  have hqr : q T.rank = r := by
    rw [← hq, pos_top Q.nodup (fun a ha => by
      obtain ⟨u, hu, rfl⟩ := List.mem_map.mp ha
      exact Q.lt u hu), hk, hr]
  have hposlt : ∀ u ∈ P, ∀ a ∈ rest u, q a < r := by
    intro u hu a ha
    have h1 := hqlt (Q.out u hu a ha) (S.lt u hu a (hrl u a ha))
    rwa [hqr] at h1
  have hqinj : ∀ {a b : ℕ}, a ∉ nn.map p → b ∉ nn.map p → q a = q b → a = b := fun {a b} ha hb h => by
    rw [← hq] at h; exact pos_inj ha hb h
  have hout_i : ∀ i < g.inputs.length, outer i ∉ nn.map p := by
    intro i hi
    have h1 : g.inputs[i] ∈ g.inputs := List.getElem_mem hi
    refine Q.out g.inputs[i] (S.inp _ h1) _ ?_
    rw [Q.rest_eq, if_pos h1, hin.idxOf_getElem i hi]
    simp
  refine ⟨fun u hu => mem_insert_of_mem (S.inp u hu), ?_, ?_, ?_, ?_, ?_, ?_, ?_, ?_, ?_⟩
  · intro idx
    rw [hvT idx]
    refine psum_congr fun x _ => ?_
    rw [prod_insert hvP, hlegv, coreW_insert hg.symm hvP]
    have e1 : (∏ u ∈ P, ((legsOf g ind' (fun i => q (outer i)) u).map fun a => kern (g.isX u) (x u) (idx a)).prod) =
        ∏ u ∈ P, ((rest u).map fun a => kern (g.isX u) (x u) (idx (q a))).prod := prod_congr rfl fun u hu => by
      rw [hleg' u hu, List.map_map]
      rfl
    have e2 : (((List.range m).map fun i => r + i).map fun a => kern (g.isX v) (x v) (idx a)).prod =
        ∏ j ∈ range m, kern (g.isX v) (x v) (idx (r + j)) := by
      rw [List.map_map, prod_range, ← List.prod_ofFn, List.ofFn_eq_map, ← List.map_coe_finRange_eq_range, List.map_map]
      rfl
    have e3 : (∏ w ∈ P, g.edgeK x v w) = ∏ u ∈ nn.toFinset, kern (xor (g.isX u) (xor (g.isX v) (decide (g.adj v u = some .had)))) (x u) (x v) := by
      rw [← prod_subset (s₁ := nn.toFinset) (s₂ := P) (f := fun w => g.edgeK x v w) (fun u hu => ((hnn u).mp (List.mem_toFinset.mp hu)).2)]
      · refine prod_congr rfl fun u hu => ?_
        obtain ⟨h1, h2⟩ := (hnn u).mp (List.mem_toFinset.mp hu)
        cases he : g.adj v u with
        | none => exact absurd he h1
        | some e =>
          rw [edgeK_some he]
          unfold eff
          rw [kern_comm]
          congr 1
          cases e <;> cases g.isX u <;> cases g.isX v <;> simp
      · intro u hu hn
        refine edgeK_none ?_
        by_contra h
        exact hn (List.mem_toFinset.mpr ((hnn u).mpr ⟨h, hu⟩))
    rw [e1, e2, e3]
    ring
  · intro u
    rw [mem_insert, ← hind']
    by_cases huv : u = v
    · subst huv
      rw [Function.update_self]
      simp
    · rw [Function.update_of_ne huv]
      simp only [huv, false_or, ← S.dom u]
      by_cases hu : u ∈ nn
      · rw [if_pos hu]
        have := (S.dom u).mpr (Q.nnP u hu)
        simp [this]
      · rw [if_neg hu]
        simp
  · intro u hu
    rcases mem_insert.mp hu with rfl | hu
    · rw [hlegv]
      exact List.nodup_range.map fun a b h => by simpa using h
    · rw [hleg' u hu, List.nodup_map_iff_inj_on]
      · intro a ha b hb h
        exact hqinj (Q.out u hu a ha) (Q.out u hu b hb) h
      · have h1 := S.nodup u hu
        rw [Q.legs, List.nodup_append] at h1
        exact h1.1
  · have hside : ∀ u ∈ P, ∀ a ∈ (rest u).map q, a ∉ (List.range m).map fun i => r + i := by
      intro u hu a ha hb
      obtain ⟨c, hc, rfl⟩ := List.mem_map.mp ha
      obtain ⟨i, -, e⟩ := List.mem_map.mp hb
      have := hposlt u hu c hc
      omega
    intro u hu w hw huw a ha hb
    rcases mem_insert.mp hu with rfl | huP
    · rcases mem_insert.mp hw with rfl | hw
      · exact huw rfl
      · rw [hlegv] at ha
        rw [hleg' w hw] at hb
        exact hside w hw a hb ha
    · rw [hleg' u huP] at ha
      rcases mem_insert.mp hw with rfl | hw
      · rw [hlegv] at hb
        exact hside u huP a ha hb
      · rw [hleg' w hw] at hb
        obtain ⟨c, hc, rfl⟩ := List.mem_map.mp ha
        obtain ⟨c', hc', e⟩ := List.mem_map.mp hb
        have e2 : c' = c := hqinj (Q.out w hw c' hc') (Q.out u huP c hc) e
        exact S.disj u huP w hw huw c (hrl u c hc) (e2 ▸ hrl w c' hc')
  · intro u hu a ha
    rw [hrT]
    rcases mem_insert.mp hu with rfl | hu
    · rw [hlegv] at ha
      obtain ⟨i, hi, rfl⟩ := List.mem_map.mp ha
      have := List.mem_range.mp hi
      omega
    · rw [hleg' u hu] at ha
      obtain ⟨c, hc, rfl⟩ := List.mem_map.mp ha
      have := hposlt u hu c hc
      omega
  · intro a ha
    by_cases har : a < r
    · rw [← hqr, ← hq] at har
      obtain ⟨j, hj, hjn, e⟩ := pos_surj har
      obtain ⟨u, hu, hju⟩ := S.cover j hj
      refine ⟨u, mem_insert_of_mem hu, ?_⟩
      rw [hleg' u hu, ← e, hq]
      rw [Q.legs, List.mem_append] at hju
      rcases hju with h | h
      · exact List.mem_map_of_mem h
      · by_cases hun : u ∈ nn
        · rw [if_pos hun, List.mem_singleton] at h
          exact absurd (h ▸ List.mem_map_of_mem hun) hjn
        · rw [if_neg hun] at h
          cases h
    · refine ⟨v, mem_insert_self _ _, ?_⟩
      rw [hlegv]
      exact List.mem_map.mpr ⟨a - r, List.mem_range.mpr (by omega), by omega⟩
  · have hnbr : ∀ u, v ∈ g.nbrs u ↔ g.adj v u ≠ none := fun u => by rw [mem_nbrs hg.toInv, hg.symm]
    intro u hu
    rw [← hind']
    rcases mem_insert.mp hu with rfl | hu
    · rw [Function.update_self]
      simp only [Option.getD_some, List.length_map, List.length_range]
      have e1 : (g.nbrs u).filter (· ∉ insert u P) = g.nbrs u \ nn.toFinset := by
        ext w
        rw [mem_filter, mem_sdiff, mem_insert, List.mem_toFinset, hnn, mem_nbrs hg.toInv]
        constructor
        · rintro ⟨h1, h2⟩
          exact ⟨h1, fun h3 => h2 (Or.inr h3.2)⟩
        · rintro ⟨h1, h2⟩
          refine ⟨h1, ?_⟩
          rintro (rfl | h3)
          · exact h1 (hg.loopless w)
          · exact h2 ⟨h1, h3⟩
      have e2 : nn.toFinset ⊆ g.nbrs u := fun w hw => by
        rw [mem_nbrs hg.toInv]; exact ((hnn w).mp (List.mem_toFinset.mp hw)).1
      rw [e1, card_sdiff_of_subset e2, List.toFinset_card_of_nodup Q.nnd]
      have e3 := card_le_card e2
      rw [List.toFinset_card_of_nodup Q.nnd] at e3
      omega
    · rw [Function.update_of_ne (hnv u hu)]
      have h0 := S.len u hu
      by_cases hun : u ∈ nn
      · have hs := Q.split u hun
        rw [hs] at h0
        simp only [if_pos hun, Option.map_some, Option.getD_some, List.length_map, List.length_append, List.length_singleton] at h0 ⊢
        have e1 : (g.nbrs u).filter (· ∉ P) = insert v ((g.nbrs u).filter (· ∉ insert v P)) := by
          ext w
          simp only [mem_insert, mem_filter, not_or]
          constructor
          · rintro ⟨h1, h2⟩
            by_cases hw : w = v
            · exact Or.inl hw
            · exact Or.inr ⟨h1, hw, h2⟩
          · rintro (rfl | ⟨h1, -, h2⟩)
            · exact ⟨(hnbr u).mpr ((hnn u).mp hun).1, hvP⟩
            · exact ⟨h1, h2⟩
        rw [e1, card_insert_of_notMem (by simp)] at h0
        omega
      · rw [if_neg hun]
        have e1 : (g.nbrs u).filter (· ∉ insert v P) = (g.nbrs u).filter (· ∉ P) := by
          refine filter_congr fun w hw => ?_
          rw [mem_insert, not_or]
          refine ⟨fun h => h.2, fun h => ⟨?_, h⟩⟩
          intro (e : w = v)
          exact hun ((hnn u).mpr ⟨(hnbr u).mp (e ▸ hw), hu⟩)
        rw [e1, ← h0, hsome u hu]
        simp
  · intro i j hij hj
    exact hqlt (hout_i i (by omega)) (S.mono i j hij hj)
  · intro u hu hui a ha i hi
    rcases mem_insert.mp hu with rfl | hu
    · rw [hlegv] at ha
      obtain ⟨c, hc, rfl⟩ := List.mem_map.mp ha
      have h1 : g.inputs[i] ∈ g.inputs := List.getElem_mem hi
      have h2 : outer i ∈ rest g.inputs[i] := by
        rw [Q.rest_eq, if_pos h1, hin.idxOf_getElem i hi]
        simp
      have := hposlt _ (S.inp _ h1) _ h2
      omega
    · rw [hleg' u hu] at ha
      obtain ⟨c, hc, rfl⟩ := List.mem_map.mp ha
      exact hqlt (hout_i i hi) (S.low u hu hui c (hrl u c hc) i hi)

theorem step_state {g : Graph} {ord : ℕ → List ℕ} {rows : ℕ → ℚ} {P : Finset ℕ} {T : NT} {ind : Ind} {outer : ℕ → ℕ} {v : ℕ}
    (hg : g.WF) (hin : g.inputs.Nodup) (hord : Rules.NbrOrder g ord) (S : State g P T ind outer) (hv : v ∈ g.verts) (hvP : v ∉ P)
    (hb : ∀ n, g.adj v n ≠ none → (before rows n v = true ↔ n ∈ P)) (hout : v ∈ g.outputs → (ord v).length = 1)
    (hz : g.ty v = .zbox → g.phase v = 0) (hx : g.ty v = .X → (ord v).length ≠ 0) (hbd : g.ty v = .boundary → v ∈ g.outputs) :
    ∃ T' ind', step g ord rows (T, ind) v = some (T', ind') ∧ ∃ outer', State g (insert v P) T' ind' outer' := by
  have hvin : v ∉ g.inputs := fun h => hvP (S.inp v h)
  obtain ⟨A, hA⟩ : ∃ A, A = ((ord v).filter fun n => before rows n v).filter fun n => g.adj v n ≠ some .had := ⟨_, rfl⟩
  obtain ⟨B, hB⟩ : ∃ B, B = ((ord v).filter fun n => before rows n v).filter fun n => g.adj v n = some .had := ⟨_, rfl⟩
  obtain ⟨hBf, hnn, hnnd, hlen, fA, fB⟩ := nn_facts hg hord hv hb hA hB
  obtain ⟨d, t, ht, hd, hform⟩ := tensor_form (n := (ord v).length) hg hv hout hz hx hbd
  have hAB : (A ++ B).length = A.length + B.length := List.length_append
  obtain ⟨m, hm⟩ : ∃ m, d = m + (A ++ B).length := ⟨d - (A ++ B).length, by omega⟩
  obtain ⟨t', ht', hform'⟩ := had_steps (d := d) (b := g.isX v) B 0 t (by omega) (by simpa using hform)
  rw [Nat.zero_add, show d - B.length = m + A.length by omega] at hform'
  obtain ⟨hrank, hval⟩ := moved_form (τ := fun u => xor (g.isX v) (decide (g.adj v u = some .had))) hform'
    (fun u hu => by simp [fA u hu]) (fun u hu => by simp [fB u hu])
  obtain ⟨nn, hN⟩ : ∃ nn, A ++ B = nn := ⟨_, rfl⟩
  rw [hN] at hBf hnn hnnd hlen hm hrank hval
  obtain ⟨L, p, rest, Q⟩ := pop_exists hg S hvP hnnd hnn
  have hpop := popAndShift_spec (ind := ind) hnnd Q.split Q.nodup
    (by
      intro u l hl a ha
      by_cases hu : u ∈ nn
      · rw [if_pos hu, Option.some.injEq] at hl
        refine Q.out u (Q.nnP u hu) a ?_
        rw [Q.rest_eq, if_pos hu, hl]
        exact List.mem_append_right _ ha
      · rw [if_neg hu] at hl
        have hP' : u ∈ P := (S.dom u).mp (by rw [hl]; simp)
        refine Q.out u hP' a ?_
        rw [Q.rest_eq, if_neg hu, hl]
        exact List.mem_append_right _ ha)
  obtain ⟨T', hT', hrT, hvT⟩ := contract (v := v) (κ := g.isX) (C := g.coreW P) (legs := legsOf g ind outer) (rest := rest)
    (p := p) (τ := fun u => xor (g.isX v) (decide (g.adj v u = some .had))) (w := g.vwt v) (b := g.isX v) (m := m) hvP S.val (fun x y h => coreW_congr_env h) hnnd Q.nnP Q.nodup
    (fun u _ => Q.legs u) Q.out Q.lt hrank hval
  have hk : (nn.map p).length = nn.length := List.length_map _
  have hkr : nn.length ≤ T.rank := by
    have h1 : nn.map p ⊆ List.range T.rank := fun a ha => by
      obtain ⟨u, hu, rfl⟩ := List.mem_map.mp ha
      exact List.mem_range.mpr (Q.lt u hu)
    have h2 := (Q.nodup.subperm h1).length_le
    rwa [hk, List.length_range] at h2
  have hcard : (ord v).length = (g.nbrs v).card := by
    rw [← (hord v hv).2, List.toFinset_card_of_nodup (hord v hv).1]
  refine ⟨T', _, ?_, _, state_next hg hin S hvP hnn Q (by omega) hrT hvT⟩
  have h0 : t'.rank - nn.length = m := by rw [hrank]; omega
  unfold step
  rw [if_neg hvin]
  simp only [ht, Option.bind_eq_bind, Option.bind_some, ← hA, ← hB, hN, hBf, ht', hpop, hk, h0, hT']
  have e1 : T'.rank + nn.length - d = T.rank - nn.length := by omega
  rw [e1, show T'.rank - (T.rank - nn.length) = m by omega]

/-! ### Start, loop and end -/

theorem startTensor_spec (n : ℕ) : ∃ T, startTensor n = some T ∧ T.rank = 2 * n ∧
    ∀ idx, T.val idx = ∏ i ∈ range n, kern false (idx (2 * i)) (idx (1 + 2 * i)) := by
  induction n with
  | zero => exact ⟨_, rfl, rfl, fun idx => by simp⟩
  | succ n ih =>
    obtain ⟨T, h1, h2, h3⟩ := ih
    have e : startTensor (n + 1) = T.dot NT.id2 [] [] := by
      rw [startTensor, h1]
      rfl
    rw [e]
    unfold NT.dot
    rw [if_pos (by simp)]
    refine ⟨_, rfl, by simp [h2, NT.id2]; ring, fun idx => ?_⟩
    simp only [List.length_nil, range_zero, psum_empty, Nat.sub_zero, List.not_mem_nil, if_false, pos_nil, h3, h2]
    rw [prod_range_succ]
    congr 1
    unfold NT.id2 kern dmat
    simp [add_comm]

theorem start_state {g : Graph} {T : NT} (hg : g.WF) (hin : g.inputs.Nodup) (hdis : ∀ v ∈ g.inputs, v ∉ g.outputs) (hw : g.Wired g.inputs)
    (hr : T.rank = 2 * g.inputs.length)
    (hT : ∀ idx, T.val idx = ∏ i ∈ range g.inputs.length, kern false (idx (2 * i)) (idx (1 + 2 * i))) :
    State g g.inputs.toFinset T (startInd g) (fun i => 2 * i) := by
  have hlegs : ∀ u ∈ g.inputs, legsOf g (startInd g) (fun i => 2 * i) u = [2 * g.inputs.idxOf u, 1 + 2 * g.inputs.idxOf u] := by
    intro u hu
    unfold legsOf startInd
    rw [if_pos hu, if_pos hu]
    rfl
  have hty : ∀ u ∈ g.inputs, g.ty u = .boundary := fun u hu => hg.io u (Or.inl hu)
  have hX : ∀ u ∈ g.inputs, g.isX u = false := fun u hu => by unfold isX; rw [hty u hu]; rfl
  have hidx : ∀ u ∈ g.inputs, g.inputs.idxOf u < g.inputs.length := fun u hu => List.idxOf_lt_length_of_mem hu
  have hcore : ∀ x, g.coreW g.inputs.toFinset x = 1 := by
    intro x
    unfold coreW
    have e1 : (∏ v ∈ g.inputs.toFinset, g.vwt v (x v)) = 1 := prod_eq_one fun u hu => by
      unfold vwt vval
      rw [hty u (List.mem_toFinset.mp hu)]
      simp
    have e2 : pairProd g.inputs.toFinset (g.edgeK x) = 1 := by
      rw [pairProd_congr (G := fun _ _ => 1), pairProd_one]
      intro a ha b hb _
      refine edgeK_none ?_
      by_contra h
      obtain ⟨n, hn, -, hn3⟩ := hw a (List.mem_toFinset.mp ha)
      exact hn (hn3 b h ▸ List.mem_toFinset.mp hb)
    rw [e1, e2, one_mul]
  refine ⟨fun u hu => List.mem_toFinset.mpr hu, ?_, ?_, ?_, ?_, ?_, ?_, ?_, ?_, ?_⟩
  · intro idx
    have e1 : ∀ x : ℕ → Bool, g.coreW g.inputs.toFinset x * (∏ u ∈ g.inputs.toFinset,
        ((legsOf g (startInd g) (fun i => 2 * i) u).map fun a => kern (g.isX u) (x u) (idx a)).prod) =
        ∏ u ∈ g.inputs.toFinset, kern false (x u) (idx (2 * g.inputs.idxOf u)) * kern false (x u) (idx (1 + 2 * g.inputs.idxOf u)) := by
      intro x
      rw [hcore, one_mul]
      refine prod_congr rfl fun u hu => ?_
      have hu' := List.mem_toFinset.mp hu
      rw [hlegs u hu', hX u hu']
      simp
    simp only [e1]
    rw [psum_prod _ _ (Subset.refl _) (fun u c => kern false c (idx (2 * g.inputs.idxOf u)) * kern false c (idx (1 + 2 * g.inputs.idxOf u)))]
    have e2 : ∀ u ∈ g.inputs.toFinset, (if u ∈ g.inputs.toFinset then
        kern false false (idx (2 * g.inputs.idxOf u)) * kern false false (idx (1 + 2 * g.inputs.idxOf u)) +
        kern false true (idx (2 * g.inputs.idxOf u)) * kern false true (idx (1 + 2 * g.inputs.idxOf u)) else
        kern false false (idx (2 * g.inputs.idxOf u)) * kern false false (idx (1 + 2 * g.inputs.idxOf u))) =
        kern false (idx (2 * g.inputs.idxOf u)) (idx (1 + 2 * g.inputs.idxOf u)) := by
      intro u hu
      rw [if_pos hu, kern_comp]
      rfl
    rw [prod_congr rfl e2, hT, List.prod_toFinset _ hin, ← prod_range_getD]
    refine prod_congr rfl fun i hi => ?_
    have hi' := mem_range.mp hi
    rw [List.getD_eq_getElem _ _ hi', hin.idxOf_getElem i hi']
  · intro u
    unfold startInd
    rw [List.mem_toFinset]
    by_cases hu : u ∈ g.inputs <;> simp [hu]
  · intro u hu
    rw [hlegs u (List.mem_toFinset.mp hu)]
    simp
  · intro u hu w hw' huw a ha hb
    have hu' := List.mem_toFinset.mp hu
    have hw'' := List.mem_toFinset.mp hw'
    rw [hlegs u hu'] at ha
    rw [hlegs w hw''] at hb
    simp only [List.mem_cons, List.not_mem_nil, or_false] at ha hb
    refine huw ((List.idxOf_inj hu').mp ?_)
    omega
  · intro u hu a ha
    have hu' := List.mem_toFinset.mp hu
    rw [hlegs u hu'] at ha
    simp only [List.mem_cons, List.not_mem_nil, or_false] at ha
    have := hidx u hu'
    omega
  · intro a ha
    have hi : a / 2 < g.inputs.length := by omega
    refine ⟨g.inputs[a / 2], List.mem_toFinset.mpr (List.getElem_mem hi), ?_⟩
    rw [hlegs _ (List.getElem_mem hi), hin.idxOf_getElem _ hi]
    simp only [List.mem_cons, List.not_mem_nil, or_false]
    omega
  · intro u hu
    have hu' := List.mem_toFinset.mp hu
    obtain ⟨n, hn1, hn2, hn3⟩ := hw u hu'
    have e1 : (g.nbrs u).filter (· ∉ g.inputs.toFinset) = {n} := by
      ext w
      rw [mem_filter, mem_nbrs hg.toInv, List.mem_toFinset, mem_singleton]
      constructor
      · rintro ⟨h, -⟩
        exact hn3 w h
      · rintro rfl
        exact ⟨hn2, hn1⟩
    rw [e1, if_neg (hdis u hu'), startInd, if_pos hu']
    rfl
  · intro i j hij _
    show 2 * i < 2 * j
    omega
  · intro u hu hu'
    exact absurd (List.mem_toFinset.mp hu) hu'

theorem before_asymm {rows : ℕ → ℚ} {a b : ℕ} (h : before rows a b = true) : before rows b a = false := by
  unfold before at *
  simp only [decide_eq_true_eq, decide_eq_false_iff_not, not_or, not_and, not_lt] at *
  rcases h with h | ⟨h, h'⟩
  · exact ⟨le_of_lt h, fun e => absurd e (ne_of_gt h)⟩
  · exact ⟨le_of_eq h, fun _ => by omega⟩

theorem fold_state {g : Graph} {ord : ℕ → List ℕ} {rows : ℕ → ℚ} (hg : g.WF) (hio : g.IO) (hord : Rules.NbrOrder g ord)
    (hz : ∀ v ∈ g.verts, g.ty v = .zbox → g.phase v = 0) (hx : ∀ v ∈ g.verts, g.ty v = .X → (ord v).length ≠ 0)
    (hout : ∀ v ∈ g.outputs, (ord v).length = 1) (hinb : ∀ i ∈ g.inputs, ∀ n, g.adj i n ≠ none → before rows i n = true) :
    ∀ (suf pre : List ℕ) (T : NT) (ind : Ind) (outer : ℕ → ℕ), (pre ++ suf).Pairwise (fun a b => before rows a b = true) →
      (pre ++ suf).Nodup → (∀ v, v ∈ pre ++ suf ↔ v ∈ g.verts) → State g (g.inputs.toFinset ∪ pre.toFinset) T ind outer →
      ∃ T' ind', suf.foldlM (step g ord rows) (T, ind) = some (T', ind') ∧ ∃ outer', State g g.verts T' ind' outer'
  | [], pre, T, ind, outer, _, _, hmem, S => by
    refine ⟨T, ind, rfl, outer, ?_⟩
    have e : g.inputs.toFinset ∪ pre.toFinset = g.verts := by
      ext v
      rw [mem_union, List.mem_toFinset, List.mem_toFinset]
      have h := hmem v
      rw [List.append_nil] at h
      constructor
      · rintro (h' | h')
        · exact hg.inp v h'
        · exact h.mp h'
      · intro h'
        exact Or.inr (h.mpr h')
    rw [← e]
    exact S
  | v :: suf, pre, T, ind, outer, hp, hn, hmem, S => by
    have hv : v ∈ g.verts := (hmem v).mp (by simp)
    have hassoc : pre ++ v :: suf = (pre ++ [v]) ++ suf := by simp
    have hset : g.inputs.toFinset ∪ (pre ++ [v]).toFinset = insert v (g.inputs.toFinset ∪ pre.toFinset) := by
      ext w
      simp only [mem_union, List.mem_toFinset, List.mem_append, List.mem_singleton, mem_insert]
      tauto
    have hvpre : v ∉ pre := fun h => by
      rw [List.nodup_append] at hn
      exact hn.2.2 v h v (by simp) rfl
    rw [List.foldlM_cons]
    by_cases hvi : v ∈ g.inputs
    · have e1 : step g ord rows (T, ind) v = some (T, ind) := by
        unfold step
        rw [if_pos hvi, if_neg (by simpa using hg.io v (Or.inl hvi))]
      rw [e1]
      refine fold_state hg hio hord hz hx hout hinb suf (pre ++ [v]) T ind outer (hassoc ▸ hp) (hassoc ▸ hn) (hassoc ▸ hmem) ?_
      rw [hset, insert_eq_of_mem (mem_union_left _ (List.mem_toFinset.mpr hvi))]
      exact S
    · have hvP : v ∉ g.inputs.toFinset ∪ pre.toFinset := by
        rw [mem_union, List.mem_toFinset, List.mem_toFinset]
        tauto
      have hb : ∀ n, g.adj v n ≠ none → (before rows n v = true ↔ n ∈ g.inputs.toFinset ∪ pre.toFinset) := by
        intro n hvn
        rw [mem_union, List.mem_toFinset, List.mem_toFinset]
        have hnv : n ∈ g.verts := hg.mem n v (by rw [hg.symm]; exact hvn)
        obtain ⟨-, hp2, hp3⟩ := List.pairwise_append.mp hp
        constructor
        · intro h
          right
          have h1 := (hmem n).mpr hnv
          rw [List.mem_append, List.mem_cons] at h1
          rcases h1 with h1 | rfl | h1
          · exact h1
          · exact absurd (hg.loopless n) hvn
          · have h2 := (List.pairwise_cons.mp hp2).1 n h1
            rw [before_asymm h2] at h
            cases h
        · rintro (h | h)
          · exact hinb n h v (by rw [hg.symm]; exact hvn)
          · exact hp3 n h v (by simp)
      obtain ⟨T', ind', h1, outer', S'⟩ := step_state hg hio.nodupIn hord S hv hvP hb (hout v) (hz v hv) (hx v hv)
        (fun h => (hio.all v hv h).resolve_left hvi)
      rw [h1]
      refine fold_state hg hio hord hz hx hout hinb suf (pre ++ [v]) T' ind' outer' (hassoc ▸ hp) (hassoc ▸ hn) (hassoc ▸ hmem) ?_
      rw [hset]
      exact S'

/-- Fixing the value of summed variables by delta factors. -/
theorem psum_delta (B : Finset ℕ) (G : (ℕ → Bool) → ℂ) (b c : ℕ → Bool) :
    psum B (fun x => G x * ∏ u ∈ B, dmat (x u) (b u)) c = G fun v => if v ∈ B then b v else c v := by
  induction B using Finset.induction_on generalizing c G with
  | empty => simp
  | insert v B hv ih =>
    rw [psum_insert_env hv]
    have key : ∀ s, psum B (fun x => G x * ∏ u ∈ insert v B, dmat (x u) (b u)) (Function.update c v s) =
        dmat s (b v) * G fun w => if w ∈ B then b w else Function.update c v s w := by
      intro s
      have e : psum B (fun x => G x * ∏ u ∈ insert v B, dmat (x u) (b u)) (Function.update c v s) =
          psum B (fun x => dmat s (b v) * (G x * ∏ u ∈ B, dmat (x u) (b u))) (Function.update c v s) := by
        refine psum_congr fun x hx => ?_
        rw [prod_insert hv, hx v hv, Function.update_self]
        ring
      rw [e, psum_const_mul, ih]
    rw [key, key]
    have e2 : ∀ s, s = b v → (fun w => if w ∈ B then b w else Function.update c v s w) = fun w => if w ∈ insert v B then b w else c w := by
      intro s hs
      funext w
      by_cases hw : w = v
      · subst hw
        rw [if_neg hv, if_pos (mem_insert_self _ _), Function.update_self, hs]
      · rw [Function.update_of_ne hw]
        simp [hw]
    cases h : b v
    · rw [← e2 false h.symm]
      simp [dmat]
    · rw [← e2 true h.symm]
      simp [dmat]

theorem mapM_some {α β : Type*} (l : List α) (f : α → Option β) (h : α → β) (hf : ∀ a ∈ l, f a = some (h a)) : l.mapM f = some (l.map h) := by
  induction l with
  | nil => rfl
  | cons a l ih =>
    rw [List.mapM_cons, hf a List.mem_cons_self, ih fun b hb => hf b (List.mem_cons_of_mem _ hb)]
    rfl

/-- What is left at the end of the loop. -/
theorem final_legs {g : Graph} {T : NT} {ind : Ind} {outer : ℕ → ℕ} (hg : g.WF) (hio : g.IO) (S : State g g.verts T ind outer) :
    (∀ i < g.inputs.length, outer i = i) ∧ (∀ u ∈ g.verts, u ∉ g.outputs → ind u = some []) ∧
      ∃ a : ℕ → ℕ, ∀ o ∈ g.outputs, ind o = some [a o] := by
  have hsome : ∀ u ∈ g.verts, ind u = some ((ind u).getD []) := fun u hu => by
    cases h : ind u with
    | none => exact absurd h ((S.dom u).mpr hu)
    | some l => rfl
  have hcard : ∀ u, ((g.nbrs u).filter (· ∉ g.verts)).card = 0 := fun u => by
    rw [card_eq_zero, filter_eq_empty_iff]
    intro w hw h
    exact h (mem_filter.mp hw).1
  have h1 : ∀ u ∈ g.verts, u ∉ g.outputs → ind u = some [] := by
    intro u hu ho
    have h := S.len u hu
    rw [hcard, if_neg ho] at h
    rw [hsome u hu, List.length_eq_zero_iff.mp h]
  refine ⟨?_, h1, fun o => ((ind o).getD []).headD 0, ?_⟩
  · intro i hi
    have hge : ∀ j < g.inputs.length, j ≤ outer j := by
      intro j
      induction j with
      | zero => exact fun _ => Nat.zero_le _
      | succ j ih =>
        intro hj
        have a1 := ih (by omega)
        have a2 := S.mono j (j + 1) (by omega) hj
        omega
    have hin : ∀ j < g.inputs.length, outer j < T.rank := by
      intro j hj
      have hm : g.inputs[j] ∈ g.inputs := List.getElem_mem hj
      refine S.lt g.inputs[j] (hg.inp _ hm) _ ?_
      unfold legsOf
      rw [if_pos hm, hio.nodupIn.idxOf_getElem j hj]
      simp
    have hsub : range (outer i) ⊆ (range i).image outer := by
      intro a ha
      have ha' := mem_range.mp ha
      obtain ⟨u, hu, hau⟩ := S.cover a (by have := hin i hi; omega)
      by_cases hui : u ∈ g.inputs
      · unfold legsOf at hau
        rw [if_pos hui, h1 u hu (hio.disj u hui)] at hau
        simp only [Option.getD_some, List.append_nil, List.mem_singleton] at hau
        refine mem_image.mpr ⟨g.inputs.idxOf u, mem_range.mpr ?_, hau.symm⟩
        by_contra hlt
        rcases Nat.lt_or_ge i (g.inputs.idxOf u) with h | h
        · have := S.mono i _ h (List.idxOf_lt_length_of_mem hui)
          omega
        · have : g.inputs.idxOf u = i := by omega
          rw [this] at hau
          omega
      · have := S.low u hu hui a hau i hi
        omega
    have hle := card_le_card hsub
    rw [card_range] at hle
    have hle2 := card_image_le (s := range i) (f := outer)
    rw [card_range] at hle2
    have := hge i hi
    omega
  · intro o ho
    have h := S.len o (hg.out o ho)
    rw [hcard, if_pos ho, Nat.zero_add] at h
    obtain ⟨a, ha⟩ := List.length_eq_one_iff.mp h
    rw [hsome o (hg.out o ho)]
    simp only [ha]
    rfl

theorem finish {g : Graph} {T : NT} {ind : Ind} {outer : ℕ → ℕ} (hg : g.WF) (hio : g.IO) (S : State g g.verts T ind outer) :
    ∃ perm0 R, (g.outputs.mapM fun o => do (← ind o).head?) = some perm0 ∧ T.transpose (perm0 ++ List.range g.inputs.length) = some R ∧
      R.rank = g.outputs.length + g.inputs.length ∧
      ∀ x y, R.val (fun k => if k < g.outputs.length then y k else x (k - g.outputs.length)) = g.coreAmp (g.bval x y) := by
  obtain ⟨hout, hnil, a, ha⟩ := final_legs hg hio S
  have hlegI : ∀ u ∈ g.inputs, legsOf g ind outer u = [g.inputs.idxOf u] := by
    intro u hu
    unfold legsOf
    rw [if_pos hu, hout _ (List.idxOf_lt_length_of_mem hu), hnil u (hg.inp u hu) (hio.disj u hu)]
    rfl
  have hnoti : ∀ u ∈ g.outputs, u ∉ g.inputs := fun u hu hi => hio.disj u hi hu
  have hlegO : ∀ u ∈ g.outputs, legsOf g ind outer u = [a u] := by
    intro u hu
    unfold legsOf
    rw [if_neg (hnoti u hu), ha u hu]
    rfl
  have hlegN : ∀ u ∈ g.verts, u ∉ g.inputs → u ∉ g.outputs → legsOf g ind outer u = [] := by
    intro u hu h1 h2
    unfold legsOf
    rw [if_neg h1, hnil u hu h2]
    rfl
  obtain ⟨perm, hperm⟩ : ∃ perm, perm = g.outputs.map a ++ List.range g.inputs.length := ⟨_, rfl⟩
  have hpn : perm.Nodup := by
    rw [hperm, List.nodup_append]
    refine ⟨?_, List.nodup_range, ?_⟩
    · rw [List.nodup_map_iff_inj_on hio.nodupOut]
      intro u hu w hw e
      by_contra hne
      exact S.disj u (hg.out u hu) w (hg.out w hw) hne (a u) (by rw [hlegO u hu]; simp) (by rw [hlegO w hw, e]; simp)
    · intro c hc i hi e
      obtain ⟨u, hu, rfl⟩ := List.mem_map.mp hc
      have hi' := List.mem_range.mp hi
      have h1 := S.low u (hg.out u hu) (hnoti u hu) (a u) (by rw [hlegO u hu]; simp) i hi'
      rw [hout i hi'] at h1
      omega
  have hmem : ∀ c, c ∈ perm ↔ c < T.rank := by
    intro c
    rw [hperm, List.mem_append, List.mem_map, List.mem_range]
    constructor
    · rintro (⟨u, hu, rfl⟩ | hc)
      · exact S.lt u (hg.out u hu) _ (by rw [hlegO u hu]; simp)
      · have hm : g.inputs[c] ∈ g.inputs := List.getElem_mem hc
        exact S.lt g.inputs[c] (hg.inp _ hm) _ (by rw [hlegI _ hm, hio.nodupIn.idxOf_getElem c hc]; simp)
    · intro hc
      obtain ⟨u, hu, hcu⟩ := S.cover c hc
      by_cases hi : u ∈ g.inputs
      · rw [hlegI u hi, List.mem_singleton] at hcu
        exact Or.inr (hcu ▸ List.idxOf_lt_length_of_mem hi)
      · by_cases ho : u ∈ g.outputs
        · rw [hlegO u ho, List.mem_singleton] at hcu
          exact Or.inl ⟨u, ho, hcu.symm⟩
        · rw [hlegN u hu hi ho] at hcu
          cases hcu
  have hlen : perm.length = T.rank := by
    have h1 : perm.Perm (List.range T.rank) := by
      rw [List.perm_ext_iff_of_nodup hpn List.nodup_range]
      intro c
      rw [hmem, List.mem_range]
    rw [h1.length_eq, List.length_range]
  refine ⟨g.outputs.map a, ⟨T.rank, fun idx => T.val fun c => idx (perm.idxOf c)⟩, ?_, ?_, ?_, ?_⟩
  · refine mapM_some _ _ a fun o ho => ?_
    rw [ha o ho]
    rfl
  · unfold NT.transpose
    rw [← hperm, if_pos ⟨hlen, hpn, fun c hc => (hmem c).mp hc⟩]
  · show T.rank = _
    rw [← hlen, hperm, List.length_append, List.length_map, List.length_range]
  · intro x y
    show T.val _ = _
    rw [S.val]
    have hX : ∀ u ∈ g.verts, g.ty u = .boundary → g.isX u = false := fun u _ h => by unfold isX; rw [h]; rfl
    have hidxO : ∀ u ∈ g.outputs, perm.idxOf (a u) = g.outputs.idxOf u := by
      intro u hu
      have hl := List.idxOf_lt_length_of_mem hu
      have h1 : a u = perm[g.outputs.idxOf u]'(by rw [hperm]; simp; omega) := by
        simp only [hperm]
        rw [List.getElem_append_left (by simpa using hl), List.getElem_map, List.getElem_idxOf]
      rw [h1]
      exact hpn.idxOf_getElem _ _
    have hidxI : ∀ i < g.inputs.length, perm.idxOf i = g.outputs.length + i := by
      intro i hi
      have h1 : i = perm[g.outputs.length + i]'(by rw [hperm]; simp; omega) := by
        simp only [hperm]
        rw [List.getElem_append_right (by simp)]
        simp
      conv_lhs => rw [h1]
      exact hpn.idxOf_getElem _ _
    obtain ⟨B, hB⟩ : ∃ B, B = g.verts.filter fun v => g.ty v = .boundary := ⟨_, rfl⟩
    have hfac : ∀ z : ℕ → Bool, (∏ u ∈ g.verts, ((legsOf g ind outer u).map fun c => kern (g.isX u) (z u)
        ((fun k => if k < g.outputs.length then y k else x (k - g.outputs.length)) (perm.idxOf c))).prod) =
        ∏ u ∈ B, dmat (z u) (g.bval x y u) := by
      intro z
      rw [hB, prod_filter]
      refine prod_congr rfl fun u hu => ?_
      by_cases hi : u ∈ g.inputs
      · have hb := hg.io u (Or.inl hi)
        have hl := List.idxOf_lt_length_of_mem hi
        rw [if_pos hb, hlegI u hi, hX u hu hb]
        simp only [List.map_cons, List.map_nil, List.prod_singleton]
        rw [hidxI _ hl, if_neg (by omega), Nat.add_sub_cancel_left]
        unfold bval kern
        rw [if_pos hi]
        rfl
      · by_cases ho : u ∈ g.outputs
        · have hb := hg.io u (Or.inr ho)
          rw [if_pos hb, hlegO u ho, hX u hu hb]
          simp only [List.map_cons, List.map_nil, List.prod_singleton]
          rw [hidxO u ho, if_pos (List.idxOf_lt_length_of_mem ho)]
          unfold bval kern
          rw [if_neg hi]
          rfl
        · have hb : ¬ g.ty u = .boundary := fun h => (hio.all u hu h).elim hi ho
          rw [if_neg hb, hlegN u hu hi ho]
          rfl
    simp only [hfac]
    have hdisj : Disjoint B g.interior := by
      rw [hB, Finset.disjoint_left]
      intro v h1 h2
      exact (mem_filter.mp h2).2 (mem_filter.mp h1).2
    have hun : g.verts = B ∪ g.interior := by
      rw [hB]
      unfold Graph.interior
      rw [filter_union_filter_not_eq]
    have e1 : psum g.verts (fun z => g.coreW g.verts z * ∏ u ∈ B, dmat (z u) (g.bval x y u)) (fun _ => false) =
        psum B (fun z => psum g.interior (g.coreW g.verts) z * ∏ u ∈ B, dmat (z u) (g.bval x y u)) (fun _ => false) := by
      conv_lhs => rw [show psum g.verts (fun z => g.coreW g.verts z * ∏ u ∈ B, dmat (z u) (g.bval x y u)) =
        psum (B ∪ g.interior) (fun z => g.coreW g.verts z * ∏ u ∈ B, dmat (z u) (g.bval x y u)) by rw [← hun]]
      rw [psum_union hdisj]
      refine psum_congr fun z _ => ?_
      rw [← psum_mul_const]
      refine psum_congr fun z' hz' => ?_
      congr 1
      exact prod_congr rfl fun u hu => by rw [hz' u (Finset.disjoint_left.mp hdisj hu)]
    rw [e1, psum_delta]
    unfold coreAmp
    refine psum_env (S := g.verts) (fun _ _ h => coreW_congr_env h) ?_
    intro v hv hvi
    rw [hun, mem_union] at hv
    rw [if_pos (hv.resolve_right hvi)]

end Tensorfy
end PyZX
