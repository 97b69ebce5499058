import Verif.Sem.Groups
import Verif.Sem.Sign
import Verif.Spec.Match
import Verif.Sem.Total

/-! # Pivoting: helper lemmas -/

namespace PyZX
open Finset

namespace Graph

theorem addToPhases_spec (vs : List ℕ) (a : ℚ) (g : Graph) :
    SameBut g (Rules.addToPhases g vs a) ∧ (∀ v, v ∉ vs → (Rules.addToPhases g vs a).phase v = g.phase v) ∧
    ∀ S : Finset ℕ, (∀ v ∈ vs, v ∈ S ∧ g.ty v = .Z) → ∀ x, (Rules.addToPhases g vs a).wOn S x =
      g.wOn S x * (vs.map fun v => if x v then ph a else 1).prod := by
  induction vs generalizing g with
  | nil => exact ⟨SameBut.refl g, fun _ _ => rfl, fun _ _ x => by simp [Rules.addToPhases]⟩
  | cons v vs ih =>
    obtain ⟨h1, h2, h3⟩ := ih (g.addToPhase v a)
    refine ⟨(sameBut_addToPhase g v a).trans h1, ?_, ?_⟩
    · intro w hw
      simp only [List.mem_cons, not_or] at hw
      have := h2 w hw.2
      simp only [Rules.addToPhases, List.foldl_cons] at this ⊢
      rw [this]; simp [addToPhase, hw.1]
    · intro S hS x
      have := h3 S (fun w hw => hS w (by simp [hw])) x
      simp only [Rules.addToPhases, List.foldl_cons] at this ⊢
      obtain ⟨hv, ht⟩ := hS v (by simp)
      rw [this, wOn_addToPhase g hv (by rw [ht]; simp) (by rw [ht]; simp), List.map_cons, List.prod_cons]
      ring

/-- Kernel of the edge to the boundary vertex of a pivot. -/
noncomputable def bk (g : Graph) (v : ℕ) (b : Option ℕ) (x : ℕ → Bool) (c : Bool) : ℂ :=
  match b with
  | none => 1
  | some w => kern (decide (g.adj v w = some .had)) c (x w)

/-- Kernel of the new edge to the boundary vertex of a pivot. -/
noncomputable def bk' (g : Graph) (v : ℕ) (b : Option ℕ) (x : ℕ → Bool) (c : Bool) : ℂ :=
  match b with
  | none => 1
  | some w => kern (!decide (g.adj v w = some .had)) c (x w)

abbrev pn0 (g : Graph) (m : Rules.PivotMatch) : Finset ℕ := Rules.pivotNbrs g m.v0 m.v1 m.b0
abbrev pn1 (g : Graph) (m : Rules.PivotMatch) : Finset ℕ := Rules.pivotNbrs g m.v1 m.v0 m.b1
abbrev pN2 (g : Graph) (m : Rules.PivotMatch) : Finset ℕ := pn0 g m ∩ pn1 g m
abbrev pN0 (g : Graph) (m : Rules.PivotMatch) : Finset ℕ := pn0 g m \ (pn0 g m ∩ pn1 g m)
abbrev pN1 (g : Graph) (m : Rules.PivotMatch) : Finset ℕ := pn1 g m \ (pn0 g m ∩ pn1 g m)

/-- Exponent of the second scalar update. -/
def pivotPow (m : Rules.PivotMatch) (k0 k1 k2 : ℤ) : ℤ :=
  if m.b0 = none ∧ m.b1 = none then -(k0 + k1 + 2 * k2 - 1) else if m.b0 = none then -(k1 + k2) else -(k0 + k2)

/-- The factor by which a pivot multiplies the weight of the remaining vertices. -/
noncomputable def pivotF (g : Graph) (m : Rules.PivotMatch) (x : ℕ → Bool) : ℂ :=
  sq2 ^ (((pN0 g m).card : ℤ) * (pN2 g m).card + (pN1 g m).card * (pN2 g m).card + (pN0 g m).card * (pN1 g m).card) *
  (∏ w ∈ pN2 g m, if x w then ph 1 else 1) *
  (if g.phase m.v0 ≠ 0 ∧ g.phase m.v1 ≠ 0 then ph 1 else 1) *
  sq2 ^ pivotPow m (pN0 g m).card (pN1 g m).card (pN2 g m).card *
  ((∏ w ∈ pN1 g m, if x w then ph (g.phase m.v0) else 1) * (∏ w ∈ pN2 g m, if x w then ph (g.phase m.v0) else 1)) *
  bk' g m.v0 m.b0 x (x m.v1) *
  ((∏ w ∈ pN0 g m, if x w then ph (g.phase m.v1) else 1) * (∏ w ∈ pN2 g m, if x w then ph (g.phase m.v1) else 1)) *
  bk' g m.v1 m.b1 x (x m.v0) *
  ((∏ v ∈ pN0 g m, ∏ w ∈ pN1 g m, hmat (x v) (x w)) * (∏ v ∈ pN1 g m, ∏ w ∈ pN2 g m, hmat (x v) (x w)) *
    (∏ v ∈ pN0 g m, ∏ w ∈ pN2 g m, hmat (x v) (x w)))

/-- The sign left by a pivot. -/
noncomputable def pivD (A0 A1 p0 p1 p2 : Bool) : ℂ :=
  sgn p2 * sgn (A0 && A1) * (sgn (A0 && p1) * sgn (A0 && p2)) * (sgn (A1 && p0) * sgn (A1 && p2)) *
    (sgn (p0 && p1) * sgn (p1 && p2) * sgn (p0 && p2))

theorem ph_sgn {a : ℚ} (h : a = 0 ∨ a = 1) (c : Bool) : (if c then ph a else 1) = sgn (decide (a ≠ 0) && c) := by
  rcases h with rfl | rfl <;> cases c <;> simp [sgn, ph_zero, ph_one]

theorem pivotF_eq {g : Graph} {m : Rules.PivotMatch} (h : PivotOK1 g m) (x : ℕ → Bool) {p0 p1 p2 : Bool}
    (h0 : ∀ c : Bool, ∏ w ∈ pN0 g m, sgn (c && x w) = sgn (c && p0))
    (h1 : ∀ c : Bool, ∏ w ∈ pN1 g m, sgn (c && x w) = sgn (c && p1))
    (h2 : ∀ c : Bool, ∏ w ∈ pN2 g m, sgn (c && x w) = sgn (c && p2)) :
    pivotF g m x = sq2 ^ pivotPow m (pN0 g m).card (pN1 g m).card (pN2 g m).card *
      pivD (decide (g.phase m.v0 ≠ 0)) (decide (g.phase m.v1 ≠ 0)) p0 p1 p2 *
      (bk' g m.v0 m.b0 x (x m.v1) * bk' g m.v1 m.b1 x (x m.v0)) := by
  unfold pivotF
  simp only [ph_sgn h.ph0, ph_sgn h.ph1, ph_sgn (Or.inr rfl : (1 : ℚ) = 0 ∨ (1 : ℚ) = 1), h0, h1, h2,
    prod_hmat_fin₂ h0 h1, prod_hmat_fin₂ h1 h2, prod_hmat_fin₂ h0 h2]
  have hif : (if g.phase m.v0 ≠ 0 ∧ g.phase m.v1 ≠ 0 then ph 1 else 1) =
      sgn (decide (g.phase m.v0 ≠ 0) && decide (g.phase m.v1 ≠ 0)) := by
    rw [← Bool.decide_and]
    by_cases hh : g.phase m.v0 ≠ 0 ∧ g.phase m.v1 ≠ 0
    · rw [if_pos hh]; simp [sgn, hh, ph_one]
    · rw [if_neg hh]; simp [sgn, hh]
  rw [hif]
  set k0 := (pN0 g m).card
  set k1 := (pN1 g m).card
  set k2 := (pN2 g m).card
  have hpow : sq2 ^ ((k0 : ℤ) * k2 + k1 * k2 + k0 * k1) * (sq2⁻¹ ^ (k0 * k1) * sq2⁻¹ ^ (k1 * k2) * sq2⁻¹ ^ (k0 * k2)) = 1 := by
    rw [← pow_add, ← pow_add, inv_pow, ← zpow_natCast, ← zpow_neg, ← zpow_add₀ sq2_ne_zero]
    rw [show (k0 : ℤ) * k2 + k1 * k2 + k0 * k1 + -((k0 * k1 + k1 * k2 + k0 * k2 : ℕ) : ℤ) = 0 by push_cast; ring]
    exact zpow_zero _
  have ht : ∀ c : Bool, sgn (decide ((1 : ℚ) ≠ 0) && c) = sgn c := by intro c; simp
  unfold pivD
  rw [ht]
  linear_combination (sgn p2 * sgn (decide (g.phase m.v0 ≠ 0) && decide (g.phase m.v1 ≠ 0)) *
    (sgn (decide (g.phase m.v0 ≠ 0) && p1) * sgn (decide (g.phase m.v0 ≠ 0) && p2)) *
    (sgn (decide (g.phase m.v1 ≠ 0) && p0) * sgn (decide (g.phase m.v1 ≠ 0) && p2)) *
    (sgn (p0 && p1) * sgn (p1 && p2) * sgn (p0 && p2)) *
    sq2 ^ pivotPow m k0 k1 k2 * (bk' g m.v0 m.b0 x (x m.v1) * bk' g m.v1 m.b1 x (x m.v0))) * hpow

/-- Product of the kernels at a pivot vertex. -/
theorem pivot_edges {g : Graph} (hg : g.WF) {v other : ℕ} {b : Option ℕ} {U : Finset ℕ} (hU : other ∉ U)
    (hnb : ∀ w, g.adj v w ≠ none → w ≠ other → w ∈ U) (hty : g.ty v = .Z)
    (hn : ∀ w, g.adj v w ≠ none → b = some w ∨ (g.ty w = .Z ∧ g.adj v w = some .had))
    (hb : ∀ w, b = some w → g.adj v w ≠ none ∧ g.ty w ≠ .X ∧ w ≠ other) (x : ℕ → Bool) :
    ∏ w ∈ U, g.edgeK x v w = (∏ w ∈ Rules.pivotNbrs g v other b, hmat (x v) (x w)) * bk g v b x (x v) := by
  have hX : g.isX v = false := by simp [isX, hty]
  have hmain : ∀ w ∈ Rules.pivotNbrs g v other b, g.edgeK x v w = hmat (x v) (x w) := by
    intro w hw
    simp only [Rules.pivotNbrs, Finset.mem_filter, Finset.mem_erase, mem_nbrs hg.toInv] at hw
    rcases hn w hw.1.2 with h | ⟨h1, h2⟩
    · exact absurd h hw.2
    · rw [edgeK_some h2]
      have : g.eff v w .had = true := by simp [eff, isX, hty, h1]
      simp [this, kern]
  have hsub : Rules.pivotNbrs g v other b ⊆ U := by
    intro w hw
    simp only [Rules.pivotNbrs, Finset.mem_filter, Finset.mem_erase, mem_nbrs hg.toInv] at hw
    exact hnb w hw.1.2 hw.1.1
  rw [← Finset.prod_sdiff hsub, Finset.prod_congr rfl hmain, mul_comm]
  congr 1
  cases b with
  | none =>
    simp only [bk]
    refine Finset.prod_eq_one fun w hw => edgeK_none ?_
    by_contra hne
    refine (Finset.mem_sdiff.mp hw).2 ?_
    simp only [Rules.pivotNbrs, Finset.mem_filter, Finset.mem_erase, mem_nbrs hg.toInv]
    refine ⟨⟨?_, hne⟩, by simp⟩
    rintro rfl; exact hU (Finset.mem_sdiff.mp hw).1
  | some u =>
    obtain ⟨b1, b2, b3⟩ := hb u rfl
    have huU : u ∈ U \ Rules.pivotNbrs g v other (some u) := by
      refine Finset.mem_sdiff.mpr ⟨hnb u b1 b3, ?_⟩
      simp [Rules.pivotNbrs]
    rw [← Finset.mul_prod_erase _ _ huU, Finset.prod_eq_one, mul_one]
    · obtain ⟨e, he⟩ := Option.ne_none_iff_exists'.mp b1
      rw [edgeK_some he]
      simp only [bk]
      congr 1
      have hXu : g.isX u = false := by simp [isX, b2]
      unfold eff
      rw [hX, hXu, he]
      simp
    · intro w hw
      rw [Finset.mem_erase, Finset.mem_sdiff] at hw
      refine edgeK_none ?_
      by_contra hne
      refine hw.2.2 ?_
      simp only [Rules.pivotNbrs, Finset.mem_filter, Finset.mem_erase, mem_nbrs hg.toInv]
      refine ⟨⟨?_, hne⟩, ?_⟩
      · rintro rfl; exact hU hw.2.1
      · simpa using hw.1.symm

theorem pivot_I0 (A0 A1 p0 p1 p2 : Bool) :
    (∑ c0 : Bool, ∑ c1 : Bool, sgn (A0 && c0) * sgn (A1 && c1) * sgn (c0 && c1) * sgn (c0 && xor p0 p2) * sgn (c1 && xor p1 p2)) =
      2 * pivD A0 A1 p0 p1 p2 := by
  simp only [Fintype.sum_bool]
  cases A0 <;> cases A1 <;> cases p0 <;> cases p1 <;> cases p2 <;> simp [sgn, pivD] <;> norm_num

theorem pivot_I1 (A0 A1 p0 p1 p2 b : Bool) :
    (∑ c0 : Bool, ∑ c1 : Bool, sgn (A0 && c0) * sgn (A1 && c1) * sgn (c0 && c1) * sgn (c0 && xor p0 p2) * sgn (c1 && xor p1 p2) * dmat c0 b) =
      pivD A0 A1 p0 p1 p2 * ∑ c1 : Bool, sgn (A1 && c1) * sgn (c1 && xor p1 p2) * sgn (c1 && b) := by
  simp only [Fintype.sum_bool]
  cases A0 <;> cases A1 <;> cases p0 <;> cases p1 <;> cases p2 <;> cases b <;> simp [sgn, pivD, dmat]

theorem pivot_I2 (A0 A1 p0 p1 p2 b : Bool) :
    (∑ c0 : Bool, ∑ c1 : Bool, sgn (A0 && c0) * sgn (A1 && c1) * sgn (c0 && c1) * sgn (c0 && xor p0 p2) * sgn (c1 && xor p1 p2) * sgn (c0 && b)) =
      2 * pivD A0 A1 p0 p1 p2 * ∑ c1 : Bool, sgn (A1 && c1) * sgn (c1 && xor p1 p2) * dmat c1 b := by
  simp only [Fintype.sum_bool]
  cases A0 <;> cases A1 <;> cases p0 <;> cases p1 <;> cases p2 <;> cases b <;> simp [sgn, pivD, dmat] <;> norm_num

theorem pivD_swap (A0 A1 p0 p1 p2 : Bool) : pivD A0 A1 p0 p1 p2 = pivD A1 A0 p1 p0 p2 := by
  unfold pivD
  rw [Bool.and_comm A0 A1, Bool.and_comm p0 p1]
  ring

/-- The combination of the two cases of the boundary edge. -/
theorem pivot_I (A0 A1 p0 p1 p2 b h : Bool) :
    (∑ c0 : Bool, ∑ c1 : Bool, sgn (A0 && c0) * sgn (A1 && c1) * sgn (c0 && c1) * sgn (c0 && xor p0 p2) * sgn (c1 && xor p1 p2) * kern h c0 b) =
      sq2 * (pivD A0 A1 p0 p1 p2 * ∑ c1 : Bool, sgn (A1 && c1) * sgn (c1 && xor p1 p2) * kern (!h) c1 b) := by
  have hs := sq2_mul_self
  have hi : sq2 * sq2⁻¹ = 1 := mul_inv_cancel₀ sq2_ne_zero
  have h2 : 2 * sq2⁻¹ = sq2 := by rw [← hs, mul_assoc, hi, mul_one]
  cases h
  · have := pivot_I1 A0 A1 p0 p1 p2 b
    simp only [kern, Bool.false_eq_true, if_false, Bool.not_false, if_true, hmat_sgn]
    rw [this]
    simp only [Fintype.sum_bool]
    linear_combination (-(pivD A0 A1 p0 p1 p2) * (sgn (A1 && true) * sgn (true && (p1 ^^ p2)) * sgn (true && b) +
      sgn (A1 && false) * sgn (false && (p1 ^^ p2)) * sgn (false && b))) * hi
  · have := pivot_I2 A0 A1 p0 p1 p2 b
    simp only [kern, if_true, Bool.not_true, Bool.false_eq_true, if_false, hmat_sgn]
    simp only [Fintype.sum_bool] at this ⊢
    linear_combination sq2⁻¹ * this + (pivD A0 A1 p0 p1 p2 * (sgn (A1 && true) * sgn (true && (p1 ^^ p2)) * dmat true b +
      sgn (A1 && false) * sgn (false && (p1 ^^ p2)) * dmat false b)) * h2

theorem psum_one (v : ℕ) (f : (ℕ → Bool) → ℂ) (x : ℕ → Bool) :
    psum {v} f x = ∑ c : Bool, f (Function.update x v c) := by
  have hset : ({v} : Finset ℕ) = insert v ∅ := by simp
  rw [hset, psum_insert (by simp), psum_empty, Fintype.sum_bool, add_comm]

theorem psum_two {u v : ℕ} (huv : u ≠ v) (f : (ℕ → Bool) → ℂ) (x : ℕ → Bool) :
    psum {u, v} f x = ∑ c : Bool, ∑ d : Bool, f (Function.update (Function.update x u c) v d) := by
  have hset : ({u, v} : Finset ℕ) = {u} ∪ {v} := by ext; simp
  rw [hset, psum_union (by simpa using huv), psum_one]
  exact Finset.sum_congr rfl fun c _ => psum_one v f _

section Local

variable {g : Graph} {m : Rules.PivotMatch} {U : Finset ℕ}

theorem pN_notMem (hg : g.WF) {w : ℕ} (hw : w ∈ pn0 g m ∪ pn1 g m) : w ≠ m.v0 ∧ w ≠ m.v1 := by
  simp only [Finset.mem_union, pn0, pn1, Rules.pivotNbrs, Finset.mem_filter, Finset.mem_erase, mem_nbrs hg.toInv] at hw
  constructor
  · rintro rfl
    rcases hw with hw | hw
    · exact hw.1.2 (hg.loopless _)
    · exact hw.1.1 rfl
  · rintro rfl
    rcases hw with hw | hw
    · exact hw.1.1 rfl
    · exact hw.1.2 (hg.loopless _)

theorem bk_update {v : ℕ} {b : Option ℕ} {x : ℕ → Bool} {u : ℕ} {d : Bool} (hb : b ≠ some u) (c : Bool) :
    bk g v b (Function.update x u d) c = bk g v b x c ∧ bk' g v b (Function.update x u d) c = bk' g v b x c := by
  cases b with
  | none => exact ⟨rfl, rfl⟩
  | some w =>
    have : w ≠ u := by simpa using hb
    simp [bk, bk', this]

theorem pivot_grp (hg : g.WF) (h : PivotOK1 g m) (hU : m.v0 ∉ U ∧ m.v1 ∉ U)
    (hnb : ∀ w, (g.adj m.v0 w ≠ none ∨ g.adj m.v1 w ≠ none) → w ≠ m.v0 → w ≠ m.v1 → w ∈ U)
    {y : ℕ → Bool} {p0 p1 p2 : Bool}
    (h0 : ∀ c : Bool, ∏ w ∈ pN0 g m, sgn (c && y w) = sgn (c && p0))
    (h1 : ∀ c : Bool, ∏ w ∈ pN1 g m, sgn (c && y w) = sgn (c && p1))
    (h2 : ∀ c : Bool, ∏ w ∈ pN2 g m, sgn (c && y w) = sgn (c && p2)) :
    (∏ w ∈ U, g.edgeK y m.v0 w =
      sq2⁻¹ ^ ((pN0 g m).card + (pN2 g m).card) * sgn (y m.v0 && xor p0 p2) * bk g m.v0 m.b0 y (y m.v0)) ∧
    (∏ w ∈ U, g.edgeK y m.v1 w =
      sq2⁻¹ ^ ((pN1 g m).card + (pN2 g m).card) * sgn (y m.v1 && xor p1 p2) * bk g m.v1 m.b1 y (y m.v1)) ∧
    g.vwt m.v0 (y m.v0) = sgn (decide (g.phase m.v0 ≠ 0) && y m.v0) ∧
    g.vwt m.v1 (y m.v1) = sgn (decide (g.phase m.v1 ≠ 0) && y m.v1) ∧
    g.edgeK y m.v0 m.v1 = sq2⁻¹ * sgn (y m.v0 && y m.v1) := by
  have sgn_xor : ∀ c p q : Bool, sgn (c && xor p q) = sgn (c && p) * sgn (c && q) := by
    intro c p q; cases c <;> cases p <;> cases q <;> simp [sgn]
  have hne01 : m.v0 ≠ m.v1 := by
    intro e; have := h.adj; rw [e, hg.loopless] at this; simp at this
  refine ⟨?_, ?_, ?_, ?_, ?_⟩
  · rw [pivot_edges hg (other := m.v1) (b := m.b0) hU.2 ?_ h.ty0 h.n0 (fun w hw => ⟨(h.b0 w hw).1, (h.b0 w hw).2.1, (h.b0 w hw).2.2.1⟩)]
    · have hs : pn0 g m = pN0 g m ∪ pN2 g m := by
        ext w; simp only [pN0, pN2, Finset.mem_union, Finset.mem_sdiff, Finset.mem_inter]; tauto
      rw [show Rules.pivotNbrs g m.v0 m.v1 m.b0 = pN0 g m ∪ pN2 g m from hs, Finset.prod_union Finset.sdiff_disjoint,
        prod_hmat_fin h0, prod_hmat_fin h2, sgn_xor, pow_add]
      ring
    · intro w hw hne
      refine hnb w (Or.inl hw) ?_ hne
      rintro rfl; exact hw (hg.loopless _)
  · rw [pivot_edges hg (other := m.v0) (b := m.b1) hU.1 ?_ h.ty1 h.n1 (fun w hw => ⟨(h.b1 w hw).1, (h.b1 w hw).2.1, (h.b1 w hw).2.2.1⟩)]
    · have hs : pn1 g m = pN1 g m ∪ pN2 g m := by
        ext w; simp only [pN1, pN2, Finset.mem_union, Finset.mem_sdiff, Finset.mem_inter]; tauto
      have hd : Disjoint (pN1 g m) (pN2 g m) := Finset.sdiff_disjoint
      rw [show Rules.pivotNbrs g m.v1 m.v0 m.b1 = pN1 g m ∪ pN2 g m from hs, Finset.prod_union hd,
        prod_hmat_fin h1, prod_hmat_fin h2, sgn_xor, pow_add]
      ring
    · intro w hw hne
      refine hnb w (Or.inr hw) hne ?_
      rintro rfl; exact hw (hg.loopless _)
  · rw [← ph_sgn h.ph0]; unfold vwt vval; rw [h.ty0]
  · rw [← ph_sgn h.ph1]; unfold vwt vval; rw [h.ty1]
  · rw [edgeK_some h.adj]
    have : g.eff m.v0 m.v1 .had = true := by simp [eff, isX, h.ty0, h.ty1]
    rw [this, ← hmat_sgn]; rfl

/-- The vertices that a pivot keeps although they are summed over. -/
def pivotK (m : Rules.PivotMatch) : Finset ℕ :=
  if m.b0 ≠ none then {m.v1} else if m.b1 ≠ none then {m.v0} else ∅

theorem pivot_local (hg : g.WF) (h : PivotOK1 g m) (hU : m.v0 ∉ U ∧ m.v1 ∉ U)
    (hnb : ∀ w, (g.adj m.v0 w ≠ none ∨ g.adj m.v1 w ≠ none) → w ≠ m.v0 → w ≠ m.v1 → w ∈ U) (x : ℕ → Bool) :
    psum {m.v0, m.v1} (g.grpW U {m.v0, m.v1}) x =
      psum (pivotK m) (fun x => g.grpW U (pivotK m) x * pivotF g m x) x := by
  have hne : m.v0 ≠ m.v1 := by
    intro e; have := h.adj; rw [e, hg.loopless] at this; simp at this
  obtain ⟨p0, hp0⟩ := exists_par_fin (pN0 g m) x
  obtain ⟨p1, hp1⟩ := exists_par_fin (pN1 g m) x
  obtain ⟨p2, hp2⟩ := exists_par_fin (pN2 g m) x
  -- environments that agree with `x` outside of the pivot
  have hagree : ∀ y : ℕ → Bool, (∀ w, w ≠ m.v0 → w ≠ m.v1 → y w = x w) →
      (∀ c : Bool, ∏ w ∈ pN0 g m, sgn (c && y w) = sgn (c && p0)) ∧
      (∀ c : Bool, ∏ w ∈ pN1 g m, sgn (c && y w) = sgn (c && p1)) ∧
      (∀ c : Bool, ∏ w ∈ pN2 g m, sgn (c && y w) = sgn (c && p2)) := by
    intro y hy
    refine ⟨fun c => ?_, fun c => ?_, fun c => ?_⟩
    · rw [← hp0]
      refine Finset.prod_congr rfl fun w hw => ?_
      have := pN_notMem hg (w := w) (by simp only [pN0, Finset.mem_sdiff] at hw; exact Finset.mem_union_left _ hw.1)
      rw [hy w this.1 this.2]
    · rw [← hp1]
      refine Finset.prod_congr rfl fun w hw => ?_
      have := pN_notMem hg (w := w) (by simp only [pN1, Finset.mem_sdiff] at hw; exact Finset.mem_union_right _ hw.1)
      rw [hy w this.1 this.2]
    · rw [← hp2]
      refine Finset.prod_congr rfl fun w hw => ?_
      have := pN_notMem hg (w := w) (by simp only [pN2, Finset.mem_inter] at hw; exact Finset.mem_union_right _ hw.2)
      rw [hy w this.1 this.2]
  have b0v0 : m.b0 ≠ some m.v0 := fun e => (h.b0 _ e).1 (hg.loopless _)
  have b0v1 : m.b0 ≠ some m.v1 := fun e => (h.b0 _ e).2.2.1 rfl
  have b1v1 : m.b1 ≠ some m.v1 := fun e => (h.b1 _ e).1 (hg.loopless _)
  have b1v0 : m.b1 ≠ some m.v0 := fun e => (h.b1 _ e).2.2.1 rfl
  set A0 := decide (g.phase m.v0 ≠ 0) with hA0
  set A1 := decide (g.phase m.v1 ≠ 0) with hA1
  set k0 := (pN0 g m).card with hk0
  set k1 := (pN1 g m).card with hk1
  set k2 := (pN2 g m).card with hk2
  -- the old side
  have hold : psum {m.v0, m.v1} (g.grpW U {m.v0, m.v1}) x = sq2⁻¹ * sq2⁻¹ ^ (k0 + k2) * sq2⁻¹ ^ (k1 + k2) *
      ∑ c0 : Bool, ∑ c1 : Bool, sgn (A0 && c0) * sgn (A1 && c1) * sgn (c0 && c1) * sgn (c0 && xor p0 p2) *
        sgn (c1 && xor p1 p2) * (bk g m.v0 m.b0 x c0 * bk g m.v1 m.b1 x c1) := by
    rw [psum_two hne, Finset.mul_sum]
    refine Finset.sum_congr rfl fun c0 _ => ?_
    rw [Finset.mul_sum]
    refine Finset.sum_congr rfl fun c1 _ => ?_
    set y := Function.update (Function.update x m.v0 c0) m.v1 c1 with hy
    have hyo : ∀ w, w ≠ m.v0 → w ≠ m.v1 → y w = x w := by
      intro w h1 h2; rw [hy, Function.update_of_ne h2, Function.update_of_ne h1]
    have hy0 : y m.v0 = c0 := by rw [hy, Function.update_of_ne hne, Function.update_self]
    have hy1 : y m.v1 = c1 := by rw [hy, Function.update_self]
    obtain ⟨q0, q1, q2⟩ := hagree y hyo
    obtain ⟨e1, e2, e3, e4, e5⟩ := pivot_grp hg h hU hnb q0 q1 q2
    have hb0 : bk g m.v0 m.b0 y c0 = bk g m.v0 m.b0 x c0 := by rw [hy, (bk_update b0v1 _).1, (bk_update b0v0 _).1]
    have hb1 : bk g m.v1 m.b1 y c1 = bk g m.v1 m.b1 x c1 := by rw [hy, (bk_update b1v1 _).1, (bk_update b1v0 _).1]
    unfold grpW
    have hpp : pairProd {m.v0, m.v1} (g.edgeK y) = g.edgeK y m.v0 m.v1 := by
      have hv : m.v0 ∉ ({m.v1} : Finset ℕ) := by simpa using hne
      have hv1 : ({m.v1} : Finset ℕ) = insert m.v1 ∅ := by simp
      rw [pairProd_insert hv (edgeK_comm hg.symm y), Finset.prod_singleton, hv1,
        pairProd_insert (by simp) (edgeK_comm hg.symm y)]
      simp
    rw [hpp, Finset.prod_pair hne, Finset.prod_pair hne, e1, e2, e3, e4, e5, hy0, hy1, hb0, hb1]
    ring
  have hi : sq2 * sq2⁻¹ = 1 := mul_inv_cancel₀ sq2_ne_zero
  have hs := sq2_mul_self
  have hone : ∀ v, g.grpW U {v} = fun y => g.vwt v (y v) * ∏ w ∈ U, g.edgeK y v w := by
    intro v; funext y
    have hv1 : ({v} : Finset ℕ) = insert v ∅ := by simp
    have hpp : pairProd {v} (g.edgeK y) = 1 := by
      rw [hv1, pairProd_insert (by simp) (edgeK_comm hg.symm y)]; simp
    unfold grpW
    rw [hpp, Finset.prod_singleton, Finset.prod_singleton, mul_one]
  rw [hold]
  cases hb0 : m.b0 with
  | none =>
    cases hb1 : m.b1 with
    | none =>
      have hK : pivotK m = ∅ := by simp [pivotK, hb0, hb1]
      rw [hK, psum_empty, grpW_empty, one_mul, pivotF_eq h x hp0 hp1 hp2, hb0, hb1]
      simp only [bk, bk', mul_one]
      rw [pivot_I0]
      have hpow : sq2⁻¹ * sq2⁻¹ ^ (k0 + k2) * sq2⁻¹ ^ (k1 + k2) * 2 = sq2 ^ pivotPow m k0 k1 k2 := by
        rw [← hs]
        have : sq2⁻¹ * sq2⁻¹ ^ (k0 + k2) * sq2⁻¹ ^ (k1 + k2) * (sq2 * sq2) = sq2 * (sq2⁻¹ ^ (k0 + k2 + (k1 + k2))) := by
          rw [pow_add]; linear_combination (sq2⁻¹ ^ (k0 + k2) * sq2⁻¹ ^ (k1 + k2) * sq2) * hi
        rw [this, inv_pow, ← zpow_natCast, ← zpow_neg]
        nth_rewrite 1 [← zpow_one sq2]
        rw [← zpow_add₀ sq2_ne_zero]
        congr 1
        simp [pivotPow, hb0, hb1]; ring
      rw [← hpow]; ring
    | some w =>
      have hK : pivotK m = {m.v0} := by simp [pivotK, hb0, hb1]
      rw [hK, psum_one, hone]
      have hR : ∀ c : Bool, g.vwt m.v0 (Function.update x m.v0 c m.v0) * (∏ w ∈ U, g.edgeK (Function.update x m.v0 c) m.v0 w) *
          pivotF g m (Function.update x m.v0 c) =
          sq2⁻¹ ^ (k0 + k2) * sq2 ^ pivotPow m k0 k1 k2 * pivD A0 A1 p0 p1 p2 *
            (sgn (A0 && c) * sgn (c && xor p0 p2) * kern (!decide (g.adj m.v1 w = some .had)) c (x w)) := by
        intro c
        have hyo : ∀ w, w ≠ m.v0 → w ≠ m.v1 → (Function.update x m.v0 c) w = x w := by
          intro w h1 h2; rw [Function.update_of_ne h1]
        obtain ⟨q0, q1, q2⟩ := hagree _ hyo
        obtain ⟨e1, e2, e3, e4, e5⟩ := pivot_grp hg h hU hnb q0 q1 q2
        rw [e1, e3, pivotF_eq h _ q0 q1 q2, (bk_update b0v0 _).1, (bk_update b0v0 _).2, (bk_update b1v0 _).2, hb0, hb1]
        simp only [bk, bk', Function.update_self]
        ring
      simp only [hR]
      rw [← Finset.mul_sum]
      have hI := pivot_I A1 A0 p1 p0 p2 (x w) (decide (g.adj m.v1 w = some .had))
      simp only [bk, one_mul]
      rw [Finset.sum_comm] at hI
      have hL : ∑ c0 : Bool, ∑ c1 : Bool, sgn (A0 && c0) * sgn (A1 && c1) * sgn (c0 && c1) * sgn (c0 && xor p0 p2) *
          sgn (c1 && xor p1 p2) * kern (decide (g.adj m.v1 w = some .had)) c1 (x w) =
          ∑ c0 : Bool, ∑ c1 : Bool, sgn (A1 && c1) * sgn (A0 && c0) * sgn (c1 && c0) * sgn (c1 && xor p1 p2) *
          sgn (c0 && xor p0 p2) * kern (decide (g.adj m.v1 w = some .had)) c1 (x w) := by
        refine Finset.sum_congr rfl fun c0 _ => Finset.sum_congr rfl fun c1 _ => ?_
        rw [Bool.and_comm c0 c1]; ring
      rw [hL, hI, pivD_swap A1 A0 p1 p0 p2]
      have hpow : sq2⁻¹ * sq2⁻¹ ^ (k1 + k2) * sq2 = sq2 ^ pivotPow m k0 k1 k2 := by
        have : sq2⁻¹ * sq2⁻¹ ^ (k1 + k2) * sq2 = sq2⁻¹ ^ (k1 + k2) := by linear_combination (sq2⁻¹ ^ (k1 + k2)) * hi
        rw [this, inv_pow, ← zpow_natCast, ← zpow_neg]
        congr 1
        simp [pivotPow, hb0, hb1]
      rw [← hpow]; ring
  | some w =>
    have hb1 : m.b1 = none := by
      rcases h.one with e | e
      · rw [hb0] at e; simp at e
      · exact e
    have hK : pivotK m = {m.v1} := by simp [pivotK, hb0]
    rw [hK, psum_one, hone]
    have hR : ∀ c : Bool, g.vwt m.v1 (Function.update x m.v1 c m.v1) * (∏ w ∈ U, g.edgeK (Function.update x m.v1 c) m.v1 w) *
        pivotF g m (Function.update x m.v1 c) =
        sq2⁻¹ ^ (k1 + k2) * sq2 ^ pivotPow m k0 k1 k2 * pivD A0 A1 p0 p1 p2 *
          (sgn (A1 && c) * sgn (c && xor p1 p2) * kern (!decide (g.adj m.v0 w = some .had)) c (x w)) := by
      intro c
      have hyo : ∀ w, w ≠ m.v0 → w ≠ m.v1 → (Function.update x m.v1 c) w = x w := by
        intro w h1 h2; rw [Function.update_of_ne h2]
      obtain ⟨q0, q1, q2⟩ := hagree _ hyo
      obtain ⟨e1, e2, e3, e4, e5⟩ := pivot_grp hg h hU hnb q0 q1 q2
      rw [e2, e4, pivotF_eq h _ q0 q1 q2, (bk_update b1v1 _).1, (bk_update b0v1 _).2, (bk_update b1v1 _).2, hb0, hb1]
      simp only [bk, bk', Function.update_self]
      ring
    simp only [hR]
    rw [← Finset.mul_sum]
    have hI := pivot_I A0 A1 p0 p1 p2 (x w) (decide (g.adj m.v0 w = some .had))
    simp only [bk, hb1, mul_one]
    rw [hI]
    have hpow : sq2⁻¹ * sq2⁻¹ ^ (k0 + k2) * sq2 = sq2 ^ pivotPow m k0 k1 k2 := by
      have : sq2⁻¹ * sq2⁻¹ ^ (k0 + k2) * sq2 = sq2⁻¹ ^ (k0 + k2) := by linear_combination (sq2⁻¹ ^ (k0 + k2)) * hi
      rw [this, inv_pow, ← zpow_natCast, ← zpow_neg]
      congr 1
      simp [pivotPow, hb0, hb1]
    rw [← hpow]; ring

end Local

/-- Vertices removed by a pivot match, in the order of the code. -/
def pivotRem (m : Rules.PivotMatch) : List ℕ :=
  (if m.b0 = none then [m.v1] else []) ++ (if m.b1 = none then [m.v0] else [])

/-- Invariant of the edge table of `pivot`. -/
def PvTab (S U : Finset ℕ) (t : ETab) : Prop :=
  ∀ e ∈ t, (e.1.1 ∈ S ∧ e.1.2 ∈ S ∧ e.1.1 ≠ e.1.2) ∧ (e.1.1 ∈ U → e.2.1 = 0)

theorem pivotPairs_spec {g : Graph} {S U : Finset ℕ} (es : List (ℕ × ℕ))
    (hes : ∀ e ∈ es, e.1 ∈ U ∧ (e.1 ∈ S ∧ e.2 ∈ S ∧ e.1 ≠ e.2) ∧ g.ty e.1 = .Z ∧ g.ty e.2 = .Z) {t : ETab} (ht : PvTab S U t) :
    PvTab S U (es.foldl ETab.setHad t) ∧
    ∀ x, g.tableK x (es.foldl ETab.setHad t) = g.tableK x t * (es.map fun e => hmat (x e.1) (x e.2)).prod := by
  induction es generalizing t with
  | nil => exact ⟨ht, fun x => by simp⟩
  | cons e es ih =>
    obtain ⟨h1, h2, h3, h4⟩ := hes e (by simp)
    have ht' : PvTab S U (ETab.setHad t e) :=
      forall_upd (P := fun k p => (k.1 ∈ S ∧ k.2 ∈ S ∧ k.1 ≠ k.2) ∧ (k.1 ∈ U → p.1 = 0)) ht ⟨h2, fun _ => rfl⟩
        fun p hp => ⟨hp.1, fun _ => rfl⟩
    obtain ⟨i1, i2⟩ := ih (fun e he => hes e (by simp [he])) ht'
    refine ⟨i1, fun x => ?_⟩
    rw [List.foldl_cons, i2, tableK_setHad g x t e
      (get_of_forall (P := fun k p => k.1 ∈ U → p.1 = 0) (fun e he => (ht e he).2) e (fun _ => rfl) h1)]
    have he : g.eff e.1 e.2 .had = true := by simp [eff, isX, h3, h4]
    simp only [he, kern, if_true, List.map_cons, List.prod_cons]
    ring

theorem tcount_setHads (es : List (ℕ × ℕ)) (t : ETab) {c : ℕ} (h : ∀ e ∈ es, ¬ touch c e) :
    tcount (es.foldl ETab.setHad t) c = tcount t c := by
  induction es generalizing t with
  | nil => rfl
  | cons e es ih =>
    rw [List.foldl_cons, ih _ fun e he => h e (by simp [he])]
    exact tcount_upd_other _ _ (h e (by simp))

theorem prod_product_list (l l' : List ℕ) (f : ℕ → ℕ → ℂ) :
    ((l ×ˢ l').map fun e => f e.1 e.2).prod = (l.map fun a => (l'.map fun b => f a b).prod).prod := by
  induction l with
  | nil => simp
  | cons a l ih => rw [List.product_cons, List.map_append, List.prod_append, ih, List.map_map]; rfl

theorem pivotBoundary_spec {g : Graph} {s : RewriteState} (hadj : s.g.adj = g.adj) {S U : Finset ℕ} {v other : ℕ} {b : Option ℕ}
    (hb : ∀ w, b = some w → (g.adj v w = some .simple ∨ g.adj v w = some .had) ∧ g.ty w ≠ .X ∧
      other ∈ S ∧ w ∈ S ∧ other ≠ w ∧ other ∉ U)
    (hty : g.ty other = .Z) (ht : PvTab S U s.etab) :
    (Rules.pivotBoundary s v other b).g = s.g ∧
    (Rules.pivotBoundary s v other b).remVerts = s.remVerts ++ (if b = none then [other] else []) ∧
    (Rules.pivotBoundary s v other b).remEdges = s.remEdges ++ b.toList.map (fun w => (v, w)) ∧
    (∀ c, c ≠ other → tcount (Rules.pivotBoundary s v other b).etab c ≤ tcount s.etab c + (if b = some c then 1 else 0)) ∧
    PvTab S U (Rules.pivotBoundary s v other b).etab ∧
    ∀ x, g.tableK x (Rules.pivotBoundary s v other b).etab = g.tableK x s.etab * bk' g v b x (x other) := by
  cases b with
  | none => exact ⟨rfl, rfl, by simp [Rules.pivotBoundary], fun c _ => by simp [Rules.pivotBoundary], ht,
      fun x => by simp [Rules.pivotBoundary, bk']⟩
  | some w =>
    obtain ⟨h1, h2, h3, h4, h5, h6⟩ := hb w rfl
    refine ⟨rfl, by simp [Rules.pivotBoundary], by simp [Rules.pivotBoundary], ?_, ?_, fun x => ?_⟩
    · intro c hc
      by_cases hcw : c = w
      · subst hcw
        simp only [Rules.pivotBoundary, if_true]
        exact tcount_upd_le _ _ (fun p => by split_ifs <;> simp <;> omega) c
      · have : ¬ (some w = some c) := fun e => hcw (Option.some.inj e).symm
        rw [if_neg this]
        exact (tcount_upd_other _ _ (by simp [touch, hc, hcw])).le
    · refine forall_upd (P := fun k p => (k.1 ∈ S ∧ k.2 ∈ S ∧ k.1 ≠ k.2) ∧ (k.1 ∈ U → p.1 = 0)) ht
        ⟨⟨h3, h4, h5⟩, fun hu => absurd hu h6⟩ fun p hp => ⟨hp.1, fun hu => absurd hu h6⟩
    · refine tableK_upd g x s.etab (other, w) _ ?_
      have hX : ∀ e, g.eff other w e = decide (e = .had) := by
        intro e; simp [eff, isX, hty, h2]
      simp only [keyK, hX, bk', hadj]
      rcases h1 with h1 | h1
      · simp only [h1, if_true, reduceCtorEq, decide_false, decide_true, Bool.not_false, Option.some.injEq]
        ring
      · simp only [h1, reduceCtorEq, Option.some.injEq, if_false, if_true, decide_false, decide_true, Bool.not_true]
        ring

/-- Edges removed by a pivot match, in the order of the code. -/
def pivotRemE (m : Rules.PivotMatch) : List (ℕ × ℕ) :=
  m.b0.toList.map (fun w => (m.v0, w)) ++ m.b1.toList.map (fun w => (m.v1, w))

/-- Number of table edges of a pivot match at a boundary. -/
def pivotCnt (b : ℕ) (m : Rules.PivotMatch) : ℕ := (if m.b0 = some b then 1 else 0) + (if m.b1 = some b then 1 else 0)

/-- Vertices of a pivot match. -/
abbrev pivotG (m : Rules.PivotMatch) : Finset ℕ := {m.v0, m.v1}

theorem pivot_step {g : Graph} (hg : g.WF) {lst : Finset ℕ → List ℕ} (hlst : Rules.SetOrder lst) {m : Rules.PivotMatch}
    (h : PivotOK1 g m) {S U : Finset ℕ} (hU : m.v0 ∉ U ∧ m.v1 ∉ U) (hUS : U ⊆ S) (hKS : pivotK m ⊆ S)
    (hnb : ∀ w, (g.adj m.v0 w ≠ none ∨ g.adj m.v1 w ≠ none) → w ≠ m.v0 → w ≠ m.v1 → w ∈ U)
    {s : RewriteState} (hs : SameBut g s.g) (hp0 : s.g.phase m.v0 = g.phase m.v0) (hp1 : s.g.phase m.v1 = g.phase m.v1)
    (ht : PvTab S U s.etab) :
    SameBut g (Rules.pivotStep lst s m).g ∧
    (∀ v, v ∉ U → (Rules.pivotStep lst s m).g.phase v = s.g.phase v) ∧
    (Rules.pivotStep lst s m).remVerts = s.remVerts ++ pivotRem m ∧
    (Rules.pivotStep lst s m).remEdges = s.remEdges ++ pivotRemE m ∧
    (∀ c, g.ty c = .boundary → tcount (Rules.pivotStep lst s m).etab c ≤ tcount s.etab c + pivotCnt c m) ∧
    PvTab S U (Rules.pivotStep lst s m).etab ∧
    ∀ x, (Rules.pivotStep lst s m).g.wOn U x * g.tableK x (Rules.pivotStep lst s m).etab =
      s.g.wOn U x * g.tableK x s.etab * pivotF g m x := by
  have hne : m.v0 ≠ m.v1 := by
    intro e; have := h.adj; rw [e, hg.loopless] at this; simp at this
  have hn0 : Rules.pivotNbrs s.g m.v0 m.v1 m.b0 = pn0 g m := by unfold pn0 Rules.pivotNbrs; rw [hs.nbrs]
  have hn1 : Rules.pivotNbrs s.g m.v1 m.v0 m.b1 = pn1 g m := by unfold pn1 Rules.pivotNbrs; rw [hs.nbrs]
  set l2 := lst (pN2 g m) with hl2
  set l0 := lst (pN0 g m) with hl0
  set l1 := lst (pN1 g m) with hl1
  -- the three sets of neighbours
  have memn0 : ∀ w ∈ pn0 g m, w ∈ U ∧ g.ty w = .Z := by
    intro w hw
    have hw' := pN_notMem hg (m := m) (Finset.mem_union_left _ hw)
    simp only [Rules.pivotNbrs, Finset.mem_filter, Finset.mem_erase, mem_nbrs hg.toInv] at hw
    refine ⟨hnb w (Or.inl hw.1.2) hw'.1 hw'.2, ?_⟩
    rcases h.n0 w hw.1.2 with e | e
    · exact absurd e hw.2
    · exact e.1
  have memn1 : ∀ w ∈ pn1 g m, w ∈ U ∧ g.ty w = .Z := by
    intro w hw
    have hw' := pN_notMem hg (m := m) (Finset.mem_union_right _ hw)
    simp only [Rules.pivotNbrs, Finset.mem_filter, Finset.mem_erase, mem_nbrs hg.toInv] at hw
    refine ⟨hnb w (Or.inr hw.1.2) hw'.1 hw'.2, ?_⟩
    rcases h.n1 w hw.1.2 with e | e
    · exact absurd e hw.2
    · exact e.1
  have ml0 : ∀ w, w ∈ l0 ↔ w ∈ pN0 g m := by intro w; rw [← List.mem_toFinset, hl0, (hlst _).2]
  have ml1 : ∀ w, w ∈ l1 ↔ w ∈ pN1 g m := by intro w; rw [← List.mem_toFinset, hl1, (hlst _).2]
  have ml2 : ∀ w, w ∈ l2 ↔ w ∈ pN2 g m := by intro w; rw [← List.mem_toFinset, hl2, (hlst _).2]
  have z0 : ∀ w ∈ l0, w ∈ U ∧ g.ty w = .Z := by
    intro w hw; rw [ml0] at hw; exact memn0 w (Finset.mem_sdiff.mp hw).1
  have z1 : ∀ w ∈ l1, w ∈ U ∧ g.ty w = .Z := by
    intro w hw; rw [ml1] at hw; exact memn1 w (Finset.mem_sdiff.mp hw).1
  have z2 : ∀ w ∈ l2, w ∈ U ∧ g.ty w = .Z := by
    intro w hw; rw [ml2] at hw; exact memn1 w (Finset.mem_inter.mp hw).2
  have len : ∀ N : Finset ℕ, (lst N).length = N.card := by
    intro N; rw [← List.toFinset_card_of_nodup (hlst N).1, (hlst N).2]
  have prd : ∀ (N : Finset ℕ) (f : ℕ → ℂ), ((lst N).map f).prod = ∏ w ∈ N, f w := by
    intro N f; conv_rhs => rw [← (hlst N).2]
    exact (List.prod_toFinset f (hlst N).1).symm
  -- the mutations of the graph
  set k0 : ℤ := (l0.length : ℤ) with hk0
  set k1 : ℤ := (l1.length : ℤ) with hk1
  set k2 : ℤ := (l2.length : ℤ) with hk2
  set g1 := s.g.addPower (k0 * k2 + k1 * k2 + k0 * k1) with hg1
  set g2 := Rules.addToPhases g1 l2 1 with hg2
  set g3 := (if g2.phase m.v0 ≠ 0 ∧ g2.phase m.v1 ≠ 0 then g2.addScalarPhase 1 else g2) with hg3
  set g4 := g3.addPower (pivotPow m k0 k1 k2) with hg4
  set g5 := Rules.pivotPhases g4 m.v0 l1 l2 with hg5
  set g6 := Rules.pivotPhases g5 m.v1 l0 l2 with hg6
  set s5 := Rules.pivotBoundary { s with g := g5 } m.v0 m.v1 m.b0 with hs5
  obtain ⟨a1, a2, a3⟩ := addToPhases_spec l2 1 g1
  have sb1 : SameBut g g1 := hs.trans (sameBut_addPower _ _)
  have sb2 : SameBut g g2 := sb1.trans a1
  have ph2 : ∀ v, v ∉ U → g2.phase v = s.g.phase v := by
    intro v hv
    rw [hg2, a2 v (fun hh => hv (z2 v hh).1)]; rfl
  have sb3 : SameBut g g3 := by
    rw [hg3]; split
    · exact sb2.trans (sameBut_addScalarPhase _ _)
    · exact sb2
  have ph3 : ∀ v, g3.phase v = g2.phase v := by intro v; rw [hg3]; split <;> rfl
  have sb4 : SameBut g g4 := sb3.trans (sameBut_addPower _ _)
  have ph4 : ∀ v, v ∉ U → g4.phase v = s.g.phase v := fun v hv => (ph3 v).trans (ph2 v hv)
  -- the loop over the phases
  have phases : ∀ (g0 : Graph) (v : ℕ) (l : List ℕ), SameBut g g0 → g0.phase v = g.phase v →
      (∀ w ∈ l, w ∈ U ∧ g.ty w = .Z) →
      SameBut g (Rules.pivotPhases g0 v l l2) ∧ (∀ u, u ∉ U → (Rules.pivotPhases g0 v l l2).phase u = g0.phase u) ∧
      ∀ x, (Rules.pivotPhases g0 v l l2).wOn U x = g0.wOn U x *
        ((l.map fun w => if x w then ph (g.phase v) else 1).prod * (l2.map fun w => if x w then ph (g.phase v) else 1).prod) := by
    intro g0 v l hsb hph hl
    unfold Rules.pivotPhases
    simp only [hph]
    split
    · next h0 =>
      refine ⟨hsb, fun _ _ => rfl, fun x => ?_⟩
      simp [h0, ph_zero]
    · obtain ⟨c1, c2, c3⟩ := addToPhases_spec l (g.phase v) g0
      obtain ⟨d1, d2, d3⟩ := addToPhases_spec l2 (g.phase v) (Rules.addToPhases g0 l (g.phase v))
      refine ⟨(hsb.trans c1).trans d1, fun u hu => ?_, fun x => ?_⟩
      · rw [d2 u (fun hh => hu (z2 u hh).1), c2 u (fun hh => hu (hl u hh).1)]
      · rw [d3 U (fun w hw => ⟨(z2 w hw).1, by rw [(hsb.trans c1).ty]; exact (z2 w hw).2⟩),
          c3 U (fun w hw => ⟨(hl w hw).1, by rw [hsb.ty]; exact (hl w hw).2⟩)]
        ring
  obtain ⟨b1, b2, b3⟩ := phases g4 m.v0 l1 sb4 (by rw [ph4 _ hU.1, hp0]) z1
  obtain ⟨c1, c2, c3⟩ := phases g5 m.v1 l0 b1 (by rw [hg5, b2 _ hU.2, ph4 _ hU.2, hp1]) z0
  -- the boundaries
  have bU : ∀ v other b, (v = m.v0 ∧ other = m.v1 ∧ b = m.b0) ∨ (v = m.v1 ∧ other = m.v0 ∧ b = m.b1) →
      ∀ w, b = some w → (g.adj v w = some .simple ∨ g.adj v w = some .had) ∧ g.ty w ≠ .X ∧
      other ∈ S ∧ w ∈ S ∧ other ≠ w ∧ other ∉ U := by
    have key : ∀ v w, g.adj v w ≠ none → g.adj v w = some .simple ∨ g.adj v w = some .had := by
      intro v w hne
      have := hg.noWio v w
      revert hne this
      cases g.adj v w with
      | none => simp
      | some e => cases e <;> simp
    rintro v other b (⟨rfl, rfl, rfl⟩ | ⟨rfl, rfl, rfl⟩) w hw
    · obtain ⟨q1, q2, q3, q4⟩ := h.b0 w hw
      refine ⟨key _ _ q1, q2, hKS (by simp [pivotK, hw]), hUS (hnb w (Or.inl q1) ?_ q3), Ne.symm q3, hU.2⟩
      rintro rfl; exact q1 (hg.loopless _)
    · obtain ⟨q1, q2, q3, q4⟩ := h.b1 w hw
      have hb0 : m.b0 = none := by
        rcases h.one with e | e
        · exact e
        · rw [hw] at e; simp at e
      refine ⟨key _ _ q1, q2, hKS (by simp [pivotK, hw, hb0]), hUS (hnb w (Or.inr q1) q3 ?_), Ne.symm q3, hU.1⟩
      rintro rfl; exact q1 (hg.loopless _)
  obtain ⟨e1, e2, e3, e3', e4, e5⟩ := pivotBoundary_spec (g := g) (s := { s with g := g5 }) (S := S) (U := U) (v := m.v0) (other := m.v1)
    (b := m.b0) b1.adj (bU _ _ _ (Or.inl ⟨rfl, rfl, rfl⟩)) h.ty1 ht
  have hs5g : s5.g = g5 := e1
  obtain ⟨f1, f2, f3, f3', f4, f5⟩ := pivotBoundary_spec (g := g) (s := { s5 with g := g6 }) (S := S) (U := U) (v := m.v1) (other := m.v0)
    (b := m.b1) c1.adj (bU _ _ _ (Or.inr ⟨rfl, rfl, rfl⟩)) h.ty0 e4
  set s6 := Rules.pivotBoundary { s5 with g := g6 } m.v1 m.v0 m.b1 with hs6
  -- the pairs
  have hpairs : ∀ e ∈ Rules.pivotPairs l0 l1 l2, e.1 ∈ U ∧ (e.1 ∈ S ∧ e.2 ∈ S ∧ e.1 ≠ e.2) ∧ g.ty e.1 = .Z ∧ g.ty e.2 = .Z := by
    rintro ⟨a, b⟩ he
    simp only [Rules.pivotPairs, List.mem_append] at he
    have d01 : ∀ w, w ∈ l0 → w ∉ l1 := by
      intro w h1 h2
      rw [ml0, Finset.mem_sdiff] at h1
      rw [ml1, Finset.mem_sdiff] at h2
      exact h1.2 (Finset.mem_inter.mpr ⟨h1.1, h2.1⟩)
    have d02 : ∀ w, w ∈ l0 → w ∉ l2 := by
      intro w h1 h2
      rw [ml0, Finset.mem_sdiff] at h1
      rw [ml2] at h2
      exact h1.2 h2
    have d12 : ∀ w, w ∈ l1 → w ∉ l2 := by
      intro w h1 h2
      rw [ml1, Finset.mem_sdiff] at h1
      rw [ml2] at h2
      exact h1.2 h2
    rcases he with (he | he) | he <;> obtain ⟨ha, hb⟩ := List.pair_mem_product.mp he
    · exact ⟨(z0 a ha).1, ⟨hUS (z0 a ha).1, hUS (z1 b hb).1, fun e => d01 a ha ((show a = b from e) ▸ hb)⟩, (z0 a ha).2, (z1 b hb).2⟩
    · exact ⟨(z1 a ha).1, ⟨hUS (z1 a ha).1, hUS (z2 b hb).1, fun e => d12 a ha ((show a = b from e) ▸ hb)⟩, (z1 a ha).2, (z2 b hb).2⟩
    · exact ⟨(z0 a ha).1, ⟨hUS (z0 a ha).1, hUS (z2 b hb).1, fun e => d02 a ha ((show a = b from e) ▸ hb)⟩, (z0 a ha).2, (z2 b hb).2⟩
  obtain ⟨p1, p2⟩ := pivotPairs_spec (g := g) (Rules.pivotPairs l0 l1 l2) hpairs f4
  have hstep : Rules.pivotStep lst s m = { s6 with etab := (Rules.pivotPairs l0 l1 l2).foldl ETab.setHad s6.etab } := by
    unfold Rules.pivotStep
    simp only [hn0, hn1]
    rw [hs6, hg6, ← hs5g]
    rfl
  rw [hstep]
  refine ⟨?_, ?_, ?_, ?_, ?_, p1, fun x => ?_⟩
  · show SameBut g s6.g
    rw [f1]; exact c1
  · intro v hv
    show s6.g.phase v = _
    rw [f1]
    show g6.phase v = _
    rw [hg6, c2 v hv, hg5, b2 v hv, ph4 v hv]
  · show s6.remVerts = _
    rw [f2]
    show s5.remVerts ++ _ = _
    rw [e2]
    simp [pivotRem]
  · show s6.remEdges = _
    rw [f3]
    show s5.remEdges ++ _ = _
    rw [e3]
    simp [pivotRemE]
  · intro c hc
    show tcount ((Rules.pivotPairs l0 l1 l2).foldl ETab.setHad s6.etab) c ≤ _
    rw [tcount_setHads]
    · have q1 := f3' c (by rintro rfl; rw [h.ty0] at hc; simp at hc)
      have q2 := e3' c (by rintro rfl; rw [h.ty1] at hc; simp at hc)
      refine q1.trans ?_
      unfold pivotCnt
      have q2' : tcount s5.etab c ≤ tcount s.etab c + (if m.b0 = some c then 1 else 0) := q2
      show tcount s5.etab c + _ ≤ _
      omega
    · intro e he htc
      obtain ⟨-, -, q1, q2⟩ := hpairs e he
      rcases htc with rfl | rfl
      · rw [q1] at hc; simp at hc
      · rw [q2] at hc; simp at hc
  · show s6.g.wOn U x * g.tableK x ((Rules.pivotPairs l0 l1 l2).foldl ETab.setHad s6.etab) = _
    rw [p2, f1, f5, e5]
    show g6.wOn U x * _ = _
    rw [hg6, c3, hg5, b3, hg4, wOn_addPower]
    have hw3 : g3.wOn U x = g2.wOn U x * (if g.phase m.v0 ≠ 0 ∧ g.phase m.v1 ≠ 0 then ph 1 else 1) := by
      rw [hg3, ph2 _ hU.1, ph2 _ hU.2, hp0, hp1]
      split
      · rw [wOn_addScalarPhase]
      · rw [mul_one]
    have hz2 : ∀ w ∈ l2, w ∈ U ∧ g1.ty w = .Z := fun w hw => ⟨(z2 w hw).1, by rw [sb1.ty]; exact (z2 w hw).2⟩
    rw [hw3, hg2, a3 U hz2, hg1, wOn_addPower]
    have hpp : ((Rules.pivotPairs l0 l1 l2).map fun e => hmat (x e.1) (x e.2)).prod =
        (∏ v ∈ pN0 g m, ∏ w ∈ pN1 g m, hmat (x v) (x w)) * (∏ v ∈ pN1 g m, ∏ w ∈ pN2 g m, hmat (x v) (x w)) *
          (∏ v ∈ pN0 g m, ∏ w ∈ pN2 g m, hmat (x v) (x w)) := by
      simp only [Rules.pivotPairs, List.map_append, List.prod_append]
      rw [prod_product_list l0 l1 fun a b => hmat (x a) (x b), prod_product_list l1 l2 fun a b => hmat (x a) (x b),
        prod_product_list l0 l2 fun a b => hmat (x a) (x b)]
      simp only [hl0, hl1, hl2, prd]
    rw [hpp]
    unfold pivotF
    rw [hk0, hk1, hk2, hl0, hl1, hl2]
    simp only [prd, len]
    ring

theorem pivot_fold {g : Graph} (hg : g.WF) {lst : Finset ℕ → List ℕ} (hlst : Rules.SetOrder lst) (ms : List Rules.PivotMatch)
    (h : PivotOK g ms) {U : Finset ℕ} (hUdef : U = g.verts \ unions ms pivotG) :
    SameBut g (Rules.pivot lst g ms).g ∧
    (∀ v, v ∉ U → (Rules.pivot lst g ms).g.phase v = g.phase v) ∧
    (Rules.pivot lst g ms).remVerts = ms.flatMap pivotRem ∧
    (Rules.pivot lst g ms).remEdges = ms.flatMap pivotRemE ∧
    (∀ c, g.ty c = .boundary → tcount (Rules.pivot lst g ms).etab c ≤ (ms.map (pivotCnt c)).sum) ∧
    PvTab (U ∪ unions ms pivotK) U (Rules.pivot lst g ms).etab ∧
    ∀ x, (Rules.pivot lst g ms).g.wOn U x * g.tableK x (Rules.pivot lst g ms).etab =
      g.wOn U x * (ms.map fun m => pivotF g m x).prod := by
  have hUn : ∀ m ∈ ms, m.v0 ∉ U ∧ m.v1 ∉ U := by
    intro m hm
    rw [hUdef]
    constructor
    · exact fun hh => (Finset.mem_sdiff.mp hh).2 (mem_unions.mpr ⟨m, hm, by simp⟩)
    · exact fun hh => (Finset.mem_sdiff.mp hh).2 (mem_unions.mpr ⟨m, hm, by simp⟩)
  have hsep : ∀ m ∈ ms, ∀ m' ∈ ms, m = m' ∨ ∀ v, v = m.v0 ∨ v = m.v1 → ∀ w, w = m'.v0 ∨ w = m'.v1 → v ≠ w ∧ g.adj v w = none := by
    intro m hm m' hm'
    have hsymm : ms.Pairwise fun m m' => (∀ v, v = m.v0 ∨ v = m.v1 → ∀ w, w = m'.v0 ∨ w = m'.v1 → v ≠ w ∧ g.adj v w = none) :=
      h.indep
    rcases List.pairwise_iff_getElem.mp hsymm with hp
    obtain ⟨i, hi, rfl⟩ := List.getElem_of_mem hm
    obtain ⟨j, hj, rfl⟩ := List.getElem_of_mem hm'
    rcases lt_trichotomy i j with hlt | rfl | hlt
    · exact Or.inr (hp i j hi hj hlt)
    · exact Or.inl rfl
    · right
      intro v hv w hw
      obtain ⟨q1, q2⟩ := hp j i hj hi hlt w hw v hv
      exact ⟨Ne.symm q1, by rw [hg.symm]; exact q2⟩
  have hnbU : ∀ m ∈ ms, ∀ w, (g.adj m.v0 w ≠ none ∨ g.adj m.v1 w ≠ none) → w ≠ m.v0 → w ≠ m.v1 → w ∈ U := by
    intro m hm w hw h0 h1
    rw [hUdef, Finset.mem_sdiff]
    refine ⟨by rcases hw with hw | hw <;> exact hg.toInv.mem' hw, fun hin => ?_⟩
    obtain ⟨m', hm', hin⟩ := mem_unions.mp hin
    simp only [Finset.mem_insert, Finset.mem_singleton] at hin
    rcases hsep m hm m' hm' with rfl | hs
    · tauto
    · rcases hw with hw | hw
      · exact hw (hs m.v0 (Or.inl rfl) w hin).2
      · exact hw (hs m.v1 (Or.inr rfl) w hin).2
  have := fold_sound (Rules.pivotStep lst)
    (fun s rest => SameBut g s.g ∧ (∀ v, v ∉ U → s.g.phase v = g.phase v) ∧
      s.remVerts ++ rest.flatMap pivotRem = ms.flatMap pivotRem ∧
      s.remEdges ++ rest.flatMap pivotRemE = ms.flatMap pivotRemE ∧
      (∀ c, g.ty c = .boundary → tcount s.etab c + (rest.map (pivotCnt c)).sum ≤ (ms.map (pivotCnt c)).sum) ∧
      (∀ m ∈ rest, m ∈ ms) ∧ PvTab (U ∪ unions ms pivotK) U s.etab)
    (fun s x => s.g.wOn U x * g.tableK x s.etab) (fun m x => pivotF g m x) ?_ ms
    (RewriteState.start g) ⟨SameBut.refl g, fun _ _ => rfl, rfl, rfl, fun c _ => by simp [RewriteState.start, tcount], fun _ h => h,
      by simp [RewriteState.start, PvTab]⟩
  · obtain ⟨⟨i1, i2, i3, i4, i4', -, i5⟩, h5⟩ := this
    refine ⟨i1, i2, ?_, ?_, ?_, i5, fun x => ?_⟩
    · rw [List.flatMap_nil, List.append_nil] at i3; exact i3
    · rw [List.flatMap_nil, List.append_nil] at i4; exact i4
    · intro c hc
      have := i4' c hc
      rw [List.map_nil, List.sum_nil] at this
      exact this
    · have := h5 x
      rw [show (RewriteState.start g).etab = [] from rfl, tableK_nil, mul_one] at this
      exact this
  · rintro s m rest ⟨i1, i2, i3, i4, i4', i5, i6⟩
    have hm := i5 m (by simp)
    obtain ⟨j1, j2, j3, j4, j4', j5, j6⟩ := pivot_step hg hlst (h.each m hm) (hUn m hm) (Finset.subset_union_left)
      (fun v hv => Finset.mem_union_right _ (mem_unions.mpr ⟨m, hm, hv⟩)) (hnbU m hm) i1 (i2 _ (hUn m hm).1) (i2 _ (hUn m hm).2) i6
    refine ⟨⟨j1, fun v hv => (j2 v hv).trans (i2 v hv), ?_, ?_, ?_, fun m' hm' => i5 m' (by simp [hm']), j5⟩, j6⟩
    · rw [j3, List.append_assoc]
      simpa using i3
    · rw [j4, List.append_assoc]
      simpa using i4
    · intro c hc
      have q1 := j4' c hc
      have q2 := i4' c hc
      rw [List.map_cons, List.sum_cons] at q2
      omega

theorem pivotRemE_mem {g : Graph} {ms : List Rules.PivotMatch} (h : PivotOK g ms) (e : ℕ × ℕ) (he : e ∈ ms.flatMap pivotRemE) :
    e.1 ∈ ms.flatMap pivotRem ∧ ∃ m ∈ ms, (e.1 = m.v0 ∧ m.b0 = some e.2) ∨ (e.1 = m.v1 ∧ m.b1 = some e.2) := by
  obtain ⟨m, hm, he⟩ := List.mem_flatMap.mp he
  simp only [pivotRemE, List.mem_append, List.mem_map, Option.mem_toList] at he
  rcases he with ⟨w, hw, rfl⟩ | ⟨w, hw, rfl⟩
  · have hw : m.b0 = some w := hw
    have : m.b1 = none := by
      rcases (h.each m hm).one with e | e
      · rw [hw] at e; simp at e
      · exact e
    exact ⟨List.mem_flatMap.mpr ⟨m, hm, by simp [pivotRem, this]⟩, m, hm, Or.inl ⟨rfl, hw⟩⟩
  · have hw : m.b1 = some w := hw
    have : m.b0 = none := by
      rcases (h.each m hm).one with e | e
      · exact e
      · rw [hw] at e; simp at e
    exact ⟨List.mem_flatMap.mpr ⟨m, hm, by simp [pivotRem, this]⟩, m, hm, Or.inr ⟨rfl, hw⟩⟩

theorem pivot_sound {g g' : Graph} (hg : g.WF) {lst : Finset ℕ → List ℕ} (hlst : Rules.SetOrder lst) {ms : List Rules.PivotMatch}
    (h : PivotOK g ms) (hfin : (Rules.pivot lst g ms).finish = some g') :
    Preserves g g' ∧ g'.verts = g.verts \ (ms.flatMap pivotRem).toFinset := by
  set U := g.verts \ unions ms pivotG with hUdef
  obtain ⟨h1, h2, h3, h4', -, h5, h6⟩ := pivot_fold hg hlst ms h hUdef
  have h4 : ∀ e ∈ (Rules.pivot lst g ms).remEdges, e.1 ∈ (Rules.pivot lst g ms).remVerts := by
    rw [h3, h4']; exact fun e he => (pivotRemE_mem h e he).1
  have hmem : ∀ m ∈ ms, m.v0 ∈ g.interior ∧ m.v1 ∈ g.interior ∧ m.v0 ≠ m.v1 := by
    intro m hm
    have hk := h.each m hm
    simp only [interior, Finset.mem_filter]
    refine ⟨⟨hg.mem _ _ (by rw [hk.adj]; simp), by rw [hk.ty0]; simp⟩,
      ⟨hg.toInv.mem' (u := m.v0) (by rw [hk.adj]; simp), by rw [hk.ty1]; simp⟩, ?_⟩
    intro e; have := hk.adj; rw [e, hg.loopless] at this; simp at this
  have hKR : ∀ m ∈ ms, pivotK m ∪ (pivotRem m).toFinset = pivotG m ∧ Disjoint (pivotK m) (pivotRem m).toFinset := by
    intro m hm
    have hne := (hmem m hm).2.2
    have hone := (h.each m hm).one
    unfold pivotK pivotRem
    cases hb0 : m.b0 with
    | none =>
      cases hb1 : m.b1 with
      | none => constructor <;> simp [pivotG, Finset.pair_comm]
      | some w => exact ⟨by simp [pivotG], by simpa using hne⟩
    | some w =>
      have hb1 : m.b1 = none := by rw [hb0] at hone; simpa using hone
      rw [hb1]
      exact ⟨by simp [pivotG]; ext; simp [or_comm], by simpa using hne.symm⟩
  have hremU : (ms.flatMap pivotRem).toFinset = unions ms fun m => (pivotRem m).toFinset := by
    ext v; simp [mem_unions]
  have hindG : ms.Pairwise fun i j => Disjoint (pivotG i) (pivotG j) ∧ ∀ v ∈ pivotG i, ∀ w ∈ pivotG j, g.adj v w = none := by
    refine h.indep.imp fun {i j} hij => ⟨?_, ?_⟩
    · rw [Finset.disjoint_left]
      intro v hv hw
      simp only [pivotG, Finset.mem_insert, Finset.mem_singleton] at hv hw
      exact (hij v hv v hw).1 rfl
    · intro v hv w hw
      simp only [pivotG, Finset.mem_insert, Finset.mem_singleton] at hv hw
      exact (hij v hv w hw).2
  have hmemP : ms.Pairwise fun i j => i ∈ ms ∧ j ∈ ms := by
    rw [List.pairwise_iff_forall_sublist]
    intro a b hab
    exact ⟨hab.subset (by simp), hab.subset (by simp)⟩
  have hKG : ∀ m ∈ ms, pivotK m ⊆ pivotG m := fun m hm => by
    rw [← (hKR m hm).1]; exact Finset.subset_union_left
  have hRG : ∀ m ∈ ms, (pivotRem m).toFinset ⊆ pivotG m := fun m hm => by
    rw [← (hKR m hm).1]; exact Finset.subset_union_right
  have hGpair : ∀ m ∈ ms, ∀ m' ∈ ms, ∀ v, v ∈ pivotG m → v ∈ pivotG m' → m = m' := by
    intro m hm m' hm' v hv hv'
    have hp := List.pairwise_iff_getElem.mp hindG
    obtain ⟨i, hi, rfl⟩ := List.getElem_of_mem hm
    obtain ⟨j, hj, rfl⟩ := List.getElem_of_mem hm'
    rcases lt_trichotomy i j with hlt | rfl | hlt
    · exact absurd hv' (Finset.disjoint_left.mp (hp i j hi hj hlt).1 hv)
    · rfl
    · exact absurd hv (Finset.disjoint_left.mp (hp j i hj hi hlt).1 hv')
  have hKRU : unions ms pivotK ∪ unions ms (fun m => (pivotRem m).toFinset) = unions ms pivotG := by
    ext v
    simp only [Finset.mem_union, mem_unions]
    constructor
    · rintro (⟨m, hm, hv⟩ | ⟨m, hm, hv⟩)
      · exact ⟨m, hm, hKG m hm hv⟩
      · exact ⟨m, hm, hRG m hm hv⟩
    · rintro ⟨m, hm, hv⟩
      rw [← (hKR m hm).1, Finset.mem_union] at hv
      rcases hv with hv | hv
      · exact Or.inl ⟨m, hm, hv⟩
      · exact Or.inr ⟨m, hm, hv⟩
  have hdisjKR : Disjoint (unions ms pivotK) (unions ms fun m => (pivotRem m).toFinset) := by
    rw [Finset.disjoint_left]
    intro v hv hv'
    obtain ⟨m, hm, hv⟩ := mem_unions.mp hv
    obtain ⟨m', hm', hv'⟩ := mem_unions.mp hv'
    obtain rfl := hGpair m hm m' hm' v (hKG m hm hv) (hRG m' hm' hv')
    exact Finset.disjoint_left.mp (hKR m hm).2 hv hv'
  have hGint : unions ms pivotG ⊆ g.interior := by
    intro v hv
    obtain ⟨m, hm, hv⟩ := mem_unions.mp hv
    simp only [pivotG, Finset.mem_insert, Finset.mem_singleton] at hv
    rcases hv with rfl | rfl
    · exact (hmem m hm).1
    · exact (hmem m hm).2.1
  have hGv : unions ms pivotG ⊆ g.verts := hGint.trans (Finset.filter_subset _ _)
  have hS : g.verts \ unions ms (fun m => (pivotRem m).toFinset) = U ∪ unions ms pivotK := by
    rw [hUdef, ← hKRU]
    ext v
    have hv1 : v ∈ unions ms pivotK → v ∈ g.verts := fun hv => hGv (by rw [← hKRU]; exact Finset.mem_union_left _ hv)
    have hv2 : v ∈ unions ms pivotK → v ∉ unions ms (fun m => (pivotRem m).toFinset) :=
      fun hv => Finset.disjoint_left.mp hdisjKR hv
    simp only [Finset.mem_sdiff, Finset.mem_union]
    tauto
  have hdU : ∀ m ∈ ms, Disjoint U (pivotG m) := by
    intro m hm
    rw [Finset.disjoint_left, hUdef]
    intro v hv hv'
    exact (Finset.mem_sdiff.mp hv).2 (mem_unions.mpr ⟨m, hm, hv'⟩)
  have hnbU : ∀ m ∈ ms, ∀ w, (g.adj m.v0 w ≠ none ∨ g.adj m.v1 w ≠ none) → w ≠ m.v0 → w ≠ m.v1 → w ∈ U := by
    intro m hm w hw h0 h1
    rw [hUdef, Finset.mem_sdiff]
    refine ⟨by rcases hw with hw | hw <;> exact hg.toInv.mem' hw, fun hin => ?_⟩
    obtain ⟨m', hm', hin⟩ := mem_unions.mp hin
    have hp := List.pairwise_iff_getElem.mp hindG
    obtain ⟨i, hi, rfl⟩ := List.getElem_of_mem hm
    obtain ⟨j, hj, rfl⟩ := List.getElem_of_mem hm'
    rcases lt_trichotomy i j with hlt | rfl | hlt
    · rcases hw with hw | hw
      · exact hw ((hp i j hi hj hlt).2 _ (by simp) w hin)
      · exact hw ((hp i j hi hj hlt).2 _ (by simp) w hin)
    · simp only [Finset.mem_insert, Finset.mem_singleton] at hin
      tauto
    · rcases hw with hw | hw
      · exact hw (by rw [hg.symm]; exact (hp j i hj hi hlt).2 w hin _ (by simp))
      · exact hw (by rw [hg.symm]; exact (hp j i hj hi hlt).2 w hin _ (by simp))
  have := rule_sound_kept hg hfin (h1.wf hg) h1.verts (fun v _ => by rw [h1.ty]) h1.inputs h1.outputs
    ?_ ?_ (fun e he => Or.inl (h4 e he)) (K := unions ms pivotK) ?_ ?_ ?_
  · rw [h3] at this; exact this
  · rw [h3, hremU]
    exact fun v hv => hGint (by rw [← hKRU]; exact Finset.mem_union_right _ hv)
  · rw [h3, hremU, hS]
    exact fun e he _ => (h5 e he).1
  · exact fun v hv => hGint (by rw [← hKRU]; exact Finset.mem_union_left _ hv)
  · rw [h3, hremU]; exact hdisjKR
  · intro x
    rw [h3, hremU, hKRU, hS]
    -- old side
    have hold := psum_groups hg.symm ms pivotG (fun _ _ => (1 : ℂ)) hdU hindG
      (List.Pairwise.imp (fun _ => ⟨fun _ _ _ => rfl, fun _ _ _ => rfl⟩) hindG) x
    have hverts : U ∪ unions ms pivotG = g.verts := by rw [hUdef]; exact Finset.sdiff_union_of_subset hGv
    have e1 : psum (unions ms pivotG) g.weight x = g.wOn U x * (ms.map fun m => psum (pivotG m) (g.grpW U (pivotG m)) x).prod := by
      rw [hverts] at hold
      simp only [mul_one, List.map_const', List.prod_replicate, one_pow] at hold
      exact hold
    rw [e1]
    -- new side
    have hindK : ms.Pairwise fun i j => Disjoint (pivotK i) (pivotK j) ∧ ∀ v ∈ pivotK i, ∀ w ∈ pivotK j, g.adj v w = none := by
      refine (hindG.and hmemP).imp fun {i j} hij => ⟨hij.1.1.mono (hKG _ hij.2.1) (hKG _ hij.2.2), ?_⟩
      intro v hv w hw
      exact hij.1.2 v (hKG _ hij.2.1 hv) w (hKG _ hij.2.2 hw)
    have hFins : ∀ i ∈ ms, ∀ j ∈ ms, Disjoint (pivotG i) (pivotG j) → (∀ v ∈ pivotG i, ∀ w ∈ pivotG j, g.adj v w = none) →
        Insens (pivotF g i) (pivotK j) := by
      intro i hi j hj hd hadj a b hab
      have hag : ∀ v, v ∈ pivotG i ∪ U → a v = b v := by
        intro v hv
        refine hab v fun hvj => ?_
        rcases Finset.mem_union.mp hv with hv | hv
        · exact Finset.disjoint_left.mp hd hv (hKG j hj hvj)
        · exact Finset.disjoint_left.mp (hdU j hj) hv (hKG j hj hvj)
      have hk := h.each i hi
      have hN : ∀ w, w ∈ pn0 g i ∪ pn1 g i → a w = b w := by
        intro w hw
        have hw' := pN_notMem hg (m := i) hw
        refine hag w (Finset.mem_union_right _ (hnbU i hi w ?_ hw'.1 hw'.2))
        simp only [Finset.mem_union, pn0, pn1, Rules.pivotNbrs, Finset.mem_filter, Finset.mem_erase, mem_nbrs hg.toInv] at hw
        tauto
      have hN0 : ∀ w ∈ pN0 g i, a w = b w := fun w hw => hN w (Finset.mem_union_left _ (Finset.mem_sdiff.mp hw).1)
      have hN1 : ∀ w ∈ pN1 g i, a w = b w := fun w hw => hN w (Finset.mem_union_right _ (Finset.mem_sdiff.mp hw).1)
      have hN2 : ∀ w ∈ pN2 g i, a w = b w := fun w hw => hN w (Finset.mem_union_left _ (Finset.mem_inter.mp hw).1)
      have pc : ∀ (N : Finset ℕ) (q : ℚ), (∀ w ∈ N, a w = b w) →
          (∏ w ∈ N, if a w then ph q else 1) = ∏ w ∈ N, if b w then ph q else 1 := by
        intro N q hN
        exact Finset.prod_congr rfl fun w hw => by rw [hN w hw]
      have hc : ∀ (N N' : Finset ℕ), (∀ w ∈ N, a w = b w) → (∀ w ∈ N', a w = b w) →
          (∏ v ∈ N, ∏ w ∈ N', hmat (a v) (a w)) = ∏ v ∈ N, ∏ w ∈ N', hmat (b v) (b w) := by
        intro N N' hN hN'
        exact Finset.prod_congr rfl fun v hv => Finset.prod_congr rfl fun w hw => by rw [hN v hv, hN' w hw]
      have hbk : ∀ v (bb : Option ℕ) c, (∀ w, bb = some w → a w = b w) → bk' g v bb a c = bk' g v bb b c := by
        intro v bb c hw
        cases bb with
        | none => rfl
        | some w => simp only [bk']; rw [hw w rfl]
      unfold pivotF
      rw [pc _ _ hN2, pc _ _ hN1, pc _ _ hN2, pc _ _ hN0, pc _ _ hN2, hc _ _ hN0 hN1, hc _ _ hN1 hN2, hc _ _ hN0 hN2,
        hag i.v0 (by simp), hag i.v1 (by simp), hbk i.v0 i.b0, hbk i.v1 i.b1]
      · intro w hw
        obtain ⟨q1, q2, q3, q4⟩ := hk.b1 w hw
        refine hag w (Finset.mem_union_right _ (hnbU i hi w (Or.inr q1) q3 ?_))
        rintro rfl; exact q1 (hg.loopless _)
      · intro w hw
        obtain ⟨q1, q2, q3, q4⟩ := hk.b0 w hw
        refine hag w (Finset.mem_union_right _ (hnbU i hi w (Or.inl q1) ?_ q3))
        rintro rfl; exact q1 (hg.loopless _)
    have hFP : ms.Pairwise fun i j => Insens (pivotF g i) (pivotK j) ∧ Insens (pivotF g j) (pivotK i) := by
      refine (hindG.and hmemP).imp fun {i j} hij => ⟨?_, ?_⟩
      · exact hFins i hij.2.1 j hij.2.2 hij.1.1 hij.1.2
      · exact hFins j hij.2.2 i hij.2.1 hij.1.1.symm (fun v hv w hw => by rw [hg.symm]; exact hij.1.2 w hw v hv)
    have hdUK : ∀ m ∈ ms, Disjoint U (pivotK m) := fun m hm => (hdU m hm).mono_right (hKG m hm)
    have hnew := psum_groups hg.symm ms pivotK (pivotF g) hdUK hindK hFP x
    have e2 : (fun x => (Rules.pivot lst g ms).g.wOn (U ∪ unions ms pivotK) x *
        (Rules.pivot lst g ms).g.tableK x (Rules.pivot lst g ms).etab) =
        fun x => g.wOn (U ∪ unions ms pivotK) x * (ms.map fun m => pivotF g m x).prod := by
      funext y
      have hadj' : ∀ u v, (Rules.pivot lst g ms).g.adj u v = (Rules.pivot lst g ms).g.adj v u := by
        rw [h1.adj]; exact hg.symm
      have hindK' : ms.Pairwise fun i j => Disjoint (pivotK i) (pivotK j) ∧ ∀ v ∈ pivotK i, ∀ w ∈ pivotK j,
          (Rules.pivot lst g ms).g.adj v w = none := by rw [h1.adj]; exact hindK
      rw [wOn_groups hadj' ms pivotK hdUK hindK', wOn_groups hg.symm ms pivotK hdUK hindK, h1.tableK]
      have : (ms.map fun m => (Rules.pivot lst g ms).g.grpW U (pivotK m) y) = ms.map fun m => g.grpW U (pivotK m) y := by
        refine List.map_congr_left fun m hm => ?_
        refine grpW_congr h1.adj (fun v => by unfold isX; rw [h1.ty]) fun v hv => ?_
        unfold vval
        rw [h1.ty, h1.label, h2 v (fun hu => Finset.disjoint_left.mp (hdUK m hm) hu hv)]
      rw [this]
      have := h6 y
      linear_combination (ms.map fun m => g.grpW U (pivotK m) y).prod * this
    rw [e2, hnew]
    congr 2
    refine List.map_congr_left fun m hm => ?_
    refine pivot_local hg (h.each m hm) ⟨?_, ?_⟩ (hnbU m hm) x
    · exact fun hu => Finset.disjoint_left.mp (hdU m hm) hu (by simp)
    · exact fun hu => Finset.disjoint_left.mp (hdU m hm) hu (by simp)

theorem pivot_total {g : Graph} (hg : g.WF) (hb : g.BDeg) {lst : Finset ℕ → List ℕ} (hlst : Rules.SetOrder lst)
    {ms : List Rules.PivotMatch} (h : PivotOK g ms) :
    ∃ g', (Rules.pivot lst g ms).finish = some g' ∧ Preserves g g' ∧ g'.BDeg ∧
      g'.verts = g.verts \ (ms.flatMap pivotRem).toFinset := by
  set U := g.verts \ unions ms pivotG with hUdef
  obtain ⟨h1, -, h3, h4, h4', h5, -⟩ := pivot_fold hg hlst ms h hUdef
  have hmem : ∀ m ∈ ms, m.v0 ∈ g.verts ∧ m.v1 ∈ g.verts ∧ m.v0 ≠ m.v1 := by
    intro m hm
    have hk := h.each m hm
    refine ⟨hg.mem _ _ (by rw [hk.adj]; simp), hg.toInv.mem' (u := m.v0) (by rw [hk.adj]; simp), ?_⟩
    intro e; have := hk.adj; rw [e, hg.loopless] at this; simp at this
  have hgrp : ms.Pairwise fun i j => ∀ v ∈ pivotG i, v ∉ pivotG j := by
    refine h.indep.imp fun {i j} hij v hv hw => ?_
    simp only [pivotG, Finset.mem_insert, Finset.mem_singleton] at hv hw
    exact (hij v hv v hw).1 rfl
  have hremG : ∀ m : Rules.PivotMatch, ∀ v ∈ pivotRem m, v ∈ pivotG m := by
    intro m v hv
    simp only [pivotRem, List.mem_append] at hv
    simp only [pivotG, Finset.mem_insert, Finset.mem_singleton]
    rcases hv with hv | hv <;> split at hv <;> simp_all
  -- kept and removed vertices
  have hKR : ∀ m ∈ ms, ∀ v ∈ pivotK m, v ∈ pivotG m ∧ v ∉ pivotRem m := by
    intro m hm v hv
    have hne := (hmem m hm).2.2
    unfold pivotK at hv
    split_ifs at hv with c1 c2
    · simp only [Finset.mem_singleton] at hv
      subst hv
      refine ⟨by simp, ?_⟩
      simp only [pivotRem, c1, if_false, List.nil_append]
      split <;> simp [hne.symm]
    · simp only [Finset.mem_singleton] at hv
      subst hv
      refine ⟨by simp, ?_⟩
      simp only [pivotRem, c2, if_false, List.append_nil]
      split <;> simp [hne]
    · simp at hv
  have hGpair : ∀ m ∈ ms, ∀ m' ∈ ms, ∀ v, v ∈ pivotG m → v ∈ pivotG m' → m = m' := by
    intro m hm m' hm' v hv hv'
    have hp := List.pairwise_iff_getElem.mp hgrp
    obtain ⟨i, hi, rfl⟩ := List.getElem_of_mem hm
    obtain ⟨j, hj, rfl⟩ := List.getElem_of_mem hm'
    rcases lt_trichotomy i j with hlt | rfl | hlt
    · exact absurd hv' (hp i j hi hj hlt v hv)
    · rfl
    · exact absurd hv (hp j i hj hi hlt v hv')
  have hS : ∀ v ∈ U ∪ unions ms pivotK, v ∈ g.verts \ (ms.flatMap pivotRem).toFinset := by
    intro v hv
    simp only [Finset.mem_sdiff, List.mem_toFinset, List.mem_flatMap, not_exists, not_and]
    rcases Finset.mem_union.mp hv with hv | hv
    · rw [hUdef, Finset.mem_sdiff] at hv
      exact ⟨hv.1, fun m hm hin => hv.2 (mem_unions.mpr ⟨m, hm, hremG m v hin⟩)⟩
    · obtain ⟨m, hm, hv⟩ := mem_unions.mp hv
      obtain ⟨q1, q2⟩ := hKR m hm v hv
      refine ⟨?_, fun m' hm' hin => ?_⟩
      · simp only [pivotG, Finset.mem_insert, Finset.mem_singleton] at q1
        rcases q1 with rfl | rfl
        · exact (hmem m hm).1
        · exact (hmem m hm).2.1
      · obtain rfl := hGpair m hm m' hm' v q1 (hremG m' v hin)
        exact q2 hin
  -- the vertex carrying the boundary
  set f : Rules.PivotMatch → ℕ := fun m => if m.b0 ≠ none then m.v0 else m.v1 with hf
  have hfG : ∀ m, f m ∈ pivotG m := by intro m; simp only [hf, pivotG]; split <;> simp
  have hfn : (ms.map f).Nodup := by
    rw [List.Nodup, List.pairwise_map]
    refine hgrp.imp fun {i j} hij (e : f i = f j) => hij (f i) (hfG i) ?_
    rw [e]; exact hfG j
  have hbout : ∀ e ∈ ms.flatMap pivotRemE, g.adj e.1 e.2 ≠ none ∧ ∀ m ∈ ms, e.2 ∉ pivotG m := by
    intro e he
    obtain ⟨-, m, hm, hh⟩ := pivotRemE_mem h e he
    have hk := h.each m hm
    have hadj : g.adj e.1 e.2 ≠ none ∧ e.2 ∉ pivotG m ∧ e.1 ∈ pivotG m := by
      simp only [pivotG, Finset.mem_insert, Finset.mem_singleton]
      rcases hh with ⟨e1, e2⟩ | ⟨e1, e2⟩
      · obtain ⟨q1, q2, q3, q4⟩ := hk.b0 _ e2
        rw [e1]
        refine ⟨q1, ?_, by simp⟩
        rintro (e | e)
        · rw [e, hg.loopless] at q1; exact q1 rfl
        · exact q3 e
      · obtain ⟨q1, q2, q3, q4⟩ := hk.b1 _ e2
        rw [e1]
        refine ⟨q1, ?_, by simp⟩
        rintro (e | e)
        · exact q3 e
        · rw [e, hg.loopless] at q1; exact q1 rfl
    refine ⟨hadj.1, fun m' hm' hin => ?_⟩
    have hp := List.pairwise_iff_getElem.mp h.indep
    simp only [pivotG, Finset.mem_insert, Finset.mem_singleton] at hin hadj
    obtain ⟨i, hi, rfl⟩ := List.getElem_of_mem hm
    obtain ⟨j, hj, rfl⟩ := List.getElem_of_mem hm'
    rcases lt_trichotomy i j with hlt | rfl | hlt
    · exact hadj.1 (hp i j hi hj hlt e.1 hadj.2.2 e.2 hin).2
    · exact hadj.2.1 hin
    · exact hadj.1 (by rw [hg.symm]; exact (hp j i hj hi hlt e.2 hin e.1 hadj.2.2).2)
  obtain ⟨g', hfin, hbd⟩ := finish_total (s := Rules.pivot lst g ms) hg hb (h1.wf hg) h1.verts h1.adj
    (fun v _ => by rw [h1.ty]) (by
      rw [h3]
      exact fun e he _ => ⟨hS _ (h5 e he).1.1, hS _ (h5 e he).1.2.1, (h5 e he).1.2.2⟩) (by
      intro b hbv hbt
      have hcase : ∀ m ∈ ms, pivotCnt b m ≠ 0 → (f m = m.v0 ∧ m.b0 = some b ∧ m.b1 = none) ∨ (f m = m.v1 ∧ m.b1 = some b ∧ m.b0 = none) := by
        intro m hm hne
        rcases (h.each m hm).one with e | e
        · right
          refine ⟨by simp [hf, e], ?_, e⟩
          by_contra hc
          exact hne (by simp [pivotCnt, e, hc])
        · left
          have hb0 : m.b0 = some b := by
            by_contra hc
            exact hne (by simp [pivotCnt, e, hc])
          exact ⟨by simp [hf, hb0], hb0, e⟩
      obtain ⟨c1, c2⟩ := touch_bound hb hbv hbt (ms := ms) (f := f) (c := pivotCnt b) hfn (by
        intro m hm
        unfold pivotCnt
        rcases (h.each m hm).one with e | e <;> rw [e] <;> simp <;> split <;> omega) (by
        intro m hm hne
        rcases hcase m hm hne with ⟨q1, q2, -⟩ | ⟨q1, q2, -⟩
        · rw [q1, hg.symm]; exact ((h.each m hm).b0 b q2).1
        · rw [q1, hg.symm]; exact ((h.each m hm).b1 b q2).1) (h4' b hbt)
      refine ⟨c1, fun hne z hz => ?_⟩
      obtain ⟨m, hm, hc, hz'⟩ := c2 hne
      left
      rw [h3, hz' z hz, List.mem_flatMap]
      refine ⟨m, hm, ?_⟩
      rcases hcase m hm hc with ⟨q1, q2, q3⟩ | ⟨q1, q2, q3⟩
      · rw [q1]; simp [pivotRem, q3]
      · rw [q1]; simp [pivotRem, q3])
    (by rw [h4]; exact fun e he => (hbout e he).1)
    (by
      rw [h4, List.pairwise_flatMap]
      refine ⟨?_, ?_⟩
      · intro m hm
        unfold pivotRemE
        rcases (h.each m hm).one with e | e <;> rw [e]
        · cases m.b1 <;> simp
        · cases m.b0 <;> simp
      · have hmemP : ms.Pairwise fun i j => i ∈ ms ∧ j ∈ ms := by
          rw [List.pairwise_iff_forall_sublist]
          intro a b hab
          exact ⟨hab.subset (by simp), hab.subset (by simp)⟩
        refine (hgrp.and hmemP).imp fun {i j} hij e he f hf' hsp => ?_
        have he1 : e.1 ∈ pivotG i := by
          simp only [pivotRemE, List.mem_append, List.mem_map] at he
          rcases he with ⟨w, hw, rfl⟩ | ⟨w, hw, rfl⟩ <;> simp
        have hf1 : f.1 ∈ pivotG j := by
          simp only [pivotRemE, List.mem_append, List.mem_map] at hf'
          rcases hf' with ⟨w, hw, rfl⟩ | ⟨w, hw, rfl⟩ <;> simp
        rcases hsp with ⟨p1, -⟩ | ⟨p1, p2⟩
        · exact hij.1 e.1 he1 (p1 ▸ hf1)
        · refine (hbout f (List.mem_flatMap.mpr ⟨j, hij.2.2, hf'⟩)).2 i hij.2.1 ?_
          rw [← p1]; exact he1)
    (by rw [h3, h4]; exact fun e he => Or.inl (pivotRemE_mem h e he).1)
    (by
      rw [h3, List.nodup_flatMap]
      refine ⟨?_, ?_⟩
      · intro m hm
        have hne := (hmem m hm).2.2
        unfold pivotRem
        split <;> split <;> simp [hne.symm]
      · exact hgrp.imp fun {i j} hij => by
          rw [Function.onFun, List.disjoint_left]
          exact fun v hv hv' => hij v (hremG _ v hv) (hremG _ v hv'))
    (by
      rw [h3]
      intro v hv
      obtain ⟨m, hm, hv⟩ := List.mem_flatMap.mp hv
      have := hremG m v hv
      simp only [pivotG, Finset.mem_insert, Finset.mem_singleton] at this
      rcases this with rfl | rfl
      · exact (hmem m hm).1
      · exact (hmem m hm).2.1)
  obtain ⟨hp, hv⟩ := pivot_sound hg hlst h hfin
  exact ⟨g', hfin, hp, hbd hp, hv⟩

end Graph
end PyZX
