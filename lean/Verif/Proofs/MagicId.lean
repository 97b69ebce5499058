import Verif.Proofs.MagicPhi
import Mathlib.Tactic.IntervalCases

/-!
# The identities behind the decompositions of magic states
-/

namespace PyZX
namespace Magic

/-- A sign. -/
def sg (b : Bool) : ℤ := if b then -1 else 1

theorem hmat_sg (a b : Bool) : hmat a b = sq2⁻¹ * (sg (a && b) : ℂ) := by
  unfold hmat sg
  cases a <;> cases b <;> simp

/-- The integer sum of `phi1`. -/
def phiI (y1 y2 y3 y4 y5 y6 : Bool) : ℤ :=
  sg y6 * ∑ c1 : Bool, ∑ c2 : Bool, ∑ c3 : Bool, ∑ c4 : Bool, ∑ c5 : Bool,
    sg (y6 && c1) * sg (y1 && c1) * (sg (y6 && c2) * sg (y2 && c2)) * (sg (y6 && c3) * sg (y3 && c3)) *
      (sg (y6 && c4) * sg (y4 && c4)) * (sg (y6 && c5) * sg (y5 && c5)) *
      (sg (c1 && c3) * sg (c1 && c4) * sg (c2 && c4) * sg (c2 && c5) * sg (c3 && c5))

theorem phiF_eq (y1 y2 y3 y4 y5 y6 : Bool) : phiF y1 y2 y3 y4 y5 y6 =
    cPHI * sq2 ^ (9 : ℤ) * ph (3/2) * sq2⁻¹ ^ 15 * (sh y1 * sh y2 * sh y3 * sh y4 * sh y5 * sh y6) * (phiI y1 y2 y3 y4 y5 y6 : ℂ) := by
  unfold phiF
  have key : ∀ X : Bool → ℂ, (∑ c6 : Bool, (if c6 then ph 1 else 1) * (sh y6 * (dmat y6 c6 * X c6))) = sg y6 * (sh y6 * X y6) := by
    intro X
    rw [Fintype.sum_bool]
    cases y6 <;> simp [dmat, sg]
  rw [key]
  unfold phiI
  push_cast
  simp only [hmat_sg, Finset.mul_sum]
  refine Finset.sum_congr rfl fun c1 _ => Finset.sum_congr rfl fun c2 _ => Finset.sum_congr rfl fun c3 _ =>
    Finset.sum_congr rfl fun c4 _ => Finset.sum_congr rfl fun c5 _ => ?_
  ring

/-- The number of ones. -/
def cnt (l : List Bool) : ℕ := l.count true

theorem phi_tab : ∀ y1 y2 y3 y4 y5 y6 : Bool, phiI y1 y2 y3 y4 y5 y6 + phiI y1 y2 y4 y5 y6 y3 =
    if cnt [y1, y2, y3, y4, y5, y6] = 1 then 16 else if cnt [y1, y2, y3, y4, y5, y6] = 5 then -16 else 0 := by
  decide +kernel

theorem prod_pow (a : ℂ) (l : List Bool) : (l.map fun y => if y then ph (-1/4) * a else 1).prod = (ph (-1/4)) ^ cnt l * a ^ cnt l := by
  induction l with
  | nil => simp [cnt]
  | cons y r ih =>
    rw [List.map_cons, List.prod_cons, ih]
    cases y <;> simp [cnt, pow_succ]
    ring

theorem prod_sh (l : List Bool) : (l.map fun y => if y then ph (-1/4) else 1).prod = (ph (-1/4)) ^ cnt l := by
  have := prod_pow 1 l
  simpa using this

theorem prod_hmat (c : Bool) (l : List Bool) : (l.map fun y => hmat y c).prod = sq2⁻¹ ^ l.length * (if c then (-1) ^ cnt l else 1) := by
  induction l with
  | nil => simp [cnt]
  | cons y r ih =>
    rw [List.map_cons, List.prod_cons, ih, List.length_cons]
    unfold hmat
    cases y <;> cases c <;> simp [cnt, pow_succ] <;> ring

theorem prod_dmat (l : List Bool) (c : Bool) : (l.map fun y => dmat y c).prod = if cnt l = (if c then l.length else 0) then 1 else 0 := by
  induction l with
  | nil => cases c <;> simp [cnt]
  | cons y r ih =>
    rw [List.map_cons, List.prod_cons, ih]
    have : r.count true ≤ r.length := List.count_le_length
    cases y <;> cases c <;> simp [cnt, dmat]
    intro hh
    omega

theorem GLOBAL_eq : GLOBAL = -(7 + 5 * sq2) * (1 - Complex.I) / 4 := by
  unfold GLOBAL
  have h : (2 + 2 * Complex.I) ≠ 0 := by
    intro hh
    have := congrArg Complex.re hh
    simp at this
  rw [div_eq_div_iff h (by norm_num)]
  have := Complex.I_sq
  linear_combination (-2 * (7 + 5 * sq2)) * this

theorem quarter_eq : ph (1/4) = (1 + Complex.I) * sq2 / 2 := by
  rw [ph_quarter, div_eq_mul_inv, sq2_inv]; ring

/-- The identity behind the decomposition of six T-states. -/
theorem six_id (n : ℕ) (hn : n ≤ 6) :
    GLOBAL * (cB60 * sq2 ^ (-6 : ℤ)) + GLOBAL * (cB66 * (sq2 ^ (-6 : ℤ) * (ph 1 * (ph 1) ^ n))) +
      GLOBAL * (cE6 * (sq2 ^ (4 : ℤ) * (ph (1/2) * ((ph (1/2)) ^ n * (sq2⁻¹ ^ 6 * (1 - (-1) ^ n)))))) +
      GLOBAL * (cO6 * (sq2 ^ (4 : ℤ) * (ph (1/2) * ((ph (1/2)) ^ n * (sq2⁻¹ ^ 6 * (1 + (-1) ^ n)))))) +
      GLOBAL * (cK6 * (sq2 ^ (5 : ℤ) * (ph (1/4) * ((if n = 0 then 1 else 0) + ph (3/2) * (if n = 6 then 1 else 0))))) +
      GLOBAL * (cPHI * sq2 ^ (9 : ℤ) * ph (3/2) * sq2⁻¹ ^ 15 * ((if n = 1 then 16 else if n = 5 then -16 else 0 : ℤ) : ℂ)) =
    (ph (1/4)) ^ n := by
  have s2 := sq2_sq
  have s3 : sq2 ^ 3 = 2 * sq2 := by rw [pow_succ, s2]
  have s4 : sq2 ^ 4 = 4 := by rw [show (4 : ℕ) = 2 * 2 from rfl, pow_mul, s2]; norm_num
  have s5 : sq2 ^ 5 = 4 * sq2 := by rw [pow_succ, s4]
  have s6 : sq2 ^ 6 = 8 := by rw [pow_succ, s5, mul_assoc, ← pow_two, s2]; norm_num
  have i2 := Complex.I_sq
  have i3 : Complex.I ^ 3 = -Complex.I := by rw [pow_succ, i2]; ring
  have i4 : Complex.I ^ 4 = 1 := by rw [show (4 : ℕ) = 2 * 2 from rfl, pow_mul, i2]; norm_num
  have i5 : Complex.I ^ 5 = Complex.I := by rw [pow_succ, i4, one_mul]
  have i6 : Complex.I ^ 6 = -1 := by rw [pow_succ, i5, ← pow_two, i2]
  have i7 : Complex.I ^ 7 = -Complex.I := by rw [pow_succ, i6]; ring
  have i8 : Complex.I ^ 8 = 1 := by rw [show (8 : ℕ) = 2 * 4 from rfl, pow_mul, i2]; norm_num
  have z6 : sq2 ^ (-6 : ℤ) = 1 / 8 := by
    rw [zpow_neg, show (6 : ℤ) = ((6 : ℕ) : ℤ) from rfl, zpow_natCast, s6]; norm_num
  have z4 : sq2 ^ (4 : ℤ) = 4 := by rw [show (4 : ℤ) = ((4 : ℕ) : ℤ) from rfl, zpow_natCast, s4]
  have z5 : sq2 ^ (5 : ℤ) = 4 * sq2 := by rw [show (5 : ℤ) = ((5 : ℕ) : ℤ) from rfl, zpow_natCast, s5]
  have z9 : sq2 ^ (9 : ℤ) * sq2⁻¹ ^ 15 = 1 / 8 := by
    rw [show (9 : ℤ) = ((9 : ℕ) : ℤ) from rfl, zpow_natCast, show (15 : ℕ) = 9 + 6 from rfl, pow_add, ← mul_assoc, ← mul_pow,
      mul_inv_cancel₀ sq2_ne_zero, inv_pow sq2 6, s6]; norm_num
  have zi : sq2⁻¹ ^ 6 = 1 / 8 := by rw [inv_pow, s6]; norm_num
  have e9 : ∀ t : ℂ, cPHI * sq2 ^ (9 : ℤ) * ph (3/2) * sq2⁻¹ ^ 15 * t = cPHI * ph (3/2) * (1/8) * t := fun t => by
    rw [← z9]; ring
  rw [e9, z6, z4, z5, zi, ph_one, ph_half, ph_three_halves, quarter_eq, GLOBAL_eq]
  unfold cB60 cB66 cE6 cO6 cK6 cPHI
  interval_cases n <;> norm_num <;> ring_nf <;> simp only [s2, s3, s4, s5, s6, i2, i3, i4, i5, i6, i7, i8] <;> ring_nf <;>
    (try simp only [s2, s3, s4, s5, s6, i2, i3, i4, i5, i6, i7, i8]) <;> (try ring_nf)

open Graph ToGraph

theorem quarter_cancel (n : ℕ) : ph (-1/4) ^ n * ph (1/4) ^ n = 1 := by
  rw [← mul_pow, show (-1/4 : ℚ) = -(1/4) by norm_num, ph_neg_mul, one_pow]

/-- What the theorem on each number of replaced vertices gives. -/
def Splits (h : Graph) (n : ℕ) (vs : List ℕ) : Prop :=
  ∃ hs Φs, (functions n).mapM (fun f => f h vs) = some hs ∧ List.Forall₂ (fun h' Φ => Term h h' vs Φ) hs Φs ∧
    ∀ z, (Φs.map fun Φ => Φ z).sum = 1

theorem splits_one {h : Graph} (hw : h.WF) {v : ℕ} (hv : v ∈ h.verts ∧ h.ty v = .Z) : Splits h 1 [v] := by
  obtain ⟨⟨g1, e1, t1⟩, g2, e2, t2⟩ := one_terms hw hv
  refine ⟨[g1, g2], _, ?_, .cons t1 (.cons t2 .nil), fun z => ?_⟩
  · show [replace10, replace11].mapM _ = _
    simp only [List.mapM_cons, List.mapM_nil, e1, e2]
    rfl
  · simp only [List.map_cons, List.map_nil, List.sum_cons, List.sum_nil, Fintype.sum_bool, hmat]
    have hc := quarter_cancel 1
    simp only [pow_one] at hc
    have hs : sq2⁻¹ * sq2⁻¹ = 1/2 := by rw [← mul_inv, sq2_mul_self]; norm_num
    rw [zpow_neg_one]
    generalize ph (1/4) = a at hc ⊢
    generalize ph (-1/4) = b at hc ⊢
    cases z v
    · simp
      linear_combination 2 * hs
    · simp
      linear_combination 2 * a * b * hs + hc

theorem splits_two {h : Graph} (hw : h.WF) {v0 v1 : ℕ} (hn : [v0, v1].Nodup) (hv : ∀ v ∈ [v0, v1], v ∈ h.verts ∧ h.ty v = .Z) :
    Splits h 2 [v0, v1] := by
  obtain ⟨⟨g1, e1, t1⟩, g2, e2, t2⟩ := two_terms hw hn hv
  refine ⟨[g1, g2], _, ?_, .cons t1 (.cons t2 .nil), fun z => ?_⟩
  · show [replace2S, replace2N].mapM _ = _
    simp only [List.mapM_cons, List.mapM_nil, e1, e2]
    rfl
  · simp only [List.map_cons, List.map_nil, List.sum_cons, List.sum_nil, Fintype.sum_bool, hmat, dmat]
    have hc := quarter_cancel 1
    simp only [pow_one] at hc
    have hq : ph (1/4) * ph (1/4) = ph (1/2) := by rw [← ph_add]; norm_num
    have hs : sq2⁻¹ * sq2⁻¹ = 1/2 := by rw [← mul_inv, sq2_mul_self]; norm_num
    generalize ph (1/4) = a at hc hq ⊢
    generalize ph (-1/4) = b at hc ⊢
    generalize ph (1/2) = i at hq ⊢
    cases z v0 <;> cases z v1
    · simp
    · simp
      linear_combination 2 * a * b * hs + hc
    · simp
      linear_combination 2 * a * b * hs + hc
    · simp
      linear_combination (-(b * b)) * hq + (a * b + 1) * hc

theorem splits_six {h : Graph} (hw : h.WF) {v1 v2 v3 v4 v5 v6 : ℕ} (hn : [v1, v2, v3, v4, v5, v6].Nodup)
    (hv : ∀ v ∈ [v1, v2, v3, v4, v5, v6], v ∈ h.verts ∧ h.ty v = .Z) : Splits h 6 [v1, v2, v3, v4, v5, v6] := by
  obtain ⟨g1, e1, t1⟩ := b60_term hw hn hv
  obtain ⟨g2, e2, t2⟩ := b66_term hw hn hv
  obtain ⟨g3, e3, t3⟩ := e6_term hw hn hv
  obtain ⟨g4, e4, t4⟩ := o6_term hw hn hv
  obtain ⟨g5, e5, t5⟩ := k6_term hw hn hv
  obtain ⟨g6, e6, t6⟩ := phi1_term hw hn hv
  have hp : [v1, v2, v4, v5, v6, v3].Perm [v1, v2, v3, v4, v5, v6] := by
    refine .cons _ (.cons _ ?_)
    have := (List.perm_append_comm (l₁ := [v4, v5, v6]) (l₂ := [v3]))
    simpa using this
  obtain ⟨g7, e7, t7⟩ := phi1_term hw (hp.nodup_iff.mpr hn) (fun v hm => hv v (hp.subset hm))
  have t7' : Term h g7 [v1, v2, v3, v4, v5, v6] _ := ⟨t7.wf, t7.ins, t7.outs, ⟨t7.phs.verts, t7.phs.ty, t7.phs.newTy,
    fun v hm hnn => t7.phs.old v hm (fun hh => hnn (hp.subset hh)), fun v hm => t7.phs.chosen v (hp.symm.subset hm), t7.phs.new⟩, t7.sem⟩
  refine ⟨[addFloat g1 GLOBAL, addFloat g2 GLOBAL, addFloat g3 GLOBAL, addFloat g4 GLOBAL, addFloat g5 GLOBAL, addFloat g6 GLOBAL,
      addFloat g7 GLOBAL], _, ?_, .cons (t1.float _) (.cons (t2.float _) (.cons (t3.float _) (.cons (t4.float _) (.cons (t5.float _)
      (.cons (t6.float _) (.cons (t7'.float _) .nil)))))), fun z => ?_⟩
  · have e7' : replacePhi2 h [v1, v2, v3, v4, v5, v6] = some g7 := e7
    show ([replaceB60, replaceB66, replaceE6, replaceO6, replaceK6, replacePhi1, replacePhi2].map fun f g vs => (f g vs).map (addFloat · GLOBAL)).mapM _ = _
    simp only [List.map_cons, List.map_nil, List.mapM_cons, List.mapM_nil, e1, e2, e3, e4, e5, e6, e7']
    rfl
  · simp only [List.map_cons, List.map_nil, List.sum_cons, List.sum_nil]
    generalize z v1 = y1
    generalize z v2 = y2
    generalize z v3 = y3
    generalize z v4 = y4
    generalize z v5 = y5
    generalize z v6 = y6
    have p1 := prod_sh [y1, y2, y3, y4, y5, y6]
    have p2 := prod_pow (ph 1) [y1, y2, y3, y4, y5, y6]
    have p3 := prod_pow (ph (1/2)) [y1, y2, y3, y4, y5, y6]
    have p4 := fun c => prod_hmat c [y1, y2, y3, y4, y5, y6]
    have p5 := prod_dmat [y1, y2, y3, y4, y5, y6]
    have tab := phi_tab y1 y2 y3 y4 y5 y6
    have hle : cnt [y1, y2, y3, y4, y5, y6] ≤ 6 := List.count_le_length
    simp only [List.map_cons, List.map_nil, List.length_cons, List.length_nil] at p1 p2 p3 p4 p5
    rw [p1, p2, p3]
    simp only [Fintype.sum_bool, p4, p5, phiF_eq]
    have hsh : sh y1 * sh y2 * sh y3 * sh y4 * sh y5 * sh y6 = ph (-1/4) ^ cnt [y1, y2, y3, y4, y5, y6] := by
      rw [← p1]; unfold sh; simp only [List.prod_cons, List.prod_nil]; ring
    have hsh' : sh y1 * sh y2 * sh y4 * sh y5 * sh y6 * sh y3 = ph (-1/4) ^ cnt [y1, y2, y3, y4, y5, y6] := by
      rw [← hsh]; ring
    rw [hsh, hsh']
    generalize cnt [y1, y2, y3, y4, y5, y6] = n at tab hle ⊢
    have id := six_id n hle
    rw [← tab] at id
    push_cast at id
    have hc := quarter_cancel n
    have z0 : (ph 0 : ℂ) = 1 := ph_zero
    have z1 : (ph 1 : ℂ) = -1 := ph_one
    simp only [if_true, Bool.false_eq_true, if_false, z0, z1, Nat.zero_add] at id ⊢
    generalize sq2 ^ (4 : ℤ) = s4 at id ⊢
    generalize sq2 ^ (5 : ℤ) = s5 at id ⊢
    generalize sq2 ^ (9 : ℤ) = s9 at id ⊢
    generalize sq2 ^ (-6 : ℤ) = s6 at id ⊢
    generalize sq2⁻¹ = s at id ⊢
    generalize ph (1/2) = i at id ⊢
    generalize ph (3/2) = i3 at id ⊢
    generalize ph (1/4) = a at id hc ⊢
    generalize ph (-1/4) = b at id hc ⊢
    linear_combination b ^ n * id + hc

theorem splits_of {h : Graph} (hw : h.WF) {n : ℕ} {vs : List ℕ} (hn : vs.Nodup) (hv : ∀ v ∈ vs, v ∈ h.verts ∧ h.ty v = .Z)
    (hl : vs.length = n) (h6 : n = 6 ∨ n = 2 ∨ n = 1) : Splits h n vs := by
  rcases h6 with rfl | rfl | rfl
  · obtain ⟨v1, v2, v3, v4, v5, v6, rfl⟩ : ∃ v1 v2 v3 v4 v5 v6, vs = [v1, v2, v3, v4, v5, v6] := by
      match vs, hl with
      | [v1, v2, v3, v4, v5, v6], _ => exact ⟨v1, v2, v3, v4, v5, v6, rfl⟩
    exact splits_six hw hn hv
  · obtain ⟨v0, v1, rfl⟩ := List.length_eq_two.mp hl
    exact splits_two hw hn hv
  · obtain ⟨v0, rfl⟩ := List.length_eq_one_iff.mp hl
    exact splits_one hw (hv v0 (by simp))

theorem sum_opn (h : Graph) (hw : h.WF) (b : ℕ → Bool) {hs : List Graph} {vs : List ℕ} {Φs : List ((ℕ → Bool) → ℂ)}
    (ht : List.Forall₂ (fun h' Φ => Term h h' vs Φ) hs Φs) : (hs.map fun h' => h'.sem b).sum = opn h (fun z => (Φs.map fun Φ => Φ z).sum) b := by
  induction ht with
  | nil =>
    simp only [List.map_nil, List.sum_nil]
    have := opn_mul h 0 (fun _ => 1) b
    simp only [zero_mul] at this
    exact this.symm
  | cons t _ ih =>
    simp only [List.map_cons, List.sum_cons]
    rw [opn_add, t.sem, ih]

theorem opn_one {h : Graph} (hw : h.WF) (b : ℕ → Bool) : opn h (fun _ => 1) b = h.sem b := by
  rw [sem_eq_wH hw.toInv (noW_of_wf hw)]
  unfold opn
  exact psum_congr fun z _ => by rw [mul_one]

/-- Non-Clifford vertices of a term. -/
theorem Phs.tcount {g g' : Graph} {vs : List ℕ} (h : Phs g g' vs) (hn : vs.Nodup) (hv : ∀ v ∈ vs, v ∈ g.verts ∧ (g.phase v).den = 4) :
    (g'.verts.filter fun v => 2 < (g'.phase v).den).card + vs.length = (g.verts.filter fun v => 2 < (g.phase v).den).card := by
  have half : ∀ k : ℤ, ¬ 2 < ((k : ℚ) / 2).den := by
    intro k
    have h1 : ((k : ℚ) / 2).den ∣ 2 := by
      have := Rat.den_dvd k 2
      rw [Rat.divInt_eq_div] at this
      exact_mod_cast this
    have := Nat.le_of_dvd (by norm_num) h1
    omega
  have quart : ∀ q : ℚ, q.den = 4 → ∃ k : ℤ, q - 1/4 = k / 2 := by
    intro q hq
    have h1 : q = q.num / 4 := by
      have := Rat.num_div_den q
      rw [hq] at this
      exact_mod_cast this.symm
    have h2 : q.num % 2 = 1 := by
      have hc := q.reduced
      rw [hq] at hc
      by_contra hne
      have h3 : q.num % 2 = 0 := by omega
      have h4 : 2 ∣ q.num.natAbs := by omega
      have := Nat.dvd_gcd h4 (show 2 ∣ 4 by norm_num)
      rw [hc] at this
      norm_num at this
    refine ⟨q.num / 2, ?_⟩
    have h5 : q.num = 2 * (q.num / 2) + 1 := by omega
    have h6 : (q.num : ℚ) = 2 * ((q.num / 2 : ℤ) : ℚ) + 1 := by exact_mod_cast h5
    linear_combination h1 + (1/4) * h6
  have e : g'.verts.filter (fun v => 2 < (g'.phase v).den) = (g.verts.filter fun v => 2 < (g.phase v).den) \ vs.toFinset := by
    ext u
    simp only [Finset.mem_filter, Finset.mem_sdiff, List.mem_toFinset]
    constructor
    · rintro ⟨h1, h2⟩
      by_cases hg : u ∈ g.verts
      · by_cases hu : u ∈ vs
        · obtain ⟨k, hk⟩ := h.chosen u hu
          obtain ⟨j, hj⟩ := quart _ (hv u hu).2
          rw [hk, hj, ← add_div, ← Int.cast_add] at h2
          exact absurd h2 (half _)
        · rw [h.old u hg hu] at h2
          exact ⟨⟨hg, h2⟩, hu⟩
      · obtain ⟨k, hk⟩ := h.new u h1 hg
        rw [hk] at h2
        exact absurd h2 (half _)
    · rintro ⟨⟨h1, h2⟩, h3⟩
      exact ⟨h.verts h1, by rw [h.old u h1 h3]; exact h2⟩
  have hsub : vs.toFinset ⊆ g.verts.filter fun v => 2 < (g.phase v).den := fun u hu => by
    rw [List.mem_toFinset] at hu
    rw [Finset.mem_filter, (hv u hu).2]
    exact ⟨(hv u hu).1, by norm_num⟩
  rw [e, ← List.toFinset_card_of_nodup hn]
  exact Finset.card_sdiff_add_card_eq_card hsub

end Magic
end PyZX
