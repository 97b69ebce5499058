import Mathlib.Analysis.Real.Pi.Irrational
import Verif.Model.Isolated
import Verif.Spec.Isolated
import Verif.Spec.UpTo
import Verif.Proofs.Replace

/-!
# Removal of isolated vertices: proofs
-/

namespace PyZX
open Finset

namespace Scalar

theorem ph_eq_cos (p : ℚ) : ph p + ph (-p) = 2 * ((Real.cos (Real.pi * p) : ℝ) : ℂ) := by
  unfold ph
  rw [Complex.ofReal_cos, Complex.cos]
  push_cast
  rw [mul_div_cancel₀ _ (two_ne_zero)]
  congr 1 <;> congr 1 <;> ring

theorem cos_rat_ne_zero (p : ℚ) : Real.cos (p : ℝ) ≠ 0 := by
  intro h
  rw [Real.cos_eq_zero_iff] at h
  obtain ⟨k, hk⟩ := h
  have h2 : (2 * (k : ℝ) + 1) ≠ 0 := by
    have : (2 * k + 1 : ℤ) ≠ 0 := by omega
    exact_mod_cast this
  have : Real.pi = ((2 * p / (2 * k + 1) : ℚ) : ℝ) := by
    push_cast
    rw [eq_div_iff h2, hk]
    ring
  exact irrational_pi ⟨_, this.symm⟩

theorem cos_pi_rat_ne_zero {p : ℚ} (h : p.den ≠ 2) : Real.cos (Real.pi * p) ≠ 0 := by
  intro h0
  rw [Real.cos_eq_zero_iff] at h0
  obtain ⟨k, hk⟩ := h0
  have hpi := Real.pi_ne_zero
  have h1 : (p : ℝ) = (2 * k + 1) / 2 := by
    have : Real.pi * (p : ℝ) = Real.pi * ((2 * k + 1) / 2) := by rw [hk]; ring
    exact mul_left_cancel₀ hpi this
  have h2 : p = ((2 * k + 1 : ℤ) : ℚ) / ((2 : ℤ) : ℚ) := by
    have : (p : ℝ) = (((2 * k + 1 : ℤ) : ℚ) / ((2 : ℤ) : ℚ) : ℚ) := by rw [h1]; push_cast; ring
    exact_mod_cast this
  apply h
  rw [h2]
  have := Rat.den_div_eq_of_coprime (a := 2 * k + 1) (b := 2) (by norm_num) (by
    have h3 : (2 * k + 1).natAbs % 2 = 1 := by omega
    rw [Nat.coprime_comm]
    show Nat.Coprime 2 _
    rw [Nat.Prime.coprime_iff_not_dvd Nat.prime_two]
    omega)
  exact_mod_cast this

theorem pairValue_cos {p1 p2 : ℚ} (h : mod2 (p1 + p2) = 0) : pairValue p1 p2 = sq2 * ((Real.cos (Real.pi * p1) : ℝ) : ℂ) := by
  rw [pairValue_cancel h, ph_eq_cos, sq2_inv]
  ring

/-- `add_spider_pair` is right up to a factor that is not zero, and exactly right outside of the wrong branch. -/
theorem addSpiderPair_upTo (s : Scalar) {p1 p2 : ℚ} (h10 : 0 ≤ p1) (h12 : p1 < 2) (h20 : 0 ≤ p2) (h22 : p2 < 2) :
    ∃ c : ℂ, c ≠ 0 ∧ (¬ cosBranch p1 p2 → c = 1) ∧ (s.addSpiderPair p1 p2).toNumber = c * (s.toNumber * pairValue p1 p2) := by
  by_cases hc : cosBranch p1 p2
  · obtain ⟨a, b, c, d, e, f, hm, h4⟩ := hc
    have n1 := cos_rat_ne_zero p1
    have n2 := cos_pi_rat_ne_zero e
    refine ⟨((Real.cos p1 / Real.cos (Real.pi * p1) : ℝ) : ℂ), ?_, ?_, ?_⟩
    · exact_mod_cast div_ne_zero n1 n2
    · exact fun h => absurd ⟨a, b, c, d, e, f, hm, h4⟩ h
    · have hq : ¬ (p2 = 0 ∨ p2 = 1) := by tauto
      have x1 : p1 ≠ 1 / 2 := by rintro rfl; norm_num at e
      have x2 : p1 ≠ 3 / 2 := by
        rintro rfl
        apply e
        rw [show (3 / 2 : ℚ) = mkRat 3 2 by norm_num [Rat.mkRat_eq_div]]
        rfl
      unfold addSpiderPair
      rw [if_neg hq]
      simp only
      rw [if_neg a, if_neg b, if_neg f]
      unfold addSpiderPairTail
      rw [if_neg x1, if_neg x2, if_pos hm, if_neg h4, addFloat_toNumber, addPower_toNumber, zpow_one, pairValue_cos hm]
      push_cast
      have n2' : ((Real.cos (Real.pi * p1) : ℝ) : ℂ) ≠ 0 := by exact_mod_cast n2
      have e1 : Complex.cos (Real.pi * p1) = ((Real.cos (Real.pi * p1) : ℝ) : ℂ) := by push_cast; rfl
      rw [e1]
      field_simp
  · exact ⟨1, one_ne_zero, fun _ => rfl, by rw [one_mul]; exact addSpiderPair_toNumber_partial s h10 h12 h20 h22 hc⟩

end Scalar

namespace Graph

theorem wOn_scalar (g : Graph) (s : Scalar) (S : Finset ℕ) (x : ℕ → Bool) :
    ({ g with scalar := s } : Graph).wOn S x = s.toNumber * ((∏ v ∈ S, g.vwt v (x v)) * pairProd S (g.edgeK x)) := rfl

/-- Weight without the scalar. -/
noncomputable def coreW (g : Graph) (S : Finset ℕ) (x : ℕ → Bool) : ℂ := (∏ v ∈ S, g.vwt v (x v)) * pairProd S (g.edgeK x)

theorem coreW_erase {g : Graph} (hg : ∀ u v, g.adj u v = g.adj v u) {S : Finset ℕ} {v : ℕ} (hv : v ∈ S) (x : ℕ → Bool) :
    g.coreW S x = g.vwt v (x v) * (∏ w ∈ S.erase v, g.edgeK x v w) * g.coreW (S.erase v) x := by
  unfold coreW
  conv_lhs => rw [← Finset.insert_erase hv]
  rw [Finset.prod_insert (Finset.notMem_erase v S), pairProd_insert (Finset.notMem_erase v S) (edgeK_comm hg x)]
  ring

theorem coreW_update {g : Graph} {S : Finset ℕ} {v : ℕ} (hv : v ∉ S) (x : ℕ → Bool) (c : Bool) :
    g.coreW S (Function.update x v c) = g.coreW S x := by
  have := wOn_congr_env (g := { g with scalar := Scalar.new }) (S := S) (x := Function.update x v c) (y := x) (fun w hw => by
    rw [Function.update_of_ne]; rintro rfl; exact hv hw)
  have e : ∀ y, ({ g with scalar := Scalar.new } : Graph).wOn S y = Scalar.new.toNumber * g.coreW S y := fun y => rfl
  rw [e, e] at this
  rwa [Scalar.new_toNumber, one_mul, one_mul] at this

/-- Sum out an isolated vertex. -/
theorem sumOut_single {g : Graph} (hg : ∀ u v, g.adj u v = g.adj v u) {V R : Finset ℕ} {v : ℕ} (hv : v ∈ V) (hR : v ∉ R)
    (hn : ∀ w, g.adj v w = none) {t c : ℂ} {f : (ℕ → Bool) → ℂ}
    (h : ∀ x, t * g.coreW (V \ R) x = c * psum R f x) (x : ℕ → Bool) :
    t * (1 + g.vval v) * g.coreW (V \ insert v R) x = c * psum (insert v R) f x := by
  have hS : V \ insert v R = (V \ R).erase v := by
    ext u; simp only [mem_sdiff, mem_insert, mem_erase]; tauto
  have hvS : v ∈ V \ R := mem_sdiff.mpr ⟨hv, hR⟩
  have key : ∀ b, g.coreW (V \ R) (Function.update x v b) = g.vwt v b * g.coreW ((V \ R).erase v) x := by
    intro b
    rw [coreW_erase hg hvS, Function.update_self, coreW_update (notMem_erase _ _),
      Finset.prod_eq_one (fun w _ => edgeK_none (hn w)), mul_one]
  have h0 := h (Function.update x v false)
  have h1 := h (Function.update x v true)
  rw [key] at h0 h1
  simp only [vwt, if_true, Bool.false_eq_true, if_false] at h0 h1
  rw [psum_insert_env hR, hS]
  linear_combination h0 + h1

/-- Sum out an isolated pair. -/
theorem sumOut_pair {g : Graph} (hg : ∀ u v, g.adj u v = g.adj v u) {V R : Finset ℕ} {v w : ℕ} {e : EType} (hv : v ∈ V) (hw : w ∈ V)
    (hvw : v ≠ w) (hRv : v ∉ R) (hRw : w ∉ R) (he : g.adj v w = some e)
    (hnv : ∀ u, u ≠ w → g.adj v u = none) (hnw : ∀ u, u ≠ v → g.adj w u = none) {t c : ℂ} {f : (ℕ → Bool) → ℂ}
    (h : ∀ x, t * g.coreW (V \ R) x = c * psum R f x) (x : ℕ → Bool) :
    t * (kern (g.eff v w e) false false + g.vval v * kern (g.eff v w e) true false + g.vval w * kern (g.eff v w e) false true +
      g.vval v * g.vval w * kern (g.eff v w e) true true) * g.coreW (V \ insert v (insert w R)) x = c * psum (insert v (insert w R)) f x := by
  have hS : V \ insert v (insert w R) = ((V \ R).erase v).erase w := by
    ext u; simp only [mem_sdiff, mem_insert, mem_erase]; tauto
  have hvS : v ∈ V \ R := mem_sdiff.mpr ⟨hv, hRv⟩
  have hwS : w ∈ (V \ R).erase v := mem_erase.mpr ⟨hvw.symm, mem_sdiff.mpr ⟨hw, hRw⟩⟩
  have key : ∀ a b, g.coreW (V \ R) (Function.update (Function.update x v a) w b) =
      g.vwt v a * g.vwt w b * kern (g.eff v w e) a b * g.coreW (((V \ R).erase v).erase w) x := by
    intro a b
    rw [coreW_erase hg hvS, ← Finset.mul_prod_erase _ _ hwS, coreW_erase hg hwS, coreW_update (notMem_erase _ _),
      coreW_update (by simp), Finset.prod_eq_one (fun u hu => edgeK_none (hnv u (ne_of_mem_erase hu))),
      Finset.prod_eq_one (fun u hu => edgeK_none (hnw u (ne_of_mem_erase (mem_of_mem_erase hu)))), edgeK_some he,
      Function.update_self, Function.update_of_ne hvw, Function.update_self]
    ring
  have h00 := h (Function.update (Function.update x v false) w false)
  have h01 := h (Function.update (Function.update x v false) w true)
  have h10 := h (Function.update (Function.update x v true) w false)
  have h11 := h (Function.update (Function.update x v true) w true)
  rw [key] at h00 h01 h10 h11
  simp only [vwt, if_true, Bool.false_eq_true, if_false] at h00 h01 h10 h11
  rw [psum_insert_env (by simp [hvw, hRv]), psum_insert_env hRw, psum_insert_env hRw, hS]
  linear_combination h00 + h01 + h10 + h11

theorem IsoPair.adj {g : Graph} (hg : g.Inv) {v w : ℕ} (h : g.IsoPair v w) :
    (∃ e, g.adj v w = some e) ∧ v ≠ w ∧ (∀ u, u ≠ w → g.adj v u = none) ∧ (∀ u, u ≠ v → g.adj w u = none) := by
  obtain ⟨-, -, h1, h2, -, -⟩ := h
  have h3 : g.adj v w ≠ none := (mem_nbrs hg).mp (by rw [h1]; simp)
  refine ⟨Option.ne_none_iff_exists'.mp h3, ?_, fun u hu => ?_, fun u hu => ?_⟩
  · rintro rfl
    exact h3 (hg.loopless v)
  · by_contra h4
    have := (mem_nbrs hg).mpr h4
    rw [h1] at this
    exact hu (by simpa using this)
  · by_contra h4
    have := (mem_nbrs hg).mpr h4
    rw [h2] at this
    exact hu (by simpa using this)

theorem IsoPair.symm {g : Graph} {v w : ℕ} (h : g.IsoPair v w) : g.IsoPair w v :=
  ⟨h.2.1, h.1, h.2.2.2.1, h.2.2.1, h.2.2.2.2.2, h.2.2.2.2.1⟩

theorem IsoPair.isolated {g : Graph} {v w : ℕ} (h : g.IsoPair v w) : g.Isolated v := ⟨h.1, Or.inr ⟨w, h⟩⟩

/-- The number recorded for an isolated pair. -/
theorem isoPairScalar_value {g : Graph} (hg : g.WF) (s : Scalar) {v w : ℕ} (h : g.IsoPair v w) {e : EType} (he : g.adj v w = some e)
    (hv : g.ty v = .Z ∨ g.ty v = .X) (hw : g.ty w = .Z ∨ g.ty w = .X)
    (rv : 0 ≤ g.phase v ∧ g.phase v < 2) (rw' : 0 ≤ g.phase w ∧ g.phase w < 2) :
    ∃ c : ℂ, c ≠ 0 ∧ (g.IsoBranch → c = 1) ∧ (g.isoPairScalar s v w).toNumber = c * (s.toNumber *
      (kern (g.eff v w e) false false + g.vval v * kern (g.eff v w e) true false + g.vval w * kern (g.eff v w e) false true +
      g.vval v * g.vval w * kern (g.eff v w e) true true)) := by
  have vv : g.vval v = ph (g.phase v) := by unfold vval; rcases hv with h | h <;> rw [h]
  have vw : g.vval w = ph (g.phase w) := by unfold vval; rcases hw with h | h <;> rw [h]
  have A : g.eff v w e = false → ∃ c : ℂ, c ≠ 0 ∧ (g.IsoBranch → c = 1) ∧ (s.addNode (g.phase v + g.phase w)).toNumber = c * (s.toNumber *
      (kern (g.eff v w e) false false + g.vval v * kern (g.eff v w e) true false + g.vval w * kern (g.eff v w e) false true +
      g.vval v * g.vval w * kern (g.eff v w e) true true)) := by
    intro hf
    refine ⟨1, one_ne_zero, fun _ => rfl, ?_⟩
    rw [hf, vv, vw, Scalar.addNode_toNumber, ph_add]
    simp [kern, dmat]
  have B : g.eff v w e = true → g.HadLike v w → ∃ c : ℂ, c ≠ 0 ∧ (g.IsoBranch → c = 1) ∧
      (s.addSpiderPair (g.phase v) (g.phase w)).toNumber = c * (s.toNumber *
      (kern (g.eff v w e) false false + g.vval v * kern (g.eff v w e) true false + g.vval w * kern (g.eff v w e) false true +
      g.vval v * g.vval w * kern (g.eff v w e) true true)) := by
    intro hf hl
    obtain ⟨c, hc, h1, h2⟩ := Scalar.addSpiderPair_upTo s rv.1 rv.2 rw'.1 rw'.2
    refine ⟨c, hc, fun hb => h1 (hb v w h hl), ?_⟩
    rw [h2, hf, vv, vw, Scalar.pairValue_eq, ph_add]
    simp only [kern, hmat, if_true, Bool.and_true, Bool.and_false, Bool.false_eq_true, if_false, Bool.and_self]
    ring
  have he' : e = .simple ∨ e = .had := by
    rcases e with _ | _ | _
    · exact Or.inl rfl
    · exact Or.inr rfl
    · exact absurd he (hg.noWio v w)
  unfold isoPairScalar
  rcases hv with hv | hv <;> rcases hw with hw | hw <;> rcases he' with rfl | rfl <;>
    simp only [hv, hw, he, isoTy, if_true, if_false, reduceCtorEq, Option.some.injEq] <;>
    first
    | exact A (by simp [eff, isX, hv, hw])
    | exact B (by simp [eff, isX, hv, hw]) (by simp [HadLike, hv, hw, he])

/-- Invariant of the loop after the vertices `done` have been visited. -/
structure IsoInv (g : Graph) (done : List ℕ) (s : Scalar × List ℕ) : Prop where
  nodup : s.2.Nodup
  iso : ∀ v ∈ s.2, g.Isolated v ∧ g.ty v ≠ .boundary
  closed : ∀ v ∈ s.2, ∀ w, g.IsoPair v w → w ∈ s.2
  zero : ∀ v ∈ s.2, g.nbrs v = ∅ → v ∈ done
  all : ∀ v ∈ done, g.Isolated v → v ∈ s.2
  sum : ∃ c : ℂ, c ≠ 0 ∧ (g.IsoBranch → c = 1) ∧
    ∀ x, s.1.toNumber * g.coreW (g.verts \ s.2.toFinset) x = c * psum s.2.toFinset g.weight x

theorem isoInv_nil (g : Graph) : IsoInv g [] (g.scalar, []) := by
  refine ⟨by simp, by simp, by simp, by simp, by simp, 1, one_ne_zero, fun _ => rfl, fun x => ?_⟩
  simp [coreW, weight]

theorem isoStep_inv {g : Graph} (hg : g.WF) (hok : g.IsoOK) {ord : ℕ → List ℕ} (ho : Rules.NbrOrder g ord) {done : List ℕ}
    {s : Scalar × List ℕ} (hs : IsoInv g done s) {v : ℕ} (hv : v ∈ g.verts) (hd : v ∉ done) :
    ∃ s', g.isoStep ord s v = some s' ∧ IsoInv g (done ++ [v]) s' := by
  have skip : ¬ (g.Isolated v ∧ v ∉ s.2) → IsoInv g (done ++ [v]) s := by
    intro h
    refine ⟨hs.nodup, hs.iso, hs.closed, fun u hu h0 => List.mem_append_left _ (hs.zero u hu h0), fun u hu hi => ?_, hs.sum⟩
    rcases List.mem_append.mp hu with hu | hu
    · exact hs.all u hu hi
    · rw [List.mem_singleton] at hu
      rw [hu] at hi ⊢
      by_contra h'
      exact h ⟨hi, h'⟩
  unfold isoStep
  by_cases h0 : g.degree v = 0
  · rw [if_pos h0]
    have hn : g.nbrs v = ∅ := Finset.card_eq_zero.mp h0
    have hi : g.Isolated v := ⟨hv, Or.inl hn⟩
    have hb : g.ty v ≠ .boundary := fun h => hok.boundary v hv h hn
    have hh : g.ty v ≠ .hbox := by rcases hok.zx v hi with h | h <;> rw [h] <;> decide
    have hvr : v ∉ s.2 := fun h => hd (hs.zero v h hn)
    rw [if_neg hb, if_neg hh]
    refine ⟨_, rfl, ?_⟩
    obtain ⟨c, hc, hc1, hsum⟩ := hs.sum
    refine ⟨?_, ?_, ?_, ?_, ?_, c, hc, hc1, fun x => ?_⟩
    · exact List.nodup_append.mpr ⟨hs.nodup, by simp, by simp; rintro a ha rfl; exact hvr ha⟩
    · intro u hu
      rcases List.mem_append.mp hu with hu | hu
      · exact hs.iso u hu
      · rw [List.mem_singleton] at hu
        rw [hu]
        exact ⟨hi, hb⟩
    · intro u hu w hw
      rcases List.mem_append.mp hu with hu | hu
      · exact List.mem_append_left _ (hs.closed u hu w hw)
      · rw [List.mem_singleton] at hu
        have h3 := hw.2.2.1
        rw [hu, hn] at h3
        exact absurd h3.symm (Finset.singleton_ne_empty w)
    · intro u hu h3
      rcases List.mem_append.mp hu with hu | hu
      · exact List.mem_append_left _ (hs.zero u hu h3)
      · exact List.mem_append_right _ hu
    · intro u hu h3
      rcases List.mem_append.mp hu with hu | hu
      · exact List.mem_append_left _ (hs.all u hu h3)
      · exact List.mem_append_right _ hu
    · have e1 : (s.2 ++ [v]).toFinset = insert v s.2.toFinset := by ext u; simp
      have e2 : g.vval v = ph (g.phase v) := by unfold vval; rcases hok.zx v hi with h | h <;> rw [h]
      show (s.1.addNode (g.phase v)).toNumber * _ = _
      rw [Scalar.addNode_toNumber, e1, ← e2]
      refine sumOut_single hg.symm hv (by simpa using hvr) (fun w => ?_) hsum x
      by_contra h4
      have := (mem_nbrs hg.toInv).mpr h4
      rw [hn] at this
      simp at this
  · rw [if_neg h0]
    by_cases h1 : g.degree v = 1
    · rw [if_pos h1]
      by_cases hvr : v ∈ s.2
      · rw [if_pos hvr]
        exact ⟨s, rfl, skip fun h => h.2 hvr⟩
      · rw [if_neg hvr]
        by_cases hb : g.ty v = .boundary
        · rw [if_pos hb]
          refine ⟨s, rfl, skip ?_⟩
          rintro ⟨⟨-, h | ⟨w, h⟩⟩, -⟩
          · exact h0 (by unfold degree; rw [h]; rfl)
          · exact h.2.2.2.2.1 hb
        · rw [if_neg hb]
          obtain ⟨w, hw⟩ := Finset.card_eq_one.mp h1
          obtain ⟨o1, o2⟩ := ho v hv
          have hov : ord v = [w] := by
            have h3 : (ord v).length = 1 := by rw [← List.toFinset_card_of_nodup o1, o2]; exact h1
            obtain ⟨a, ha⟩ := List.length_eq_one_iff.mp h3
            rw [ha, hw] at o2
            rw [ha]
            simpa using o2
          have hwv : g.adj v w ≠ none := (mem_nbrs hg.toInv).mp (by rw [hw]; simp)
          have hwV : w ∈ g.verts := (Finset.mem_filter.mp (show w ∈ g.nbrs v by rw [hw]; simp)).1
          have hvw : v ∈ g.nbrs w := (mem_nbrs hg.toInv).mpr (by rw [hg.symm]; exact hwv)
          obtain ⟨p1, p2⟩ := ho w hwV
          have hlen : (ord w).length = (g.nbrs w).card := by rw [← List.toFinset_card_of_nodup p1, p2]
          rw [hov]
          simp only [List.head?_cons]
          by_cases h2 : (ord w).length > 1
          · rw [if_pos h2]
            refine ⟨s, rfl, skip ?_⟩
            rintro ⟨⟨-, h | ⟨u, h⟩⟩, -⟩
            · exact h0 (by unfold degree; rw [h]; rfl)
            · have : u = w := by have := h.2.2.1; rw [hw] at this; exact (Finset.singleton_injective this).symm
              rw [this] at h
              rw [hlen, h.2.2.2.1] at h2
              simp at h2
          · rw [if_neg h2]
            by_cases hbw : g.ty w = .boundary
            · rw [if_pos hbw]
              refine ⟨s, rfl, skip ?_⟩
              rintro ⟨⟨-, h | ⟨u, h⟩⟩, -⟩
              · exact h0 (by unfold degree; rw [h]; rfl)
              · have : u = w := by have := h.2.2.1; rw [hw] at this; exact (Finset.singleton_injective this).symm
                rw [this] at h
                exact h.2.2.2.2.2 hbw
            · rw [if_neg hbw]
              have hnw : g.nbrs w = {v} := by
                rw [hlen] at h2
                have h3 : (g.nbrs w).card = 1 := by
                  have := Finset.card_pos.mpr ⟨v, hvw⟩
                  omega
                obtain ⟨a, ha⟩ := Finset.card_eq_one.mp h3
                rw [ha] at hvw ⊢
                rw [Finset.mem_singleton.mp hvw]
              have hp : g.IsoPair v w := ⟨hv, hwV, hw, hnw, hb, hbw⟩
              obtain ⟨⟨e, he⟩, hne, n1, n2⟩ := hp.adj hg.toInv
              have hwr : w ∉ s.2 := fun h => hvr (hs.closed w h v hp.symm)
              refine ⟨_, rfl, ?_⟩
              obtain ⟨c, hc, hc1, hsum⟩ := hs.sum
              obtain ⟨d, hd0, hd1, hd2⟩ := isoPairScalar_value hg s.1 hp he (hok.zx v hp.isolated) (hok.zx w hp.symm.isolated)
                (hok.reduced v hp.isolated) (hok.reduced w hp.symm.isolated)
              refine ⟨?_, ?_, ?_, ?_, ?_, d * c, mul_ne_zero hd0 hc, fun hb => by rw [hd1 hb, hc1 hb, one_mul], fun x => ?_⟩
              · refine List.nodup_append.mpr ⟨hs.nodup, by simp [hne], ?_⟩
                intro a ha b hb'
                rintro rfl
                simp only [List.mem_cons, List.not_mem_nil, or_false] at hb'
                rcases hb' with h | h
                · exact hvr (h ▸ ha)
                · exact hwr (h ▸ ha)
              · intro u hu
                rcases List.mem_append.mp hu with hu | hu
                · exact hs.iso u hu
                · simp only [List.mem_cons, List.not_mem_nil, or_false] at hu
                  rcases hu with h | h <;> rw [h]
                  · exact ⟨hp.isolated, hb⟩
                  · exact ⟨hp.symm.isolated, hbw⟩
              · intro u hu z hz
                rcases List.mem_append.mp hu with hu | hu
                · exact List.mem_append_left _ (hs.closed u hu z hz)
                · refine List.mem_append_right _ ?_
                  have h3 := hz.2.2.1
                  simp only [List.mem_cons, List.not_mem_nil, or_false] at hu ⊢
                  rcases hu with h | h <;> rw [h] at h3
                  · rw [hw] at h3; exact Or.inr (Finset.singleton_injective h3).symm
                  · rw [hnw] at h3; exact Or.inl (Finset.singleton_injective h3).symm
              · intro u hu h3
                rcases List.mem_append.mp hu with hu | hu
                · exact List.mem_append_left _ (hs.zero u hu h3)
                · simp only [List.mem_cons, List.not_mem_nil, or_false] at hu
                  rcases hu with h | h <;> rw [h] at h3
                  · rw [hw] at h3; exact absurd h3 (Finset.singleton_ne_empty _)
                  · rw [hnw] at h3; exact absurd h3 (Finset.singleton_ne_empty _)
              · intro u hu h3
                rcases List.mem_append.mp hu with hu | hu
                · exact List.mem_append_left _ (hs.all u hu h3)
                · refine List.mem_append_right _ ?_
                  rw [List.mem_singleton] at hu
                  simp [hu]
              · have e1 : (s.2 ++ [v, w]).toFinset = insert v (insert w s.2.toFinset) := by
                  ext u; simp only [List.mem_toFinset, List.mem_append, List.mem_cons, List.not_mem_nil, or_false, Finset.mem_insert]; tauto
                show (g.isoPairScalar s.1 v w).toNumber * _ = _
                have := sumOut_pair hg.symm hv hwV hne (by simpa using hvr) (by simpa using hwr) he n1 n2 hsum x
                rw [hd2, e1]
                linear_combination d * this
    · rw [if_neg h1]
      refine ⟨s, rfl, skip ?_⟩
      rintro ⟨⟨-, h | ⟨u, h⟩⟩, -⟩
      · exact h0 (by unfold degree; rw [h]; rfl)
      · exact h1 (by unfold degree; rw [h.2.2.1]; rfl)

theorem isoFold {g : Graph} (hg : g.WF) (hok : g.IsoOK) {ord : ℕ → List ℕ} (ho : Rules.NbrOrder g ord) (vs : List ℕ) :
    ∀ (done : List ℕ) (s : Scalar × List ℕ), IsoInv g done s → (done ++ vs).Nodup → (∀ v ∈ vs, v ∈ g.verts) →
    ∃ s', vs.foldlM (g.isoStep ord) s = some s' ∧ IsoInv g (done ++ vs) s' := by
  induction vs with
  | nil => exact fun done s h _ _ => ⟨s, rfl, by simpa using h⟩
  | cons v vs ih =>
    intro done s h hn hv
    have hvd : v ∉ done := fun h' => (List.nodup_append.mp hn).2.2 v h' v (by simp) rfl
    obtain ⟨s1, e1, h1⟩ := isoStep_inv hg hok ho h (hv v (by simp)) hvd
    obtain ⟨s', e2, h2⟩ := ih (done ++ [v]) s1 h1 (by simpa using hn) (fun u hu => hv u (by simp [hu]))
    exact ⟨s', by rw [List.foldlM_cons, e1]; exact e2, by simpa using h2⟩

/-- The result of `remove_isolated_vertices`. -/
theorem removeIsolated_spec {g : Graph} (hg : g.WF) (hok : g.IsoOK) {ord : ℕ → List ℕ} (ho : Rules.NbrOrder g ord) {vs : List ℕ}
    (hn : vs.Nodup) (hvs : vs.toFinset = g.verts) :
    ∃ g', g.removeIsolated ord vs = some g' ∧ g'.WF ∧ g'.inputs = g.inputs ∧ g'.outputs = g.outputs ∧ g'.ty = g.ty ∧ g'.phase = g.phase ∧
      (∀ v, v ∈ g'.verts ↔ v ∈ g.verts ∧ ¬ g.Isolated v) ∧ (∀ a b, ¬ g.Isolated a → ¬ g.Isolated b → g'.adj a b = g.adj a b) ∧
      (∀ v, (v ∈ g'.verts ∧ g'.ty v = .boundary) ↔ (v ∈ g.verts ∧ g.ty v = .boundary)) ∧
      ∃ c : ℂ, c ≠ 0 ∧ (g.IsoBranch → c = 1) ∧ ∀ b, g'.sem b = c * g.sem b := by
  have hm : ∀ v, v ∈ vs ↔ v ∈ g.verts := fun v => by rw [← hvs, List.mem_toFinset]
  obtain ⟨s, e1, hs⟩ := isoFold hg hok ho vs [] _ (isoInv_nil g) (by simpa using hn) (fun v hv => (hm v).mp hv)
  rw [List.nil_append] at hs
  have hi0 : ({ g with scalar := s.1 } : Graph).Inv := hg.toInv.congr rfl rfl rfl rfl rfl rfl
  have hw0 : ({ g with scalar := s.1 } : Graph).WF := hg.congr hi0 rfl rfl rfl rfl rfl
  obtain ⟨g', e2⟩ := removeVertices_isSome hi0 hs.nodup (fun v hv => (hs.iso v hv).1.1)
  obtain ⟨hr, -, -, hw⟩ := removeVertices_spec e2
  have hmem : ∀ v, v ∈ s.2 ↔ g.Isolated v := fun v => ⟨fun h => (hs.iso v h).1, fun h => hs.all v ((hm v).mpr h.1) h⟩
  have hverts : ∀ v, v ∈ g'.verts ↔ v ∈ g.verts ∧ ¬ g.Isolated v := by
    intro v
    rw [hr.verts, Finset.mem_sdiff, List.mem_toFinset, hmem]
  have hnb : ∀ v, g.ty v = .boundary → v ∉ s.2 := fun v h h' => (hs.iso v h').2 h
  have hin : g'.inputs = g.inputs := by
    rw [hr.inputs]
    refine List.filter_eq_self.mpr fun v hv => ?_
    simpa using hnb v (hg.io v (Or.inl hv))
  have hout : g'.outputs = g.outputs := by
    rw [hr.outputs]
    refine List.filter_eq_self.mpr fun v hv => ?_
    simpa using hnb v (hg.io v (Or.inr hv))
  have hbd : ∀ v, (v ∈ g'.verts ∧ g'.ty v = .boundary) ↔ (v ∈ g.verts ∧ g.ty v = .boundary) := by
    intro v
    rw [hverts, hr.ty]
    constructor
    · exact fun h => ⟨h.1.1, h.2⟩
    · exact fun h => ⟨⟨h.1, fun hi => hnb v h.2 ((hmem v).mpr hi)⟩, h.2⟩
  have hwf := hw hw0
  refine ⟨g', ?_, hwf, hin, hout, hr.ty, hr.phase, hverts, ?_, hbd, ?_⟩
  · unfold removeIsolated
    rw [e1]
    exact e2
  · intro a b ha hb
    exact hr.adj a b (by rwa [List.mem_toFinset, hmem]) (by rwa [List.mem_toFinset, hmem])
  · obtain ⟨c, hc, hc1, hsum⟩ := hs.sum
    refine ⟨c, hc, hc1, fun b => ?_⟩
    rw [sem_eq_amp hwf, sem_eq_amp hg]
    have hR : s.2.toFinset ⊆ g.interior := by
      intro v hv
      rw [List.mem_toFinset] at hv
      exact Finset.mem_filter.mpr ⟨(hs.iso v hv).1.1, (hs.iso v hv).2⟩
    have hI : g.interior = g'.interior ∪ s.2.toFinset := by
      ext v
      rw [Finset.mem_union]
      unfold interior
      rw [Finset.mem_filter, Finset.mem_filter, hr.ty, hr.verts, Finset.mem_sdiff]
      constructor
      · rintro ⟨h1, h2⟩
        by_cases h3 : v ∈ s.2.toFinset
        · exact Or.inr h3
        · exact Or.inl ⟨⟨h1, h3⟩, h2⟩
      · rintro (h | h)
        · exact ⟨h.1.1, h.2⟩
        · exact Finset.mem_filter.mp (hR h)
    have hd : Disjoint g'.interior s.2.toFinset := by
      rw [Finset.disjoint_left]
      intro v h1 h2
      have := (Finset.mem_filter.mp h1).1
      rw [hr.verts, Finset.mem_sdiff] at this
      exact this.2 h2
    unfold amp
    rw [hI, psum_union hd, ← psum_const_mul]
    refine psum_congr fun x _ => ?_
    rw [← hsum x, weight_eq_wOn, hr.wOn _ (by rw [hr.verts]; exact Finset.sdiff_disjoint), hr.verts]
    rfl

end Graph
end PyZX
