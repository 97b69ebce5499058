import Verif.Sem.Sign
import Verif.Sem.Total
import Verif.Spec.Match

/-! # Local complementation: helper lemmas -/

namespace PyZX
open Finset

namespace Graph

/-- Factor contributed by the loop of `lcomp` over a list of neighbours with values `l`. -/
noncomputable def lcQ (a : ℚ) : List Bool → ℂ
  | [] => 1
  | c :: l => (if c then ph (-a) else 1) * (l.map (hmat c)).prod * lcQ a l

theorem lcQ_eq {a : ℚ} (ha : ph (-a) = - ph a) (l : List Bool) :
    (1 + ph a * (l.map sgn).prod) = (1 + ph a) * lcQ a l * sq2 ^ (l.length * (l.length - 1) / 2) := by
  have hinv : ph a * ph (-a) = 1 := by rw [← ph_add]; simp [ph_zero]
  induction l with
  | nil => simp [lcQ]
  | cons c l ih =>
    have hexp : (l.length + 1) * (l.length + 1 - 1) / 2 = l.length + l.length * (l.length - 1) / 2 := by
      have e : (l.length + 1) * (l.length + 1 - 1) = l.length * 2 + l.length * (l.length - 1) := by
        cases l.length with
        | zero => rfl
        | succ n => simp only [Nat.add_sub_cancel]; ring
      rw [e, Nat.add_comm, Nat.add_mul_div_right _ _ (by norm_num), Nat.add_comm]
    simp only [lcQ, List.map_cons, List.prod_cons, List.length_cons, prod_hmat_list]
    rw [hexp, pow_add]
    set P := (l.map sgn).prod
    have hP : P * P = 1 := prod_sgn_sq l
    have hs : (sq2⁻¹) ^ l.length * sq2 ^ l.length = 1 := by
      rw [← mul_pow, inv_mul_cancel₀ sq2_ne_zero, one_pow]
    cases c
    · simp only [sgn, Bool.false_eq_true, if_false, one_mul, mul_one]
      rw [ih]
      linear_combination (-(1 + ph a) * lcQ a l * sq2 ^ (l.length * (l.length - 1) / 2)) * hs
    · simp only [sgn, if_true]
      have : (1 + ph a) * (ph (-a) * (sq2⁻¹ ^ l.length * P) * lcQ a l) *
          (sq2 ^ l.length * sq2 ^ (l.length * (l.length - 1) / 2)) =
          ph (-a) * P * (1 + ph a * P) := by
        rw [ih]
        linear_combination ((1 + ph a) * ph (-a) * P * lcQ a l * sq2 ^ (l.length * (l.length - 1) / 2)) * hs
      rw [this]
      linear_combination (-P) * ha - hinv - (ph a * ph (-a)) * hP

theorem lcompInner_spec {g : Graph} {t : ETab} {a : ℕ} {js : List ℕ} {P : ℕ × ℕ → Prop}
    (hP : ∀ b ∈ js, P (a, b)) (ht : ∀ e ∈ t, P e.1 ∧ e.2.1 = 0)
    (hty : g.ty a = .Z) (htys : ∀ b ∈ js, g.ty b = .Z) :
    (∀ e ∈ Rules.lcompInner t a js, P e.1 ∧ e.2.1 = 0) ∧
    ∀ x, g.tableK x (Rules.lcompInner t a js) = g.tableK x t * ((js.map x).map (hmat (x a))).prod := by
  induction js generalizing t with
  | nil => exact ⟨ht, fun x => by simp [Rules.lcompInner]⟩
  | cons b js ih =>
    have h1 : ∀ e ∈ ETab.setHad t (a, b), P e.1 ∧ e.2.1 = 0 :=
      forall_upd (P := fun k p => P k ∧ p.1 = 0) ht ⟨hP b (by simp), rfl⟩ fun _ h => ⟨h.1, rfl⟩
    obtain ⟨h2, h3⟩ := ih (fun b hb => hP b (by simp [hb])) h1 (fun b hb => htys b (by simp [hb]))
    refine ⟨h2, fun x => ?_⟩
    have h4 := h3 x
    simp only [Rules.lcompInner, List.foldl_cons] at h4 ⊢
    rw [h4, tableK_setHad g x t (a, b)
      (get_of_forall (P := fun _ p => p.1 = 0) (fun e he => (ht e he).2) (a, b) rfl)]
    have he : g.eff a b .had = true := by simp [eff, isX, hty, htys b (by simp)]
    simp only [he, List.map_cons, List.prod_cons, kern, if_true]
    ring

theorem lcompLoop_spec {a : ℚ} {ns : List ℕ} (hnd : ns.Nodup) {S : Finset ℕ} {g : Graph} {t : ETab}
    (hS : ∀ n ∈ ns, n ∈ S) (hty : ∀ n ∈ ns, g.ty n = .Z)
    (ht : ∀ e ∈ t, (e.1.1 ∈ S ∧ e.1.2 ∈ S ∧ e.1.1 ≠ e.1.2) ∧ e.2.1 = 0) :
    SameBut g (Rules.lcompLoop a g t ns).1 ∧
    (∀ v, v ∉ ns → (Rules.lcompLoop a g t ns).1.phase v = g.phase v) ∧
    (∀ e ∈ (Rules.lcompLoop a g t ns).2, (e.1.1 ∈ S ∧ e.1.2 ∈ S ∧ e.1.1 ≠ e.1.2) ∧ e.2.1 = 0) ∧
    ∀ x, (Rules.lcompLoop a g t ns).1.wOn S x * g.tableK x (Rules.lcompLoop a g t ns).2 =
      g.wOn S x * g.tableK x t * lcQ a (ns.map x) := by
  induction ns generalizing g t with
  | nil => exact ⟨SameBut.refl g, fun _ _ => rfl, ht, fun x => by simp [Rules.lcompLoop, lcQ]⟩
  | cons n ns ih =>
    have hn := List.nodup_cons.mp hnd
    have hsb := sameBut_addToPhase g n (-a)
    obtain ⟨i1, i2⟩ := lcompInner_spec (g := g) (t := t) (a := n) (js := ns)
      (P := fun k => k.1 ∈ S ∧ k.2 ∈ S ∧ k.1 ≠ k.2)
      (fun b hb => ⟨hS n (by simp), hS b (by simp [hb]), fun e => hn.1 ((show n = b from e) ▸ hb)⟩) ht
      (hty n (by simp)) (fun b hb => hty b (by simp [hb]))
    obtain ⟨h1, h2, h3, h4⟩ := ih hn.2 (g := g.addToPhase n (-a)) (t := Rules.lcompInner t n ns)
      (fun b hb => hS b (by simp [hb])) (fun b hb => hty b (by simp [hb])) i1
    refine ⟨hsb.trans h1, ?_, h3, fun x => ?_⟩
    · intro v hv
      simp only [List.mem_cons, not_or] at hv
      have := h2 v hv.2
      simp only [Rules.lcompLoop]
      rw [this]
      simp [addToPhase, hv.1]
    · have := h4 x
      simp only [Rules.lcompLoop]
      rw [hsb.tableK] at this
      rw [this, hsb.tableK, i2, wOn_addToPhase g (hS n (by simp)) (by rw [hty n (by simp)]; simp)
        (by rw [hty n (by simp)]; simp)]
      simp only [List.map_cons, lcQ]
      ring

/-- The sum over the removed vertex. -/
theorem lcomp_local {g : Graph} (hg : g.WF) {m : Rules.LcompMatch} (hty : g.ty m.v = .Z)
    (hn : m.vn.Nodup ∧ m.vn.toFinset = g.nbrs m.v) (hnt : ∀ w ∈ m.vn, g.ty w = .Z ∧ g.adj m.v w = some .had)
    (x : ℕ → Bool) :
    psum {m.v} (g.localW m.v) x =
      (sq2⁻¹) ^ m.vn.length * (1 + ph (g.phase m.v) * ((m.vn.map x).map sgn).prod) := by
  have hset : ({m.v} : Finset ℕ) = insert m.v ∅ := by simp
  have hne : ∀ w ∈ m.vn, w ≠ m.v := by
    intro w hw e
    have := (hnt w hw).2
    rw [e, hg.loopless] at this; simp at this
  have hprod : ∀ c, ∏ w ∈ g.nbrs m.v, g.edgeK (Function.update x m.v c) m.v w = ((m.vn.map x).map (hmat c)).prod := by
    intro c
    rw [← hn.2, List.prod_toFinset _ hn.1, List.map_map]
    congr 1
    refine List.map_congr_left fun w hw => ?_
    rw [edgeK_some (hnt w hw).2, Function.update_self, Function.update_of_ne (hne w hw)]
    have he : g.eff m.v w .had = true := by simp [eff, isX, hty, (hnt w hw).1]
    simp [he, kern]
  rw [hset, psum_insert (by simp), psum_empty]
  unfold localW
  rw [hprod, hprod, prod_hmat_list, prod_hmat_list]
  simp only [Function.update_self, vwt, vval, hty, List.length_map]
  simp only [Bool.false_eq_true, if_false, if_true]
  ring

/-- The factor that `lcomp` puts in place of the removed vertex. -/
noncomputable def lcompF (g : Graph) (m : Rules.LcompMatch) (x : ℕ → Bool) : ℂ :=
  ph (if g.phase m.v = 1 / 2 then 1 / 4 else 7 / 4) *
    sq2 ^ ((((m.vn.length : ℤ) - 2) * ((m.vn.length : ℤ) - 1)) / 2) * lcQ (g.phase m.v) (m.vn.map x)

theorem lcomp_factor {g : Graph} {m : Rules.LcompMatch} (hp : g.phase m.v = 1 / 2 ∨ g.phase m.v = 3 / 2) (x : ℕ → Bool) :
    (sq2⁻¹) ^ m.vn.length * (1 + ph (g.phase m.v) * ((m.vn.map x).map sgn).prod) = lcompF g m x := by
  have hneg : ph (-(g.phase m.v)) = - ph (g.phase m.v) := by
    rcases hp with h | h <;> rw [h]
    · rw [show (-(1 / 2) : ℚ) = 3 / 2 - 2 by norm_num, ph_sub, ph_two, ph_three_halves, ph_half]; simp
    · rw [show (-(3 / 2) : ℚ) = 1 / 2 - 2 by norm_num, ph_sub, ph_two, ph_three_halves, ph_half]; simp
  have hone : 1 + ph (g.phase m.v) = sq2 * ph (if g.phase m.v = 1 / 2 then 1 / 4 else 7 / 4) := by
    rcases hp with h | h <;> rw [h]
    · rw [if_pos rfl, ph_half, ph_quarter, mul_div_cancel₀ _ sq2_ne_zero]
    · rw [if_neg (by norm_num), ph_three_halves, ph_seven_quarters, mul_div_cancel₀ _ sq2_ne_zero]; ring
  rw [lcQ_eq hneg, hone, List.length_map]
  unfold lcompF
  set n := m.vn.length
  have hexp : (sq2⁻¹) ^ n * (sq2 * sq2 ^ (n * (n - 1) / 2)) = sq2 ^ (((n : ℤ) - 2) * ((n : ℤ) - 1) / 2) := by
    have h2 : ((n * (n - 1) / 2 : ℕ) : ℤ) = ((n : ℤ) - 2) * ((n : ℤ) - 1) / 2 + n - 1 := by
      have hev : ∃ k, n * (n - 1) = 2 * k := (Nat.even_mul_pred_self n).exists_two_nsmul _ |>.imp (by intro k hk; simpa [two_mul] using hk)
      obtain ⟨k, hk⟩ := hev
      rw [hk, Nat.mul_div_cancel_left _ (by norm_num)]
      have hz : (n : ℤ) * ((n : ℤ) - 1) = 2 * k := by
        rcases Nat.eq_zero_or_pos n with h0 | h0
        · rw [h0] at hk ⊢; simp at hk ⊢; omega
        · have : ((n - 1 : ℕ) : ℤ) = (n : ℤ) - 1 := by omega
          rw [← this]; exact_mod_cast hk
      have : ((n : ℤ) - 2) * ((n : ℤ) - 1) = 2 * (k - n + 1) := by ring_nf; ring_nf at hz; omega
      rw [this, Int.mul_ediv_cancel_left _ (by norm_num)]
      ring
    rw [← zpow_natCast sq2 (n * (n - 1) / 2), h2, inv_pow, ← zpow_natCast, ← zpow_neg]
    nth_rewrite 2 [← zpow_one sq2]
    rw [← zpow_add₀ sq2_ne_zero, ← zpow_add₀ sq2_ne_zero]
    congr 1; ring
  rw [← hexp]; ring

theorem lcomp_fold {g : Graph} (ms : List Rules.LcompMatch) (h : LcompOK g ms) :
    SameBut g (Rules.lcomp g ms).g ∧ (Rules.lcomp g ms).remVerts = ms.map (·.v) ∧ (Rules.lcomp g ms).remEdges = [] ∧
    KeysIn (Rules.lcomp g ms).etab (g.verts \ (ms.map (·.v)).toFinset) ∧
    ∀ x, (Rules.lcomp g ms).g.wOn (g.verts \ (ms.map (·.v)).toFinset) x * g.tableK x (Rules.lcomp g ms).etab =
      g.wOn (g.verts \ (ms.map (·.v)).toFinset) x * (ms.map fun m => lcompF g m x).prod := by
  set S := g.verts \ (ms.map (·.v)).toFinset with hSdef
  have := fold_sound Rules.lcompStep
    (fun s rest => SameBut g s.g ∧ s.remVerts ++ rest.map (·.v) = ms.map (·.v) ∧ s.remEdges = [] ∧
      (∀ m ∈ rest, m ∈ ms ∧ s.g.phase m.v = g.phase m.v) ∧
      ∀ e ∈ s.etab, (e.1.1 ∈ S ∧ e.1.2 ∈ S ∧ e.1.1 ≠ e.1.2) ∧ e.2.1 = 0)
    (fun s x => s.g.wOn S x * g.tableK x s.etab) (fun m x => lcompF g m x) ?_ ms
    (RewriteState.start g) ⟨SameBut.refl g, rfl, rfl, fun m hm => ⟨hm, rfl⟩, by simp [RewriteState.start]⟩
  · obtain ⟨⟨h1, h2, h3, -, h4⟩, h5⟩ := this
    refine ⟨h1, ?_, h3, fun e he _ => (h4 e he).1, fun x => ?_⟩
    · rw [List.map_nil, List.append_nil] at h2; exact h2
    · have := h5 x
      rw [show (RewriteState.start g).etab = [] from rfl, tableK_nil, mul_one] at this
      exact this
  · rintro s m rest ⟨h1, h2, h3, h4, h5⟩
    obtain ⟨hm, hph⟩ := h4 m (by simp)
    have hvS : ∀ n ∈ m.vn, n ∈ S := by
      intro n hn
      have hn' : n ∈ g.nbrs m.v := by rw [← (h.nbrs m hm).2]; simpa using hn
      simp only [hSdef, Finset.mem_sdiff, List.mem_toFinset, List.mem_map, not_exists, not_and]
      refine ⟨(Finset.mem_filter.mp hn').1, ?_⟩
      rintro m' hm' rfl
      exact h.indep m hm m' hm' hn
    -- the graph after the scalar updates
    set g1 := if (s.g.phase m.v).num = 1 then s.g.addScalarPhase (1 / 4) else s.g.addScalarPhase (7 / 4) with hg1
    set g2 := g1.addPower ((((m.vn.length : ℤ) - 2) * ((m.vn.length : ℤ) - 1)) / 2) with hg2
    have hsb1 : SameBut s.g g1 := by rw [hg1]; split <;> exact sameBut_addScalarPhase _ _
    have hsb2 : SameBut g g2 := (h1.trans hsb1).trans (sameBut_addPower _ _)
    have hphase1 : g1.phase = s.g.phase := by rw [hg1]; split <;> rfl
    obtain ⟨l1, l2, l3, l4⟩ := lcompLoop_spec (a := s.g.phase m.v) (h.nbrs m hm).1 (S := S) (g := g2) (t := s.etab) hvS
      (fun n hn => by rw [hsb2.ty]; exact (h.nty m hm n hn).1) h5
    have hstep : Rules.lcompStep s m = { s with
        g := (Rules.lcompLoop (s.g.phase m.v) g2 s.etab m.vn).1
        etab := (Rules.lcompLoop (s.g.phase m.v) g2 s.etab m.vn).2
        remVerts := s.remVerts ++ [m.v] } := rfl
    rw [hstep]
    refine ⟨⟨hsb2.trans l1, by simpa using h2, h3, ?_, l3⟩, fun x => ?_⟩
    · intro m' hm'
      obtain ⟨hm1, hp1⟩ := h4 m' (by simp [hm'])
      refine ⟨hm1, ?_⟩
      show (Rules.lcompLoop (s.g.phase m.v) g2 s.etab m.vn).1.phase m'.v = _
      rw [l2 m'.v (h.indep m hm m' hm1)]
      show g1.phase m'.v = _
      rw [hphase1, hp1]
    · show (Rules.lcompLoop (s.g.phase m.v) g2 s.etab m.vn).1.wOn S x * _ = _
      have := l4 x
      rw [hsb2.tableK, hsb2.tableK] at this
      rw [this, hg2, wOn_addPower]
      have hw1 : g1.wOn S x = s.g.wOn S x * ph (if g.phase m.v = 1 / 2 then 1 / 4 else 7 / 4) := by
        rw [hg1, hph]
        rcases h.phase m hm with h | h <;> rw [h]
        · rw [if_pos (by norm_num), if_pos rfl, wOn_addScalarPhase]
        · rw [if_neg (by norm_num), if_neg (by norm_num), wOn_addScalarPhase]
      rw [hw1, hph]
      unfold lcompF
      ring

theorem lcomp_sound {g g' : Graph} (hg : g.WF) {ms : List Rules.LcompMatch} (h : LcompOK g ms)
    (hfin : (Rules.lcomp g ms).finish = some g') :
    Preserves g g' ∧ g'.verts = g.verts \ (ms.map (·.v)).toFinset := by
  obtain ⟨h1, h2, h3, h4, h5⟩ := lcomp_fold ms h
  have := rule_sound hg hfin (h1.wf hg) h1.verts (fun v _ => by rw [h1.ty]) h1.inputs h1.outputs
    ?_ ?_ (by rw [h3]; simp) ?_
  · rw [h2] at this; exact this
  · rw [h2]
    intro v hv
    obtain ⟨m, hm, rfl⟩ := List.mem_map.mp (List.mem_toFinset.mp hv)
    simp only [interior, Finset.mem_filter]
    exact ⟨h.mem m hm, by rw [h.ty m hm]; simp⟩
  · rw [h2]; exact h4
  · intro x
    rw [h2, h1.tableK, h5, psum_singles hg ms (·.v) h.nodup h.mem]
    · congr 2
      refine List.map_congr_left fun m hm => ?_
      rw [lcomp_local hg (h.ty m hm) (h.nbrs m hm) (h.nty m hm), lcomp_factor (h.phase m hm)]
    · intro m hm m' hm' hin
      rw [← (h.nbrs m hm).2, List.mem_toFinset] at hin
      exact h.indep m hm m' hm' hin

theorem tcount_lcompInner {t : ETab} {a b : ℕ} {js : List ℕ} (ha : b ≠ a) (hjs : b ∉ js) :
    tcount (Rules.lcompInner t a js) b = tcount t b := by
  induction js generalizing t with
  | nil => rfl
  | cons j js ih =>
    simp only [List.mem_cons, not_or] at hjs
    have := ih (t := ETab.setHad t (a, j)) hjs.2
    simp only [Rules.lcompInner, List.foldl_cons] at this ⊢
    rw [this]
    exact tcount_upd_other _ _ (by simp [touch, ha, hjs.1])

theorem tcount_lcompLoop {a : ℚ} {g : Graph} {t : ETab} {b : ℕ} {ns : List ℕ} (h : b ∉ ns) :
    tcount (Rules.lcompLoop a g t ns).2 b = tcount t b := by
  induction ns generalizing g t with
  | nil => rfl
  | cons n ns ih =>
    simp only [List.mem_cons, not_or] at h
    rw [Rules.lcompLoop, ih h.2, tcount_lcompInner h.1 h.2]

theorem lcomp_total {g : Graph} (hg : g.WF) (hb : g.BDeg) {ms : List Rules.LcompMatch} (h : LcompOK g ms) :
    ∃ g', (Rules.lcomp g ms).finish = some g' ∧ Preserves g g' ∧ g'.BDeg ∧ g'.verts = g.verts \ (ms.map (·.v)).toFinset := by
  obtain ⟨h1, h2, h3, h4, -⟩ := lcomp_fold ms h
  obtain ⟨g', hfin, hbd⟩ := finish_total (s := Rules.lcomp g ms) hg hb (h1.wf hg) h1.verts h1.adj
    (fun v _ => by rw [h1.ty]) (by rw [h2]; exact h4) (by
      intro b hbv hbt
      have hle := tcount_fold (step := Rules.lcompStep) (b := b) (c := fun m => 0) ms (by
        intro m hm s
        have hbn : b ∉ m.vn := fun hin => by
          have := (h.nty m hm b hin).1
          rw [hbt] at this; simp at this
        simp only [Rules.lcompStep]
        exact (tcount_lcompLoop hbn).le) (RewriteState.start g)
      have h0 : tcount (Rules.lcomp g ms).etab b = 0 := by
        have : (ms.map fun _ : Rules.LcompMatch => 0).sum = 0 := by simp
        rw [this] at hle
        exact Nat.le_zero.mp hle
      exact ⟨by omega, fun hne => absurd h0 hne⟩) (by rw [h3]; simp) (by rw [h3]; exact List.Pairwise.nil) (by rw [h3]; simp)
    (by rw [h2]; exact h.nodup) (by
      rw [h2]; intro v hv
      obtain ⟨m, hm, rfl⟩ := List.mem_map.mp hv
      exact h.mem m hm)
  obtain ⟨hp, hv⟩ := lcomp_sound hg h hfin
  exact ⟨g', hfin, hp, hbd hp, hv⟩

end Graph
end PyZX
