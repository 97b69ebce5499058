import Verif.Proofs.Choose
import Verif.Props.Linalg
import Verif.Proofs.ExtPull

/-!
# The choice of CNOTs: the greedy reduction and Gaussian elimination make progress
-/

namespace PyZX
namespace Extract

open Mat2

/-! ### The best pair -/

theorem xorRows_comm (a b : List Bool) : xorRows a b = xorRows b a := by
  unfold xorRows
  exact List.zipWith_comm_of_comm (f := xor) (by intro x y; exact Bool.xor_comm x y)

theorem pickStep_spec {ix : List ℕ} {rows : ℕ → List Bool} {wt : ℕ → ℤ} {k : ℕ} (hk : k < 10000)
    (hlen : ∀ i ∈ ix, (rows i).length = k) (hw : ∀ i ∈ ix, wt i = ((rows i).count true : ℕ)) : ∀ (ps : List (ℕ × ℕ)) {st : Option (ℕ × ℕ) × ℤ},
    (∀ p ∈ ps, p.1 ∈ ix ∧ p.2 ∈ ix) →
    (st = (none, -10000) ∨ ∃ c t, st = (some (c, t), wt t - ((xorRows (rows c) (rows t)).count true : ℕ)) ∧ c ∈ ix ∧ t ∈ ix ∧ c ≠ t) →
    (ps.foldl (pickStep rows wt) st = (none, -10000) ∧ st = (none, -10000) ∧ ∀ p ∈ ps, p.2 ≤ p.1) ∨
    ∃ c t, ps.foldl (pickStep rows wt) st = (some (c, t), wt t - ((xorRows (rows c) (rows t)).count true : ℕ)) ∧ c ∈ ix ∧ t ∈ ix ∧ c ≠ t := by
  intro ps
  induction ps with
  | nil =>
    intro st _ h
    rcases h with h | h
    · exact Or.inl ⟨h, h, by simp⟩
    · exact Or.inr h
  | cons p ps ih =>
    intro st hps h
    obtain ⟨h1, h2⟩ := hps p (by simp)
    have hps' : ∀ p ∈ ps, p.1 ∈ ix ∧ p.2 ∈ ix := fun p hp => hps p (by simp [hp])
    rw [List.foldl_cons]
    by_cases hle : p.2 ≤ p.1
    · rw [pickStep, if_pos hle]
      rcases ih hps' h with ⟨e1, e2, e3⟩ | e
      · refine Or.inl ⟨e1, e2, fun q hq => ?_⟩
        rcases List.mem_cons.mp hq with rfl | hq
        · exact hle
        · exact e3 q hq
      · exact Or.inr e
    · have hne : p.1 ≠ p.2 := by omega
      have hwle : ((xorRows (rows p.1) (rows p.2)).count true) ≤ k := by
        refine le_trans List.count_le_length ?_
        rw [xorRows, List.length_zipWith, hlen _ h1, hlen _ h2, min_self]
      have hnew : ∃ c t, pickStep rows wt st p = (some (c, t), wt t - ((xorRows (rows c) (rows t)).count true : ℕ)) ∧ c ∈ ix ∧ t ∈ ix ∧ c ≠ t := by
        rw [pickStep, if_neg hle]
        simp only
        have e1 := hw p.1 h1
        have e2 := hw p.2 h2
        by_cases c1 : wt p.1 - ((xorRows (rows p.1) (rows p.2)).count true : ℕ) > st.2
        · rw [if_pos c1]
          simp only
          split
          · exact ⟨p.1, p.2, rfl, h1, h2, hne⟩
          · exact ⟨p.2, p.1, by rw [xorRows_comm], h2, h1, hne.symm⟩
        · rw [if_neg c1]
          split
          · exact ⟨p.1, p.2, rfl, h1, h2, hne⟩
          · rcases h with h | h
            · rw [h] at c1
              simp only at c1
              omega
            · exact h
      obtain ⟨c, t, e, e'⟩ := hnew
      rcases ih hps' (st := pickStep rows wt st p) (Or.inr ⟨c, t, e, e'⟩) with ⟨-, e2, -⟩ | e2
      · rw [e] at e2; simp at e2
      · exact Or.inr e2

theorem pickBest_spec {ix : List ℕ} {rows : ℕ → List Bool} {wt : ℕ → ℤ} {k : ℕ} (hk : k < 10000) (hn : ix.Nodup) (h2 : 2 ≤ ix.length)
    (hlen : ∀ i ∈ ix, (rows i).length = k) (hw : ∀ i ∈ ix, wt i = ((rows i).count true : ℕ)) :
    ∃ c t, pickBest rows wt ix = (some (c, t), wt t - ((xorRows (rows c) (rows t)).count true : ℕ)) ∧ c ∈ ix ∧ t ∈ ix ∧ c ≠ t := by
  unfold pickBest
  rcases pickStep_spec hk hlen hw (ix ×ˢ ix) (st := (none, -10000)) (fun p hp => List.mem_product.mp hp) (Or.inl rfl) with ⟨-, -, h⟩ | h
  · exfalso
    obtain ⟨a, b, l, rfl⟩ : ∃ a b l, ix = a :: b :: l := by
      match ix, h2 with
      | a :: b :: l, _ => exact ⟨a, b, l, rfl⟩
    have h3 := h (a, b) (List.mem_product.mpr ⟨by simp, by simp⟩)
    have h4 := h (b, a) (List.mem_product.mpr ⟨by simp, by simp⟩)
    simp only at h3 h4
    have : a = b := by omega
    simp [this] at hn
  · exact h

/-! ### The greedy reduction -/

theorem addRows_cons (m : Data) (c t : ℕ) (l : List (ℕ × ℕ)) :
    addRows m (((c, t) :: l).map Prod.swap) = addRows (rowAdd c t m) (l.map Prod.swap) := rfl

theorem greedyLoop_spec {k : ℕ} (hk : k < 10000) : ∀ (n : ℕ) {ix : List ℕ} {m : Data} {rows : ℕ → List Bool} {wt : ℕ → ℤ} {s : ℕ → ZMod 2},
    Rect k k m → ix.length ≤ n → ix ≠ [] → ix.Nodup → (∀ i ∈ ix, i < k) → (∀ i ∈ ix, rows i = m.getD i []) →
    (∀ i ∈ ix, wt i = ((rows i).count true : ℕ)) → (∀ j, (ix.map fun i => bit (Mat2.get m i j)).sum = s j) →
    ∃ ops, greedyLoop n ix rows wt = some ops ∧ (∀ c ∈ ops, c.1 < k ∧ c.2 < k ∧ c.1 ≠ c.2) ∧ Rect k k (addRows m (ops.map Prod.swap)) ∧
      ∃ i < k, ∀ j, bit (Mat2.get (addRows m (ops.map Prod.swap)) i j) = s j := by
  intro n
  induction n with
  | zero =>
    intro ix m rows wt s _ h1 h2
    exact absurd (List.length_eq_zero_iff.mp (by omega)) h2
  | succ n ih =>
    intro ix m rows wt s hm h1 h2 hn hlt hrows hwt hs
    unfold greedyLoop
    by_cases hl : ix.length ≤ 1
    · rw [if_pos hl]
      obtain ⟨i, rfl⟩ : ∃ i, ix = [i] := List.length_eq_one_iff.mp (by have := List.length_pos_iff.mpr h2; omega)
      exact ⟨[], rfl, by simp, hm, i, hlt i (by simp), fun j => by simpa [addRows] using hs j⟩
    · rw [if_neg hl]
      have hlen : ∀ i ∈ ix, (rows i).length = k := fun i hi => by rw [hrows i hi]; exact hm.length_getD (hlt i hi)
      obtain ⟨c, t, e, hc, ht, hct⟩ := pickBest_spec hk hn (by omega) hlen hwt
      rw [e]
      simp only
      have hck := hlt c hc
      have htk := hlt t ht
      have hm' : Rect k k (rowAdd c t m) := hm.rowAdd hck htk
      have hte : t ∈ ix.erase c := (hn.mem_erase_iff).mpr ⟨hct.symm, ht⟩
      have hrow : (rowAdd c t m).getD t [] = xorRows (rows c) (rows t) := by
        rw [xorRows_comm, hrows c hc, hrows t ht, Mat2.rowAdd, List.getD_eq_getElem?_getD, List.getElem?_set_self (by rw [hm.1]; exact htk)]
        rfl
      obtain ⟨ops, q1, q2, q3, q4⟩ := ih (ix := ix.erase c) (m := rowAdd c t m) (rows := Function.update rows t (xorRows (rows c) (rows t)))
        (wt := Function.update wt t (wt t - (wt t - ((xorRows (rows c) (rows t)).count true : ℕ)))) (s := s) hm'
        (by rw [List.length_erase_of_mem hc]; omega) (List.ne_nil_of_mem hte) (hn.erase c) (fun i hi => hlt i (List.mem_of_mem_erase hi))
        (by
          intro i hi
          by_cases hit : i = t
          · subst hit; rw [Function.update_self, hrow]
          · rw [Function.update_of_ne hit, hrows i (List.mem_of_mem_erase hi), Mat2.rowAdd, List.getD_eq_getElem?_getD, List.getD_eq_getElem?_getD,
              List.getElem?_set_ne (Ne.symm hit)])
        (by
          intro i hi
          by_cases hit : i = t
          · subst hit; rw [Function.update_self, Function.update_self]; ring
          · rw [Function.update_of_ne hit, Function.update_of_ne hit, hwt i (List.mem_of_mem_erase hi)])
        (by
          intro j
          rw [← hs j]
          have h3 : ∀ L : List ℕ, L.Nodup → (L.map fun i => bit (Mat2.get (rowAdd c t m) i j)).sum =
              (L.map fun i => bit (Mat2.get m i j)).sum + if t ∈ L then bit (Mat2.get m c j) else 0 := by
            intro L
            induction L with
            | nil => intro _; simp
            | cons a L ih =>
              intro hL
              obtain ⟨hL1, hL2⟩ := List.nodup_cons.mp hL
              rw [List.map_cons, List.sum_cons, ih hL2, List.map_cons, List.sum_cons, get_rowAdd hm hck htk]
              by_cases hat : a = t
              · subst hat
                rw [if_pos rfl, bit_xor, if_neg hL1, if_pos (by simp)]
                ring
              · rw [if_neg hat]
                have : (t ∈ a :: L) ↔ t ∈ L := by simp [Ne.symm hat]
                simp only [this]
                ring
          rw [h3 _ (hn.erase c), if_pos hte, add_comm]
          exact ((List.perm_cons_erase hc).map (fun i => bit (Mat2.get m i j))).sum_eq.symm)
      rw [q1]
      refine ⟨(c, t) :: ops, rfl, fun p hp => ?_, ?_⟩
      · rcases List.mem_cons.mp hp with rfl | hp
        · exact ⟨hck, htk, hct⟩
        · exact q2 p hp
      · rw [addRows_cons]
        exact ⟨q3, q4⟩

theorem greedy_good {k : ℕ} (h0 : 0 < k) (hk : k < 10000) {m : Data} (hm : Rect k k m) (hu : IsUnit (mat k k m))
    (hr : ∀ row ∈ m, row.count true ≠ 1) :
    (∃ ops, greedyReduction m = some (some ops) ∧ (∀ c ∈ ops, c.1 < k ∧ c.2 < k ∧ c.1 ≠ c.2) ∧
      ∃ row ∈ addRows m (ops.map Prod.swap), row.count true = 1) ∨ greedyReduction m = some none ∧ 16 < k := by
  unfold greedyReduction
  rcases findMinimalSums_spec false hr with ⟨t, e, h1, h2⟩ | ⟨e, h⟩
  · left
    rw [e]
    simp only
    rw [hm.1] at h1
    obtain ⟨h3, h4⟩ := sumRows_spec hm h1.1 h1.2.2
    obtain ⟨ops, q1, q2, q3, i, hi, q4⟩ := greedyLoop_spec hk t.length (ix := t) (m := m) (rows := fun i => m.getD i [])
      (wt := fun i => ((m.getD i []).count true : ℕ)) (s := fun j => bit ((sumRows m t).getD j false)) hm le_rfl h1.1
      (h1.2.1.imp fun h => Nat.ne_of_lt h) h1.2.2 (fun _ _ => rfl) (fun _ _ => rfl) fun j => (h4 j).symm
    refine ⟨ops, by rw [q1]; rfl, q2, (addRows m (ops.map Prod.swap)).getD i [], ?_, ?_⟩
    · rw [List.getD_eq_getElem _ _ (by rw [q3.1]; exact hi)]
      exact List.getElem_mem _
    · have : (addRows m (ops.map Prod.swap)).getD i [] = sumRows m t := row_ext (q3.length_getD hi) h3 fun j _ => bit_inj.mp (q4 j)
      rw [this]
      exact h2
  · right
    rw [e]
    refine ⟨rfl, ?_⟩
    rcases h with h | h
    · rw [← hm.1]; exact h
    · obtain ⟨l, a1, a2, a3, a4⟩ := exists_sum h0 hm hu
      exact absurd a4 (h l ⟨a1, a2, by rw [hm.1]; exact a3⟩)

/-! ### Gaussian elimination -/

theorem addRows_swap (m : Data) (L : List (ℕ × ℕ)) : addRows m (L.map Prod.swap) = L.foldl (fun d p => rowAdd p.1 p.2 d) m := by
  unfold addRows
  rw [List.foldl_map]
  rfl

theorem valid_swap {k : ℕ} {cs : List (ℕ × ℕ)} (h : ∀ c ∈ cs, c.1 < k ∧ c.2 < k ∧ c.1 ≠ c.2) :
    ∃ L : List (ℕ × ℕ), cs = L.map Prod.swap ∧ ∀ p ∈ L, Valid k p.1 p.2 := by
  refine ⟨cs.map Prod.swap, by simp, fun p hp => ?_⟩
  obtain ⟨c, hc, rfl⟩ := List.mem_map.mp hp
  obtain ⟨h1, h2, h3⟩ := h c hc
  exact ⟨h2, h1, h3.symm⟩

/-- CNOTs that implement an invertible matrix reduce it to the identity. -/
theorem addRows_one {k : ℕ} {d : Data} (hd : Rect k k d) {cs : List (ℕ × ℕ)} (hc : ∀ c ∈ cs, c.1 < k ∧ c.2 < k ∧ c.1 ≠ c.2)
    (h : ∀ v : Fin k → ZMod 2, circAct cs v = Matrix.vecMul v (mat k k d)) : Rect k k (addRows d cs) ∧ mat k k (addRows d cs) = 1 := by
  obtain ⟨L, rfl, hL⟩ := valid_swap hc
  obtain ⟨E, E', e1, -, e3, -, e5⟩ := log_mats L hL
  have e : E' = mat k k d := by
    ext i j
    have := congrFun ((e5 (Pi.single i 1)).symm.trans (h (Pi.single i 1))) j
    simpa [Matrix.single_one_vecMul] using this
  rw [addRows_swap]
  obtain ⟨h1, h2⟩ := e3 k d hd
  exact ⟨h1, by rw [h2, ← e, e1]⟩

theorem permCols_row {p : List ℕ} {m : Data} {i : ℕ} (hi : i < m.length) : (permCols p m).getD i [] = p.map fun j => (m.getD i []).getD j false := by
  unfold permCols
  rw [List.getD_eq_getElem _ _ (by simpa using hi), List.getD_eq_getElem _ _ hi]
  simp

theorem permCols_rowAdd {k : ℕ} {p : List ℕ} {m : Data} (hm : Rect k k m) {a b : ℕ} (ha : a < k) (hb : b < k) :
    permCols p (rowAdd a b m) = rowAdd a b (permCols p m) := by
  have hl : m.length = k := hm.1
  unfold Mat2.rowAdd
  rw [permCols_row (by omega), permCols_row (by omega), permCols, permCols, List.map_set]
  congr 1
  rw [List.zipWith_map_left, List.zipWith_map_right, List.zipWith_self]
  refine List.map_congr_left fun j _ => ?_
  exact getD_zipWith_xor (by rw [hm.length_getD ha, hm.length_getD hb]) j

theorem permCols_addRows {k : ℕ} {p : List ℕ} : ∀ (cs : List (ℕ × ℕ)) {m : Data}, Rect k k m → (∀ c ∈ cs, c.1 < k ∧ c.2 < k ∧ c.1 ≠ c.2) →
    permCols p (addRows m cs) = addRows (permCols p m) cs ∧ Rect k k (addRows m cs) := by
  intro cs
  induction cs with
  | nil => intro m hm _; exact ⟨rfl, hm⟩
  | cons c cs ih =>
    intro m hm hc
    obtain ⟨h1, h2, -⟩ := hc c (by simp)
    have := ih (m := rowAdd c.2 c.1 m) (hm.rowAdd h2 h1) fun c hc' => hc c (by simp [hc'])
    rw [permCols_rowAdd hm h2 h1] at this
    exact this

theorem permCols_rect {k : ℕ} {p : List ℕ} {m : Data} (hm : Rect k k m) (hp : p.Perm (List.range k)) : Rect k k (permCols p m) := by
  refine ⟨by simp [permCols, hm.1], fun row hrow => ?_⟩
  obtain ⟨r, -, rfl⟩ := List.mem_map.mp hrow
  simp [hp.length_eq]

theorem permCols_unit {k : ℕ} {p : List ℕ} {m : Data} (hm : Rect k k m) (hp : p.Perm (List.range k)) (hu : IsUnit (mat k k m)) :
    ∃ N, N * mat k k (permCols p m) = 1 := by
  have hlen : p.length = k := by simpa using hp.length_eq
  have hlt : ∀ j < k, p.getD j 0 < k := fun j hj => by
    rw [List.getD_eq_getElem _ _ (by omega)]
    exact List.mem_range.mp (hp.mem_iff.mp (List.getElem_mem _))
  let f : Fin k → Fin k := fun j => ⟨p.getD j 0, hlt j j.2⟩
  have hn : p.Nodup := hp.nodup_iff.mpr List.nodup_range
  have hf : Function.Injective f := by
    intro a b h
    have h1 : p.getD a 0 = p.getD b 0 := Fin.mk.inj h
    rw [List.getD_eq_getElem _ _ (by omega), List.getD_eq_getElem _ _ (by omega)] at h1
    exact Fin.ext ((List.Nodup.getElem_inj_iff hn).mp h1)
  let σ : Equiv.Perm (Fin k) := Equiv.ofBijective f (Finite.injective_iff_bijective.mp hf)
  have e : mat k k (permCols p m) = (mat k k m).submatrix id σ := by
    ext i j
    show bit (Mat2.get (permCols p m) i j) = bit (Mat2.get m i (f j))
    unfold Mat2.get
    rw [permCols_row (by rw [hm.1]; exact i.2), List.getD_eq_getElem _ _ (by simp [hlen])]
    simp only [List.getElem_map, f]
    rw [List.getD_eq_getElem p 0 (by omega)]
  obtain ⟨N, -, hN⟩ := isUnit_iff_exists.mp hu
  refine ⟨N.submatrix σ id, ?_⟩
  have h := Matrix.submatrix_mul_equiv N (mat k k m) σ (Equiv.refl (Fin k)) σ
  rw [hN] at h
  rw [e]
  refine Eq.trans h ?_
  exact Matrix.submatrix_one_equiv σ

theorem foldl_cnotMaker (L : List (ℕ × ℕ)) : ∀ acc, L.foldl (fun x p => cnotMaker p.1 p.2 x) acc = acc ++ L.map Prod.swap := by
  induction L with
  | nil => simp
  | cons p L ih => intro acc; rw [List.foldl_cons, ih]; simp [cnotMaker, Prod.swap]

theorem toCnots_valid {k l : ℕ} {d : Data} (hd : Rect k l d) (stale : ℕ → List ℕ) (optimize useLog : Bool) {cs : List (ℕ × ℕ)}
    (h : toCnots stale optimize useLog d = some cs) : ∀ c ∈ cs, c.1 < k ∧ c.2 < k ∧ c.1 ≠ c.2 := by
  obtain ⟨l, hd, hcols⟩ : ∃ l, Rect k l d ∧ cols d = l := by
    rcases Nat.eq_zero_or_pos k with rfl | hk
    · have : d = [] := List.length_eq_zero_iff.mp hd.1
      subst this
      exact ⟨0, ⟨rfl, by simp⟩, rfl⟩
    · exact ⟨l, hd, rect_cols hd hk⟩
  have key : ∀ b, 0 < b → ∀ c ∈ (gauss cnotMaker noOp true b (stale b) ⟨d, [], ()⟩).1.x, c.1 < k ∧ c.2 < k ∧ c.1 ≠ c.2 := by
    intro b hb c hc
    obtain ⟨L, hL, -, e, -⟩ := Props.gauss_observers cnotMaker noOp hb (s := ⟨d, [], ()⟩) hd hcols true (stale b)
    rw [e, foldl_cnotMaker] at hc
    simp only [List.nil_append] at hc
    obtain ⟨p, hp, rfl⟩ := List.mem_map.mp hc
    obtain ⟨h1, h2, h3⟩ := hL p hp
    exact ⟨h2, h1, h3.symm⟩
  unfold toCnots at h
  cases optimize with
  | true =>
    simp only [if_true] at h
    rcases bestCnots_mem h with h1 | ⟨b, hb, rfl⟩
    · simp at h1
    · rw [List.mem_range'_1] at hb
      exact key b (by omega)
  | false =>
    simp only [Bool.false_eq_true, if_false] at h
    by_cases hb0 : (if useLog = true then Nat.log 2 d.length else 5) = 0
    · rw [if_pos hb0] at h
      simp at h
    · rw [if_neg hb0] at h
      rw [← Option.some.inj h]
      exact key _ (Nat.pos_of_ne_zero hb0)

theorem gauss_good {k : ℕ} (h2 : 2 ≤ k) {m : Data} (hm : Rect k k m) (hu : IsUnit (mat k k m)) {p : List ℕ} (hp : p.Perm (List.range k))
    {filt : List (ℕ × ℕ) → Option (List (ℕ × ℕ))} (hf : FiltOK filt) (stale : ℕ → List ℕ) {optimize : Bool} (ho : optimize = true → k < 500) :
    ∃ cs, (do let cs ← toCnots stale optimize false (permCols p m); filt cs) = some cs ∧ (∀ c ∈ cs, c.1 < k ∧ c.2 < k ∧ c.1 ≠ c.2) ∧
      ∃ row ∈ addRows m cs, row.count true = 1 := by
  have hr := permCols_rect hm hp
  obtain ⟨N, hN⟩ := permCols_unit hm hp hu
  obtain ⟨cs, e⟩ : ∃ cs, toCnots stale optimize false (permCols p m) = some cs := by
    cases optimize with
    | true => exact Option.isSome_iff_exists.mp ((Props.toCnots_optimize_defined hr stale false).1 h2 (ho rfl))
    | false =>
      by_contra hc
      push Not at hc
      have := (Props.toCnots_defined hr stale false).mp (Option.eq_none_iff_forall_ne_some.mpr hc)
      simp at this
  have hv := toCnots_valid hr stale optimize false e
  have hs := Props.toCnots_sound hr hN stale optimize false e
  obtain ⟨cs', e', hv', hs'⟩ := hf k cs hv
  obtain ⟨h3, h4⟩ := addRows_one hr hv' fun v => (hs' v).trans (hs v)
  obtain ⟨h5, h6⟩ := permCols_addRows (p := p) cs' hm hv'
  refine ⟨cs', by rw [e]; exact e', hv', (addRows m cs').getD 0 [], ?_, ?_⟩
  · rw [List.getD_eq_getElem _ _ (by rw [h6.1]; omega)]
    exact List.getElem_mem _
  · have h7 : ((permCols p (addRows m cs')).getD 0 []).count true = 1 := by
      rw [h5]
      refine count_unit (a := 0) (h3.length_getD (by omega)) (by omega) fun j hj => ?_
      have := congrFun (congrFun h4 ⟨0, by omega⟩) ⟨j, hj⟩
      rw [← bit_inj]
      show bit (Mat2.get (addRows (permCols p m) cs') 0 j) = _
      refine Eq.trans this ?_
      by_cases hj0 : j = 0
      · subst hj0; simp [bit]
      · rw [Matrix.one_apply_ne (by intro hc; exact hj0 (Fin.mk.inj hc).symm)]
        simp [hj0, bit]
    rw [permCols_row (by rw [h6.1]; omega), (hp.map _).count_eq] at h7
    have h8 : (List.range k).map (fun j => ((addRows m cs').getD 0 []).getD j false) = (addRows m cs').getD 0 [] := by
      refine row_ext (k := k) (by simp) (h6.length_getD (by omega)) fun j hj => ?_
      rw [List.getD_eq_getElem _ _ (by simpa using hj)]
      simp
    rwa [h8] at h7

/-- The choices of the code make progress. -/
theorem chooseCnots_good {n level : ℕ} {perm : ℕ → Data → Option (List ℕ)} {filt : List (ℕ × ℕ) → Option (List (ℕ × ℕ))}
    (hn : n < 10000) (h : n ≤ 16 ∧ 2 ≤ level ∨ (0 < level → n < 500) ∧ FiltOK filt ∧
      ∀ t k m, 2 ≤ k → k ≤ n → Rect k k m → IsUnit (mat k k m) → (∀ row ∈ m, row.count true ≠ 1) → ∃ p, perm t m = some p ∧ p.Perm (List.range k))
    (stale : ℕ → ℕ → List ℕ) : ChooseGood n fun t => chooseCnots level (perm t) filt (stale t) := by
  intro t k m h0 hkn hm hu hr
  have h2 : 2 ≤ k := by
    by_contra hc
    have hk1 : k = 1 := by omega
    subst hk1
    obtain ⟨N, -, hN⟩ := isUnit_iff_exists.mp hu
    have h1 := congrFun (congrFun hN 0) 0
    rw [Matrix.mul_apply] at h1
    simp only [Finset.univ_unique, Fin.default_eq_zero, Finset.sum_singleton, Matrix.one_apply_eq] at h1
    have h3 : Mat2.get m 0 0 = true := by
      rw [← bit_ne_zero]
      intro hz
      have : mat 1 1 m 0 0 = 0 := hz
      rw [this] at h1
      simp at h1
    refine hr (m.getD 0 []) ?_ (count_unit (k := 1) (a := 0) (hm.length_getD (by omega)) (by omega) fun j hj => ?_)
    · rw [List.getD_eq_getElem _ _ (by rw [hm.1]; omega)]
      exact List.getElem_mem _
    · have : j = 0 := by omega
      subst this
      simpa [Mat2.get] using h3
  have hg : ¬ (n ≤ 16 ∧ 2 ≤ level) → ∃ cs, (do
      let p ← perm t m
      let cs ← Mat2.toCnots (stale t) (decide (0 < level)) false (permCols p m)
      filt cs) = some cs ∧ (∀ c ∈ cs, c.1 < k ∧ c.2 < k ∧ c.1 ≠ c.2) ∧ ∃ row ∈ addRows m cs, row.count true = 1 := by
    intro hc
    obtain ⟨ha, hf, hp⟩ := h.resolve_left hc
    obtain ⟨p, e, hp⟩ := hp t k m h2 hkn hm hu hr
    rw [e]
    exact gauss_good h2 hm hu hp hf (stale t) (optimize := decide (0 < level)) fun ho => by
      have := ha (by simpa using ho)
      omega
  simp only [chooseCnots]
  by_cases hlv : level ≤ 1
  · rw [if_pos hlv]
    exact hg (by omega)
  · rw [if_neg hlv]
    rcases greedy_good h0 (by omega) hm hu hr with ⟨ops, e, a1, a2⟩ | ⟨e, a⟩
    · rw [e]
      refine ⟨ops.map Prod.swap, rfl, fun c hc => ?_, a2⟩
      obtain ⟨q, hq, rfl⟩ := List.mem_map.mp hc
      obtain ⟨b1, b2, b3⟩ := a1 q hq
      exact ⟨b2, b1, b3.symm⟩
    · rw [e]
      exact hg (by omega)

theorem pickBest_ne {rows : ℕ → List Bool} {wt : ℕ → ℤ} : ∀ (ps : List (ℕ × ℕ)) {st : Option (ℕ × ℕ) × ℤ},
    (∀ c t, st.1 = some (c, t) → c ≠ t) → ∀ c t, (ps.foldl (pickStep rows wt) st).1 = some (c, t) → c ≠ t := by
  intro ps
  induction ps with
  | nil => intro st h; exact h
  | cons p ps ih =>
    intro st h
    rw [List.foldl_cons]
    refine ih fun c t e => ?_
    unfold pickStep at e
    by_cases c1 : p.2 ≤ p.1
    · rw [if_pos c1] at e; exact h c t e
    · rw [if_neg c1] at e
      simp only at e
      have h1 : ∀ c t, (if wt p.1 - ((xorRows (rows p.1) (rows p.2)).count true : ℕ) > st.2 then
          (some (p.2, p.1), wt p.1 - ((xorRows (rows p.1) (rows p.2)).count true : ℕ)) else st).1 = some (c, t) → c ≠ t := by
        intro c t e
        split at e
        · simp only [Option.some.injEq, Prod.mk.injEq] at e; omega
        · exact h c t e
      generalize (if wt p.1 - ((xorRows (rows p.1) (rows p.2)).count true : ℕ) > st.2 then
          (some (p.2, p.1), wt p.1 - ((xorRows (rows p.1) (rows p.2)).count true : ℕ)) else st) = st' at e h1
      split at e
      · simp only [Option.some.injEq, Prod.mk.injEq] at e; omega
      · exact h1 c t e

theorem greedyLoop_ne : ∀ (n : ℕ) {ix : List ℕ} {rows : ℕ → List Bool} {wt : ℕ → ℤ} {ops : List (ℕ × ℕ)},
    greedyLoop n ix rows wt = some ops → ∀ c ∈ ops, c.1 ≠ c.2 := by
  intro n
  induction n with
  | zero => intro ix rows wt ops e; simp only [greedyLoop, Option.some.injEq] at e; subst e; simp
  | succ n ih =>
    intro ix rows wt ops e
    unfold greedyLoop at e
    split at e
    · simp only [Option.some.injEq] at e; subst e; simp
    · cases hp : pickBest rows wt ix with
      | mk b red =>
        rw [hp] at e
        cases b with
        | none => simp at e
        | some p =>
          obtain ⟨c, t⟩ := p
          obtain ⟨ops', h1, h2⟩ := Option.map_eq_some_iff.mp e
          subst h2
          intro q hq
          rcases List.mem_cons.mp hq with rfl | hq
          · exact pickBest_ne (ix ×ˢ ix) (st := (none, -10000)) (by simp) c t (by show (pickBest rows wt ix).1 = _; rw [hp])
          · exact ih h1 q hq

theorem chooseCnots_ok {level : ℕ} {perm : ℕ → Data → Option (List ℕ)} {filt : List (ℕ × ℕ) → Option (List (ℕ × ℕ))} (hf : FiltOK filt)
    (stale : ℕ → ℕ → List ℕ) : ChooseOK fun t => chooseCnots level (perm t) filt (stale t) := by
  intro t r c m cs hm e
  have hg : (do
      let p ← perm t m
      let cs ← Mat2.toCnots (stale t) (decide (0 < level)) false (permCols p m)
      filt cs) = some cs → ∀ c ∈ cs, c.1 ≠ c.2 := by
    intro e
    cases hp : perm t m with
    | none => rw [hp] at e; simp at e
    | some p =>
      rw [hp] at e
      change (toCnots (stale t) (decide (0 < level)) false (permCols p m)).bind filt = some cs at e
      obtain ⟨cs', e1, e2⟩ := Option.bind_eq_some_iff.mp e
      have hr : Rect r p.length (permCols p m) := by
        refine ⟨by simp [permCols, hm.1], fun row hrow => ?_⟩
        obtain ⟨q, -, rfl⟩ := List.mem_map.mp hrow
        simp
      obtain ⟨cs'', e3, hv, -⟩ := hf r cs' (toCnots_valid hr _ _ _ e1)
      rw [e3, Option.some.injEq] at e2
      subst e2
      exact fun c hc => (hv c hc).2.2
  simp only [chooseCnots] at e
  by_cases hlv : level ≤ 1
  · rw [if_pos hlv] at e
    exact hg e
  · rw [if_neg hlv] at e
    cases hgr : greedyReduction m with
    | none => rw [hgr] at e; simp at e
    | some o =>
      rw [hgr] at e
      cases o with
      | none => exact hg e
      | some l =>
        simp only [Option.some.injEq] at e
        subst e
        unfold greedyReduction at hgr
        cases hfm : findMinimalSums false m with
        | none => rw [hfm] at hgr; simp at hgr
        | some ix =>
          rw [hfm] at hgr
          obtain ⟨l', h1, h2⟩ := Option.map_eq_some_iff.mp hgr
          simp only [Option.some.injEq] at h2
          subst h2
          intro q hq
          obtain ⟨q', hq', rfl⟩ := List.mem_map.mp hq
          exact (greedyLoop_ne _ h1 q' hq').symm

end Extract
end PyZX
