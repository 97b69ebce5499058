import Verif.Proofs.ToddMain
import Verif.Props.Linalg

/-!
# `todd_simp`: the T gates and the CNOTs
-/

namespace PyZX
namespace Todd

open Mat2 ToddSpec Matrix

/-! ### Linear maps of CNOTs -/

theorem rowAdd_rowAdd {r c : ℕ} {d : Data} (h : Rect r c d) {a b : ℕ} (hv : Valid r a b) : rowAdd a b (rowAdd a b d) = d := by
  have h1 := h.rowAdd hv.1 hv.2.1 (a := a) (b := b)
  refine mat_inj (h1.rowAdd hv.1 hv.2.1) h ?_
  rw [mat_rowAdd h1 hv, mat_rowAdd h hv, ← Matrix.mul_assoc, ed_sq hv, Matrix.one_mul]

theorem rowsFrom_reverse {r c : ℕ} : ∀ {L : List (ℕ × ℕ)} {d : Data}, Rect r c d → (∀ g ∈ L, Valid r g.1 g.2) → rowsFrom (rowsFrom d L.reverse) L = d
  | [], _, _, _ => rfl
  | g :: L, d, h, hL => by
    have hg := hL g (by simp)
    have hL' : ∀ g ∈ L, Valid r g.1 g.2 := fun g hg => hL g (by simp [hg])
    have h1 := rect_rowsFrom (l := L.reverse) h fun g hg => hL' g (List.mem_reverse.mp hg)
    rw [List.reverse_cons, rowsFrom_append]
    show rowsFrom (rowAdd g.1 g.2 (rowAdd g.1 g.2 (rowsFrom d L.reverse))) L = d
    rw [rowAdd_rowAdd h1 hg]
    exact rowsFrom_reverse h hL'

theorem circAct_rows {n : ℕ} : ∀ {c : List (ℕ × ℕ)} {M : Data}, Rect n n M → (∀ g ∈ c, Valid n g.1 g.2) → ∀ x, circAct c (mat n n M *ᵥ x) = mat n n (rowsFrom M c) *ᵥ x
  | [], _, _, _, _ => rfl
  | g :: c, M, h, hc, x => by
    have hg := hc g (by simp)
    have e : cnotAct g (mat n n M *ᵥ x) = mat n n (rowAdd g.1 g.2 M) *ᵥ x := by
      rw [mat_rowAdd h hg, ← Matrix.mulVec_mulVec]
      funext i
      have := ed_mul (b := g.2) hg.1 (Matrix.of fun i (_ : Fin 1) => (mat n n M *ᵥ x) i) i 0
      rw [show (ed n g.1 g.2 *ᵥ (mat n n M *ᵥ x)) i = (ed n g.1 g.2 * Matrix.of fun i (_ : Fin 1) => (mat n n M *ᵥ x) i) i 0 from rfl, this]
      simp only [cnotAct, Matrix.of_apply]
      by_cases hi : (i : ℕ) = g.2
      · rw [if_pos hi, if_pos hi, dif_pos hg.1]
      · rw [if_neg hi, if_neg hi, add_zero]
    show circAct c (cnotAct g (mat n n M *ᵥ x)) = _
    rw [e]
    exact circAct_rows (h.rowAdd hg.1 hg.2.1) (fun g hg => hc g (by simp [hg])) x

/-- The gates returned by `to_cnots(optimize=True)` are CNOTs on the qubits of the matrix. -/
theorem toCnots_valid {r : ℕ} {d : Data} (hd : Rect r r d) (hr : 0 < r) {stale : ℕ → List ℕ} {gs : List (ℕ × ℕ)} (h : toCnots stale true false d = some gs) :
    ∀ g ∈ gs, Valid r g.1 g.2 := by
  unfold toCnots at h
  simp only [if_true] at h
  rcases bestCnots_mem h with h1 | ⟨b, hb, rfl⟩
  · simp at h1
  · rw [List.mem_range'_1] at hb
    obtain ⟨L, h1, h2, h3, h4⟩ := Props.gauss_observers (cnotMaker) (noOp) (b := b) (by omega) (s := ⟨d, [], ()⟩) hd (rect_cols hd hr) true (stale b)
    rw [h3]
    have e : ∀ (L : List (ℕ × ℕ)) x, L.foldl (fun x p => cnotMaker p.1 p.2 x) x = x ++ L.map Prod.swap := by
      intro L
      induction L with
      | nil => simp
      | cons p L ih =>
        intro x
        rw [List.foldl_cons, ih]
        simp [cnotMaker, Prod.swap]
    rw [e]
    intro g hg
    simp only [List.nil_append] at hg
    obtain ⟨p, hp, rfl⟩ := List.mem_map.mp hg
    obtain ⟨a1, a2, a3⟩ := h1 p hp
    exact ⟨a2, a1, fun e => a3 e.symm⟩

/-- The reversed and flipped gates do the row operations of the matrix. -/
theorem rest_rows {r : ℕ} {T : Data} (hT : Rect r r T) (hr : 0 < r) {N : Matrix (Fin r) (Fin r) (ZMod 2)} (hN : N * mat r r T = 1) {stale : ℕ → List ℕ}
    {gs : List (ℕ × ℕ)} (h : toCnots stale true false T = some gs) :
    (∀ g ∈ gs.reverse.map Prod.swap, Valid r g.1 g.2) ∧ ∀ d, Rect r r d → mat r r (rowsFrom d (gs.reverse.map Prod.swap)) = mat r r T * mat r r d := by
  have hv := toCnots_valid hT hr h
  have hs := Props.toCnots_sound hT hN stale true false h
  have hL : ∀ p ∈ gs.map Prod.swap, Valid r p.1 p.2 := by
    intro p hp
    obtain ⟨g, hg, rfl⟩ := List.mem_map.mp hp
    obtain ⟨a1, a2, a3⟩ := hv g hg
    exact ⟨a2, a1, fun e => a3 e.symm⟩
  obtain ⟨E, E', h1, h2, h3, -, h5⟩ := log_mats (gs.map Prod.swap) hL
  have e1 : (gs.map Prod.swap).map Prod.swap = gs := by rw [List.map_map]; simp
  rw [e1] at h5
  have eE : E' = mat r r T := by
    refine Matrix.ext_of_single_vecMul fun i => ?_
    rw [← h5, hs]
  have er : gs.reverse.map Prod.swap = (gs.map Prod.swap).reverse := List.map_reverse
  rw [er]
  refine ⟨fun g hg => hL g (List.mem_reverse.mp hg), fun d hd => ?_⟩
  have h6 := rowsFrom_reverse hd hL
  have hd1 := rect_rowsFrom (l := (gs.map Prod.swap).reverse) hd fun g hg => hL g (List.mem_reverse.mp hg)
  have h7 := (h3 r _ hd1).2
  rw [← eE]
  have h8 : mat r r d = E * mat r r (rowsFrom d (gs.map Prod.swap).reverse) := by
    rw [← h7]
    congr 1
    exact h6.symm
  rw [h8, ← Matrix.mul_assoc, h2, Matrix.one_mul]

/-- All CNOTs together. -/
theorem cnots_total {n : ℕ} (hn : 0 < n) {D : Data} (hD : Rect n n D) {N : Matrix (Fin n) (Fin n) (ZMod 2)} (hN : N * mat n n D = 1)
    {cnots : List (ℕ × ℕ)} (hc : ∀ g ∈ cnots, Valid n g.1 g.2) :
    ∃ inv target, inverse [] (rowsFrom (ident n) cnots) = some inv ∧ mul D inv = some target ∧ Rect n n target ∧
      ∀ rest, toCnots (fun _ => []) true false target = some rest → (∀ g ∈ rest.reverse.map Prod.swap, Valid n g.1 g.2) ∧ rowsFrom (ident n) (cnots ++ rest.reverse.map Prod.swap) = D := by
  have hR := rect_rowsFrom (rect_ident n) hc
  have hcols := rect_cols hR (by omega)
  obtain ⟨E, E', h1, h2, h3, -, -⟩ := log_mats cnots hc
  have hE : mat n n (rowsFrom (ident n) cnots) = E := by
    have := (h3 n _ (rect_ident n)).2
    rw [mat_ident, Matrix.mul_one] at this
    exact this
  cases hi : inverse [] (rowsFrom (ident n) cnots) with
  | none =>
    exact absurd ⟨rfl, E', by rw [hE, h2]⟩ ((Props.inverse_none_iff hR hcols []).mp hi)
  | some inv =>
    obtain ⟨-, k1, k2, k3⟩ := Props.inverse_sound hR hcols [] hi
    obtain ⟨T, t1, t2, t3⟩ := mul_spec hD k1 (by omega)
    have hTN : (mat n n (rowsFrom (ident n) cnots) * N) * mat n n T = 1 := by
      rw [t3]
      calc _ = mat n n (rowsFrom (ident n) cnots) * (N * mat n n D) * mat n n inv := by simp only [Matrix.mul_assoc]
        _ = 1 := by rw [hN, Matrix.mul_one, k3]
    refine ⟨inv, T, rfl, t1, t2, fun rest hrest => ?_⟩
    obtain ⟨r1, r2⟩ := rest_rows t2 (by omega) hTN hrest
    refine ⟨r1, ?_⟩
    rw [rowsFrom_append]
    refine mat_inj (rect_rowsFrom hR r1) hD ?_
    rw [r2 _ hR, t3, Matrix.mul_assoc, k2, Matrix.mul_one]

/-! ### The loop that places T gates -/

theorem placeT_spec {n : ℕ} : ∀ {cnots : List (ℕ × ℕ)} {m : Data} {ps : List Row}, Rect n n m → (∀ g ∈ cnots, Valid n g.1 g.2) →
    (∀ ψ x, semGates (placeT cnots m ps).1 ψ (lin n (rowsFrom m cnots) x) =
      w8 ((ps.map fun p => b8 (par p x)).sum - ((placeT cnots m ps).2.map fun p => b8 (par p x)).sum) * ψ (lin n m x)) ∧
    (∀ g ∈ (placeT cnots m ps).1, PhaseGate n g) ∧ tsum (placeT cnots m ps).1 ≤ ps.length
  | [], m, ps, _, _ => by
    refine ⟨fun ψ x => ?_, by simp [placeT], by simp [placeT, tsum]⟩
    rw [placeT, sub_self, w8_zero, one_mul]
    rfl
  | g :: cnots, m, ps, hm, hc => by
    have hg := hc g (by simp)
    have hm' := hm.rowAdd hg.1 hg.2.1 (a := g.1) (b := g.2)
    have hc' : ∀ g ∈ cnots, Valid n g.1 g.2 := fun g hg => hc g (by simp [hg])
    have hcx : ∀ ψ x, (Gate.cnot g.1 g.2).sem ψ (lin n (rowAdd g.1 g.2 m) x) = ψ (lin n m x) := by
      intro ψ x
      have := acts_cnot hg.2.2 ψ (lin n m x)
      rwa [w8_zero, one_mul, ← lin_rowAdd hm hg] at this
    have hrow : rowsFrom m (g :: cnots) = rowsFrom (rowAdd g.1 g.2 m) cnots := rfl
    rw [hrow]
    have hgate : PhaseGate n (.cnot g.1 g.2) := hg
    cases hf : ps.find? fun p => decide (p ∈ rowAdd g.1 g.2 m) with
    | none =>
      obtain ⟨i1, i2, i3⟩ := placeT_spec (ps := ps) hm' hc'
      have e : placeT (g :: cnots) m ps = (.cnot g.1 g.2 :: (placeT cnots (rowAdd g.1 g.2 m) ps).1, (placeT cnots (rowAdd g.1 g.2 m) ps).2) := by
        simp only [placeT, hf]
      rw [e]
      refine ⟨fun ψ x => ?_, ?_, ?_⟩
      · rw [semGates_cons, i1, hcx]
      · intro g' hg'
        rcases List.mem_cons.mp hg' with rfl | hg'
        · exact hgate
        · exact i2 g' hg'
      · simpa [tsum, Gate.tcount] using i3
    | some p =>
      have hp : p ∈ rowAdd g.1 g.2 m := by simpa using List.find?_some hf
      have hps := List.mem_of_find?_eq_some hf
      obtain ⟨i1, i2, i3⟩ := placeT_spec (ps := ps.erase p) hm' hc'
      have e : placeT (g :: cnots) m ps = (.cnot g.1 g.2 :: .mkT ((rowAdd g.1 g.2 m).idxOf p) :: (placeT cnots (rowAdd g.1 g.2 m) (ps.erase p)).1,
          (placeT cnots (rowAdd g.1 g.2 m) (ps.erase p)).2) := by
        simp only [placeT, hf]
      rw [e]
      have hq : (rowAdd g.1 g.2 m).idxOf p < n := by
        have := List.idxOf_lt_length_of_mem hp
        rwa [hm'.1] at this
      have hrowp : (rowAdd g.1 g.2 m).getD ((rowAdd g.1 g.2 m).idxOf p) [] = p := by
        rw [List.getD_eq_getElem _ _ (by rw [hm'.1]; exact hq)]
        exact List.getElem_idxOf _
      refine ⟨fun ψ x => ?_, ?_, ?_⟩
      · rw [semGates_cons, semGates_cons, i1]
        have hT := acts_zrot .t ((rowAdd g.1 g.2 m).idxOf p) (1 / 4 * 1) false 1 (by norm_num) ((Gate.cnot g.1 g.2).sem ψ) (lin n (rowAdd g.1 g.2 m) x)
        rw [semGates_cons, semGates_nil] at hT
        rw [show (Gate.mkT ((rowAdd g.1 g.2 m).idxOf p)).sem ((Gate.cnot g.1 g.2).sem ψ) (lin n (rowAdd g.1 g.2 m) x) = _ from hT, hcx]
        have hl : lin n (rowAdd g.1 g.2 m) x ((rowAdd g.1 g.2 m).idxOf p) = par p x := by
          simp only [lin]
          rw [if_pos hq, hrowp]
        beta_reduce
        have he := ((List.perm_cons_erase hps).map fun p => b8 (par p x)).sum_eq
        rw [List.map_cons, List.sum_cons] at he
        rw [hl, ← mul_assoc, ← w8_add, he]
        congr 2
        push_cast
        ring
      · intro g' hg'
        rcases List.mem_cons.mp hg' with rfl | hg'
        · exact hgate
        · rcases List.mem_cons.mp hg' with rfl | hg'
          · exact ⟨hq, 1, by norm_num⟩
          · exact i2 g' hg'
      · have := List.length_erase_of_mem hps
        have hpos := List.length_pos_of_mem hps
        have e2 : tsum (Gate.cnot g.1 g.2 :: Gate.mkT ((rowAdd g.1 g.2 m).idxOf p) :: (placeT cnots (rowAdd g.1 g.2 m) (ps.erase p)).1) =
            1 + tsum (placeT cnots (rowAdd g.1 g.2 m) (ps.erase p)).1 := by
          have h4 : ((1 / 4 : ℚ) * 1).den = 4 := by norm_num
          simp only [tsum, List.map_cons, List.sum_cons, Gate.mkT, Gate.tcount]
          norm_num
        simp only
        rw [e2]
        omega

/-- Every parity that occurs as a row gets its T gate. -/
theorem placeT_left {n : ℕ} : ∀ {cnots : List (ℕ × ℕ)} {m : Data} {ps : List Row}, Rect n n m → (∀ g ∈ cnots, Valid n g.1 g.2) → ps.Nodup →
    (∀ p ∈ ps, p ∉ m) → (∀ p ∈ ps, ∃ c1 c2, cnots = c1 ++ c2 ∧ p ∈ rowsFrom m c1) → (placeT cnots m ps).2 = []
  | [], m, ps, _, _, _, h1, h2 => by
    rw [placeT]
    refine List.eq_nil_iff_forall_not_mem.mpr fun p hp => ?_
    obtain ⟨c1, c2, h3, h4⟩ := h2 p hp
    obtain ⟨rfl, rfl⟩ := List.append_eq_nil_iff.mp h3.symm
    exact h1 p hp h4
  | g :: cnots, m, ps, hm, hc, hn, h1, h2 => by
    have hg := hc g (by simp)
    have hm' := hm.rowAdd hg.1 hg.2.1 (a := g.1) (b := g.2)
    have hc' : ∀ g ∈ cnots, Valid n g.1 g.2 := fun g hg => hc g (by simp [hg])
    have h3 : ∀ p ∈ ps, ∃ c1 c2, cnots = c1 ++ c2 ∧ p ∈ rowsFrom (rowAdd g.1 g.2 m) c1 := by
      intro p hp
      obtain ⟨c1, c2, e, h4⟩ := h2 p hp
      cases c1 with
      | nil => exact absurd h4 (h1 p hp)
      | cons a c1 =>
        rw [List.cons_append, List.cons.injEq] at e
        obtain ⟨rfl, e⟩ := e
        exact ⟨c1, c2, e, h4⟩
    cases hf : ps.find? fun p => decide (p ∈ rowAdd g.1 g.2 m) with
    | none =>
      simp only [placeT, hf]
      refine placeT_left hm' hc' hn (fun p hp => ?_) h3
      simpa using List.find?_eq_none.mp hf p hp
    | some p =>
      simp only [placeT, hf]
      have hp : p ∈ rowAdd g.1 g.2 m := by simpa using List.find?_some hf
      have hps := List.mem_of_find?_eq_some hf
      refine placeT_left hm' hc' (hn.erase p) (fun p' hp' hin => ?_) fun p' hp' => h3 p' (List.mem_of_mem_erase hp')
      have hin1 := List.mem_or_eq_of_mem_set hin
      have hin2 := List.mem_or_eq_of_mem_set hp
      have hne : p' ≠ p := fun e => (List.Nodup.not_mem_erase hn) (e ▸ hp')
      rcases hin1 with h | h
      · exact h1 p' (List.mem_of_mem_erase hp') h
      · rcases hin2 with h' | h'
        · exact h1 p hps h'
        · exact hne (h.trans h'.symm)

/-! ### Parities of one qubit -/

theorem supp_length (c : Row) : (supp c).length = c.count true := by
  have e : (List.range c.length).map (fun i => c.getD i false) = c := by
    refine List.ext_getElem (by simp) fun i h1 h2 => ?_
    rw [List.getElem_map, List.getElem_range, List.getD_eq_getElem _ _ h2]
  have : (supp c).length = ((List.range c.length).map fun i => c.getD i false).countP (· == true) := by
    rw [supp, ← List.countP_eq_length_filter, List.countP_map]
    refine List.countP_congr fun i _ => ?_
    simp
  rw [this, e, List.count]

theorem single_spec {n : ℕ} {c : Row} (hl : c.length = n) (h : c.count true = 1) : c.findIdx id < n ∧ ∀ x, par c x = x (c.findIdx id) := by
  have hm : true ∈ c := by
    rw [← List.count_pos_iff]; omega
  have hlt : c.findIdx id < c.length := List.findIdx_lt_length_of_exists ⟨true, hm, rfl⟩
  have hget : c.getD (c.findIdx id) false = true := by
    rw [List.getD_eq_getElem _ _ hlt]
    simpa using List.findIdx_getElem (w := hlt)
  have hs := supp_length c
  rw [h] at hs
  obtain ⟨q, hq⟩ := List.length_eq_one_iff.mp hs
  have : c.findIdx id ∈ supp c := mem_supp.mpr hget
  rw [hq, List.mem_singleton] at this
  refine ⟨hl ▸ hlt, fun x => ?_⟩
  rw [par, hq, this]
  simp [parL]

theorem singles_spec {n : ℕ} : ∀ {S : List Row}, (∀ c ∈ S, c.length = n ∧ c.count true = 1) →
    Acts (S.map fun c => Gate.mkT (c.findIdx id)) (fun x => x) (fun x => (S.map fun c => b8 (par c x)).sum) ∧
      (∀ g ∈ S.map fun c => Gate.mkT (c.findIdx id), PhaseGate n g) ∧ tsum (S.map fun c => Gate.mkT (c.findIdx id)) ≤ S.length
  | [], _ => ⟨Acts.nil.congr (fun _ => rfl) (fun _ => rfl), by simp, by simp [tsum]⟩
  | c :: S, h => by
    obtain ⟨i1, i2, i3⟩ := singles_spec (S := S) fun c hc => h c (by simp [hc])
    obtain ⟨h1, h2⟩ := single_spec (h c (by simp)).1 (h c (by simp)).2
    refine ⟨?_, ?_, ?_⟩
    · rw [List.map_cons]
      refine ((acts_zrot .t (c.findIdx id) (1 / 4 * 1) false 1 (by norm_num)).append i1).congr (fun _ => rfl) fun x => ?_
      rw [List.map_cons, List.sum_cons, h2]
      push_cast
      ring
    · intro g hg
      rcases List.mem_cons.mp hg with rfl | hg
      · exact ⟨h1, 1, by norm_num⟩
      · exact i2 g hg
    · have e2 : tsum ((c :: S).map fun c => Gate.mkT (c.findIdx id)) = 1 + tsum (S.map fun c => Gate.mkT (c.findIdx id)) := by
        simp only [tsum, List.map_cons, List.sum_cons, Gate.mkT, Gate.tcount]
        norm_num
      rw [e2, List.length_cons]
      omega

theorem ident_count {n : ℕ} {p : Row} (h : p ∈ ident n) : p.count true = 1 := by
  obtain ⟨i, hi, rfl⟩ := List.mem_map.mp h
  have : ((List.range n).map fun j => decide (i = j)).count true = (List.range n).count i := by
    rw [List.count, List.countP_map, List.count]
    refine List.countP_congr fun j _ => ?_
    simp only [Function.comp, beq_iff_eq, decide_eq_true_eq]
    exact eq_comm
  rw [this]
  exact List.count_eq_one_of_mem List.nodup_range hi

/-- A realised parity is a row. -/
theorem real_mem {n : ℕ} {cs : List (ℕ × ℕ)} (hc : ∀ g ∈ cs, Valid n g.1 g.2) {y : Row} (hy : y.length = n) (h : Real n cs fun k => bit (y.getD k false)) :
    ∃ c1 c2, cs = c1 ++ c2 ∧ ∃ q < n, (rowsFrom (ident n) c1).getD q [] = y := by
  obtain ⟨c1, c2, e, q, hq, h1⟩ := h
  have hR := rect_rowsFrom (rect_ident n) (l := c1) fun g hg => hc g (by rw [e]; simp [hg])
  refine ⟨c1, c2, e, q, hq, ext_getD (length_getD hR hq) hy fun k hk => ?_⟩
  exact bit_inj.mp (h1 k hk)

/-! ### The theorem -/

theorem sum_split (C : List Row) (f : Row → ZMod 8) : (C.map f).sum =
    ((C.filter fun c => decide (c.count true = 1)).map f).sum + ((C.filter fun c => decide (c.count true ≠ 1)).map f).sum := by
  induction C with
  | nil => simp
  | cons c C ih =>
    rw [List.map_cons, List.sum_cons, ih]
    by_cases hc : c.count true = 1
    · rw [List.filter_cons_of_pos (by rw [decide_eq_true_eq]; exact hc), List.filter_cons_of_neg (by rw [decide_eq_true_eq]; exact fun h => h hc), List.map_cons, List.sum_cons]
      ring
    · rw [List.filter_cons_of_neg (by rw [decide_eq_true_eq]; exact hc), List.filter_cons_of_pos (by rw [decide_eq_true_eq]; exact hc), List.map_cons, List.sum_cons]
      ring

theorem length_split (C : List Row) : C.length = (C.filter fun c => decide (c.count true = 1)).length + (C.filter fun c => decide (c.count true ≠ 1)).length := by
  induction C with
  | nil => simp
  | cons c C ih =>
    rw [List.length_cons, ih]
    by_cases hc : c.count true = 1
    · rw [List.filter_cons_of_pos (by rw [decide_eq_true_eq]; exact hc), List.filter_cons_of_neg (by rw [decide_eq_true_eq]; exact fun h => h hc), List.length_cons]
      omega
    · rw [List.filter_cons_of_neg (by rw [decide_eq_true_eq]; exact hc), List.filter_cons_of_pos (by rw [decide_eq_true_eq]; exact hc), List.length_cons]
      omega

theorem toddSimp_spec {shuffle : Data → Data} (hs : ∀ d, (shuffle d).Perm d) {n : ℕ} (hn : 0 < n) {gates : List Gate} (hg : ∀ g ∈ gates, PhaseGate n g) :
    ∃ target, Rect n n target ∧ (toCnots (fun _ => []) true false target = none → toddSimp shuffle n gates = none) ∧
    ∀ rest, toCnots (fun _ => []) true false target = some rest → ∃ out, toddSimp shuffle n gates = some out ∧ (∀ g ∈ out, PhaseGate n g) ∧ (∀ ψ, semGates out ψ = semGates gates ψ) ∧ tsum out ≤ tsum gates := by
  obtain ⟨s, hs1, D⟩ := phaseGatesToPoly_spec hg
  have hC : ∀ c ∈ colsOf s.terms, c.length = n := by
    intro c hc
    obtain ⟨e, he, hc⟩ := List.mem_flatMap.mp hc
    rw [List.eq_of_mem_replicate hc]
    exact D.len e he
  obtain ⟨C', t1, K, t3⟩ := toddIter_spec (by omega) hC hs
  have eM : toParMatrix s.terms = transpose (colsOf s.terms) := rfl
  have tC : transpose (transpose (colsOf s.terms)) = colsOf s.terms := transpose_transpose (k := (colsOf s.terms).length) (n := n) ⟨rfl, hC⟩ (by omega)
  have tC' : transpose (transpose C') = C' := transpose_transpose (k := C'.length) (n := n) ⟨rfl, K.rows⟩ (by omega)
  obtain ⟨clif, l1, l2, l3⟩ := toClifford_spec hC K.rows K.sig
  obtain ⟨cn, cn1, cn2⟩ := D.rows
  obtain ⟨E, E', x1, x2, x3, -, -⟩ := log_mats cn cn1
  have hE : mat n n s.exprs = E := by
    have := (x3 n _ (rect_ident n)).2
    rw [mat_ident, Matrix.mul_one] at this
    rw [cn2]
    exact this
  have hpl : ∀ p ∈ C'.filter fun c => decide (c.count true ≠ 1), p.length = n := fun p hp => K.rows p (List.mem_filter.mp hp).1
  obtain ⟨cnots, p1, p2, p3⟩ := parityNetwork_spec hpl
  obtain ⟨inv, target, c1, c2, c3', c6⟩ := cnots_total hn D.rect (N := E') (by rw [hE, x2]) p2
  have a1 : addParMatrix true (addParMatrix false {} (transpose (colsOf s.terms))) (transpose C') =
      C'.foldl (addParity true) ((colsOf s.terms).foldl (addParity false) {}) := by
    rw [addParMatrix, addParMatrix, tC, tC']
  have a2 : cnots.foldl (fun m g => rowAdd g.1 g.2 m) (ident n) = rowsFrom (ident n) cnots := rfl
  refine ⟨target, c3', fun c3 => ?_, fun rest c3 => ?_⟩
  · rw [toddSimp, hs1]
    simp only [Option.bind_eq_bind, Option.bind_some, eM, t1, tC', a1, l1, p1, a2, c1, c2, c3, Option.bind_none]
  obtain ⟨c4, c5⟩ := c6 rest c3
  have hall : ∀ g ∈ cnots ++ rest.reverse.map Prod.swap, Valid n g.1 g.2 := by
    intro g hg
    rcases List.mem_append.mp hg with h | h
    · exact p2 g h
    · exact c4 g h
  obtain ⟨q1, q2, q3⟩ := placeT_spec (cnots := cnots ++ rest.reverse.map Prod.swap) (ps := C'.filter fun c => decide (c.count true ≠ 1)) (rect_ident n) hall
  have hleft : (placeT (cnots ++ rest.reverse.map Prod.swap) (ident n) (C'.filter fun c => decide (c.count true ≠ 1))).2 = [] := by
    refine placeT_left (rect_ident n) hall (K.nodup.filter _) (fun p hp hin => ?_) fun p hp => ?_
    · have := (List.mem_filter.mp hp).2
      rw [ident_count hin] at this
      simp at this
    · obtain ⟨d1, d2, e, q, hq, hy⟩ := real_mem p2 (hpl p hp) (p3 p hp (K.ne p (List.mem_filter.mp hp).1))
      refine ⟨d1, d2 ++ rest.reverse.map Prod.swap, by rw [e, List.append_assoc], ?_⟩
      have hR := rect_rowsFrom (rect_ident n) (l := d1) fun g hg => p2 g (by rw [e]; simp [hg])
      rw [← hy, List.getD_eq_getElem _ _ (by rw [hR.1]; exact hq)]
      exact List.getElem_mem _
  obtain ⟨s1, s2, s3⟩ := singles_spec (n := n) (S := C'.filter fun c => decide (c.count true = 1)) fun c hc =>
    ⟨K.rows c (List.mem_filter.mp hc).1, by simpa using (List.mem_filter.mp hc).2⟩
  refine ⟨(C'.filter fun c => decide (c.count true = 1)).map (fun c => .mkT (c.findIdx id)) ++ clif ++
    (placeT (cnots ++ rest.reverse.map Prod.swap) (ident n) (C'.filter fun c => decide (c.count true ≠ 1))).1, ?_, ?_, ?_, ?_⟩
  · rw [toddSimp, hs1]
    simp only [Option.bind_eq_bind, Option.bind_some, eM, t1, tC', a1, l1, p1, a2, c1, c2, c3]
    rw [if_neg (by rw [hleft]; simp)]
  · intro g hg
    rcases List.mem_append.mp hg with hg | hg
    · rcases List.mem_append.mp hg with hg | hg
      · exact s2 g hg
      · exact (l3 g hg).1
    · exact q2 g hg
  · have hA : Acts (placeT (cnots ++ rest.reverse.map Prod.swap) (ident n) (C'.filter fun c => decide (c.count true ≠ 1))).1 (lin n s.exprs)
        (fun x => ((C'.filter fun c => decide (c.count true ≠ 1)).map fun p => b8 (par p x)).sum) := by
      intro ψ x
      have := q1 ψ x
      rw [hleft, c5, lin_ident] at this
      simpa using this
    intro ψ
    refine Acts.unique (((s1.append l2).append hA).congr (A' := lin n s.exprs) (F' := phase s.terms) (fun _ => rfl) fun x => ?_) D.acts ?_ ψ
    · rw [← colsOf_sum]
      rw [sum_split C' fun c => b8 (par c x)]
      ring
    · rw [cn2]; exact lin_rows_surjective cn1
  · have hl0 : tsum clif = 0 := by
      rw [tsum]
      refine List.sum_eq_zero fun k hk => ?_
      obtain ⟨g, hg, rfl⟩ := List.mem_map.mp hk
      exact (l3 g hg).2
    have hlen := length_split C'
    have := removeTrivial_le D.nodup
    have := D.odds
    rw [tsum_append, tsum_append, hl0]
    refine (Nat.add_le_add (Nat.add_le_add s3 le_rfl) q3).trans ?_
    omega

end Todd
end PyZX
