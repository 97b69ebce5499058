import Verif.Proofs.ToddStep
import Verif.Proofs.Circuit

/-!
# Circuits of CNOT, CZ and phase gates: the linear map and the phase
-/

namespace PyZX
namespace Todd

open Mat2

/-! ### Phases -/

/-- The phase of a multiple of `π/4`. -/
noncomputable def w8 (k : ZMod 8) : ℂ := ph ((k.val : ℚ) / 4)

theorem ph_quarter_mod (a b : ℤ) (h : (a : ZMod 8) = b) : ph ((a : ℚ) / 4) = ph ((b : ℚ) / 4) := by
  rw [ZMod.intCast_eq_intCast_iff_dvd_sub] at h
  obtain ⟨k, hk⟩ := h
  have : (b : ℚ) / 4 = (a : ℚ) / 4 + 2 * (k : ℤ) := by
    have : (b : ℚ) - a = 8 * k := by exact_mod_cast hk
    linarith
  rw [this, ph_add, ph_two_int, mul_one]

theorem w8_int (k : ℤ) : w8 k = ph ((k : ℚ) / 4) := by
  have := ph_quarter_mod (((k : ZMod 8).val : ℤ)) k (by simp)
  rw [← this, w8]
  simp

theorem w8_add (a b : ZMod 8) : w8 (a + b) = w8 a * w8 b := by
  have ha : a = ((a.val : ℤ) : ZMod 8) := by simp
  have hb : b = ((b.val : ℤ) : ZMod 8) := by simp
  rw [ha, hb, ← Int.cast_add, w8_int, w8_int, w8_int, ← ph_add]
  congr 1
  push_cast
  ring

theorem w8_zero : w8 0 = 1 := by simp [w8]

/-! ### The action of lists of gates -/

/-- The list of gates maps the basis state `x` to `A x` with the phase `F x`. -/
def Acts (G : List Gate) (A : (ℕ → Bool) → ℕ → Bool) (F : (ℕ → Bool) → ZMod 8) : Prop := ∀ ψ x, semGates G ψ (A x) = w8 (F x) * ψ x

theorem Acts.nil : Acts [] (fun x => x) fun _ => 0 := fun ψ x => by rw [semGates_nil, w8_zero, one_mul]

theorem Acts.append {G1 G2 : List Gate} {A1 A2 : (ℕ → Bool) → ℕ → Bool} {F1 F2 : (ℕ → Bool) → ZMod 8} (h1 : Acts G1 A1 F1) (h2 : Acts G2 A2 F2) :
    Acts (G1 ++ G2) (fun x => A2 (A1 x)) fun x => F1 x + F2 (A1 x) := by
  intro ψ x
  rw [semGates_append, h2, h1, w8_add]
  ring

theorem Acts.congr {G : List Gate} {A A' : (ℕ → Bool) → ℕ → Bool} {F F' : (ℕ → Bool) → ZMod 8} (h : Acts G A F) (hA : ∀ x, A x = A' x) (hF : ∀ x, F x = F' x) : Acts G A' F' := by
  intro ψ x
  rw [← hA, ← hF]
  exact h ψ x

theorem Acts.unique {G G' : List Gate} {A : (ℕ → Bool) → ℕ → Bool} {F : (ℕ → Bool) → ZMod 8} (h : Acts G A F) (h' : Acts G' A F) (hA : Function.Surjective A) (ψ : QState) :
    semGates G ψ = semGates G' ψ := by
  funext z
  obtain ⟨x, rfl⟩ := hA z
  rw [h, h']

theorem acts_zrot (c : ZCls) (t : ℕ) (p : ℚ) (adj : Bool) (k : ℤ) (hp : 4 * p = k) : Acts [.zrot c t p adj] (fun x => x) fun x => k * b8 (x t) := by
  intro ψ x
  rw [semGates_cons, semGates_nil, Gate.sem, on1_apply]
  have e : p = (k : ℚ) / 4 := by linarith
  beta_reduce
  cases hx : x t with
  | false =>
    have h1 : Function.update x t false = x := by rw [← hx]; simp
    rw [h1]
    simp [matZ, mat2, b8, w8_zero]
  | true =>
    have h1 : Function.update x t true = x := by rw [← hx]; simp
    rw [h1]
    simp only [matZ, mat2, b8, if_true, mul_one, zero_mul, zero_add]
    rw [e, w8_int]

theorem w8_four : w8 4 = -1 := by
  have := w8_int 4
  norm_num at this
  rw [this]

theorem acts_cz (c t : ℕ) : Acts [.cz c t] (fun x => x) fun x => 4 * (b8 (x c) * b8 (x t)) := by
  intro ψ x
  rw [semGates_cons, semGates_nil, Gate.sem, ctrl]
  beta_reduce
  cases hc : x c with
  | false => simp [b8, w8_zero]
  | true =>
    rw [if_pos rfl, on1_apply]
    cases hx : x t with
    | false =>
      have h1 : Function.update x t false = x := by rw [← hx]; simp
      rw [h1]
      simp [mat2, b8, w8_zero]
    | true =>
      have h1 : Function.update x t true = x := by rw [← hx]; simp
      rw [h1]
      simp [mat2, b8, w8_four]

/-- The effect of a CNOT on a basis state. -/
def cx (c t : ℕ) (x : ℕ → Bool) : ℕ → Bool := Function.update x t (xor (x t) (x c))

theorem cx_cx {c t : ℕ} (h : c ≠ t) (x : ℕ → Bool) : cx c t (cx c t x) = x := by
  funext q
  unfold cx
  by_cases hq : q = t
  · subst hq
    simp [h]
  · simp [hq]

theorem acts_cnot {c t : ℕ} (h : c ≠ t) : Acts [.cnot c t] (cx c t) fun _ => 0 := by
  intro ψ x
  rw [semGates_cons, semGates_nil, Gate.sem, ctrl, w8_zero, one_mul]
  have hc : cx c t x c = x c := by simp [cx, h]
  rw [hc]
  cases hxc : x c with
  | false =>
    have : cx c t x = x := by simp [cx, hxc]
    simp [this]
  | true =>
    rw [if_pos rfl, on1_apply]
    have h1 : ∀ b, Function.update (cx c t x) t b = Function.update x t b := by intro b; simp [cx]
    have h2 : cx c t x t = !x t := by simp [cx, hxc]
    rw [h1, h1, h2]
    cases hx : x t with
    | false =>
      have h1 : Function.update x t false = x := by rw [← hx]; simp
      rw [h1]; simp [mat2]
    | true =>
      have h1 : Function.update x t true = x := by rw [← hx]; simp
      rw [h1]; simp [mat2]

/-! ### Parities of basis states -/

/-- The value of a parity. -/
def par (t : Row) (x : ℕ → Bool) : Bool := parL x (supp t)

theorem bit_parL (x : ℕ → Bool) : ∀ l : List ℕ, bit (parL x l) = (l.map fun v => bit (x v)).sum
  | [] => rfl
  | v :: l => by rw [parL, bit_xor, bit_parL x l]; simp

theorem bit_par {n : ℕ} {t : Row} (ht : t.length = n) (x : ℕ → Bool) : bit (par t x) = ∑ k ∈ Finset.range n, bit (t.getD k false) * bit (x k) := by
  rw [par, bit_parL, supp, ht]
  induction n generalizing t with
  | zero => simp
  | succ n ih =>
    clear ht
    have key : ∀ n, (((List.range n).filter fun i => t.getD i false).map fun v => bit (x v)).sum = ∑ k ∈ Finset.range n, bit (t.getD k false) * bit (x k) := by
      intro n
      induction n with
      | zero => simp
      | succ n ih =>
        rw [List.range_succ, List.filter_append, List.map_append, List.sum_append, Finset.sum_range_succ, ih]
        cases h : t.getD n false
        · rw [List.filter_cons_of_neg (by rw [h]; simp)]; simp [bit]
        · rw [List.filter_cons_of_pos (by rw [h])]; simp [bit]
    exact key _

theorem par_xor {n : ℕ} {a b : Row} (ha : a.length = n) (hb : b.length = n) (x : ℕ → Bool) : par (List.zipWith xor a b) x = xor (par a x) (par b x) := by
  rw [← bit_inj, bit_xor, bit_par ha, bit_par hb, bit_par (n := n) (by rw [List.length_zipWith, ha, hb, min_self]), ← Finset.sum_add_distrib]
  refine Finset.sum_congr rfl fun k _ => ?_
  rw [getD_zipWith rfl ha hb, bit_xor, add_mul]

/-- The basis state after a linear map. -/
def lin (n : ℕ) (M : Data) (x : ℕ → Bool) : ℕ → Bool := fun q => if q < n then par (M.getD q []) x else x q

theorem lin_ident (n : ℕ) (x : ℕ → Bool) : lin n (ident n) x = x := by
  funext q
  unfold lin
  by_cases hq : q < n
  · rw [if_pos hq, ← bit_inj, bit_par (length_getD (rect_ident n) hq)]
    have e : ∀ k ∈ Finset.range n, bit (((ident n).getD q []).getD k false) * bit (x k) = if k = q then bit (x k) else 0 := by
      intro k hk
      have := get_of_map (fun i j => decide (i = j)) hq (Finset.mem_range.mp hk)
      rw [show ((ident n).getD q []).getD k false = decide (q = k) from this]
      by_cases h : k = q
      · simp [h, bit]
      · have : ¬ q = k := fun e => h e.symm
        simp [h, this, bit]
    rw [Finset.sum_congr rfl e, Finset.sum_ite_eq' (Finset.range n) q, if_pos (Finset.mem_range.mpr hq)]
  · rw [if_neg hq]

theorem getD_rowAdd {n c : ℕ} {M : Data} (h : Rect n c M) {a b : ℕ} (hb : b < n) (q : ℕ) :
    (rowAdd a b M).getD q [] = if q = b then List.zipWith xor (M.getD b []) (M.getD a []) else M.getD q [] := by
  unfold rowAdd
  rw [List.getD_eq_getElem?_getD, List.getElem?_set]
  by_cases hq : b = q
  · subst hq
    rw [if_pos rfl, if_pos rfl, if_pos (by rw [h.1]; exact hb)]
    rfl
  · rw [if_neg hq, if_neg (fun e => hq e.symm), ← List.getD_eq_getElem?_getD]

theorem lin_rowAdd {n : ℕ} {M : Data} (h : Rect n n M) {a b : ℕ} (hv : Valid n a b) (x : ℕ → Bool) : lin n (rowAdd a b M) x = cx a b (lin n M x) := by
  funext q
  obtain ⟨ha, hb, hne⟩ := hv
  simp only [lin, cx]
  by_cases hq : q = b
  · subst hq
    rw [if_pos hb, Function.update_self, if_pos hb, if_pos ha, getD_rowAdd h hb, if_pos rfl, par_xor (length_getD h hb) (length_getD h ha)]
  · rw [Function.update_of_ne hq, getD_rowAdd h hb, if_neg hq]
    rfl

/-- CNOTs. -/
theorem rowsFrom_lin {n : ℕ} : ∀ {l : List (ℕ × ℕ)} {M : Data}, Rect n n M → (∀ g ∈ l, Valid n g.1 g.2) → ∀ ψ x,
    semGates (l.map fun g => .cnot g.1 g.2) ψ (lin n (rowsFrom M l) x) = ψ (lin n M x)
  | [], _, _, _, _, _ => rfl
  | g :: l, M, h, hl, ψ, x => by
    have hg := hl g (by simp)
    have := rowsFrom_lin (l := l) (h.rowAdd hg.1 hg.2.1) (fun g hg => hl g (by simp [hg])) ((Gate.cnot g.1 g.2).sem ψ) x
    rw [List.map_cons, semGates_cons]
    refine this.trans ?_
    rw [lin_rowAdd h hg]
    have := acts_cnot hg.2.2 ψ (lin n M x)
    rwa [w8_zero, one_mul] at this

theorem lin_surjective {n : ℕ} : ∀ {l : List (ℕ × ℕ)} {M : Data}, Rect n n M → (∀ g ∈ l, Valid n g.1 g.2) → Function.Surjective (lin n M) → Function.Surjective (lin n (rowsFrom M l))
  | [], _, _, _, hs => hs
  | g :: l, M, h, hl, hs => by
    have hg := hl g (by simp)
    refine lin_surjective (l := l) (h.rowAdd hg.1 hg.2.1) (fun g hg => hl g (by simp [hg])) fun z => ?_
    obtain ⟨x, hx⟩ := hs (cx g.1 g.2 z)
    exact ⟨x, by rw [lin_rowAdd h hg, hx, cx_cx hg.2.2]⟩

theorem lin_rows_surjective {n : ℕ} {l : List (ℕ × ℕ)} (hl : ∀ g ∈ l, Valid n g.1 g.2) : Function.Surjective (lin n (rowsFrom (ident n) l)) :=
  lin_surjective (rect_ident n) hl fun x => ⟨x, lin_ident n x⟩

/-! ### Phase polynomials -/

/-- The phase of a phase polynomial. -/
def phase (terms : List (Row × ℕ)) (x : ℕ → Bool) : ZMod 8 := (terms.map fun e => (e.2 : ZMod 8) * b8 (par e.1 x)).sum

theorem lookup_split {terms : List (Row × ℕ)} (hn : (terms.map Prod.fst).Nodup) {t : Row} {w : ℕ} (h : terms.lookup t = some w) :
    ∃ a b, terms = a ++ (t, w) :: b ∧ (∀ e ∈ a, e.1 ≠ t) ∧ ∀ e ∈ b, e.1 ≠ t := by
  induction terms with
  | nil => simp at h
  | cons e terms ih =>
    obtain ⟨k, v⟩ := e
    rw [List.map_cons, List.nodup_cons] at hn
    rw [List.lookup_cons] at h
    by_cases hk : t = k
    · subst hk
      simp only [beq_self_eq_true] at h
      obtain rfl := Option.some.inj h
      refine ⟨[], terms, rfl, by simp, fun e he hee => hn.1 (List.mem_map.mpr ⟨e, he, hee⟩)⟩
    · rw [beq_eq_false_iff_ne.mpr hk] at h
      obtain ⟨a, b, rfl, h1, h2⟩ := ih hn.2 h
      refine ⟨(k, v) :: a, b, rfl, ?_, h2⟩
      intro e he
      rcases List.mem_cons.mp he with rfl | he
      · exact fun e => hk e.symm
      · exact h1 e he

theorem lookup_none {terms : List (Row × ℕ)} {t : Row} (h : terms.lookup t = none) : t ∉ terms.map Prod.fst := by
  induction terms with
  | nil => simp
  | cons a terms ih =>
    obtain ⟨k, v⟩ := a
    rw [List.lookup_cons] at h
    by_cases hk : t = k
    · rw [beq_iff_eq.mpr hk] at h
      cases h
    · rw [beq_eq_false_iff_ne.mpr hk] at h
      rw [List.map_cons, List.mem_cons, not_or]
      exact ⟨hk, ih h⟩

/-- The number of odd coefficients. -/
def odds (terms : List (Row × ℕ)) : ℕ := terms.countP fun e => decide (e.2 % 2 = 1)

/-- The effect of `add_term`. -/
theorem addTerm_spec {n : ℕ} {terms : List (Row × ℕ)} (hn : (terms.map Prod.fst).Nodup) (hl : ∀ e ∈ terms, e.1.length = n) {t : Row} (ht : t.length = n) (v : ℤ) :
    ((addTerm terms t v).map Prod.fst).Nodup ∧ (∀ e ∈ addTerm terms t v, e.1.length = n) ∧ (∀ x, phase (addTerm terms t v) x = phase terms x + v * b8 (par t x)) ∧
      odds (addTerm terms t v) ≤ odds terms + (if v % 2 = 0 then 0 else 1) := by
  have cast8 : ∀ a : ℤ, (((a % 8).toNat : ℕ) : ZMod 8) = a := by
    intro a
    have h0 : 0 ≤ a % 8 := Int.emod_nonneg _ (by norm_num)
    have : (((a % 8).toNat : ℤ) : ZMod 8) = ((a % 8 : ℤ) : ZMod 8) := by rw [Int.toNat_of_nonneg h0]
    rw [← cast_mod8 a, ← this, Int.cast_natCast]
  unfold addTerm
  cases h : terms.lookup t with
  | none =>
    have hm := lookup_none h
    simp only
    by_cases hv : v % 8 = 0
    · rw [if_pos hv]
      refine ⟨hn, hl, fun x => ?_, by omega⟩
      have := cast8 v
      rw [hv] at this
      rw [← this]; simp
    · rw [if_neg hv]
      refine ⟨?_, ?_, fun x => ?_, ?_⟩
      · rw [List.map_append]
        refine hn.append (by simp) ?_
        intro a ha hb
        simp at hb
        exact hm (hb ▸ ha)
      · intro e he
        rcases List.mem_append.mp he with he | he
        · exact hl e he
        · rw [List.mem_singleton.mp he]; exact ht
      · simp only [phase, List.map_append, List.sum_append, List.map_cons, List.map_nil, List.sum_cons, List.sum_nil, add_zero, cast8]
      · rw [odds, odds, List.countP_append]
        simp only [List.countP_singleton]
        split <;> split <;> simp_all <;> omega
  | some w =>
    obtain ⟨a, b, rfl, h1, h2⟩ := lookup_split hn h
    simp only
    have key : ∀ x, phase (a ++ (t, w) :: b) x = phase a x + (w : ZMod 8) * b8 (par t x) + phase b x := by
      intro x
      simp only [phase, List.map_append, List.sum_append, List.map_cons, List.sum_cons]
      ring
    have hcast : ((((w : ℤ) + v) % 8 : ℤ) : ZMod 8) = w + v := by rw [cast_mod8]; push_cast; ring
    by_cases hu : ((w : ℤ) + v) % 8 = 0
    · rw [if_pos hu]
      have ef : (a ++ (t, w) :: b).filter (fun e => decide (e.1 ≠ t)) = a ++ b := by
        rw [List.filter_append, List.filter_cons_of_neg (by simp), List.filter_eq_self.mpr fun e he => by simpa using h1 e he,
          List.filter_eq_self.mpr fun e he => by simpa using h2 e he]
      rw [ef]
      refine ⟨?_, ?_, fun x => ?_, ?_⟩
      · have : List.Sublist (a ++ b) (a ++ (t, w) :: b) := List.Sublist.append_left (List.sublist_cons_self _ _) _
        exact hn.sublist (this.map _)
      · intro e he
        refine hl e ?_
        rcases List.mem_append.mp he with he | he <;> simp [he]
      · rw [key]
        rw [hu] at hcast
        simp only [phase, List.map_append, List.sum_append]
        have : (0 : ZMod 8) = w + v := by simpa using hcast
        linear_combination b8 (par t x) * this
      · rw [odds, odds, List.countP_append, List.countP_append, List.countP_cons]
        omega
    · rw [if_neg hu]
      have ef : (a ++ (t, w) :: b).map (fun e => if e.1 = t then (t, (((w : ℤ) + v) % 8).toNat) else e) = a ++ (t, (((w : ℤ) + v) % 8).toNat) :: b := by
        rw [List.map_append, List.map_cons, if_pos rfl]
        congr 1
        · conv_rhs => rw [← List.map_id a]
          exact List.map_congr_left fun e he => by rw [if_neg (h1 e he)]; rfl
        · congr 1
          conv_rhs => rw [← List.map_id b]
          exact List.map_congr_left fun e he => by rw [if_neg (h2 e he)]; rfl
      rw [ef]
      refine ⟨?_, ?_, fun x => ?_, ?_⟩
      · simpa using hn
      · intro e he
        rcases List.mem_append.mp he with he | he
        · exact hl e (by simp [he])
        · rcases List.mem_cons.mp he with rfl | he
          · exact ht
          · exact hl e (by simp [he])
      · rw [key]
        simp only [phase, List.map_append, List.sum_append, List.map_cons, List.sum_cons]
        rw [cast8]
        push_cast
        ring
      · rw [odds, odds, List.countP_append, List.countP_append, List.countP_cons, List.countP_cons]
        have : (((w : ℤ) + v) % 8).toNat % 2 = 1 → ¬ v % 2 = 0 ∨ w % 2 = 1 := by omega
        simp only [decide_eq_true_eq]
        by_cases q1 : (((w : ℤ) + v) % 8).toNat % 2 = 1
        · rw [if_pos q1]
          rcases this q1 with q | q
          · rw [if_neg q]; omega
          · rw [if_pos q]; omega
        · rw [if_neg q1]; omega

end Todd
end PyZX
