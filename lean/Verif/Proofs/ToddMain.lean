import Verif.Proofs.ToddSem
import Verif.Spec.Todd

/-!
# `todd_simp`
-/

namespace PyZX
namespace Todd

open Mat2 ToddSpec

/-- The T-count of a list of gates. -/
def tsum (G : List Gate) : ℕ := (G.map Gate.tcount).sum

theorem tsum_append (G H : List Gate) : tsum (G ++ H) = tsum G + tsum H := by simp [tsum]

/-! ### `phase_gates_to_poly` -/

/-- The polynomials describe the gates. -/
structure Describes (n : ℕ) (G : List Gate) (s : Polys) : Prop where
  rows : ∃ cn : List (ℕ × ℕ), (∀ g ∈ cn, Valid n g.1 g.2) ∧ s.exprs = rowsFrom (ident n) cn
  nodup : (s.terms.map Prod.fst).Nodup
  len : ∀ e ∈ s.terms, e.1.length = n
  acts : Acts G (lin n s.exprs) (phase s.terms)
  odds : odds s.terms ≤ tsum G

theorem Describes.rect {n : ℕ} {G : List Gate} {s : Polys} (h : Describes n G s) : Rect n n s.exprs := by
  obtain ⟨cn, h1, h2⟩ := h.rows
  rw [h2]; exact rect_rowsFrom (rect_ident n) h1

theorem describes_nil (n : ℕ) : Describes n [] ⟨[], ident n⟩ :=
  ⟨⟨[], by simp, rfl⟩, by simp, by simp, Acts.nil.congr (fun x => (lin_ident n x).symm) (fun x => by simp [phase]), by simp [Todd.odds]⟩

theorem quarter_int {p : ℚ} {k : ℤ} (h : 4 * p = k) : quarter p = k := by
  have : p * 4 = (k : ℚ) := by rw [← h]; ring
  simp [quarter, this]

theorem tcount_odd {p : ℚ} {k : ℤ} (h : 4 * p = k) (hk : ¬ k % 2 = 0) : p.den > 2 := by
  by_contra hn
  have hpos := p.den_pos
  have hd := Rat.mul_den_eq_num p
  have : p.den = 1 ∨ p.den = 2 := by omega
  rcases this with e | e <;> rw [e] at hd
  · have : (k : ℚ) = 4 * p.num := by rw [← h, ← hd]; push_cast; ring
    have : k = 4 * p.num := by exact_mod_cast this
    omega
  · have : (k : ℚ) = 2 * p.num := by rw [← h, ← hd]; push_cast; ring
    have : k = 2 * p.num := by exact_mod_cast this
    omega

theorem getElem?_exprs {n : ℕ} {M : Data} (h : Rect n n M) {t : ℕ} (ht : t < n) : M[t]? = some (M.getD t []) := by
  rw [List.getD_eq_getElem _ _ (by rw [h.1]; exact ht)]
  exact List.getElem?_eq_getElem _

theorem Describes.step {n : ℕ} {G : List Gate} {s : Polys} (h : Describes n G s) {g : Gate} (hg : PhaseGate n g) :
    ∃ s', gateToPoly s g = some s' ∧ Describes n (G ++ [g]) s' := by
  have hR := h.rect
  obtain ⟨cn, hcn, hcn2⟩ := h.rows
  match g, hg with
  | .zrot c t p adj, hg =>
    obtain ⟨ht, k, hk⟩ := hg
    have hl := length_getD hR ht
    obtain ⟨a1, a2, a3, a4⟩ := addTerm_spec h.nodup h.len hl k
    refine ⟨⟨addTerm s.terms (s.exprs.getD t []) k, s.exprs⟩, by simp only [gateToPoly, getElem?_exprs hR ht, quarter_int hk]; rfl, h.rows, a1, a2, ?_, ?_⟩
    · refine (h.acts.append (acts_zrot c t p adj k hk)).congr (fun x => rfl) fun x => ?_
      rw [a3]
      simp only [lin]
      rw [if_pos ht]
    · rw [tsum_append]
      refine a4.trans (Nat.add_le_add h.odds ?_)
      by_cases hv : k % 2 = 0
      · rw [if_pos hv]; exact Nat.zero_le _
      · rw [if_neg hv]
        simp [tsum, Gate.tcount, tcount_odd hk hv]
  | .cz c t, hg =>
    obtain ⟨hc, ht, hne⟩ := hg
    have hlt := length_getD hR ht
    have hlc := length_getD hR hc
    have hlx : (List.zipWith xor (s.exprs.getD t []) (s.exprs.getD c [])).length = n := by rw [List.length_zipWith, hlt, hlc, min_self]
    obtain ⟨a1, a2, a3, a4⟩ := addTerm_spec h.nodup h.len hlt 2
    obtain ⟨b1, b2, b3, b4⟩ := addTerm_spec a1 a2 hlc 2
    obtain ⟨c1, c2, c3, c4⟩ := addTerm_spec b1 b2 hlx 6
    refine ⟨⟨addTerm (addTerm (addTerm s.terms (s.exprs.getD t []) 2) (s.exprs.getD c []) 2) (List.zipWith xor (s.exprs.getD t []) (s.exprs.getD c [])) 6, s.exprs⟩,
      by simp only [gateToPoly, czToPoly, getElem?_exprs hR ht, getElem?_exprs hR hc]; rfl, h.rows, c1, c2, ?_, ?_⟩
    · refine (h.acts.append (acts_cz c t)).congr (fun x => rfl) fun x => ?_
      rw [c3, b3, a3, par_xor hlt hlc, b8_xor]
      simp only [lin]
      rw [if_pos ht, if_pos hc]
      generalize b8 (par (s.exprs.getD t []) x) = a
      generalize b8 (par (s.exprs.getD c []) x) = b
      push_cast
      linear_combination -eight a - eight b + 2 * eight (a * b)
    · rw [tsum_append]
      have e2 : (2 : ℤ) % 2 = 0 := rfl
      have e6 : (6 : ℤ) % 2 = 0 := rfl
      rw [if_pos e2] at a4 b4
      rw [if_pos e6] at c4
      have := h.odds
      simp only
      omega
  | .cnot c t, hg =>
    obtain ⟨hc, ht, hne⟩ := hg
    have e : s.exprs.set t (List.zipWith xor (s.exprs.getD t []) (s.exprs.getD c [])) = rowAdd c t s.exprs := rfl
    have hv : Valid n c t := ⟨hc, ht, hne⟩
    refine ⟨⟨s.terms, rowAdd c t s.exprs⟩, by simp only [gateToPoly, getElem?_exprs hR ht, getElem?_exprs hR hc]; rfl, ⟨cn ++ [(c, t)], ?_, ?_⟩, h.nodup, h.len, ?_, ?_⟩
    · intro g hg
      rcases List.mem_append.mp hg with hg | hg
      · exact hcn g hg
      · rw [List.mem_singleton.mp hg]; exact hv
    · rw [rowsFrom_append, ← hcn2]; rfl
    · refine (h.acts.append (acts_cnot hne)).congr (fun x => ?_) fun x => by simp
      show _ = lin n (rowAdd c t s.exprs) x
      rw [lin_rowAdd hR hv]
    · rw [tsum_append]
      exact h.odds.trans (Nat.le_add_right _ _)

theorem describes_all {n : ℕ} : ∀ {gates G : List Gate} {s : Polys}, Describes n G s → (∀ g ∈ gates, PhaseGate n g) →
    ∃ s', gates.foldlM gateToPoly s = some s' ∧ Describes n (G ++ gates) s'
  | [], G, s, h, _ => ⟨s, rfl, by simpa using h⟩
  | g :: gates, G, s, h, hg => by
    obtain ⟨s1, e1, h1⟩ := h.step (hg g (by simp))
    obtain ⟨s2, e2, h2⟩ := describes_all (gates := gates) h1 fun g hg' => hg g (by simp [hg'])
    refine ⟨s2, ?_, by simpa using h2⟩
    rw [List.foldlM_cons, e1]
    exact e2

theorem phaseGatesToPoly_spec {n : ℕ} {gates : List Gate} (hg : ∀ g ∈ gates, PhaseGate n g) :
    ∃ s, phaseGatesToPoly n gates = some s ∧ Describes n gates s := by
  obtain ⟨s, e, h⟩ := describes_all (describes_nil n) hg
  exact ⟨s, e, by simpa using h⟩

/-! ### The columns of the polynomial -/

def colsOf (terms : List (Row × ℕ)) : Data := terms.flatMap fun e => List.replicate e.2 e.1

theorem colsOf_sum (x : ℕ → Bool) (terms : List (Row × ℕ)) : ((colsOf terms).map fun c => b8 (par c x)).sum = phase terms x := by
  induction terms with
  | nil => rfl
  | cons e terms ih =>
    rw [colsOf, List.flatMap_cons, List.map_append, List.sum_append]
    rw [colsOf] at ih
    rw [ih]
    simp [phase]

theorem colsOf_count {terms : List (Row × ℕ)} (hn : (terms.map Prod.fst).Nodup) {c : Row} (h : (colsOf terms).count c % 2 = 1) : ∃ v, (c, v) ∈ terms ∧ v % 2 = 1 := by
  induction terms with
  | nil => simp [colsOf] at h
  | cons e terms ih =>
    rw [List.map_cons, List.nodup_cons] at hn
    rw [colsOf, List.flatMap_cons, List.count_append, List.count_replicate] at h
    by_cases he : e.1 = c
    · have h0 : (terms.flatMap fun e => List.replicate e.2 e.1).count c = 0 := by
        rw [List.count_eq_zero]
        intro hm
        obtain ⟨e', he', hm⟩ := List.mem_flatMap.mp hm
        have := List.eq_of_mem_replicate hm
        exact hn.1 (List.mem_map.mpr ⟨e', he', by rw [← this, he]⟩)
      rw [h0, if_pos (by simpa using he)] at h
      exact ⟨e.2, by rw [← he]; simp, by simpa using h⟩
    · rw [if_neg (by simpa using he), Nat.zero_add] at h
      obtain ⟨v, h1, h2⟩ := ih hn.2 h
      exact ⟨v, by simp [h1], h2⟩

theorem removeTrivial_le {terms : List (Row × ℕ)} (hn : (terms.map Prod.fst).Nodup) : (removeTrivial (colsOf terms)).length ≤ odds terms := by
  obtain ⟨t1, t2, t3⟩ := removeTrivial_spec (colsOf terms)
  have hsub : removeTrivial (colsOf terms) ⊆ (terms.filter fun e => decide (e.2 % 2 = 1)).map Prod.fst := by
    intro c hc
    have h1 := t1.count (t3 c hc)
    rw [List.count_eq_one_of_mem t2 hc] at h1
    obtain ⟨v, h2, h3⟩ := colsOf_count hn h1.symm
    exact List.mem_map.mpr ⟨(c, v), List.mem_filter.mpr ⟨h2, by simpa using h3⟩, rfl⟩
  have := (t2.subperm hsub).length_le
  rw [List.length_map, ← List.countP_eq_length_filter] at this
  exact this

/-! ### Clifford gates -/

/-- The ranges of keys and values. -/
structure MLP.Rng (n : ℕ) (s : MLP) : Prop where
  l : ∀ e ∈ s.l, -1 ≤ e.2 ∧ e.2 < 8 ∧ e.1 < n
  q : ∀ e ∈ s.q, 0 ≤ e.2 ∧ e.2 < 4 ∧ e.1.1 < e.1.2 ∧ e.1.2 < n

theorem mem_bump {κ : Type} [DecidableEq κ] {d : List (κ × ℤ)} {k : κ} {first delta m : ℤ} {e : κ × ℤ} (h : e ∈ bump d k first delta m) :
    e ∈ d ∨ e = (k, first) ∨ ∃ a, e = (k, a % m) := by
  unfold bump at h
  split at h
  · obtain ⟨e', he', rfl⟩ := List.mem_map.mp h
    split
    · exact Or.inr (Or.inr ⟨_, rfl⟩)
    · exact Or.inl he'
  · rcases List.mem_append.mp h with h | h
    · exact Or.inl h
    · exact Or.inr (Or.inl (List.mem_singleton.mp h))

theorem addC_rng {n : ℕ} (v1 v2 : ℕ) : ∀ (p : List ℕ) {s : MLP}, s.Rng n → (addC v1 v2 p s).Rng n
  | [], _, h => h
  | v3 :: p, s, h => by
    rw [addC_cons]
    exact addC_rng v1 v2 p ⟨h.l, h.q⟩

theorem addQ_rng {n : ℕ} (sub : Bool) (v1 : ℕ) : ∀ (p : List ℕ) {s : MLP}, (∀ v ∈ p, v1 < v ∧ v < n) → s.Rng n → (addQ sub v1 p s).Rng n
  | [], _, _, h => h
  | v2 :: p, s, hp, h => by
    rw [addQ]
    refine addQ_rng sub v1 p (fun v hv => hp v (by simp [hv])) (addC_rng v1 v2 p ⟨h.l, ?_⟩)
    intro e he
    have hv := hp v2 (by simp)
    rcases mem_bump he with he | rfl | ⟨a, rfl⟩
    · exact h.q e he
    · cases sub <;> exact ⟨by norm_num, by norm_num, hv⟩
    · exact ⟨Int.emod_nonneg _ (by norm_num), Int.emod_lt_of_pos _ (by norm_num), hv⟩

theorem addL_rng {n : ℕ} (sub : Bool) : ∀ (p : List ℕ) {s : MLP}, p.Pairwise (· < ·) → (∀ v ∈ p, v < n) → s.Rng n → (addL sub p s).Rng n
  | [], _, _, _, h => h
  | v1 :: p, s, ho, hp, h => by
    obtain ⟨h1, h2⟩ := List.pairwise_cons.mp ho
    rw [addL]
    refine addL_rng sub p h2 (fun v hv => hp v (by simp [hv])) (addQ_rng sub v1 p (fun v hv => ⟨h1 v hv, hp v (by simp [hv])⟩) ⟨?_, h.q⟩)
    intro e he
    have hv := hp v1 (by simp)
    rcases mem_bump he with he | rfl | ⟨a, rfl⟩
    · exact h.l e he
    · cases sub <;> exact ⟨by simp [mult], by simp [mult], hv⟩
    · exact ⟨by have := Int.emod_nonneg a (by norm_num : (8 : ℤ) ≠ 0); simp only; omega, Int.emod_lt_of_pos _ (by norm_num), hv⟩

theorem addCols_rng {n : ℕ} (sub : Bool) : ∀ (C : List Row) {s : MLP}, (∀ c ∈ C, c.length = n) → s.Rng n → (C.foldl (addParity sub) s).Rng n
  | [], _, _, h => h
  | c :: C, _, hC, h => by
    refine addCols_rng sub C (fun c hc => hC c (by simp [hc])) (addL_rng sub _ (supp_sorted c) (fun v hv => ?_) h)
    have := List.mem_range.mp (List.mem_filter.mp hv).1
    rwa [hC c (by simp)] at this

theorem mapM_acts {α : Type} {f : α → Option (List Gate)} {F : α → (ℕ → Bool) → ZMod 8} {P : Gate → Prop} : ∀ {l : List α},
    (∀ e ∈ l, ∃ gl, f e = some gl ∧ Acts gl (fun x => x) (F e) ∧ ∀ g ∈ gl, P g) →
    ∃ L, l.mapM f = some L ∧ Acts L.flatten (fun x => x) (fun x => (l.map fun e => F e x).sum) ∧ ∀ g ∈ L.flatten, P g
  | [], _ => ⟨[], rfl, Acts.nil.congr (fun _ => rfl) (fun _ => rfl), by simp⟩
  | e :: l, h => by
    obtain ⟨gl, e1, h1, h2⟩ := h e (by simp)
    obtain ⟨L, e2, h3, h4⟩ := mapM_acts (l := l) fun e he => h e (by simp [he])
    refine ⟨gl :: L, by rw [List.mapM_cons, e1, e2]; rfl, ?_, ?_⟩
    · rw [List.flatten_cons]
      exact (h1.append h3).congr (fun _ => rfl) fun x => by simp
    · intro g hg
      rw [List.flatten_cons] at hg
      rcases List.mem_append.mp hg with hg | hg
      · exact h2 g hg
      · exact h4 g hg

theorem cliffordL_spec {n : ℕ} {e : ℕ × ℤ} (h : -1 ≤ e.2 ∧ e.2 < 8 ∧ e.1 < n) (he : Even e.2) :
    ∃ gl, cliffordL e = some gl ∧ Acts gl (fun x => x) (fun x => (e.2 : ZMod 8) * b8 (x e.1)) ∧ ∀ g ∈ gl, PhaseGate n g ∧ g.tcount = 0 := by
  obtain ⟨t, v⟩ := e
  obtain ⟨h1, h2, h3⟩ := h
  simp only at h1 h2 h3 he ⊢
  obtain ⟨k, hk⟩ := he
  have : v = 0 ∨ v = 2 ∨ v = 4 ∨ v = 6 := by omega
  rcases this with rfl | rfl | rfl | rfl
  · exact ⟨[], rfl, Acts.nil.congr (fun _ => rfl) (fun _ => by simp), by simp⟩
  · refine ⟨[.mkS t false], rfl, acts_zrot _ _ _ _ _ (by norm_num), ?_⟩
    intro g hg
    rw [List.mem_singleton.mp hg]
    exact ⟨⟨h3, 2, by norm_num⟩, by simp [Gate.mkS, Gate.tcount]⟩
  · refine ⟨[.mkZ t], rfl, acts_zrot _ _ _ _ _ (by norm_num), ?_⟩
    intro g hg
    rw [List.mem_singleton.mp hg]
    exact ⟨⟨h3, 4, by norm_num⟩, by simp [Gate.mkZ, Gate.tcount]⟩
  · refine ⟨[.mkS t true], rfl, ?_, ?_⟩
    · refine (acts_zrot _ _ _ _ (-2) (by norm_num)).congr (fun _ => rfl) fun x => ?_
      have : (((-2 : ℤ)) : ZMod 8) = ((6 : ℤ) : ZMod 8) := by decide
      rw [this]
    · intro g hg
      rw [List.mem_singleton.mp hg]
      exact ⟨⟨h3, -2, by norm_num⟩, by simp [Gate.mkS, Gate.tcount]⟩

theorem cliffordQ_spec {n : ℕ} {e : (ℕ × ℕ) × ℤ} (h : 0 ≤ e.2 ∧ e.2 < 4 ∧ e.1.1 < e.1.2 ∧ e.1.2 < n) (he : Even e.2) :
    ∃ gl, cliffordQ e = some gl ∧ Acts gl (fun x => x) (fun x => 2 * ((e.2 : ZMod 8) * (b8 (x e.1.1) * b8 (x e.1.2)))) ∧ ∀ g ∈ gl, PhaseGate n g ∧ g.tcount = 0 := by
  obtain ⟨⟨u, t⟩, v⟩ := e
  obtain ⟨h1, h2, h3, h4⟩ := h
  simp only at h1 h2 h3 h4 he ⊢
  obtain ⟨k, hk⟩ := he
  have : v = 0 ∨ v = 2 := by omega
  rcases this with rfl | rfl
  · exact ⟨[], rfl, Acts.nil.congr (fun _ => rfl) (fun _ => by simp), by simp⟩
  · refine ⟨[.cz u t], rfl, (acts_cz u t).congr (fun _ => rfl) (fun x => by push_cast; ring), ?_⟩
    intro g hg
    rw [List.mem_singleton.mp hg]
    exact ⟨⟨by omega, h4, by omega⟩, rfl⟩

/-- `to_clifford` for two lists of columns with the same tensor. -/
theorem toClifford_spec {n : ℕ} {C C' : Data} (hC : ∀ c ∈ C, c.length = n) (hC' : ∀ c ∈ C', c.length = n) (h : ∀ u v w, sig C' u v w = sig C u v w) :
    ∃ gl, toClifford (C'.foldl (addParity true) (C.foldl (addParity false) {})) = some gl ∧
      Acts gl (fun x => x) (fun x => (C.map fun c => b8 (par c x)).sum - (C'.map fun c => b8 (par c x)).sum) ∧ ∀ g ∈ gl, PhaseGate n g ∧ g.tcount = 0 := by
  obtain ⟨k1, k2, k3⟩ := clifford_coeffs (C := C) (C' := C') (fun u v w => (h u v w).symm) rfl
  have ok0 : MLP.OK {} := ⟨by simp, by simp, by simp⟩
  have ok1 := addCols_OK false C ok0
  have rng : MLP.Rng n (C'.foldl (addParity true) (C.foldl (addParity false) {})) := addCols_rng true C' hC' (addCols_rng false C hC ⟨by simp, by simp⟩)
  have ev : ∀ x, (C'.foldl (addParity true) (C.foldl (addParity false) {})).eval x = (C.map fun c => b8 (par c x)).sum - (C'.map fun c => b8 (par c x)).sum := by
    intro x
    rw [addCols_eval x true C' ok1, addCols_eval x false C ok0]
    have : MLP.eval x {} = 0 := by simp [MLP.eval, MLP.evalL, MLP.evalQ, MLP.evalC]
    rw [this]
    simp only [mult, par]
    push_cast
    ring
  generalize C'.foldl (addParity true) (C.foldl (addParity false) {}) = s at k1 k2 k3 rng ev
  obtain ⟨A, a1, a2, a3⟩ := mapM_acts (l := s.l) (f := cliffordL) fun e he => cliffordL_spec (rng.l e he) (k1 e he)
  obtain ⟨B, b1, b2, b3⟩ := mapM_acts (l := s.q) (f := cliffordQ) fun e he => cliffordQ_spec (rng.q e he) (k2 e he)
  refine ⟨A.flatten ++ B.flatten, ?_, ?_, ?_⟩
  · simp only [toClifford, a1, b1, k3]
    rfl
  · refine (a2.append b2).congr (fun _ => rfl) fun x => ?_
    rw [← ev x, MLP.eval, MLP.evalL, MLP.evalQ, MLP.evalC, k3, List.sum_map_mul_left]
    simp
  · intro g hg
    rcases List.mem_append.mp hg with hg | hg
    · exact a3 g hg
    · exact b3 g hg

end Todd
end PyZX
