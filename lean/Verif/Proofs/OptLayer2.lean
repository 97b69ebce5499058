import Verif.Proofs.OptLayer
import Verif.Props.Perm

/-!
# Helper lemmas for `basic_optimization`: Hadamard gates that are to be placed later, and permutations
-/

namespace PyZX
namespace Optimize

open scoped List

/-! ### Layers of one-qubit gates -/

/-- The same gate on some qubits, in any order. -/
theorem layer_perm {G : ℕ → Gate} (hG : ∀ a b ψ, (G a).sem ((G b).sem ψ) = (G b).sem ((G a).sem ψ)) {l m : List ℕ} (h : l.Perm m) :
    ∀ ψ, semGates (l.map G) ψ = semGates (m.map G) ψ := by
  induction h with
  | nil => exact fun _ => rfl
  | cons a _ ih => intro ψ; simp only [List.map_cons, semGates_cons, ih]
  | swap a b l => intro ψ; simp only [List.map_cons, semGates_cons]; rw [hG]
  | trans _ _ ih1 ih2 => intro ψ; rw [ih1, ih2]

theorem comm_hads (a b : ℕ) (ψ : QState) : (Gate.had a).sem ((Gate.had b).sem ψ) = (Gate.had b).sem ((Gate.had a).sem ψ) := by
  by_cases h : a = b
  · subst h; rfl
  · exact on1_comm h _ _ ψ

theorem comm_mkZ (a b : ℕ) (ψ : QState) : (Gate.mkZ a).sem ((Gate.mkZ b).sem ψ) = (Gate.mkZ b).sem ((Gate.mkZ a).sem ψ) := comm_zz _ _ _ _ _ _ _ _ ψ

theorem comm_mkNOT (a b : ℕ) (ψ : QState) : (Gate.mkNOT a).sem ((Gate.mkNOT b).sem ψ) = (Gate.mkNOT b).sem ((Gate.mkNOT a).sem ψ) :=
  comm_notnot _ _ _ _ ψ

/-- The Hadamard gates. -/
def Hd (l : List ℕ) : List Gate := l.map Gate.had

theorem Hd_perm {l m : List ℕ} (h : l.Perm m) : Eqv (Hd l) (Hd m) := .of_eq (layer_perm comm_hads h)

theorem Hd_front {l : List ℕ} {t : ℕ} (h : t ∈ l) : Eqv (Hd l) (.had t :: Hd (l.erase t)) := Hd_perm (List.perm_cons_erase h)

theorem Hd_back {l : List ℕ} {t : ℕ} (h : t ∈ l) : Eqv (Hd l) (Hd (l.erase t) ++ [.had t]) := by
  have := Hd_perm ((List.perm_cons_erase h).trans (List.perm_append_singleton t (l.erase t)).symm)
  rwa [Hd, Hd, List.map_append] at this

theorem Hd_toggle (l : List ℕ) (t : ℕ) : Eqv (Hd l ++ [.had t]) (Hd (toggle l t)) := by
  unfold toggle
  split
  · rename_i h
    refine ((Hd_back h).right _).trans (.of_eq fun ψ => ?_)
    rw [semGates_append, semGates_append]
    exact had_had t _
  · rw [Hd, Hd, List.map_append]; exact Eqv.refl _

/-- A gate on other qubits. -/
theorem Hd_pass {l : List ℕ} {g : Gate} (hg : Placed g) (h : ∀ t ∈ l, t ∉ g.qubits) : Eqv (Hd l ++ [g]) (g :: Hd l) := by
  refine .of_eq fun ψ => (move_right hg (Hd l) ?_ ψ).symm
  intro y hy
  obtain ⟨t, ht, rfl⟩ := List.mem_map.mp hy
  refine ⟨trivial, fun q hd => ?_⟩
  have := hd.mem hg (by trivial)
  simp only [Gate.qubits, List.mem_singleton] at this
  exact h t ht (this.2 ▸ this.1)

theorem had_cz {a b : ℕ} (h : a ≠ b) (ψ : QState) : (Gate.cz a b).sem ((Gate.had a).sem ψ) = (Gate.had a).sem ((Gate.cnot b a).sem ψ) := by
  funext x
  simp only [sem_cz_apply, sem_had_apply, sem_cnot_apply, Function.update_self, Function.update_idem, upd_ne h.symm, Bool.false_xor, Bool.true_xor]
  rcases x a <;> rcases x b <;> simp <;> first | ring1 | (left; ring1)

theorem had_cz' {a b : ℕ} (h : a ≠ b) (ψ : QState) : (Gate.cz a b).sem ((Gate.had b).sem ψ) = (Gate.had b).sem ((Gate.cnot a b).sem ψ) := by
  rw [cz_comm, had_cz h.symm]

theorem had_cnot {c t : ℕ} (h : c ≠ t) (ψ : QState) : (Gate.cnot c t).sem ((Gate.had t).sem ψ) = (Gate.had t).sem ((Gate.cz c t).sem ψ) := by
  have := had_cz' h ((Gate.had t).sem ((Gate.cz c t).sem ψ))
  have e1 : ∀ φ, (Gate.cz c t).sem ((Gate.had t).sem φ) = (Gate.had t).sem ((Gate.cnot c t).sem φ) := fun φ => had_cz' h φ
  have e2 : (Gate.had t).sem ((Gate.cnot c t).sem ((Gate.had t).sem ψ)) = (Gate.cz c t).sem ψ := by
    rw [← e1, had_had]
  rw [← e2, had_had]

theorem had_had_cnot {c t : ℕ} (h : c ≠ t) (ψ : QState) : (Gate.cnot c t).sem ((Gate.had t).sem ((Gate.had c).sem ψ)) =
    (Gate.had t).sem ((Gate.had c).sem ((Gate.cnot t c).sem ψ)) := by
  rw [had_cnot h, had_cz h]

theorem mem_erase_ne {l : List ℕ} {a b : ℕ} (h : a ≠ b) : a ∈ l.erase b ↔ a ∈ l := List.mem_erase_of_ne h

/-- A CZ behind one Hadamard gate. -/
theorem Hd_cz {l : List ℕ} (hn : l.Nodup) {a b : ℕ} (hab : a ≠ b) (ha : a ∈ l) (hb : b ∉ l) : Eqv (Hd l ++ [.cz a b]) (.cnot b a :: Hd l) := by
  have hp : ∀ t ∈ l.erase a, t ∉ (Gate.cz a b).qubits := by
    intro t ht
    simp only [Gate.qubits, List.mem_cons, List.not_mem_nil, or_false, not_or]
    exact ⟨(hn.mem_erase_iff.mp ht).1, fun e => hb (e ▸ (hn.mem_erase_iff.mp ht).2)⟩
  refine ((Hd_front ha).right _).trans (Eqv.trans (b := .had a :: .cz a b :: Hd (l.erase a)) ?_ ?_)
  · exact (Hd_pass (g := .cz a b) hab hp).left [.had a]
  · refine Eqv.trans (b := .cnot b a :: .had a :: Hd (l.erase a)) (.of_eq fun ψ => ?_) ((Hd_front ha).symm.left [.cnot b a])
    simp only [semGates_cons]
    rw [had_cz hab]

theorem Hd_cz' {l : List ℕ} (hn : l.Nodup) {a b : ℕ} (hab : a ≠ b) (ha : a ∉ l) (hb : b ∈ l) : Eqv (Hd l ++ [.cz a b]) (.cnot a b :: Hd l) := by
  refine Eqv.trans (.of_eq fun ψ => ?_) (Hd_cz hn hab.symm hb ha)
  rw [semGates_append, semGates_append]
  exact cz_comm _ _ _

/-- A CNOT behind one Hadamard gate on the target. -/
theorem Hd_cnot {l : List ℕ} (hn : l.Nodup) {c t : ℕ} (hct : c ≠ t) (hc : c ∉ l) (ht : t ∈ l) : Eqv (Hd l ++ [.cnot c t]) (.cz c t :: Hd l) := by
  have hp : ∀ q ∈ l.erase t, q ∉ (Gate.cnot c t).qubits := by
    intro q hq
    simp only [Gate.qubits, List.mem_cons, List.not_mem_nil, or_false, not_or]
    exact ⟨fun e => hc (e ▸ (hn.mem_erase_iff.mp hq).2), (hn.mem_erase_iff.mp hq).1⟩
  refine ((Hd_front ht).right _).trans (Eqv.trans (b := .had t :: .cnot c t :: Hd (l.erase t)) ?_ ?_)
  · exact (Hd_pass (g := .cnot c t) hct hp).left [.had t]
  · refine Eqv.trans (b := .cz c t :: .had t :: Hd (l.erase t)) (.of_eq fun ψ => ?_) ((Hd_front ht).symm.left [.cz c t])
    simp only [semGates_cons]
    rw [had_cnot hct]

/-- A CNOT behind two Hadamard gates. -/
theorem Hd_cnot2 {l : List ℕ} (hn : l.Nodup) {c t : ℕ} (hct : c ≠ t) (hc : c ∈ l) (ht : t ∈ l) : Eqv (Hd l ++ [.cnot c t]) (.cnot t c :: Hd l) := by
  have ht' : t ∈ l.erase c := (mem_erase_ne hct.symm).mpr ht
  have hn' := hn.erase c
  have hp : ∀ q ∈ (l.erase c).erase t, q ∉ (Gate.cnot c t).qubits := by
    intro q hq
    have h1 := hn'.mem_erase_iff.mp hq
    simp only [Gate.qubits, List.mem_cons, List.not_mem_nil, or_false, not_or]
    exact ⟨(hn.mem_erase_iff.mp h1.2).1, h1.1⟩
  have hf : Eqv (Hd l) (.had c :: .had t :: Hd ((l.erase c).erase t)) := (Hd_front hc).trans ((Hd_front ht').left [.had c])
  refine (hf.right _).trans (Eqv.trans (b := .had c :: .had t :: .cnot c t :: Hd ((l.erase c).erase t)) ?_ ?_)
  · exact (Hd_pass (g := .cnot c t) hct hp).left [.had c, .had t]
  · refine Eqv.trans (b := .cnot t c :: .had c :: .had t :: Hd ((l.erase c).erase t)) (.of_eq fun ψ => ?_) (hf.symm.left [.cnot t c])
    simp only [semGates_cons]
    rw [had_had_cnot hct]

/-! ### Swaps -/

theorem swap_on1 (U : Matrix Bool Bool ℂ) (c t q : ℕ) (ψ : QState) :
    on1 U q ((Gate.swap c t).sem ψ) = (Gate.swap c t).sem (on1 U (Equiv.swap c t q) ψ) := by
  funext x
  rw [on1_apply, sem_swap_apply, sem_swap_apply, sem_swap_apply, on1_apply]
  have e : ∀ b, swapBits c t (Function.update x q b) = Function.update (swapBits c t x) (Equiv.swap c t q) b := by
    intro b
    funext r
    simp only [swapBits, Function.update_apply]
    have : Equiv.swap c t r = q ↔ r = Equiv.swap c t q := by
      constructor
      · rintro rfl; rw [Equiv.swap_apply_self]
      · rintro rfl; rw [Equiv.swap_apply_self]
    simp only [this]
  rw [e, e]
  simp only [swapBits, Equiv.swap_apply_self]

theorem swap_layer {G : ℕ → Gate} {U : Matrix Bool Bool ℂ} (hG : ∀ q, (G q).sem = on1 U q) (c t : ℕ) : ∀ (l : List ℕ) (ψ : QState),
    semGates (.swap c t :: l.map G) ψ = semGates ((l.map (Equiv.swap c t)).map G ++ [.swap c t]) ψ
  | [], ψ => rfl
  | q :: l, ψ => by
    have := swap_layer hG c t l ((G (Equiv.swap c t q)).sem ψ)
    simp only [List.map_cons, List.cons_append, semGates_cons] at this ⊢
    rw [← this, hG, swap_on1, hG]

theorem swapEl_perm {l : List ℕ} (hn : l.Nodup) (c t : ℕ) : (swapEl l t c).Perm (l.map (Equiv.swap c t)) := by
  have hmap : ∀ {m : List ℕ}, c ∉ m → t ∉ m → m.map (Equiv.swap c t) = m := by
    intro m hc ht
    refine (List.map_congr_left fun q hq => ?_).trans (List.map_id m)
    exact Equiv.swap_apply_of_ne_of_ne (fun e => hc (e ▸ hq)) (fun e => ht (e ▸ hq))
  unfold swapEl
  by_cases h1 : t ∈ l ∧ c ∉ l
  · rw [if_pos h1]
    refine (List.perm_append_singleton c (l.erase t)).trans (List.Perm.symm ?_)
    refine ((List.perm_cons_erase h1.1).map _).trans ?_
    rw [List.map_cons, Equiv.swap_apply_right, hmap (fun h => h1.2 (List.mem_of_mem_erase h)) (fun h => (hn.mem_erase_iff.mp h).1 rfl)]
  · rw [if_neg h1]
    by_cases h2 : c ∈ l ∧ t ∉ l
    · rw [if_pos h2]
      refine (List.perm_append_singleton t (l.erase c)).trans (List.Perm.symm ?_)
      refine ((List.perm_cons_erase h2.1).map _).trans ?_
      rw [List.map_cons, Equiv.swap_apply_left, hmap (fun h => (hn.mem_erase_iff.mp h).1 rfl) (fun h => h2.2 (List.mem_of_mem_erase h))]
    · rw [if_neg h2]
      by_cases hc : c ∈ l
      · have ht : t ∈ l := by by_contra h; exact h2 ⟨hc, h⟩
        refine (List.perm_ext_iff_of_nodup hn (hn.map (Equiv.injective _))).mpr fun q => ?_
        rw [List.mem_map]
        constructor
        · intro hq
          refine ⟨Equiv.swap c t q, ?_, Equiv.swap_apply_self _ _ _⟩
          rw [Equiv.swap_apply_def]
          split
          · exact ht
          · split
            · exact hc
            · exact hq
        · rintro ⟨r, hr, rfl⟩
          rw [Equiv.swap_apply_def]
          split
          · exact ht
          · split
            · exact hc
            · exact hr
      · have ht : t ∉ l := fun h => h1 ⟨h, hc⟩
        rw [hmap hc ht]

/-- A swap in front of a layer can be moved behind it. -/
theorem swap_past {G : ℕ → Gate} {U : Matrix Bool Bool ℂ} (hG : ∀ q, (G q).sem = on1 U q) (hc : ∀ a b ψ, (G a).sem ((G b).sem ψ) = (G b).sem ((G a).sem ψ))
    (c t : ℕ) {l : List ℕ} (hn : l.Nodup) : Eqv (.swap c t :: l.map G) ((swapEl l t c).map G ++ [.swap c t]) := by
  refine .of_eq fun ψ => ?_
  rw [swap_layer hG, semGates_append, semGates_append, layer_perm hc (swapEl_perm hn c t)]

theorem swap_eff (c t : ℕ) {hads zs nots : List ℕ} (h1 : hads.Nodup) (h2 : zs.Nodup) (h3 : nots.Nodup) :
    Eqv (.swap c t :: (Hd hads ++ P zs nots)) (Hd (swapEl hads t c) ++ P (swapEl zs t c) (swapEl nots t c) ++ [.swap c t]) := by
  have e1 := swap_past (G := Gate.had) (fun _ => rfl) comm_hads c t h1
  have e2 := swap_past (G := Gate.mkZ) (fun _ => rfl) comm_mkZ c t h2
  have e3 := swap_past (G := Gate.mkNOT) (fun _ => rfl) comm_mkNOT c t h3
  have r1 := e1.right (P zs nots)
  have r2 := (e2.right (nots.map Gate.mkNOT)).left (Hd (swapEl hads t c))
  have r3 := e3.left (Hd (swapEl hads t c) ++ (swapEl zs t c).map Gate.mkZ)
  unfold P Hd at *
  simp only [List.append_assoc, List.cons_append, List.nil_append] at *
  exact r1.trans (r2.trans r3)

/-! ### Permutations -/

/-- The output qubit of a position. -/
def pm (l : List ℕ) (i : ℕ) : ℕ := l.getD i i

/-- The map that exchanges the qubits. -/
def permSem (l : List ℕ) (ψ : QState) : QState := fun x => ψ fun i => x (pm l i)

theorem pm_lt {l : List ℕ} {i : ℕ} (h : i < l.length) : pm l i = l[i] := by
  rw [pm, List.getD_eq_getElem?_getD, List.getElem?_eq_getElem h]; rfl

theorem pm_ge {l : List ℕ} {i : ℕ} (h : l.length ≤ i) : pm l i = i := by
  rw [pm, List.getD_eq_getElem?_getD, List.getElem?_eq_none h]; rfl

theorem pm_inj {l : List ℕ} (h : IsPerm l) : Function.Injective (pm l) := by
  intro i j hij
  by_cases hi : i < l.length
  · by_cases hj : j < l.length
    · rw [pm_lt hi, pm_lt hj] at hij
      exact (h.1.getElem_inj_iff).mp hij
    · rw [pm_lt hi, pm_ge (not_lt.mp hj)] at hij
      exact absurd (h.2 _ (List.getElem_mem hi)) (by rw [hij]; exact hj)
  · by_cases hj : j < l.length
    · rw [pm_ge (not_lt.mp hi), pm_lt hj] at hij
      exact absurd (h.2 _ (List.getElem_mem hj)) (by rw [← hij]; exact hi)
    · rwa [pm_ge (not_lt.mp hi), pm_ge (not_lt.mp hj)] at hij

theorem isPerm_mem {l : List ℕ} (h : IsPerm l) {q : ℕ} (hq : q < l.length) : q ∈ l := by
  have hsub : l ⊆ List.range l.length := fun v hv => List.mem_range.mpr (h.2 v hv)
  have hp : l.Subperm (List.range l.length) := h.1.subperm hsub
  have := hp.perm_of_length_le (by simp)
  exact this.mem_iff.mpr (List.mem_range.mpr hq)

/-- `locate` finds the position of a qubit. -/
theorem locate_spec {s : State} {n : ℕ} (h : IsPerm s.perm) (hl : s.perm.length = n) (q : ℕ) :
    (q < n → ∃ i, locate s q = some i ∧ i < n ∧ pm s.perm i = q) ∧ (n ≤ q → locate s q = none) := by
  constructor
  · intro hq
    have hm := isPerm_mem h (by rw [hl]; exact hq)
    have hi := List.idxOf_lt_length_of_mem hm
    refine ⟨s.perm.idxOf q, by rw [locate, if_pos hm], by rw [← hl]; exact hi, ?_⟩
    rw [pm_lt hi, List.getElem_idxOf hi]
  · intro hq
    rw [locate, if_neg]
    intro hm
    exact absurd (h.2 q hm) (by rw [hl]; omega)

theorem upd_pm {l : List ℕ} (h : IsPerm l) (x : ℕ → Bool) (i : ℕ) (b : Bool) :
    (fun j => Function.update x (pm l i) b (pm l j)) = Function.update (fun j => x (pm l j)) i b := by
  funext j
  by_cases hj : j = i
  · subst hj; simp
  · rw [upd_ne hj, upd_ne fun e => hj (pm_inj h e)]

theorem permSem_on1 {l : List ℕ} (h : IsPerm l) (U : Matrix Bool Bool ℂ) (i : ℕ) (ψ : QState) :
    on1 U (pm l i) (permSem l ψ) = permSem l (on1 U i ψ) := by
  funext x
  simp only [permSem, on1_apply, upd_pm h]

theorem permSem_ctrl {l : List ℕ} (h : IsPerm l) (U : Matrix Bool Bool ℂ) (i j : ℕ) (ψ : QState) :
    ctrl U (pm l i) (pm l j) (permSem l ψ) = permSem l (ctrl U i j ψ) := by
  funext x
  simp only [permSem, ctrl, on1_apply, upd_pm h]

theorem permSem_smul (l : List ℕ) (z : ℂ) (ψ : QState) : permSem l (fun x => z * ψ x) = fun x => z * permSem l ψ x := rfl

/-- Exchanging two entries of the permutation. -/
theorem permSem_swap {l : List ℕ} {c t : ℕ} (hc : c < l.length) (ht : t < l.length) (ψ : QState) :
    permSem l ((Gate.swap c t).sem ψ) = permSem ((l.set c (l.getD t 0)).set t (l.getD c 0)) ψ := by
  funext x
  simp only [permSem, sem_swap_apply]
  congr 1
  funext i
  simp only [swapBits]
  congr 1
  have g0 : ∀ {m : List ℕ} {j}, j < m.length → m.getD j 0 = pm m j := fun h => by rw [pm_lt h, List.getD_eq_getElem?_getD, List.getElem?_eq_getElem h]; rfl
  by_cases hi : i < l.length
  · rw [← g0 (m := (l.set c (l.getD t 0)).set t (l.getD c 0)) (by simpa using hi), getD_set _ (by simpa using ht), getD_set _ hc]
    by_cases h1 : i = t
    · subst h1; rw [if_pos rfl, Equiv.swap_apply_right, g0 hc]
    · rw [if_neg h1]
      by_cases h2 : i = c
      · subst h2; rw [if_pos rfl, Equiv.swap_apply_left, g0 ht]
      · rw [if_neg h2, Equiv.swap_apply_of_ne_of_ne h2 h1, g0 hi]
  · rw [pm_ge (l := (l.set c _).set t _) (by simpa using hi), Equiv.swap_apply_of_ne_of_ne (by omega) (by omega), pm_ge (by omega)]

theorem isPerm_swap {l : List ℕ} (h : IsPerm l) {c t : ℕ} (hc : c < l.length) (ht : t < l.length) :
    IsPerm ((l.set c (l.getD t 0)).set t (l.getD c 0)) := by
  have hlen : ((l.set c (l.getD t 0)).set t (l.getD c 0)).length = l.length := by simp
  have hget : ∀ i, pm ((l.set c (l.getD t 0)).set t (l.getD c 0)) i = pm l (Equiv.swap c t i) := by
    intro i
    have g0 : ∀ {m : List ℕ} {j}, j < m.length → m.getD j 0 = pm m j := fun h => by rw [pm_lt h, List.getD_eq_getElem?_getD, List.getElem?_eq_getElem h]; rfl
    by_cases hi : i < l.length
    · rw [← g0 (m := (l.set c (l.getD t 0)).set t (l.getD c 0)) (by simpa using hi), getD_set _ (by simpa using ht), getD_set _ hc]
      by_cases h1 : i = t
      · subst h1; rw [if_pos rfl, Equiv.swap_apply_right, g0 hc]
      · rw [if_neg h1]
        by_cases h2 : i = c
        · subst h2; rw [if_pos rfl, Equiv.swap_apply_left, g0 ht]
        · rw [if_neg h2, Equiv.swap_apply_of_ne_of_ne h2 h1, g0 hi]
    · rw [pm_ge (l := (l.set c _).set t _) (by simpa using hi), Equiv.swap_apply_of_ne_of_ne (by omega) (by omega), pm_ge (by omega)]
  have hsw : ∀ i < l.length, Equiv.swap c t i < l.length := by
    intro i hi
    rw [Equiv.swap_apply_def]
    split
    · exact ht
    · split
      · exact hc
      · exact hi
  constructor
  · rw [List.nodup_iff_injective_get]
    intro i j hij
    have hi := i.2
    have hj := j.2
    simp only [List.get_eq_getElem] at hij
    rw [← pm_lt hi, ← pm_lt hj, hget, hget] at hij
    exact Fin.ext ((Equiv.injective _) (pm_inj h hij))
  · intro v hv
    obtain ⟨i, hi, rfl⟩ := List.mem_iff_getElem.mp hv
    rw [← pm_lt hi, hget, pm_lt (hsw i (by simpa using hi))]
    exact lt_of_lt_of_eq (h.2 _ (List.getElem_mem _)) hlen.symm

theorem swapEl_nodup {l : List ℕ} (h : l.Nodup) (c t : ℕ) : (swapEl l t c).Nodup :=
  (swapEl_perm h c t).nodup_iff.mpr (h.map (Equiv.injective _))

theorem swapEl_lt {n : ℕ} {l : List ℕ} (hn : l.Nodup) (h : ∀ q ∈ l, q < n) {c t : ℕ} (hc : c < n) (ht : t < n) : ∀ q ∈ swapEl l t c, q < n := by
  intro q hq
  obtain ⟨r, hr, rfl⟩ := List.mem_map.mp ((swapEl_perm hn c t).mem_iff.mp hq)
  rw [Equiv.swap_apply_def]
  split
  · exact ht
  · split
    · exact hc
    · exact h r hr

end Optimize
end PyZX
