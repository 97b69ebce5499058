import Verif.Model.Todd
import Verif.Proofs.LinalgApp

/-!
# The invariant of `parity_network`
-/

namespace PyZX
namespace Todd

open Mat2

/-- The parity of the inputs that a combination of the rows of `M` denotes. -/
def comb (n : ℕ) (y : Row) (M : Data) (k : ℕ) : ZMod 2 := ∑ i ∈ Finset.range n, bit (y.getD i false) * bit (get M i k)

/-- The rows after some CNOTs. -/
def rowsFrom (M : Data) (c : List (ℕ × ℕ)) : Data := c.foldl (fun m g => rowAdd g.1 g.2 m) M

theorem rowsFrom_append (M : Data) (a b : List (ℕ × ℕ)) : rowsFrom M (a ++ b) = rowsFrom (rowsFrom M a) b := by simp [rowsFrom]

theorem rect_rowsFrom {n c : ℕ} : ∀ {l : List (ℕ × ℕ)} {M : Data}, Rect n c M → (∀ g ∈ l, Valid n g.1 g.2) → Rect n c (rowsFrom M l)
  | [], _, h, _ => h
  | g :: l, M, h, hl => by
    have := hl g (by simp)
    exact rect_rowsFrom (l := l) (h.rowAdd this.1 this.2.1) fun g hg => hl g (by simp [hg])

theorem getD_set {y : Row} {j k : ℕ} {b : Bool} (hj : j < y.length) : (y.set j b).getD k false = if k = j then b else y.getD k false := by
  rw [List.getD_eq_getElem?_getD, List.getD_eq_getElem?_getD, List.getElem?_set]
  by_cases h : j = k
  · subst h; simp [hj]
  · rw [if_neg h, if_neg (fun e => h e.symm)]

theorem getD_addTo {n i j k : ℕ} {y : Row} (hy : y.length = n) (hj : j < n) :
    (addTo i j y).getD k false = if k = j then xor (y.getD i false) (y.getD j false) else y.getD k false :=
  getD_set (by omega)

theorem length_addTo (i j : ℕ) (y : Row) : (addTo i j y).length = y.length := by simp [addTo]

/-- The combinations after some CNOTs. -/
def applyC (cs : List (ℕ × ℕ)) (y : Row) : Row := cs.foldl (fun y g => addTo g.2 g.1 y) y

theorem length_applyC (cs : List (ℕ × ℕ)) : ∀ y : Row, (applyC cs y).length = y.length := by
  induction cs with
  | nil => intro y; rfl
  | cons g cs ih => intro y; exact (ih _).trans (length_addTo _ _ _)

theorem comb_addTo {n i j : ℕ} {y : Row} {M : Data} (hy : y.length = n) (hM : Rect n n M) (hv : Valid n j i) (k : ℕ) :
    comb n (addTo i j y) (rowAdd j i M) k = comb n y M k := by
  obtain ⟨hj, hi, hne⟩ := hv
  unfold comb
  have hjm : j ∈ Finset.range n := Finset.mem_range.mpr hj
  have him : i ∈ (Finset.range n).erase j := Finset.mem_erase.mpr ⟨hne.symm, Finset.mem_range.mpr hi⟩
  rw [← Finset.add_sum_erase _ (fun x => bit ((addTo i j y).getD x false) * bit (get (rowAdd j i M) x k)) hjm,
    ← Finset.add_sum_erase _ (fun x => bit ((addTo i j y).getD x false) * bit (get (rowAdd j i M) x k)) him,
    ← Finset.add_sum_erase _ (fun i => bit (y.getD i false) * bit (get M i k)) hjm,
    ← Finset.add_sum_erase _ (fun i => bit (y.getD i false) * bit (get M i k)) him]
  have e : ∀ x ∈ ((Finset.range n).erase j).erase i, bit ((addTo i j y).getD x false) * bit (get (rowAdd j i M) x k) = bit (y.getD x false) * bit (get M x k) := by
    intro x hx
    have h1 := (Finset.mem_erase.mp hx).1
    have h2 := (Finset.mem_erase.mp (Finset.mem_erase.mp hx).2).1
    rw [getD_addTo hy hj, if_neg h2, get_rowAdd hM hj hi, if_neg h1]
  rw [Finset.sum_congr rfl e]
  simp only [getD_addTo hy hj, get_rowAdd hM hj hi, if_true, if_neg hne, if_neg hne.symm, bit_xor]
  generalize bit (y.getD i false) = a
  generalize bit (y.getD j false) = b
  generalize bit (get M i k) = c
  generalize bit (get M j k) = d
  generalize (∑ x ∈ ((Finset.range n).erase j).erase i, bit (y.getD x false) * bit (get M x k)) = s
  revert a b c d s
  decide

theorem comb_applyC {n : ℕ} : ∀ {cs : List (ℕ × ℕ)} {y : Row} {M : Data}, y.length = n → Rect n n M → (∀ g ∈ cs, Valid n g.1 g.2) → ∀ k,
    comb n (applyC cs y) (rowsFrom M cs) k = comb n y M k
  | [], _, _, _, _, _, _ => rfl
  | g :: cs, y, M, hy, hM, hv, k => by
    have hg := hv g (by simp)
    exact (comb_applyC (cs := cs) ((length_addTo _ _ _).trans hy) (hM.rowAdd hg.1 hg.2.1) (fun g hg => hv g (by simp [hg])) k).trans
      (comb_addTo hy hM hg k)

/-- The invariant of an element of the stack: the combinations are zero outside `U`, and what `I` and `i` say about them. -/
structure Good (n : ℕ) (U : ℕ → Prop) (it : Item) : Prop where
  len : ∀ y ∈ it.1, y.length = n
  lt : ∀ k, U k → k < n
  sub : ∀ k ∈ it.2.1, U k
  zero : ∀ y ∈ it.1, ∀ k, ¬ U k → y.getD k false = false
  isNone : it.2.2 = none → ∀ k, U k → k ∈ it.2.1
  isSome : ∀ i, it.2.2 = some i → U i ∧ i ∉ it.2.1 ∧ (∀ y ∈ it.1, y.getD i false = true) ∧
    (∀ k, k ∉ it.2.1 → k ≠ i → ∀ y ∈ it.1, ∀ y' ∈ it.1, y.getD k false = y'.getD k false) ∧
    (it.2.1 = [] → ∀ y ∈ it.1, ∀ k, k ≠ i → y.getD k false = false)

/-- What CNOTs on the qubits in `UX` with target `iX` do not disturb in an element further down. -/
def Below (UX : ℕ → Prop) (iX : Option ℕ) (UD : ℕ → Prop) (D : Item) : Prop :=
  (∃ i, iX = some i ∧ D.2.2 = some i ∧ (∀ k, UX k → UD k) ∧ D.2.1 ≠ []) ∨ ∀ k, UX k → k ∈ D.2.1

/-- The element after some CNOTs. -/
def Item.apply (cs : List (ℕ × ℕ)) (it : Item) : Item := (it.1.map (applyC cs), it.2)

theorem applyC_nil : applyC [] = id := rfl

theorem Item.apply_nil (it : Item) : Item.apply [] it = it := by simp [Item.apply, applyC_nil]

theorem Item.apply_cons (g : ℕ × ℕ) (cs : List (ℕ × ℕ)) (it : Item) : Item.apply (g :: cs) it = Item.apply cs (it.1.map (addTo g.2 g.1), it.2) := by
  simp [Item.apply, applyC]

theorem Good.op {n i j : ℕ} {UX U : ℕ → Prop} {it : Item} (h : Good n U it) (hb : Below UX (some i) U it) (hi : UX i) (hj : UX j) (hij : j ≠ i) :
    Good n U (it.1.map (addTo i j), it.2) := by
  have hUj : U j := by
    rcases hb with ⟨i', -, -, h1, -⟩ | h1
    · exact h1 j hj
    · exact h.sub j (h1 j hj)
  have hUi : U i := by
    rcases hb with ⟨i', -, -, h1, -⟩ | h1
    · exact h1 i hi
    · exact h.sub i (h1 i hi)
  have hjn := h.lt j hUj
  have get : ∀ y ∈ it.1, ∀ k, (addTo i j y).getD k false = if k = j then xor (y.getD i false) (y.getD j false) else y.getD k false :=
    fun y hy k => getD_addTo (h.len y hy) hjn
  refine ⟨?_, h.lt, h.sub, ?_, h.isNone, ?_⟩
  · intro y hy
    replace hy := List.mem_map.mp hy
    obtain ⟨y, hy, rfl⟩ := hy
    rw [length_addTo]; exact h.len y hy
  · intro y hy k hk
    replace hy := List.mem_map.mp hy
    obtain ⟨y, hy, rfl⟩ := hy
    rw [get y hy, if_neg (fun e : k = j => hk (by rw [e]; exact hUj))]
    exact h.zero y hy k hk
  · intro i0 e0
    obtain ⟨s1, s2, s3, s4, s5⟩ := h.isSome i0 e0
    rcases hb with ⟨i', e1, e2, -, h2⟩ | h1
    · obtain rfl : i = i0 := by
        rw [Option.some.inj e1]; exact Option.some.inj (e2.symm.trans e0)
      refine ⟨s1, s2, ?_, ?_, fun e => absurd e h2⟩
      · intro y hy
        replace hy := List.mem_map.mp hy
        obtain ⟨y, hy, rfl⟩ := hy
        rw [get y hy, if_neg (fun e => hij e.symm)]
        exact s3 y hy
      · intro k hk hki y hy y' hy'
        replace hy := List.mem_map.mp hy
        obtain ⟨y, hy, rfl⟩ := hy
        replace hy' := List.mem_map.mp hy'
        obtain ⟨y', hy', rfl⟩ := hy'
        rw [get y hy, get y' hy']
        by_cases hkj : k = j
        · subst hkj
          rw [if_pos rfl, if_pos rfl, s3 y hy, s3 y' hy', s4 k hk hki y hy y' hy']
        · rw [if_neg hkj, if_neg hkj]
          exact s4 k hk hki y hy y' hy'
    · have hji : j ∈ it.2.1 := h1 j hj
      refine ⟨s1, s2, ?_, ?_, fun e => by rw [show it.2.1 = [] from e] at hji; simp at hji⟩
      · intro y hy
        replace hy := List.mem_map.mp hy
        obtain ⟨y, hy, rfl⟩ := hy
        rw [get y hy, if_neg (fun e : i0 = j => s2 (by rw [e]; exact hji))]
        exact s3 y hy
      · intro k hk hki y hy y' hy'
        replace hy := List.mem_map.mp hy
        obtain ⟨y, hy, rfl⟩ := hy
        replace hy' := List.mem_map.mp hy'
        obtain ⟨y', hy', rfl⟩ := hy'
        have hkj : k ≠ j := fun e => hk (show k ∈ it.2.1 from e ▸ hji)
        rw [get y hy, get y' hy', if_neg hkj, if_neg hkj]
        exact s4 k hk hki y hy y' hy'

theorem Good.applyC {n i : ℕ} {UX U : ℕ → Prop} (hi : UX i) : ∀ {cs : List (ℕ × ℕ)} {it : Item}, Good n U it → Below UX (some i) U it →
    (∀ g ∈ cs, g.2 = i ∧ g.1 ≠ i ∧ UX g.1) → Good n U (it.apply cs)
  | [], it, h, _, _ => by rw [Item.apply_nil]; exact h
  | g :: cs, it, h, hb, hcs => by
    obtain ⟨h1, h2, h3⟩ := hcs g (by simp)
    rw [Item.apply_cons, h1]
    exact Good.applyC hi (h.op hb hi h3 h2) hb fun g hg => hcs g (by simp [hg])

/-- The columns that are 1 in all combinations. -/
def full (n i : ℕ) (S : List Row) : List ℕ := (List.range n).filter fun j => decide (j ≠ i) && S.all fun y => y.getD j false

theorem mem_full {n i j : ℕ} {S : List Row} : j ∈ full n i S ↔ j < n ∧ j ≠ i ∧ ∀ y ∈ S, y.getD j false = true := by
  simp [full]

/-- What the inner loop does. -/
theorem absorb_spec {n i : ℕ} {U : ℕ → Prop} (I : List ℕ) : ∀ (fuel : ℕ) {S : List Row} (Q : List Item) (c : List (ℕ × ℕ)), Good n U (S, I, some i) → I ≠ [] → S ≠ [] →
    ∃ cs, absorb n i fuel (S, Q, c) = (S.map (applyC cs), Q.map (Item.apply cs), c ++ cs) ∧ (∀ g ∈ cs, g.2 = i ∧ g.1 ≠ i ∧ U g.1) ∧
      ((full n i S).length ≤ fuel → full n i (S.map (applyC cs)) = [])
  | 0, S, Q, c, h, hI, hS => by
    refine ⟨[], ?_, by simp, fun hf => ?_⟩
    · have : Item.apply [] = id := funext Item.apply_nil
      have h2 : applyC [] = id := rfl
      simp [absorb, this, h2]
    · have h2 : applyC [] = id := rfl
      rw [h2, List.map_id]
      exact List.length_eq_zero_iff.mp (by omega)
  | fuel + 1, S, Q, c, h, hI, hS => by
    rw [absorb]
    simp only
    have hfull : full n i S = (List.range n).filter fun j => decide (j ≠ i) && S.all fun y => y.getD j false := rfl
    cases hj : (List.range n).find? fun j => decide (j ≠ i) && S.all fun y => y.getD j false with
    | none =>
      refine ⟨[], ?_, by simp, fun hf => ?_⟩
      · have : Item.apply [] = id := funext Item.apply_nil
        have h2 : applyC [] = id := rfl
        simp [this, h2]
      · have h2 : applyC [] = id := rfl
        rw [h2, List.map_id, hfull, List.filter_eq_nil_iff]
        exact fun a ha => by simpa using List.find?_eq_none.mp hj a ha
    | some j =>
      have hm : j ∈ full n i S := by
        rw [hfull, List.mem_filter]
        exact ⟨List.mem_of_find?_eq_some hj, by have := List.find?_some hj; exact this⟩
      obtain ⟨hjn, hji, hall⟩ := mem_full.mp hm
      obtain ⟨hUi, hi1, hi2, -, -⟩ := h.isSome i rfl
      obtain ⟨y0, hy0⟩ := List.exists_mem_of_ne_nil S hS
      have hUj : U j := by
        by_contra hn
        have := h.zero y0 hy0 j hn
        rw [hall y0 hy0] at this
        cases this
      have hb : Below U (some i) U (S, I, some i) := Or.inl ⟨i, rfl, rfl, fun _ h => h, hI⟩
      obtain ⟨cs, e, h1, h2⟩ := absorb_spec I fuel (Q.map fun it => (it.1.map (addTo i j), it.2)) (c ++ [(j, i)]) (h.op hb hUi hUj hji) hI (by simpa using hS)
      refine ⟨(j, i) :: cs, ?_, ?_, ?_⟩
      · refine e.trans ?_
        simp only [List.map_map, Prod.mk.injEq]
        refine ⟨rfl, ?_, by simp⟩
        refine List.map_congr_left fun it _ => ?_
        rw [Item.apply_cons]
        rfl
      · intro g hg
        rcases List.mem_cons.mp hg with rfl | hg
        · exact ⟨rfl, hji, hUj⟩
        · exact h1 g hg
      · intro hf
        have e2 : S.map (applyC ((j, i) :: cs)) = (S.map (addTo i j)).map (applyC cs) := by simp [applyC]
        rw [e2]
        refine h2 ?_
        show (full n i (S.map (addTo i j))).length ≤ fuel
        have hlt : (full n i (S.map (addTo i j))).length < (full n i S).length := by
          have hnd : (full n i (S.map (addTo i j))).Nodup := List.nodup_range.filter _
          have hsub : full n i (S.map (addTo i j)) ⊆ (full n i S).erase j := by
            intro k hk
            obtain ⟨k1, k2, k3⟩ := mem_full.mp hk
            have get : ∀ y ∈ S, (addTo i j y).getD k false = if k = j then xor (y.getD i false) (y.getD j false) else y.getD k false :=
              fun y hy => getD_addTo (h.len y hy) hjn
            have hkj : k ≠ j := by
              rintro rfl
              have := k3 _ (List.mem_map.mpr ⟨y0, hy0, rfl⟩)
              rw [get y0 hy0, if_pos rfl, hi2 y0 hy0, hall y0 hy0] at this
              cases this
            refine (List.mem_erase_of_ne hkj).mpr (mem_full.mpr ⟨k1, k2, fun y hy => ?_⟩)
            have := k3 _ (List.mem_map.mpr ⟨y, hy, rfl⟩)
            rwa [get y hy, if_neg hkj] at this
          have h3 := (hnd.subperm hsub).length_le
          rw [List.length_erase_of_mem hm] at h3
          have := List.length_pos_of_mem hm
          omega
        omega

theorem pick_mem (S : List Row) : ∀ {I : List ℕ}, I ≠ [] → pick S I ∈ I := by
  have key : ∀ (I : List ℕ) (b : ℕ), I.foldl (fun b k => if score S b < score S k then k else b) b ∈ b :: I := by
    intro I
    induction I with
    | nil => intro b; simp
    | cons k I ih =>
      intro b
      rw [List.foldl_cons]
      have := ih (if score S b < score S k then k else b)
      rcases List.mem_cons.mp this with h | h
      · rw [h]; split <;> simp
      · exact List.mem_cons_of_mem _ (List.mem_cons_of_mem _ h)
  intro I hI
  cases I with
  | nil => exact absurd rfl hI
  | cons j I => exact key I j

/-- A parity appears in a row at some time. -/
def Real (n : ℕ) (C : List (ℕ × ℕ)) (v : ℕ → ZMod 2) : Prop :=
  ∃ c1 c2, C = c1 ++ c2 ∧ ∃ q < n, ∀ k < n, bit (get (rowsFrom (ident n) c1) q k) = v k

/-- The bound on the number of iterations. -/
def weight (it : Item) : ℕ := 3 ^ (it.1.length + it.2.1.length)

def total (Q : List Item) : ℕ := (Q.map weight).sum

theorem total_apply (cs : List (ℕ × ℕ)) (Q : List Item) : total (Q.map (Item.apply cs)) = total Q := by
  unfold total
  rw [List.map_map]
  congr 1
  refine List.map_congr_left fun it _ => ?_
  simp [weight, Item.apply]

/-- The invariant of the stack, with the sets `U`. -/
inductive Stack (n : ℕ) : List (Item × (ℕ → Prop)) → Prop
  | nil : Stack n []
  | cons {X : Item × (ℕ → Prop)} {Q : List (Item × (ℕ → Prop))} (h : Good n X.2 X.1) (hb : ∀ D ∈ Q, Below X.2 X.1.2.2 D.2 D.1) (hq : Stack n Q) : Stack n (X :: Q)

theorem Stack.applyC {n i : ℕ} {U : ℕ → Prop} (hi : U i) {cs : List (ℕ × ℕ)} (hcs : ∀ g ∈ cs, g.2 = i ∧ g.1 ≠ i ∧ U g.1) :
    ∀ {Q : List (Item × (ℕ → Prop))}, Stack n Q → (∀ D ∈ Q, Below U (some i) D.2 D.1) → Stack n (Q.map fun D => (D.1.apply cs, D.2)) := by
  intro Q h
  induction h with
  | nil => intro _; exact .nil
  | cons h hb hq ih =>
    intro hU
    rw [List.map_cons]
    refine .cons (h.applyC hi (hU _ (by simp)) hcs) ?_ (ih fun D hD => hU D (by simp [hD]))
    intro D hD
    replace hD := List.mem_map.mp hD
    obtain ⟨D, hD, rfl⟩ := hD
    exact hb D hD

theorem filter_split {S : List Row} (j : ℕ) : (S.filter fun y => !y.getD j false).length + (S.filter fun y => y.getD j false).length = S.length := by
  induction S with
  | nil => rfl
  | cons y S ih =>
    rw [List.filter_cons, List.filter_cons]
    cases y.getD j false
    · rw [if_pos (by rfl), if_neg (by simp), List.length_cons, List.length_cons]; omega
    · rw [if_neg (by simp), if_pos rfl, List.length_cons, List.length_cons]; omega

theorem comb_zero {n : ℕ} {y : Row} (h : ∀ k, y.getD k false = false) (M : Data) (k : ℕ) : comb n y M k = 0 :=
  Finset.sum_eq_zero fun i _ => by rw [h]; simp [bit]

theorem comb_unit {n i : ℕ} {y : Row} (hi : i < n) (h1 : y.getD i false = true) (h : ∀ k, k ≠ i → y.getD k false = false) (M : Data) (k : ℕ) :
    comb n y M k = bit (get M i k) := by
  unfold comb
  rw [Finset.sum_eq_single i]
  · rw [h1]; simp [bit]
  · intro b _ hb
    rw [h b hb]; simp [bit]
  · intro hn; exact absurd (Finset.mem_range.mpr hi) hn

theorem network_cons (n fuel : ℕ) (S : List Row) (I : List ℕ) (i : Option ℕ) (Q : List Item) (c : List (ℕ × ℕ)) :
    network n (fuel + 1) ((S, I, i) :: Q) c = if S = [] ∨ I = [] then network n fuel Q c
    else
      let s := match i with
        | none => (S, Q, c)
        | some i => absorb n i n (S, Q, c)
      let j := pick s.1 I
      let S0 := s.1.filter fun y => !y.getD j false
      let S1 := s.1.filter fun y => y.getD j false
      let I' := I.filter fun k => decide (k ≠ j)
      let it := match i with
        | none => (S1, I', some j)
        | some i => (S1, I.filter fun k => decide (k ≠ i), some i)
      network n fuel ((S0, I', i) :: it :: s.2.1) s.2.2 := rfl

/-- The outer loop realises all parities on the stack. -/
theorem network_spec {n : ℕ} : ∀ (fuel : ℕ) {Q : List (Item × (ℕ → Prop))} {c : List (ℕ × ℕ)}, Stack n Q → (∀ g ∈ c, Valid n g.1 g.2) → total (Q.map Prod.fst) < fuel →
    ∃ cs, network n fuel (Q.map Prod.fst) c = some (c ++ cs) ∧ (∀ g ∈ cs, Valid n g.1 g.2) ∧
      ∀ X ∈ Q, ∀ y ∈ X.1.1, (∀ k, comb n y (rowsFrom (ident n) c) k = 0) ∨ Real n (c ++ cs) (comb n y (rowsFrom (ident n) c))
  | 0, Q, c, _, _, hf => by omega
  | fuel + 1, [], c, _, _, _ => ⟨[], by simp [network], by simp, by simp⟩
  | fuel + 1, ((S, I, i), U) :: Q, c, hst, hc, hf => by
    have hmap : (((S, I, i), U) :: Q).map Prod.fst = (S, I, i) :: Q.map Prod.fst := rfl
    rw [hmap] at hf ⊢
    rw [network_cons]
    obtain ⟨hg, hb, hq⟩ : Good n U (S, I, i) ∧ (∀ D ∈ Q, Below U i D.2 D.1) ∧ Stack n Q := by
      cases hst with
      | cons h hb hq => exact ⟨h, hb, hq⟩
    have hw : total ((S, I, i) :: Q.map Prod.fst) = 3 ^ (S.length + I.length) + total (Q.map Prod.fst) := by simp [total, weight]
    rw [hw] at hf
    have hpos : 0 < 3 ^ (S.length + I.length) := by positivity
    by_cases hSI : S = [] ∨ I = []
    · rw [if_pos hSI]
      obtain ⟨cs, e, h1, h2⟩ := network_spec fuel hq hc (by omega)
      refine ⟨cs, e, h1, ?_⟩
      intro X hX y hy
      rcases List.mem_cons.mp hX with rfl | hX
      · rcases hSI with rfl | rfl
        · simp at hy
        · cases i with
          | none =>
            left
            have : ∀ k, y.getD k false = false := fun k => hg.zero y hy k fun hU => by
              have := hg.isNone rfl k hU
              simp at this
            exact comb_zero this _
          | some i =>
            right
            obtain ⟨s1, s2, s3, s4, s5⟩ := hg.isSome i rfl
            refine ⟨c, cs, rfl, i, hg.lt i s1, fun k _ => ?_⟩
            exact (comb_unit (hg.lt i s1) (s3 y hy) (s5 rfl y hy) _ k).symm
      · exact h2 X hX y hy
    · rw [if_neg hSI]
      rw [not_or] at hSI
      obtain ⟨hS, hI⟩ := hSI
      cases i with
      | none =>
        simp only
        have hj := pick_mem S hI
        set j := pick S I
        have hU : ∀ k, U k ↔ k ∈ I := fun k => ⟨hg.isNone rfl k, hg.sub k⟩
        have hlt : ∀ k ∈ I, k < n := fun k hk => hg.lt k (hg.sub k hk)
        have memI : ∀ {k}, k ∈ (I.filter fun k => decide (k ≠ j)) ↔ k ∈ I ∧ k ≠ j := by simp
        have g0 : Good n (fun k => k ∈ I ∧ k ≠ j) (S.filter (fun y => !y.getD j false), I.filter (fun k => decide (k ≠ j)), none) := by
          refine ⟨fun y hy => hg.len y (List.mem_filter.mp hy).1, fun k hk => hlt k hk.1, fun k hk => memI.mp hk, ?_, fun _ k hk => memI.mpr hk, by simp⟩
          intro y hy k hk
          obtain ⟨h1, h2⟩ := List.mem_filter.mp hy
          by_cases hkI : k ∈ I
          · have : k = j := by by_contra hn; exact hk ⟨hkI, hn⟩
            subst this
            simpa using h2
          · exact hg.zero y h1 k fun h => hkI ((hU k).mp h)
        have g1 : Good n U (S.filter (fun y => y.getD j false), I.filter (fun k => decide (k ≠ j)), some j) := by
          refine ⟨fun y hy => hg.len y (List.mem_filter.mp hy).1, hg.lt, fun k hk => hg.sub k (memI.mp hk).1, fun y hy => hg.zero y (List.mem_filter.mp hy).1, by simp, ?_⟩
          intro i e
          obtain rfl := Option.some.inj e
          have z : ∀ k, k ∉ (I.filter fun k => decide (k ≠ j)) → k ≠ j → ∀ y ∈ S, y.getD k false = false := by
            intro k hk hkj y hy
            exact hg.zero y hy k fun h => hk (memI.mpr ⟨(hU k).mp h, hkj⟩)
          refine ⟨hg.sub j hj, fun h => (memI.mp h).2 rfl, fun y hy => (List.mem_filter.mp hy).2, ?_, ?_⟩
          · intro k hk hkj y hy y' hy'
            rw [z k hk hkj y (List.mem_filter.mp hy).1, z k hk hkj y' (List.mem_filter.mp hy').1]
          · intro e y hy k hkj
            refine z k ?_ hkj y (List.mem_filter.mp hy).1
            rw [show I.filter (fun k => decide (k ≠ j)) = [] from e]
            simp
        have st : Stack n (((S.filter (fun y => !y.getD j false), I.filter (fun k => decide (k ≠ j)), none), fun k => k ∈ I ∧ k ≠ j) ::
            ((S.filter (fun y => y.getD j false), I.filter (fun k => decide (k ≠ j)), some j), U) :: Q) := by
          have hbU : ∀ D ∈ Q, ∀ k, U k → k ∈ D.1.2.1 := by
            intro D hD
            rcases hb D hD with ⟨i, e, -⟩ | h
            · cases e
            · exact h
          refine .cons g0 ?_ (.cons g1 ?_ hq)
          · intro D hD
            right
            intro k hk
            rcases List.mem_cons.mp hD with rfl | hD
            · exact memI.mpr hk
            · exact hbU D hD k ((hU k).mpr hk.1)
          · intro D hD
            exact Or.inr (hbU D hD)
        have hlen : (I.filter fun k => decide (k ≠ j)).length + 1 ≤ I.length := by
          have := List.length_filter_lt_length_iff_exists (l := I) (p := fun k => decide (k ≠ j)) |>.mpr ⟨j, hj, by simp⟩
          omega
        obtain ⟨cs, e, h1, h2⟩ := network_spec fuel st hc (by
          have hsp := filter_split (S := S) j
          simp only [List.map_cons, total, weight, List.sum_cons] at hf ⊢
          have a1 : 3 ^ ((S.filter fun y => !y.getD j false).length + (I.filter fun k => decide (k ≠ j)).length) ≤ 3 ^ (S.length + I.length - 1) :=
            Nat.pow_le_pow_right (by norm_num) (by omega)
          have a2 : 3 ^ ((S.filter fun y => y.getD j false).length + (I.filter fun k => decide (k ≠ j)).length) ≤ 3 ^ (S.length + I.length - 1) :=
            Nat.pow_le_pow_right (by norm_num) (by omega)
          have a3 : 3 ^ (S.length + I.length) = 3 * 3 ^ (S.length + I.length - 1) := by
            rw [← pow_succ']; congr 1; omega
          have a4 : 0 < 3 ^ (S.length + I.length - 1) := by positivity
          omega)
        refine ⟨cs, e, h1, ?_⟩
        intro X hX y hy
        rcases List.mem_cons.mp hX with rfl | hX
        · cases hyj : y.getD j false with
          | false => exact h2 _ (List.mem_cons_self ..) y (List.mem_filter.mpr ⟨hy, by rw [hyj]; rfl⟩)
          | true => exact h2 _ (List.mem_cons_of_mem _ (List.mem_cons_self ..)) y (List.mem_filter.mpr ⟨hy, hyj⟩)
        · exact h2 X (List.mem_cons_of_mem _ (List.mem_cons_of_mem _ hX)) y hy
      | some i =>
        simp only
        obtain ⟨ds, e0, d1, d2⟩ := absorb_spec I n (Q.map Prod.fst) c hg hI hS
        have hfl := d2 (by
          have : (full n i S).length ≤ (List.range n).length := List.length_filter_le _ _
          simpa using this)
        simp only [e0]
        obtain ⟨hUi, s2, -, -, -⟩ := hg.isSome i rfl
        have hval : ∀ g ∈ ds, Valid n g.1 g.2 := fun g hg' => by
          obtain ⟨q1, q2, q3⟩ := d1 g hg'
          exact ⟨hg.lt _ q3, by rw [q1]; exact hg.lt _ hUi, by rw [q1]; exact q2⟩
        have hg' : Good n U ((S.map (applyC ds)), I, some i) := hg.applyC (it := (S, I, some i)) hUi (Or.inl ⟨i, rfl, rfl, fun _ h => h, hI⟩) d1
        set S' := S.map (applyC ds) with hS'
        have hS'ne : S' ≠ [] := by rw [hS']; simpa using hS
        have hlS : S'.length = S.length := by simp [hS']
        have hj := pick_mem S' hI
        set j := pick S' I
        have hij : j ≠ i := fun e => s2 (e ▸ hj)
        obtain ⟨-, -, t3, t4, t5⟩ := hg'.isSome i rfl
        have memI : ∀ {k}, k ∈ (I.filter fun k => decide (k ≠ j)) ↔ k ∈ I ∧ k ≠ j := by simp
        have eI : (I.filter fun k => decide (k ≠ i)) = I := List.filter_eq_self.mpr fun k hk => by
          simpa using fun e : k = i => s2 (e ▸ hk)
        rw [eI]
        -- the columns outside `I` are zero now
        have zero : ∀ k, k ∉ I → k ≠ i → ∀ y ∈ S', y.getD k false = false := by
          intro k hk hki y hy
          by_cases hkn : k < n
          · cases hyk : y.getD k false with
            | false => rfl
            | true =>
              have : k ∈ full n i S' := mem_full.mpr ⟨hkn, hki, fun y' hy' => (t4 k hk hki y' hy' y hy).trans hyk⟩
              rw [hfl] at this
              simp at this
          · exact hg'.zero y hy k fun h => hkn (hg.lt k h)
        have g0 : Good n U (S'.filter (fun y => !y.getD j false), I.filter (fun k => decide (k ≠ j)), some i) := by
          refine ⟨fun y hy => hg'.len y (List.mem_filter.mp hy).1, hg.lt, fun k hk => hg.sub k (memI.mp hk).1, fun y hy => hg'.zero y (List.mem_filter.mp hy).1, by simp, ?_⟩
          intro i' e
          obtain rfl := Option.some.inj e
          have z : ∀ k, k ∉ (I.filter fun k => decide (k ≠ j)) → k ≠ i → ∀ y ∈ S'.filter (fun y => !y.getD j false), y.getD k false = false := by
            intro k hk hki y hy
            obtain ⟨h1, h2⟩ := List.mem_filter.mp hy
            by_cases hkj : k = j
            · subst hkj
              simpa using h2
            · exact zero k (fun h => hk (memI.mpr ⟨h, hkj⟩)) hki y h1
          refine ⟨hUi, fun h => s2 (memI.mp h).1, fun y hy => t3 y (List.mem_filter.mp hy).1, ?_, ?_⟩
          · intro k hk hki y hy y' hy'
            rw [z k hk hki y hy, z k hk hki y' hy']
          · intro e y hy k hki
            refine z k ?_ hki y hy
            rw [show I.filter (fun k => decide (k ≠ j)) = [] from e]
            simp
        have g1 : Good n U (S'.filter (fun y => y.getD j false), I, some i) := by
          refine ⟨fun y hy => hg'.len y (List.mem_filter.mp hy).1, hg.lt, hg.sub, fun y hy => hg'.zero y (List.mem_filter.mp hy).1, by simp, ?_⟩
          intro i' e
          obtain rfl := Option.some.inj e
          refine ⟨hUi, s2, fun y hy => t3 y (List.mem_filter.mp hy).1, ?_, fun e => absurd e hI⟩
          intro k hk hki y hy y' hy'
          exact t4 k hk hki y (List.mem_filter.mp hy).1 y' (List.mem_filter.mp hy').1
        have hq' := hq.applyC hUi d1 hb
        have hb' : ∀ D ∈ Q.map (fun D => (D.1.apply ds, D.2)), Below U (some i) D.2 D.1 := by
          intro D hD
          replace hD := List.mem_map.mp hD
          obtain ⟨D, hD, rfl⟩ := hD
          exact hb D hD
        have st : Stack n (((S'.filter (fun y => !y.getD j false), I.filter (fun k => decide (k ≠ j)), some i), U) ::
            ((S'.filter (fun y => y.getD j false), I, some i), U) :: Q.map fun D => (D.1.apply ds, D.2)) := by
          refine .cons g0 ?_ (.cons g1 hb' hq')
          intro D hD
          rcases List.mem_cons.mp hD with rfl | hD
          · exact Or.inl ⟨i, rfl, rfl, fun _ h => h, hI⟩
          · exact hb' D hD
        have hlen : (I.filter fun k => decide (k ≠ j)).length + 1 ≤ I.length := by
          have := List.length_filter_lt_length_iff_exists (l := I) (p := fun k => decide (k ≠ j)) |>.mpr ⟨j, hj, by simp⟩
          omega
        have hS1 : (S'.filter fun y => y.getD j false).length + 1 ≤ S'.length := by
          have : ∃ y ∈ S', ¬ y.getD j false = true := by
            by_contra hn
            push Not at hn
            have : j ∈ full n i S' := mem_full.mpr ⟨hg.lt j (hg.sub j hj), hij, hn⟩
            rw [hfl] at this
            simp at this
          have := List.length_filter_lt_length_iff_exists (l := S') (p := fun y => y.getD j false) |>.mpr this
          omega
        have eQ : (Q.map Prod.fst).map (Item.apply ds) = (Q.map fun D => (D.1.apply ds, D.2)).map Prod.fst := by simp [Function.comp_def]
        rw [eQ]
        have hc' : ∀ g ∈ c ++ ds, Valid n g.1 g.2 := fun g hg' => by
          rcases List.mem_append.mp hg' with h | h
          · exact hc g h
          · exact hval g h
        obtain ⟨cs, e, h1, h2⟩ := network_spec fuel st hc' (by
          have hsp := filter_split (S := S') j
          have ht := total_apply ds (Q.map Prod.fst)
          rw [eQ] at ht
          simp only [List.map_cons, total, weight, List.sum_cons] at hf ht ⊢
          have a1 : 3 ^ ((S'.filter fun y => !y.getD j false).length + (I.filter fun k => decide (k ≠ j)).length) ≤ 3 ^ (S.length + I.length - 1) :=
            Nat.pow_le_pow_right (by norm_num) (by omega)
          have a2 : 3 ^ ((S'.filter fun y => y.getD j false).length + I.length) ≤ 3 ^ (S.length + I.length - 1) :=
            Nat.pow_le_pow_right (by norm_num) (by omega)
          have a3 : 3 ^ (S.length + I.length) = 3 * 3 ^ (S.length + I.length - 1) := by
            rw [← pow_succ']; congr 1; omega
          have a4 : 0 < 3 ^ (S.length + I.length - 1) := by positivity
          omega)
        have hM : Rect n n (rowsFrom (ident n) c) := rect_rowsFrom (rect_ident n) hc
        have keep : ∀ y : Row, y.length = n → ∀ k, comb n (applyC ds y) (rowsFrom (ident n) (c ++ ds)) k = comb n y (rowsFrom (ident n) c) k := by
          intro y hy k
          rw [rowsFrom_append]
          exact comb_applyC hy hM hval k
        have fin : ∀ y : Row, y.length = n → ((∀ k, comb n (applyC ds y) (rowsFrom (ident n) (c ++ ds)) k = 0) ∨ Real n (c ++ ds ++ cs) (comb n (applyC ds y) (rowsFrom (ident n) (c ++ ds)))) →
            (∀ k, comb n y (rowsFrom (ident n) c) k = 0) ∨ Real n (c ++ (ds ++ cs)) (comb n y (rowsFrom (ident n) c)) := by
          intro y hy h
          rw [← List.append_assoc]
          have : comb n (applyC ds y) (rowsFrom (ident n) (c ++ ds)) = comb n y (rowsFrom (ident n) c) := funext (keep y hy)
          rwa [this] at h
        refine ⟨ds ++ cs, e.trans (by rw [List.append_assoc]), fun g hg' => ?_, ?_⟩
        · rcases List.mem_append.mp hg' with h | h
          · exact hval g h
          · exact h1 g h
        · intro X hX y hy
          rcases List.mem_cons.mp hX with rfl | hX
          · refine fin y (hg.len y hy) ?_
            have hm : applyC ds y ∈ S' := List.mem_map.mpr ⟨y, hy, rfl⟩
            cases hyj : (applyC ds y).getD j false with
            | false => exact h2 _ (List.mem_cons_self ..) _ (List.mem_filter.mpr ⟨hm, by rw [hyj]; rfl⟩)
            | true => exact h2 _ (List.mem_cons_of_mem _ (List.mem_cons_self ..)) _ (List.mem_filter.mpr ⟨hm, hyj⟩)
          · have hgX : Good n X.2 X.1 := by
              clear * - hq hX
              induction hq with
              | nil => simp at hX
              | cons h _ _ ih =>
                rcases List.mem_cons.mp hX with rfl | hX
                · exact h
                · exact ih hX
            refine fin y (hgX.len y hy) ?_
            refine h2 (X.1.apply ds, X.2) (List.mem_cons_of_mem _ (List.mem_cons_of_mem _ (List.mem_map.mpr ⟨X, hX, rfl⟩))) _ ?_
            exact List.mem_map.mpr ⟨y, hy, rfl⟩

theorem comb_ident {n : ℕ} (y : Row) {k : ℕ} (hk : k < n) : comb n y (ident n) k = bit (y.getD k false) := by
  unfold comb
  have e : ∀ i ∈ Finset.range n, bit (y.getD i false) * bit (get (ident n) i k) = if i = k then bit (y.getD i false) else 0 := by
    intro i hi
    rw [ident, get_of_map _ (Finset.mem_range.mp hi) hk]
    by_cases h : i = k <;> simp [h, bit]
  rw [Finset.sum_congr rfl e, Finset.sum_ite_eq' (Finset.range n) k, if_pos (Finset.mem_range.mpr hk)]

/-- `parity_network`. -/
theorem parityNetwork_spec {n : ℕ} {S : List Row} (hS : ∀ y ∈ S, y.length = n) :
    ∃ cs, parityNetwork n S = some cs ∧ (∀ g ∈ cs, Valid n g.1 g.2) ∧ ∀ y ∈ S, true ∈ y → Real n cs fun k => bit (y.getD k false) := by
  have g0 : Good n (fun k => k < n) (S, List.range n, none) := by
    refine ⟨hS, fun k h => h, fun k h => List.mem_range.mp h, ?_, fun _ k h => List.mem_range.mpr h, by simp⟩
    intro y hy k hk
    rw [List.getD_eq_default]
    rw [hS y hy]; omega
  obtain ⟨cs, e, h1, h2⟩ := network_spec (n := n) (3 ^ (S.length + n) + 1) (Q := [((S, List.range n, none), fun k => k < n)]) (c := [])
    (.cons g0 (by simp) .nil) (by simp) (by simp [total, weight])
  refine ⟨cs, by rw [parityNetwork]; simpa using e, h1, ?_⟩
  intro y hy ht
  have := h2 _ (List.mem_cons_self ..) y hy
  have ec : ∀ k < n, comb n y (rowsFrom (ident n) []) k = bit (y.getD k false) := fun k hk => comb_ident y hk
  rcases this with h | ⟨c1, c2, h3, q, hq, h4⟩
  · obtain ⟨k, hk, hyk⟩ := List.mem_iff_getElem.mp ht
    have := h k
    rw [ec k (by rw [← hS y hy]; exact hk), List.getD_eq_getElem _ _ hk, hyk] at this
    exact absurd this (by decide)
  · exact ⟨c1, c2, by simpa using h3, q, hq, fun k hk => (h4 k hk).trans (ec k hk)⟩

end Todd
end PyZX
