import Verif.Proofs.ExtPull
import Verif.Proofs.SimpClifford
import Verif.Props.Perm

/-!
# Circuit extraction: the last step
-/

namespace PyZX

open Finset

/-! ### Swaps and Hadamards on basis states -/

theorem swap_basis {n a b : ℕ} (ha : a < n) (hb : b < n) (z : ℕ → Bool) :
    (Gate.swap a b).sem (basisState n z) = basisState n fun q => z (Equiv.swap a b q) := by
  funext y
  show basisState n z (swapBits a b y) = _
  unfold basisState
  have hsw : ∀ q < n, Equiv.swap a b q < n := by
    intro q hq
    rw [Equiv.swap_apply_def]
    split_ifs <;> assumption
  have : (∀ q < n, swapBits a b y q = z q) ↔ ∀ q < n, y q = z (Equiv.swap a b q) := by
    constructor
    · intro h q hq
      have := h _ (hsw q hq)
      rw [swapBits, Equiv.swap_apply_self] at this
      exact this
    · intro h q hq
      rw [swapBits, h _ (hsw q hq), Equiv.swap_apply_self]
  simp only [this]

theorem swaps_basis {n : ℕ} (l : List (ℕ × ℕ)) (h : ∀ p ∈ l, p.1 < n ∧ p.2 < n) (z : ℕ → Bool) :
    semGates (l.map fun p => Gate.swap p.1 p.2).reverse (basisState n z) = basisState n fun q => z (followSwaps l q) := by
  induction l with
  | nil => rfl
  | cons p l ih =>
    rw [List.map_cons, List.reverse_cons, semGates_append, ih fun p' hp' => h p' (by simp [hp'])]
    obtain ⟨h1, h2⟩ := h p (by simp)
    exact swap_basis h1 h2 _

/-- Hadamards on the qubits in `T` applied to a basis state. -/
noncomputable def hadState (n : ℕ) (T : Finset ℕ) (z : ℕ → Bool) : QState := fun y => ∏ q ∈ range n, kern (decide (q ∈ T)) (y q) (z q)

theorem hadState_empty (n : ℕ) (z : ℕ → Bool) : hadState n ∅ z = basisState n z := by
  funext y
  unfold hadState basisState
  by_cases h : ∀ q < n, y q = z q
  · rw [if_pos h]
    refine Finset.prod_eq_one fun q hq => ?_
    rw [h q (Finset.mem_range.mp hq)]
    simp [kern, dmat]
  · rw [if_neg h]
    push Not at h
    obtain ⟨q, hq, hne⟩ := h
    refine Finset.prod_eq_zero (Finset.mem_range.mpr hq) ?_
    simp [kern, dmat, hne]

theorem had_hadState {n q : ℕ} (hq : q < n) {T : Finset ℕ} (hT : q ∉ T) (z : ℕ → Bool) :
    (Gate.had q).sem (hadState n T z) = hadState n (insert q T) z := by
  funext y
  show on1 matH q (hadState n T z) y = _
  unfold on1 hadState
  have hm := Finset.mem_range.mpr hq
  rw [← Finset.mul_prod_erase _ _ hm]
  have e1 : ∀ b : Bool, ∏ q' ∈ range n, kern (decide (q' ∈ T)) (Function.update y q b q') (z q') =
      kern false b (z q) * ∏ q' ∈ (range n).erase q, kern (decide (q' ∈ insert q T)) (y q') (z q') := by
    intro b
    rw [← Finset.mul_prod_erase _ _ hm, Function.update_self, decide_eq_false hT]
    congr 1
    refine Finset.prod_congr rfl fun q' hq' => ?_
    have hne := Finset.ne_of_mem_erase hq'
    rw [Function.update_of_ne hne]
    simp [hne]
  simp only [e1]
  rw [decide_eq_true (Finset.mem_insert_self q T), kern_true_eq, Finset.sum_mul]
  refine Finset.sum_congr rfl fun b _ => ?_
  rw [← mul_assoc]
  congr 2
  cases y q <;> cases b <;> simp [hmat, matH, mat2]

theorem hads_hadState {n : ℕ} : ∀ (l : List ℕ) (T : Finset ℕ) (z : ℕ → Bool), l.Nodup → (∀ q ∈ l, q < n ∧ q ∉ T) →
    semGates (l.map .had) (hadState n T z) = hadState n (l.toFinset ∪ T) z := by
  intro l
  induction l with
  | nil => intro T z _ _; simp [semGates]
  | cons q l ih =>
    intro T z hn hl
    rw [List.nodup_cons] at hn
    rw [List.map_cons, semGates_cons, had_hadState (hl q (by simp)).1 (hl q (by simp)).2, ih _ _ hn.2]
    · congr 1
      ext a
      simp only [List.toFinset_cons, Finset.mem_union, Finset.mem_insert]
      tauto
    · intro a ha
      refine ⟨(hl a (by simp [ha])).1, fun hc => ?_⟩
      rcases Finset.mem_insert.mp hc with rfl | hc
      · exact hn.1 ha
      · exact (hl a (by simp [ha])).2 hc

theorem map_prod_range (l : List ℕ) (f : ℕ → ℂ) : (l.map f).prod = ∏ q ∈ range l.length, f (l.getD q 0) := by
  induction l with
  | nil => simp
  | cons a l ih =>
    rw [List.map_cons, List.prod_cons, ih, List.length_cons, Finset.prod_range_succ', mul_comm]
    simp

namespace Graph

variable {g : Graph}

theorem wOn_leaves (hg : g.Inv) {nb : ℕ → ℕ} : ∀ (l : List ℕ) {S : Finset ℕ}, l.Nodup → (∀ o ∈ l, Leaf g o (nb o)) → (∀ o ∈ l, o ∈ S) →
    (∀ o ∈ l, nb o ∈ S ∧ nb o ∉ l) → ∀ x, g.wOn S x = g.wOn (S \ l.toFinset) x * (l.map fun o => g.edgeK x o (nb o)).prod := by
  intro l
  induction l with
  | nil => intro S _ _ _ _ x; simp
  | cons o l ih =>
    intro S hn hl hS hnb x
    rw [List.nodup_cons] at hn
    rw [wOn_leaf hg (hl o (by simp)) (hS o (by simp)) (hnb o (by simp)).1, ih (S := S.erase o) hn.2 (fun a ha => hl a (by simp [ha]))]
    · rw [List.map_cons, List.prod_cons, List.toFinset_cons, show S.erase o \ l.toFinset = S \ insert o l.toFinset from by
        ext a; simp only [Finset.mem_sdiff, Finset.mem_erase, Finset.mem_insert]; tauto]
      ring
    · intro a ha
      exact Finset.mem_erase.mpr ⟨by rintro rfl; exact hn.1 ha, hS a (by simp [ha])⟩
    · intro a ha
      obtain ⟨h1, h2⟩ := hnb a (by simp [ha])
      exact ⟨Finset.mem_erase.mpr ⟨fun e => h2 (by rw [e]; simp), h1⟩, fun hc => h2 (by simp [hc])⟩

theorem wOn_loose (hg : g.Inv) : ∀ (l : List ℕ) {S : Finset ℕ}, (∀ i ∈ l, g.ty i = .boundary) → (∀ i ∈ l, ∀ u ∈ S, g.adj i u = none) →
    ∀ x, g.wOn S x = g.wOn (S \ l.toFinset) x := by
  intro l
  induction l with
  | nil => intro S _ _ x; simp
  | cons i l ih =>
    intro S ht hS x
    have h1 : g.wOn S x = g.wOn (S.erase i) x := by
      by_cases hi : i ∈ S
      · rw [wOn_erase hg.symm hi, vwt_bnd (ht i (by simp)), one_mul, Finset.prod_eq_one, one_mul]
        intro w hw
        exact edgeK_none (hS i (by simp) w (Finset.mem_of_mem_erase hw))
      · rw [Finset.erase_eq_of_notMem hi]
    rw [h1, ih (fun a ha => ht a (by simp [ha])) (fun a ha u hu => hS a (by simp [ha]) u (Finset.mem_of_mem_erase hu)), List.toFinset_cons,
      show S.erase i \ l.toFinset = S \ insert i l.toFinset from by
        ext a; simp only [Finset.mem_sdiff, Finset.mem_erase, Finset.mem_insert]; tauto]

/-- The map of a diagram whose outputs are connected to inputs; the factor is the rest of the diagram. -/
theorem mat_wires_eq (hg : g.WF) (hio : g.IO) (hbd : g.BDeg) {nb : ℕ → ℕ} (hnb : ∀ o ∈ g.outputs, nb o ∈ g.inputs ∧ g.adj o (nb o) ≠ none)
    (hlen : g.inputs.length = g.outputs.length) :
    ∀ x y, g.mat x y = (psum g.interior (g.wOn g.interior) fun _ => false) *
      (g.outputs.map fun o => kern (decide (g.adj o (nb o) = some .had)) (g.bval x y o) (g.bval x y (nb o))).prod := by
  have hto : ∀ o ∈ g.outputs, g.ty o = .boundary := fun o ho => hg.io o (Or.inr ho)
  have hti : ∀ o ∈ g.inputs, g.ty o = .boundary := fun o ho => hg.io o (Or.inl ho)
  have hleaf : ∀ o ∈ g.outputs, Leaf g o (nb o) := fun o ho =>
    ⟨hg.out o ho, hto o ho, (hnb o ho).2, fun w hw => hbd o (hg.out o ho) (hto o ho) w (nb o) hw (hnb o ho).2⟩
  have hinj : ∀ o ∈ g.outputs, ∀ o' ∈ g.outputs, nb o = nb o' → o = o' := by
    intro o ho o' ho' e
    have h1 := (hnb o ho).2
    have h2 := (hnb o' ho').2
    rw [hg.symm] at h1 h2
    rw [← e] at h2
    exact hbd (nb o) (hg.inp _ (hnb o ho).1) (hti _ (hnb o ho).1) o o' h1 h2
  -- every input is connected to an output
  have hall : ∀ i ∈ g.inputs, ∃ o ∈ g.outputs, nb o = i := by
    have h1 : (g.outputs.map nb).Nodup := List.Nodup.map_on hinj hio.nodupOut
    have h2 : (g.outputs.map nb).toFinset = g.inputs.toFinset := by
      refine Finset.eq_of_subset_of_card_le ?_ ?_
      · intro a ha
        obtain ⟨o, ho, rfl⟩ := List.mem_map.mp (List.mem_toFinset.mp ha)
        exact List.mem_toFinset.mpr (hnb o ho).1
      · rw [List.toFinset_card_of_nodup h1, List.toFinset_card_of_nodup hio.nodupIn, List.length_map, hlen]
    intro i hi
    have := List.mem_toFinset.mpr hi
    rw [← h2, List.mem_toFinset, List.mem_map] at this
    exact this
  have hint : (g.verts \ g.outputs.toFinset) \ g.inputs.toFinset = g.interior := by
    ext v
    simp only [Finset.mem_sdiff, List.mem_toFinset, Graph.interior, Finset.mem_filter]
    constructor
    · rintro ⟨⟨h1, h2⟩, h3⟩
      exact ⟨h1, fun h => (hio.all v h1 h).elim h3 h2⟩
    · rintro ⟨h1, h2⟩
      exact ⟨⟨h1, fun h => h2 (hto v h)⟩, fun h => h2 (hti v h)⟩
  have hw : ∀ x, g.weight x = g.wOn g.interior x * (g.outputs.map fun o => g.edgeK x o (nb o)).prod := by
    intro x
    rw [weight_eq_wOn, wOn_leaves hg.toInv g.outputs hio.nodupOut hleaf (fun o ho => hg.out o ho)
      (fun o ho => ⟨hg.inp _ (hnb o ho).1, hio.disj _ (hnb o ho).1⟩) x, wOn_loose hg.toInv g.inputs hti ?_, hint]
    intro i hi u hu
    by_contra hc
    obtain ⟨o, ho, rfl⟩ := hall i hi
    have h1 := (hnb o ho).2
    rw [hg.symm] at h1
    have := hbd (nb o) (hg.inp _ hi) (hti _ hi) u o hc h1
    rw [this] at hu
    exact (Finset.mem_sdiff.mp hu).2 (List.mem_toFinset.mpr ho)
  intro x y
  show g.sem _ = _
  rw [sem_eq_amp hg]
  unfold amp
  rw [psum_congr (g := fun x' => g.wOn g.interior x' * (g.outputs.map fun o => kern (decide (g.adj o (nb o) = some .had)) (g.bval x y o) (g.bval x y (nb o))).prod)]
  · rw [psum_mul_const]
    congr 1
    unfold psum
    refine Finset.sum_congr rfl fun T _ => wOn_congr_env fun v hv => ?_
    simp [setOn, hv]
  · intro x' hx'
    rw [hw]
    congr 1
    congr 1
    refine List.map_congr_left fun o ho => ?_
    obtain ⟨h1, h2⟩ := hnb o ho
    obtain ⟨e, he⟩ := Option.ne_none_iff_exists'.mp h2
    rw [edgeK_leaf (hto o ho) (isX_bnd (hti _ h1)) he, he, hx' o (notMem_interior (hto o ho)), hx' (nb o) (notMem_interior (hti _ h1))]
    simp

/-- The map of a diagram whose outputs are connected to inputs. -/
theorem mat_wires (hg : g.WF) (hio : g.IO) (hbd : g.BDeg) {nb : ℕ → ℕ} (hnb : ∀ o ∈ g.outputs, nb o ∈ g.inputs ∧ g.adj o (nb o) ≠ none)
    (hlen : g.inputs.length = g.outputs.length) :
    ∃ z, ∀ x y, g.mat x y = z * (g.outputs.map fun o => kern (decide (g.adj o (nb o) = some .had)) (g.bval x y o) (g.bval x y (nb o))).prod :=
  ⟨_, mat_wires_eq hg hio hbd hnb hlen⟩

end Graph

namespace Extract

open Graph Simplify

theorem swapsSteps_spec {o : Orders} {g : Graph} : ∀ (l : List (ℕ × ℕ)) {s r : List Gate × List ℕ}, l.foldlM (swapsStep o g) s = some r →
    (∀ p ∈ l, ∃ i, (o.nbr g p.1).head? = some i ∧ i ∈ g.inputs) ∧
    r.1 = ((l.filter fun p => decide (g.adj p.1 ((o.nbr g p.1).headD 0) = some .had)).map fun p => .had p.2).reverse ++ s.1 ∧
    r.2 = s.2 ++ l.map fun p => g.inputs.idxOf ((o.nbr g p.1).headD 0) := by
  intro l
  induction l with
  | nil =>
    intro s r e
    rw [List.foldlM_nil] at e
    obtain rfl := Option.some.inj e
    simp
  | cons p l ih =>
    intro s r e
    rw [List.foldlM_cons] at e
    obtain ⟨s1, e1, e2⟩ := Option.bind_eq_some_iff.mp e
    obtain ⟨h1, h2, h3⟩ := ih e2
    unfold swapsStep at e1
    obtain ⟨i, hi, e1⟩ := Option.bind_eq_some_iff.mp e1
    have hd : (o.nbr g p.1).headD 0 = i := by rw [List.headD_eq_head?_getD, hi]; rfl
    by_cases c : i ∈ g.inputs
    · rw [if_pos c, Option.some.injEq] at e1
      subst e1
      refine ⟨?_, ?_, ?_⟩
      · intro p' hp'
        rcases List.mem_cons.mp hp' with rfl | hp'
        · exact ⟨i, hi, c⟩
        · exact h1 p' hp'
      · rw [h2]
        by_cases c2 : g.adj p.1 i = some .had
        · rw [List.filter_cons_of_pos (by rw [hd, c2]; simp), if_pos c2]
          simp
        · rw [List.filter_cons_of_neg (by rw [hd]; simpa using c2), if_neg c2]
      · rw [h3, List.map_cons, hd]; simp
    · rw [if_neg c] at e1; simp at e1

theorem graphToSwaps_spec {o : Orders} (ho : o.OK) {noSwaps : Bool} {g : Graph} (hg : g.WF) (hio : g.IO) (hbd : g.BDeg)
    (hlen : g.inputs.length = g.outputs.length) {c : Circuit} (e : graphToSwaps o noSwaps g = some c) :
    c.qubits = g.inputs.length ∧ c.bits = 0 ∧ (∀ a ∈ c.gates, (a.adjointOK = true ∧ a.qubits.Nodup) ∧ ∀ q ∈ a.qubits, q < g.inputs.length) ∧
    ∃ π : List ℕ, IsPerm π ∧ π.length = g.outputs.length ∧ ∃ z, ∀ x, g.mat x = fun y =>
      z * semGates c.gates (basisState g.outputs.length fun q => x (if noSwaps then π.getD q 0 else q)) y := by
  unfold graphToSwaps at e
  obtain ⟨r, e1, rfl⟩ := Option.map_eq_some_iff.mp e
  obtain ⟨h1, h2, h3⟩ := swapsSteps_spec _ e1
  obtain ⟨nb, hnbd⟩ : ∃ nb : ℕ → ℕ, nb = fun v => (o.nbr g v).headD 0 := ⟨_, rfl⟩
  have hnb0 : ∀ v, (o.nbr g v).headD 0 = nb v := fun v => by rw [hnbd]
  simp only [hnb0] at h2 h3
  have hnb : ∀ v ∈ g.outputs, nb v ∈ g.inputs ∧ g.adj v (nb v) ≠ none := by
    intro v hv
    obtain ⟨q, hq⟩ := List.getElem?_of_mem hv
    obtain ⟨i, hi, h5⟩ := h1 (v, q) (List.mem_zipIdx_iff_getElem?.mpr hq)
    have hd : nb v = i := by
      simp only at hi
      rw [← hnb0, List.headD_eq_head?_getD, hi]; rfl
    rw [hd]
    refine ⟨h5, ?_⟩
    rw [← mem_nbrs hg.toInv, ← (ho.nbr g v (hg.out v hv)).2, List.mem_toFinset]
    exact List.mem_of_head? hi
  obtain ⟨z, hz⟩ := mat_wires hg hio hbd hnb hlen
  have hti : ∀ o ∈ g.inputs, g.ty o = .boundary := fun o ho => hg.io o (Or.inl ho)
  -- the permutation
  have hπ : r.2 = g.outputs.map fun v => g.inputs.idxOf (nb v) := by
    rw [h3, List.nil_append]
    conv_rhs => rw [← List.zipIdx_map_fst 0 g.outputs]
    rw [List.map_map]
    rfl
  have hπl : r.2.length = g.outputs.length := by rw [hπ, List.length_map]
  have hperm : IsPerm r.2 := by
    refine ⟨?_, ?_⟩
    · rw [hπ]
      refine List.Nodup.map_on ?_ hio.nodupOut
      intro v hv v' hv' e
      have e2 := (List.idxOf_inj (hnb v hv).1).mp e
      have k1 := (hnb v hv).2
      have k2 := (hnb v' hv').2
      rw [hg.symm] at k1 k2
      rw [← e2] at k2
      exact hbd (nb v) (hg.inp _ (hnb v hv).1) (hti _ (hnb v hv).1) v v' k1 k2
    · intro a ha
      rw [hπl, ← hlen]
      rw [hπ] at ha
      obtain ⟨v, hv, rfl⟩ := List.mem_map.mp ha
      exact List.idxOf_lt_length_of_mem (hnb v hv).1
  -- the Hadamards
  obtain ⟨hs, hhs⟩ : ∃ hs : List ℕ, hs = ((g.outputs.zipIdx.filter fun p => decide (g.adj p.1 (nb p.1) = some .had)).map (·.2)).reverse := ⟨_, rfl⟩
  have hr1 : r.1 = hs.map .had := by
    rw [h2, hhs, List.append_nil, List.map_reverse, List.map_map]
    rfl
  have hsn : hs.Nodup := by
    rw [hhs, List.nodup_reverse]
    refine List.Nodup.sublist ?_ (List.nodup_range' (s := 0) (n := g.outputs.length))
    rw [← List.zipIdx_map_snd]
    exact List.Sublist.map _ List.filter_sublist
  have hsm : ∀ q, q ∈ hs ↔ ∃ v, g.outputs[q]? = some v ∧ g.adj v (nb v) = some .had := by
    intro q
    rw [hhs, List.mem_reverse, List.mem_map]
    constructor
    · rintro ⟨⟨v, q'⟩, hp, rfl⟩
      rw [List.mem_filter, decide_eq_true_eq] at hp
      exact ⟨v, List.mem_zipIdx_iff_getElem?.mp hp.1, hp.2⟩
    · rintro ⟨v, hv, hc⟩
      exact ⟨(v, q), List.mem_filter.mpr ⟨List.mem_zipIdx_iff_getElem?.mpr hv, by simpa using hc⟩, rfl⟩
  have hsl : ∀ q ∈ hs, q < g.outputs.length := fun q hq => by
    obtain ⟨v, hv, -⟩ := (hsm q).mp hq
    exact (List.getElem?_eq_some_iff.mp hv).1
  have hhad : ∀ w, semGates r.1 (basisState g.outputs.length w) = hadState g.outputs.length hs.toFinset w := by
    intro w
    rw [hr1, ← hadState_empty, hads_hadState hs ∅ w hsn (fun q hq => ⟨hsl q hq, by simp⟩), Finset.union_empty]
  have hmat : ∀ x, g.mat x = fun y => z * hadState g.outputs.length hs.toFinset (fun q => x (r.2.getD q 0)) y := by
    intro x
    funext y
    rw [hz]
    congr 1
    unfold hadState
    rw [map_prod_range]
    refine Finset.prod_congr rfl fun q hq => ?_
    have hq' := Finset.mem_range.mp hq
    have hv : g.outputs[q]? = some (g.outputs.getD q 0) := by
      rw [List.getD_eq_getElem _ _ hq']; exact List.getElem?_eq_getElem hq'
    generalize g.outputs.getD q 0 = v at hv
    have hvm := List.mem_of_getElem? hv
    have hp : r.2.getD q 0 = g.inputs.idxOf (nb v) := by
      rw [hπ, List.getD_eq_getElem?_getD, List.getElem?_map, hv]; rfl
    rw [bval_out hio hv]
    beta_reduce
    rw [hp]
    congr 1
    · congr 1
      rw [eq_iff_iff, List.mem_toFinset, hsm]
      constructor
      · exact fun h => ⟨v, hv, h⟩
      · rintro ⟨v', h1, h2⟩
        rw [hv, Option.some.injEq] at h1
        rw [h1]; exact h2
    · unfold bval
      rw [if_pos (hnb v hvm).1]
  have hgates : ∀ a ∈ r.1, (a.adjointOK = true ∧ a.qubits.Nodup) ∧ ∀ q ∈ a.qubits, q < g.inputs.length := by
    intro a ha
    rw [hr1] at ha
    obtain ⟨q, hq, rfl⟩ := List.mem_map.mp ha
    rw [hlen]
    simpa [Gate.adjointOK, Gate.qubits] using hsl q hq
  refine ⟨rfl, rfl, ?_, r.2, hperm, hπl, z, ?_⟩
  · intro a ha
    by_cases c : noSwaps = false ∧ r.2 ≠ List.range r.2.length
    · simp only [if_pos c] at ha
      rcases List.mem_append.mp ha with ha | ha
      · rw [List.mem_reverse] at ha
        obtain ⟨p, hp, rfl⟩ := List.mem_map.mp ha
        obtain ⟨p1, p2⟩ := Props.swaps_range hperm p hp
        rw [hπl, ← hlen] at p2
        refine ⟨⟨rfl, ?_⟩, ?_⟩
        · simp [Gate.qubits]; omega
        · simp [Gate.qubits]; omega
      · exact hgates a ha
    · simp only [if_neg c] at ha
      exact hgates a ha
  · intro x
    rw [hmat]
    funext y
    congr 1
    by_cases c : noSwaps = false ∧ r.2 ≠ List.range r.2.length
    · simp only [if_pos c]
      rw [c.1, semGates_append, swaps_basis, hhad]
      · refine congrFun ?_ y
        unfold hadState
        funext y
        refine Finset.prod_congr rfl fun q hq => ?_
        beta_reduce
        rw [Props.swaps_realise hperm (by rw [hπl]; exact Finset.mem_range.mp hq)]
        simp
      · intro p hp
        obtain ⟨p1, p2⟩ := Props.swaps_range hperm p hp
        rw [hπl] at p2
        omega
    · simp only [if_neg c]
      rw [hhad]
      by_cases c2 : noSwaps = true
      · simp [c2]
      · have c3 : r.2 = List.range r.2.length := by
          by_contra h
          exact c ⟨by simpa using c2, h⟩
        unfold hadState
        refine Finset.prod_congr rfl fun q hq => ?_
        have hq' := Finset.mem_range.mp hq
        have : r.2.getD q 0 = q := by
          rw [c3, List.getD_eq_getElem _ _ (by rw [List.length_range, hπl]; exact hq'), List.getElem_range]
        beta_reduce
        rw [this, if_neg c2]

end Extract
end PyZX
