import Verif.Spec.State
import Verif.Proofs.Paste
import Mathlib.Data.List.GetD
import Mathlib.Tactic.FieldSimp

/-!
# Plugging states
-/

namespace PyZX
namespace Graph

open Finset

/-- The local identity behind plugging a state. -/
theorem state_local {c : Char} (hc : StateChar c) (e a : Bool) {isX : Bool} {p : ℚ} (hx : isX = (decide (c = '0') || decide (c = '1')))
    (hp : p = if c = '1' ∨ c = '-' then 1 else 0) :
    sq2⁻¹ * (kern (xor e isX) false a + ph p * kern (xor e isX) true a) =
      stateAmp c false * kern e false a + stateAmp c true * kern e true a := by
  have hs : sq2⁻¹ * sq2⁻¹ = (1 / 2 : ℂ) := by rw [← mul_inv, sq2_mul_self]; norm_num
  subst hx hp
  rcases hc with rfl | rfl | rfl | rfl <;> cases e <;> cases a <;> simp [stateAmp, kern, dmat, hmat, ph_one, ph_zero] <;>
    first | ring1 | linear_combination (2 : ℂ) * hs

/-- Changing a boundary vertex with one neighbour into the spider of a state. -/
theorem state_step {g h : Graph} (hg : ∀ u v, g.adj u v = g.adj v u) (hl : g.adj v v = none) (hm : ∀ u w, g.adj u w ≠ none → u ∈ g.verts)
    (hv : v ∈ g.verts) (hb : g.ty v = .boundary) (hn : g.OneNbr v) {c : Char} (hc : StateChar c)
    (hverts : h.verts = g.verts) (hadj : h.adj = g.adj) (hlab : h.label = g.label)
    (hty : h.ty = Function.update g.ty v (if c = '0' ∨ c = '1' then .X else .Z)) (hpo : ∀ u, u ≠ v → h.phase u = g.phase u)
    (hph : h.phase v = if c = '1' ∨ c = '-' then 1 else 0) (hsc : h.scalar.toNumber = g.scalar.toNumber * sq2⁻¹) (b : ℕ → Bool) :
    h.amp b = stateAmp c false * g.amp (Function.update b v false) + stateAmp c true * g.amp (Function.update b v true) := by
  obtain ⟨n, hn1, hn2⟩ := hn
  obtain ⟨e, he⟩ := Option.ne_none_iff_exists'.mp hn1
  have hnv : n ≠ v := fun h => hn1 (h ▸ hl)
  have hnm : n ∈ g.verts := hm n v (by rwa [hg])
  have hvi : v ∉ g.interior := fun h => (mem_filter.mp h).2 hb
  have hnt : h.ty v ≠ .boundary := by rw [hty, Function.update_self]; split <;> decide
  have hint : h.interior = insert v g.interior := by
    ext w
    unfold Graph.interior
    rw [mem_filter, mem_insert, mem_filter, hverts]
    by_cases hw : w = v
    · rw [hw]
      exact ⟨fun _ => Or.inl rfl, fun _ => ⟨hv, hnt⟩⟩
    · rw [hty, Function.update_of_ne hw]
      exact ⟨Or.inr, fun h => h.resolve_left hw⟩
  -- the rest of the diagram
  have hrest : ∀ x, h.coreW (g.verts.erase v) x = g.coreW (g.verts.erase v) x := by
    intro x
    have t : ∀ u ∈ g.verts.erase v, h.ty u = g.ty u := fun u hu => by rw [hty, Function.update_of_ne (ne_of_mem_erase hu)]
    unfold coreW
    congr 1
    · refine prod_congr rfl fun u hu => ?_
      unfold vwt vval
      rw [t u hu, hpo u (ne_of_mem_erase hu), hlab]
    · refine pairProd_congr fun a ha b hb _ => ?_
      unfold edgeK eff isX
      rw [t a ha, t b hb, hadj]
  have hsum : ∀ (k : Graph), k.adj = g.adj → ∀ x : ℕ → Bool, ∏ w ∈ g.verts.erase v, k.edgeK x v w = kern (k.eff v n e) (x v) (x n) := by
    intro k hk x
    rw [prod_eq_single n (fun w _ hw => edgeK_none (by rw [hk]; by_contra hne; exact hw (hn2 w hne))) (fun h => absurd (mem_erase.mpr ⟨hnv, hnm⟩) h),
      edgeK_some (by rw [hk]; exact he)]
  have hG : ∀ x : ℕ → Bool, g.coreW g.verts x = kern (g.eff v n e) (x v) (x n) * g.coreW (g.verts.erase v) x := by
    intro x
    rw [coreW_erase hg hv, hsum g rfl]
    have : g.vwt v (x v) = 1 := by unfold vwt vval; rw [hb]; split <;> rfl
    rw [this, one_mul]
  have hH : ∀ x : ℕ → Bool, h.coreW h.verts x = h.vwt v (x v) * kern (h.eff v n e) (x v) (x n) * g.coreW (g.verts.erase v) x := by
    intro x
    rw [hverts, coreW_erase (fun u w => by rw [hadj]; exact hg u w) hv, hsum h hadj, hrest]
  have hval : h.vval v = ph (if c = '1' ∨ c = '-' then 1 else 0) := by
    unfold vval
    rw [hty, Function.update_self, hph]
    by_cases h0 : c = '0' ∨ c = '1'
    · rw [if_pos h0]
    · rw [if_neg h0]
  have heff : h.eff v n e = xor (g.eff v n e) (decide (c = '0') || decide (c = '1')) := by
    unfold eff isX
    rw [hty, Function.update_self, Function.update_of_ne hnv, hb]
    by_cases h0 : c = '0' <;> by_cases h1 : c = '1' <;> simp [h0, h1]
  rw [amp_eq_coreAmp, amp_eq_coreAmp, amp_eq_coreAmp, hsc]
  unfold coreAmp
  rw [hint, psum_insert hvi]
  have e1 : ∀ z, psum g.interior (g.coreW g.verts) (Function.update b v z) =
      psum g.interior (fun x => kern (g.eff v n e) z (x n) * g.coreW (g.verts.erase v) x) b := by
    intro z
    have : psum g.interior (g.coreW g.verts) (Function.update b v z) =
        psum g.interior (fun x => kern (g.eff v n e) z (x n) * g.coreW (g.verts.erase v) x) (Function.update b v z) := by
      refine psum_congr fun x hx => ?_
      rw [hG, hx v hvi, Function.update_self]
    rw [this]
    refine psum_env (S := g.verts.erase v) (fun x y hxy => ?_) (fun u hu _ => ?_)
    · rw [hxy n (mem_erase.mpr ⟨hnv, hnm⟩), coreW_congr_env hxy]
    · rw [Function.update_of_ne (ne_of_mem_erase hu)]
  rw [e1, e1]
  have e2 : psum g.interior (fun x => h.coreW h.verts (Function.update x v false) + h.coreW h.verts (Function.update x v true)) b =
      psum g.interior (fun x => (kern (h.eff v n e) false (x n) + h.vval v * kern (h.eff v n e) true (x n)) * g.coreW (g.verts.erase v) x) b := by
    refine psum_congr fun x _ => ?_
    rw [hH, hH, coreW_update (notMem_erase _ _), coreW_update (notMem_erase _ _), Function.update_self, Function.update_self,
      Function.update_of_ne hnv, Function.update_of_ne hnv]
    unfold vwt
    simp only [Bool.false_eq_true, if_false, if_true]
    ring
  rw [e2, mul_assoc, mul_left_comm, mul_left_comm (stateAmp c false), mul_left_comm (stateAmp c true), ← mul_add, mul_left_comm]
  congr 1
  rw [← psum_const_mul, ← psum_const_mul, ← psum_const_mul, ← psum_add]
  refine psum_congr fun x _ => ?_
  rw [hval, heff, ← mul_assoc, state_local hc (g.eff v n e) (x n) rfl rfl]
  ring

theorem plugged_cons (v : ℕ) (c : Char) (l : List (ℕ × Char)) :
    plugged ((v, c) :: l) = if c = '/' then plugged l else insert v (plugged l) := by
  unfold plugged
  by_cases h : c = '/' <;> simp [h]

theorem prodAmp_cons (v : ℕ) (c : Char) (l : List (ℕ × Char)) (b : ℕ → Bool) :
    prodAmp ((v, c) :: l) b = (if c = '/' then 1 else stateAmp c (b v)) * prodAmp l b := by
  unfold prodAmp
  by_cases h : c = '/' <;> simp [h]

/-- What the loop of `apply_state` and `apply_effect` does. -/
structure Plugged (g : Graph) (l : List (ℕ × Char)) (acc : List ℕ) (r : Graph × List ℕ) : Prop where
  rest : r.2 = acc ++ (l.filter (·.2 = '/')).map Prod.fst
  verts : r.1.verts = g.verts
  adj : r.1.adj = g.adj
  vindex : r.1.vindex = g.vindex
  nedges : r.1.nedges = g.nedges
  inputs : r.1.inputs = g.inputs
  outputs : r.1.outputs = g.outputs
  tyOther : ∀ v, v ∉ plugged l → r.1.ty v = g.ty v
  tyPlugged : ∀ v ∈ plugged l, r.1.ty v = .X ∨ r.1.ty v = .Z
  amp : ∀ b, r.1.amp b = psum (plugged l) (fun c => prodAmp l c * g.amp c) b

theorem stateSteps (l : List (ℕ × Char)) : ∀ {g : Graph} {acc : List ℕ}, (∀ u v, g.adj u v = g.adj v u) → (∀ v, g.adj v v = none) →
    (∀ u w, g.adj u w ≠ none → u ∈ g.verts) → (l.map Prod.fst).Nodup →
    (∀ q ∈ l, q.1 ∈ g.verts ∧ g.ty q.1 = .boundary ∧ g.phase q.1 = 0 ∧ g.OneNbr q.1 ∧ (q.2 = '/' ∨ StateChar q.2)) →
    ∃ r, l.foldlM stateStep (g, acc) = some r ∧ Plugged g l acc r := by
  induction l with
  | nil =>
    intro g acc _ _ _ _ _
    exact ⟨(g, acc), rfl, by simp, rfl, rfl, rfl, rfl, rfl, rfl, fun _ _ => rfl, by simp [plugged], fun b => by simp [plugged, prodAmp]⟩
  | cons q l ih =>
    intro g acc hs hl hm hd hq
    obtain ⟨v, c⟩ := q
    rw [List.map_cons, List.nodup_cons] at hd
    obtain ⟨k1, k2, k3, k4, k5⟩ := hq (v, c) (by simp)
    dsimp only at k1 k2 k3 k4 k5
    by_cases hc : c = '/'
    · obtain ⟨r, e, P⟩ := ih (acc := acc ++ [v]) hs hl hm hd.2 (fun q hq' => hq q (by simp [hq']))
      refine ⟨r, ?_, ?_, P.verts, P.adj, P.vindex, P.nedges, P.inputs, P.outputs, ?_, ?_, ?_⟩
      · rw [List.foldlM_cons, ← e]
        have : stateStep (g, acc) (v, c) = some (g, acc ++ [v]) := by unfold stateStep; rw [if_pos hc]
        rw [this]
        rfl
      · rw [P.rest]; simp [hc]
      · rw [plugged_cons, if_pos hc]; exact P.tyOther
      · rw [plugged_cons, if_pos hc]; exact P.tyPlugged
      · intro b
        rw [P.amp, plugged_cons, if_pos hc]
        refine psum_congr fun x _ => ?_
        rw [prodAmp_cons, if_pos hc, one_mul]
    · have hc' := k5.resolve_left hc
      have hvl : v ∉ plugged l := fun h => by
        unfold plugged at h
        rw [List.mem_toFinset, List.mem_map] at h
        obtain ⟨q, hq', e⟩ := h
        exact hd.1 (List.mem_map.mpr ⟨q, (List.mem_filter.mp hq').1, e⟩)
      have hstep : ∃ h : Graph, stateStep (g, acc) (v, c) = some (h, acc) ∧ h.verts = g.verts ∧ h.adj = g.adj ∧ h.label = g.label ∧
          h.vindex = g.vindex ∧ h.nedges = g.nedges ∧ h.inputs = g.inputs ∧ h.outputs = g.outputs ∧
          h.ty = Function.update g.ty v (if c = '0' ∨ c = '1' then .X else .Z) ∧ (∀ u, u ≠ v → h.phase u = g.phase u) ∧
          (h.phase v = if c = '1' ∨ c = '-' then 1 else 0) ∧ h.scalar.toNumber = g.scalar.toNumber * sq2⁻¹ := by
        have hsc : (g.scalar.addPower (-1)).toNumber = g.scalar.toNumber * sq2⁻¹ := by rw [Scalar.addPower_toNumber, zpow_neg_one]
        have hm1 : mod2 1 = 1 := mod2_of_range (by norm_num) (by norm_num)
        rcases hc' with rfl | rfl | rfl | rfl
        · refine ⟨_, rfl, rfl, rfl, rfl, rfl, rfl, rfl, rfl, rfl, fun u _ => rfl, ?_, hsc⟩
          show g.phase v = _
          rw [k3, if_neg (by decide)]
        · refine ⟨_, rfl, rfl, rfl, rfl, rfl, rfl, rfl, rfl, rfl, fun u hu => ?_, ?_, hsc⟩
          · exact Function.update_of_ne hu _ _
          · rw [if_pos (by decide)]
            exact (Function.update_self ..).trans hm1
        · refine ⟨_, rfl, rfl, rfl, rfl, rfl, rfl, rfl, rfl, rfl, fun u _ => rfl, ?_, hsc⟩
          show g.phase v = _
          rw [k3, if_neg (by decide)]
        · refine ⟨_, rfl, rfl, rfl, rfl, rfl, rfl, rfl, rfl, rfl, fun u hu => ?_, ?_, hsc⟩
          · exact Function.update_of_ne hu _ _
          · rw [if_pos (by decide)]
            exact (Function.update_self ..).trans hm1
      obtain ⟨h, e1, a1, a2, a3, a4, a5, a6, a7, a8, a9, a10, a11⟩ := hstep
      have hstepamp := state_step hs (hl v) hm k1 k2 k4 hc' a1 a2 a3 a8 a9 a10 a11
      have hne : ∀ q ∈ l, q.1 ≠ v := fun q hq' e => hd.1 (List.mem_map.mpr ⟨q, hq', e⟩)
      obtain ⟨r, e, P⟩ := ih (g := h) (acc := acc) (by rw [a2]; exact hs) (by rw [a2]; exact hl) (by rw [a2, a1]; exact hm) hd.2 (fun q hq' => by
        obtain ⟨m1, m2, m3, m4, m5⟩ := hq q (by simp [hq'])
        refine ⟨by rwa [a1], ?_, ?_, ?_, m5⟩
        · rw [a8, Function.update_of_ne (hne q hq')]; exact m2
        · rw [a9 _ (hne q hq')]; exact m3
        · unfold OneNbr; rw [a2]; exact m4)
      refine ⟨r, ?_, ?_, P.verts.trans a1, P.adj.trans a2, P.vindex.trans a4, P.nedges.trans a5, P.inputs.trans a6, P.outputs.trans a7, ?_, ?_, ?_⟩
      · rw [List.foldlM_cons, e1]; exact e
      · rw [P.rest]; simp [hc]
      · intro u hu
        rw [plugged_cons, if_neg hc, mem_insert, not_or] at hu
        rw [P.tyOther u hu.2, a8, Function.update_of_ne hu.1]
      · intro u hu
        rw [plugged_cons, if_neg hc, mem_insert] at hu
        by_cases hul : u ∈ plugged l
        · exact P.tyPlugged u hul
        · have := hu.resolve_right hul
          rw [P.tyOther u hul, a8, this, Function.update_self]
          by_cases h0 : c = '0' ∨ c = '1'
          · rw [if_pos h0]; exact Or.inl rfl
          · rw [if_neg h0]; exact Or.inr rfl
      · intro b
        rw [P.amp, plugged_cons, if_neg hc, psum_insert hvl]
        refine psum_congr fun x _ => ?_
        have hind : ∀ z, prodAmp l (Function.update x v z) = prodAmp l x := by
          intro z
          unfold prodAmp
          congr 1
          refine List.map_congr_left fun q hq' => ?_
          rw [Function.update_of_ne (hne q (List.mem_filter.mp hq').1)]
        rw [hstepamp, prodAmp_cons, prodAmp_cons, if_neg hc, hind, hind]
        simp only [Function.update_self, if_neg hc]
        ring

theorem stateSteps_bad : ∀ (l : List (ℕ × Char)) (s : Graph × List ℕ) (c : Char), c ≠ '/' → ¬ StateChar c → c ∈ l.map Prod.snd →
    l.foldlM stateStep s = none := by
  intro l
  induction l with
  | nil => intro s c _ _ h; simp at h
  | cons q l ih =>
    intro s c h1 h2 h
    rw [List.foldlM_cons]
    rw [List.map_cons, List.mem_cons] at h
    rcases h with h | h
    · have : stateStep s q = none := by
        unfold StateChar at h2
        rw [not_or, not_or, not_or] at h2
        unfold stateStep
        rw [← h, if_neg h1, if_neg h2.1, if_neg h2.2.1, if_neg h2.2.2.1, if_neg h2.2.2.2]
      rw [this]
      rfl
    · cases hs : stateStep s q with
      | none => rfl
      | some s' => exact ih s' c h1 h2 h

/-- The positions of the string that name a state. -/
theorem mem_plugged {bs : List ℕ} {st : List Char} (hl : bs.length = st.length) {v : ℕ} :
    v ∈ plugged (bs.zip st) ↔ ∃ i ∈ statePos st, bs.getD i 0 = v := by
  unfold plugged statePos
  rw [List.mem_toFinset, List.mem_map]
  constructor
  · rintro ⟨q, hq, rfl⟩
    obtain ⟨h1, h2⟩ := List.mem_filter.mp hq
    obtain ⟨i, hi, e⟩ := List.getElem_of_mem h1
    rw [List.getElem_zip] at e
    rw [List.length_zip, ← hl, min_self] at hi
    refine ⟨i, mem_filter.mpr ⟨mem_range.mpr (hl ▸ hi), ?_⟩, ?_⟩
    · rw [List.getD_eq_getElem _ _ (hl ▸ hi)]
      simpa [← e] using h2
    · rw [List.getD_eq_getElem _ _ hi, ← e]
  · rintro ⟨i, hi, rfl⟩
    obtain ⟨h1, h2⟩ := mem_filter.mp hi
    have h1 := mem_range.mp h1
    rw [List.getD_eq_getElem _ _ h1] at h2
    refine ⟨(bs[i]'(hl ▸ h1), st[i]), List.mem_filter.mpr ⟨?_, by simpa using h2⟩, (List.getD_eq_getElem _ _ (hl ▸ h1)).symm⟩
    rw [← List.getElem_zip (h := by rw [List.length_zip, hl, min_self]; exact h1)]
    exact List.getElem_mem _

theorem prodAmp_pos : ∀ {bs : List ℕ} {st : List Char}, bs.length = st.length → ∀ c : ℕ → Bool,
    prodAmp (bs.zip st) c = ∏ i ∈ statePos st, stateAmp (st.getD i '/') (c (bs.getD i 0)) := by
  intro bs
  have key : ∀ (bs : List ℕ) (st : List Char), bs.length = st.length → ∀ c : ℕ → Bool,
      prodAmp (bs.zip st) c = ∏ i ∈ range st.length, if st.getD i '/' ≠ '/' then stateAmp (st.getD i '/') (c (bs.getD i 0)) else 1 := by
    intro bs
    induction bs with
    | nil => intro st h c; have : st = [] := List.length_eq_zero_iff.mp h.symm; subst this; simp [prodAmp]
    | cons v bs ih =>
      intro st h c
      cases st with
      | nil => simp at h
      | cons a st =>
        rw [List.zip_cons_cons, prodAmp_cons, ih st (by simpa using h), List.length_cons, prod_range_succ', mul_comm]
        simp only [List.getD_cons_succ, List.getD_cons_zero]
        congr 1
        by_cases ha : a = '/' <;> simp [ha]
  intro st h c
  rw [key bs st h, statePos, prod_filter]

theorem idxOf_skip : ∀ {bs : List ℕ} {st : List Char}, bs.length = st.length → bs.Nodup → ∀ i, i < st.length → st.getD i '/' = '/' →
    (((bs.zip st).filter (·.2 = '/')).map Prod.fst).idxOf (bs.getD i 0) = (st.take i).count '/' := by
  intro bs
  induction bs with
  | nil => intro st h _ i hi _; simp at h; omega
  | cons v bs ih =>
    intro st h hd i hi hs
    cases st with
    | nil => simp at h
    | cons a st =>
      cases i with
      | zero =>
        have : a = '/' := by simpa using hs
        simp [this]
      | succ i =>
        have hi' : i < st.length := by simpa using hi
        have hs' : st.getD i '/' = '/' := by simpa using hs
        have h' : bs.length = st.length := by simpa using h
        have := ih h' (List.nodup_cons.mp hd).2 i hi' hs'
        rw [List.getD_cons_succ, List.take_succ_cons, List.count_cons, ← this, List.zip_cons_cons]
        have hne : v ≠ bs.getD i 0 := by
          rw [List.getD_eq_getElem _ _ (h' ▸ hi')]
          exact fun e => (List.nodup_cons.mp hd).1 (e ▸ List.getElem_mem _)
        by_cases ha : a = '/'
        · rw [List.filter_cons_of_pos (by simpa using ha), List.map_cons, List.idxOf_cons_ne _ hne]
          simp [ha]
        · rw [List.filter_cons_of_neg (by simpa using ha)]
          simp [ha]

theorem plug_pos {bs : List ℕ} {st : List Char} (hl : bs.length = st.length) (hd : bs.Nodup) (F G : (ℕ → Bool) → ℂ) (b a : ℕ → Bool)
    (hF : ∀ c, (∀ v, v ∉ plugged (bs.zip st) → c v = b v) → F c = G fun i => c (bs.getD i 0))
    (hG : ∀ y z, (∀ i, i < st.length → y i = z i) → G y = G z)
    (hb : ∀ i, i < st.length → st.getD i '/' = '/' → b (bs.getD i 0) = a i) :
    psum (plugged (bs.zip st)) (fun c => prodAmp (bs.zip st) c * F c) b =
      psum (statePos st) (fun z => (∏ i ∈ statePos st, stateAmp (st.getD i '/') (z i)) * G z) a := by
  obtain ⟨M, hM⟩ : ∃ M, ∀ v ∈ bs, v < M := ⟨bs.sum + 1, fun v hv => Nat.lt_succ_of_le (List.single_le_sum (fun _ _ => Nat.zero_le _) v hv)⟩
  set ρ : ℕ → ℕ := fun i => if i < st.length then bs.getD i 0 else M + i with hρ
  have hρ1 : ∀ i, i < st.length → ρ i = bs.getD i 0 := fun i hi => if_pos hi
  have hρ2 : ∀ i, i < st.length → ρ i < M := fun i hi => by
    rw [hρ1 i hi, List.getD_eq_getElem _ _ (hl ▸ hi)]; exact hM _ (List.getElem_mem _)
  have hρ3 : ∀ i, ¬ i < st.length → ρ i = M + i := fun i hi => if_neg hi
  have inj : Function.Injective ρ := by
    intro i j e
    by_cases hi : i < st.length
    · by_cases hj : j < st.length
      · rw [hρ1 i hi, hρ1 j hj, List.getD_eq_getElem _ _ (hl ▸ hi), List.getD_eq_getElem _ _ (hl ▸ hj)] at e
        exact (hd.getElem_inj_iff).mp e
      · have := hρ2 i hi; rw [e, hρ3 j hj] at this; omega
    · by_cases hj : j < st.length
      · have := hρ2 j hj; rw [← e, hρ3 i hi] at this; omega
      · rw [hρ3 i hi, hρ3 j hj] at e; omega
  have hlt : ∀ i ∈ statePos st, i < st.length := fun i hi => mem_range.mp (mem_filter.mp hi).1
  have himg : plugged (bs.zip st) = (statePos st).image ρ := by
    ext v
    rw [mem_plugged hl, mem_image]
    exact ⟨fun ⟨i, hi, e⟩ => ⟨i, hi, (hρ1 i (hlt i hi)).trans e⟩, fun ⟨i, hi, e⟩ => ⟨i, hi, (hρ1 i (hlt i hi)).symm.trans e⟩⟩
  have h1 : psum (plugged (bs.zip st)) (fun c => prodAmp (bs.zip st) c * F c) b =
      psum ((statePos st).image ρ) (fun c => (fun z => (∏ i ∈ statePos st, stateAmp (st.getD i '/') (z i)) * G z) fun i => c (ρ i)) b := by
    rw [← himg]
    refine psum_congr fun c hc => ?_
    rw [hF c hc, prodAmp_pos hl]
    congr 1
    · exact prod_congr rfl fun i hi => by beta_reduce; rw [hρ1 i (hlt i hi)]
    · exact hG _ _ fun i hi => by rw [hρ1 i hi]
  rw [h1]
  refine (psum_image inj (statePos st) (fun z => (∏ i ∈ statePos st, stateAmp (st.getD i '/') (z i)) * G z) b).trans ?_
  refine psum_env (S := range st.length) (fun y z hyz => ?_) (fun i hi hn => ?_)
  · rw [hG y z fun i hi => hyz i (mem_range.mpr hi)]
    congr 1
    exact prod_congr rfl fun i hi => by rw [hyz i (mem_range.mpr (hlt i hi))]
  · have hi := mem_range.mp hi
    rw [hρ1 i hi]
    refine hb i hi ?_
    by_contra hne
    exact hn (mem_filter.mpr ⟨mem_range.mpr hi, hne⟩)

end Graph
end PyZX
