import Verif.Spec.GFlow
import Verif.Model.Rules
import Verif.Props.Linalg
import Verif.Sem.PathSum

/-!
# `gflow`
-/

namespace PyZX
namespace GFlow

open Graph Rules Mat2

/-! ### One row of the linear system -/

theorem row_sum {g : Graph} (hg : g.Inv) {pr : List ℕ} (hn : pr.Nodup) (w : ℕ) (T : Finset (Fin pr.length)) :
    (∑ j, bit (decide (g.adj (pr.get j) w ≠ none)) * (if j ∈ T then (1 : ZMod 2) else 0)) = ((T.image pr.get ∩ g.nbrs w).card : ZMod 2) := by
  have inj : Function.Injective pr.get := List.nodup_iff_injective_get.mp hn
  have h1 : ∀ j, bit (decide (g.adj (pr.get j) w ≠ none)) * (if j ∈ T then (1 : ZMod 2) else 0) =
      if j ∈ T ∧ pr.get j ∈ g.nbrs w then 1 else 0 := by
    intro j
    have : pr.get j ∈ g.nbrs w ↔ g.adj (pr.get j) w ≠ none := by rw [mem_nbrs hg, hg.symm]
    unfold bit
    by_cases a : j ∈ T <;> by_cases b : g.adj (pr.get j) w ≠ none
    · rw [if_pos (by simpa using b), if_pos a, if_pos ⟨a, this.mpr b⟩]; ring
    · rw [if_neg (by simpa using b), if_pos a, if_neg (fun h => b (this.mp h.2))]; ring
    · rw [if_neg a, mul_zero, if_neg (fun h => a h.1)]
    · rw [if_neg a, mul_zero, if_neg (fun h => a h.1)]
  rw [Finset.sum_congr rfl fun j _ => h1 j, Finset.sum_boole]
  congr 1
  rw [← Finset.card_image_of_injective _ inj]
  congr 1
  ext x
  simp only [Finset.mem_image, Finset.mem_filter, Finset.mem_univ, true_and, Finset.mem_inter]
  constructor
  · rintro ⟨j, ⟨a, b⟩, rfl⟩
    exact ⟨⟨j, a, rfl⟩, b⟩
  · rintro ⟨⟨j, a, rfl⟩, b⟩
    exact ⟨j, ⟨a, b⟩, rfl⟩

theorem biAdj_rect (g : Graph) (vs ws : List ℕ) : Rect ws.length vs.length (biAdj g vs ws) := by
  refine ⟨by simp [biAdj], fun row h => ?_⟩
  unfold biAdj at h
  obtain ⟨w, -, rfl⟩ := List.mem_map.mp h
  simp

theorem biAdj_cols (g : Graph) (vs : List ℕ) {ws : List ℕ} (h : ws ≠ []) : cols (biAdj g vs ws) = vs.length := by
  cases ws with
  | nil => exact absurd rfl h
  | cons w ws => simp [biAdj, cols]

theorem biAdj_get (g : Graph) (vs ws : List ℕ) (i : Fin ws.length) (j : Fin vs.length) :
    get (biAdj g vs ws) i j = decide (g.adj (vs.get j) (ws.get i) ≠ none) := by
  have h1 : (biAdj g vs ws).getD i [] = vs.map fun v => decide (g.adj v (ws.get i) ≠ none) := by
    unfold biAdj
    rw [List.getD_eq_getElem _ _ (by rw [List.length_map]; exact i.2), List.getElem_map]; rfl
  unfold Mat2.get
  rw [h1, List.getD_eq_getElem _ _ (by rw [List.length_map]; exact j.2), List.getElem_map]; rfl

theorem unitVec_rect (n i : ℕ) : Rect n 1 (unitVec n i) := by
  refine ⟨by simp [unitVec], fun row h => ?_⟩
  unfold unitVec at h
  rcases List.mem_or_eq_of_mem_set h with h | h
  · obtain ⟨w, -, rfl⟩ := List.mem_map.mp h; rfl
  · rw [h]; rfl

theorem unitVec_get (n i : ℕ) (hi : i < n) (j : Fin n) : vec n (unitVec n i) j = if (j : ℕ) = i then 1 else 0 := by
  have h1 : (unitVec n i).getD j [] = if i = j then [true] else [false] := by
    unfold unitVec
    rw [List.getD_eq_getElem _ _ (by simp), List.getElem_set]
    simp
  unfold vec Mat2.get
  rw [h1]
  by_cases h : i = j
  · rw [if_pos h, if_pos h.symm]; rfl
  · rw [if_neg h, if_neg (Ne.symm h)]; rfl

theorem support_eq {pr : List ℕ} {x : Data} (hx : Rect pr.length 1 x) :
    support pr x = (Finset.univ.filter fun j : Fin pr.length => get x j 0 = true).image pr.get := by
  ext a
  unfold support
  simp only [Finset.mem_image, List.mem_toFinset, List.mem_filter, List.mem_range, Finset.mem_filter, Finset.mem_univ, true_and]
  constructor
  · rintro ⟨i, ⟨h1, h2⟩, rfl⟩
    rw [hx.1] at h1
    exact ⟨⟨i, h1⟩, h2, by rw [List.getD_eq_getElem _ _ h1]; rfl⟩
  · rintro ⟨j, h, rfl⟩
    exact ⟨j, ⟨by rw [hx.1]; exact j.2, h⟩, by rw [List.getD_eq_getElem _ _ j.2]; rfl⟩

/-- The linear system says which vertices have an odd number of neighbours in a set. -/
theorem system_iff {g : Graph} (hg : g.Inv) {pr cs : List ℕ} (hp : pr.Nodup) (hc : cs.Nodup) {u : ℕ} (hu : u ∈ cs) (T : Finset (Fin pr.length)) :
    (mat cs.length pr.length (biAdj g pr cs)).mulVec (fun j => if j ∈ T then 1 else 0) = vec cs.length (unitVec cs.length (cs.idxOf u)) ↔
      ∀ w ∈ cs, (Odd (T.image pr.get ∩ g.nbrs w).card ↔ w = u) := by
  have hi : cs.idxOf u < cs.length := List.idxOf_lt_length_iff.mpr hu
  have key : ∀ i : Fin cs.length, ((mat cs.length pr.length (biAdj g pr cs)).mulVec (fun j => if j ∈ T then 1 else 0) i =
      vec cs.length (unitVec cs.length (cs.idxOf u)) i ↔ (Odd (T.image pr.get ∩ g.nbrs (cs.get i)).card ↔ cs.get i = u)) := by
    intro i
    have e1 : (mat cs.length pr.length (biAdj g pr cs)).mulVec (fun j => if j ∈ T then (1 : ZMod 2) else 0) i =
        ((T.image pr.get ∩ g.nbrs (cs.get i)).card : ZMod 2) := by
      rw [← row_sum hg hp]
      unfold Matrix.mulVec dotProduct
      refine Finset.sum_congr rfl fun j _ => ?_
      show bit (Mat2.get (biAdj g pr cs) i j) * _ = _
      rw [biAdj_get]
    have e2 : (i : ℕ) = cs.idxOf u ↔ cs.get i = u := by
      constructor
      · intro h
        rw [List.get_eq_getElem]
        simp only [h, List.getElem_idxOf]
      · intro h
        rw [← h]
        exact (List.get_idxOf hc i).symm
    rw [e1, unitVec_get _ _ hi]
    by_cases h : (i : ℕ) = cs.idxOf u
    · rw [if_pos h, ZMod.natCast_eq_one_iff_odd]
      exact ⟨fun a => ⟨fun _ => e2.mp h, fun _ => a⟩, fun a => a.mpr (e2.mp h)⟩
    · rw [if_neg h, ZMod.natCast_eq_zero_iff_even, ← Nat.not_odd_iff_even]
      exact ⟨fun a => ⟨fun b => absurd b a, fun b => absurd (e2.mpr b) h⟩, fun a b => h (e2.mpr (a.mp b))⟩
  constructor
  · intro h w hw
    obtain ⟨i, rfl⟩ := List.get_of_mem hw
    exact (key i).mp (congrFun h i)
  · intro h
    funext i
    exact (key i).mpr (h _ (List.get_mem cs i))

/-! ### One iteration -/

variable {g : Graph} {lst : Finset ℕ → List ℕ} {stale : ℕ → List ℕ} {pd : Finset ℕ}

theorem mem_prime (hg : g.Inv) {v : ℕ} : v ∈ prime g pd ↔ v ∈ pd ∧ v ∉ patternInputs g ∧ ∃ w, g.adj v w ≠ none ∧ w ∉ pd := by
  unfold prime
  rw [Finset.mem_filter, Finset.mem_sdiff, and_assoc]
  simp only [mem_nbrs hg]

theorem mem_cands (hg : g.Inv) {v : ℕ} : v ∈ cands g pd ↔ v ∈ g.verts ∧ v ∉ pd ∧ ∃ w, g.adj v w ≠ none ∧ w ∈ prime g pd := by
  unfold cands
  rw [Finset.mem_filter, Finset.mem_sdiff, and_assoc]
  simp only [mem_nbrs hg]

theorem mem_lst (hl : SetOrder lst) {s : Finset ℕ} {v : ℕ} : v ∈ lst s ↔ v ∈ s := by
  rw [← List.mem_toFinset, (hl s).2]

theorem corrections_sound (hg : g.Inv) (hl : SetOrder lst) {u : ℕ} {S : Finset ℕ} (h : (u, S) ∈ corrections lst stale g pd) :
    u ∈ g.verts \ pd ∧ S ⊆ pd \ patternInputs g ∧ ∀ w ∈ g.verts \ pd, (Odd (S ∩ g.nbrs w).card ↔ w = u) := by
  unfold corrections at h
  simp only [List.mem_filterMap, Option.map_eq_some_iff, Prod.mk.injEq] at h
  obtain ⟨u', hu, x, hx, rfl, rfl⟩ := h
  have hu' := (mem_cands hg).mp ((mem_lst hl).mp hu)
  have hne : lst (cands g pd) ≠ [] := List.ne_nil_of_mem hu
  obtain ⟨r1, r2⟩ := Props.solve_sound (biAdj_rect g _ _) (biAdj_cols g _ hne) (unitVec_rect _ _) _ hx
  rw [support_eq r1]
  set pr := lst (prime g pd) with hpr
  set cs := lst (cands g pd) with hcs
  set T := Finset.univ.filter fun j : Fin pr.length => get x j 0 = true with hT
  have hv : vec pr.length x = fun j => if j ∈ T then 1 else 0 := by
    funext j
    unfold vec bit
    simp [hT]
  rw [hv] at r2
  have key := (system_iff hg (hl _).1 (hl _).1 hu T).mp r2
  have hsub : ∀ a ∈ T.image pr.get, a ∈ prime g pd := by
    intro a ha
    obtain ⟨j, -, rfl⟩ := Finset.mem_image.mp ha
    exact (mem_lst hl).mp (List.get_mem pr j)
  refine ⟨Finset.mem_sdiff.mpr ⟨hu'.1, hu'.2.1⟩, fun a ha => ?_, fun w hw => ?_⟩
  · have := (mem_prime hg).mp (hsub a ha)
    exact Finset.mem_sdiff.mpr ⟨this.1, this.2.1⟩
  · rw [Finset.mem_sdiff] at hw
    by_cases hc : w ∈ cands g pd
    · exact key w ((mem_lst hl).mpr hc)
    · have hz : T.image pr.get ∩ g.nbrs w = ∅ := by
        refine Finset.eq_empty_of_forall_notMem fun a ha => hc ?_
        rw [Finset.mem_inter] at ha
        exact (mem_cands hg).mpr ⟨hw.1, hw.2, a, (mem_nbrs hg).mp ha.2, hsub a ha.1⟩
      rw [hz]
      simp only [Finset.card_empty, Nat.not_odd_zero, false_iff]
      rintro rfl
      exact hc ((mem_lst hl).mp hu)

theorem corrections_complete (hg : g.Inv) (hl : SetOrder lst) {u : ℕ} (hu : u ∈ g.verts \ pd) {S : Finset ℕ} (hS : S ⊆ pd \ patternInputs g)
    (h : ∀ w ∈ g.verts \ pd, (Odd (S ∩ g.nbrs w).card ↔ w = u)) : ∃ S', (u, S') ∈ corrections lst stale g pd := by
  rw [Finset.mem_sdiff] at hu
  have hpS : ∀ w ∈ g.verts \ pd, S ∩ g.nbrs w = (S ∩ prime g pd) ∩ g.nbrs w := by
    intro w hw
    rw [Finset.mem_sdiff] at hw
    ext a
    simp only [Finset.mem_inter, mem_nbrs hg]
    constructor
    · rintro ⟨h1, h2⟩
      have := Finset.mem_sdiff.mp (hS h1)
      exact ⟨⟨h1, (mem_prime hg).mpr ⟨this.1, this.2, w, by rw [hg.symm]; exact h2, hw.2⟩⟩, h2⟩
    · rintro ⟨⟨h1, -⟩, h2⟩
      exact ⟨h1, h2⟩
  have huc : u ∈ cands g pd := by
    have ho := (h u (Finset.mem_sdiff.mpr hu)).mpr rfl
    rw [hpS u (Finset.mem_sdiff.mpr hu)] at ho
    obtain ⟨a, ha⟩ := Finset.card_pos.mp ho.pos
    simp only [Finset.mem_inter, mem_nbrs hg] at ha
    exact (mem_cands hg).mpr ⟨hu.1, hu.2, a, ha.2, ha.1.2⟩
  have huc' : u ∈ lst (cands g pd) := (mem_lst hl).mpr huc
  have hne : lst (cands g pd) ≠ [] := List.ne_nil_of_mem huc'
  cases hx : solve (stale u) (biAdj g (lst (prime g pd)) (lst (cands g pd))) (unitVec (lst (cands g pd)).length ((lst (cands g pd)).idxOf u)) with
  | some x =>
    refine ⟨support (lst (prime g pd)) x, ?_⟩
    unfold corrections
    simp only [List.mem_filterMap, Option.map_eq_some_iff, Prod.mk.injEq]
    exact ⟨u, huc', x, hx, rfl, rfl⟩
  | none =>
    exfalso
    have hno := (Props.solve_none_iff (biAdj_rect g _ _) (biAdj_cols g _ hne) (unitVec_rect _ _) _).mp hx
    set pr := lst (prime g pd) with hpr
    refine hno ⟨fun j => if j ∈ Finset.univ.filter (fun j : Fin pr.length => pr.get j ∈ S) then 1 else 0, ?_⟩
    refine (system_iff hg (hl _).1 (hl _).1 huc' _).mpr fun w hw => ?_
    have hwc := (mem_cands hg).mp ((mem_lst hl).mp hw)
    have hw' : w ∈ g.verts \ pd := Finset.mem_sdiff.mpr ⟨hwc.1, hwc.2.1⟩
    have e : (Finset.univ.filter fun j : Fin pr.length => pr.get j ∈ S).image pr.get = S ∩ prime g pd := by
      ext a
      simp only [Finset.mem_image, Finset.mem_filter, Finset.mem_univ, true_and, Finset.mem_inter]
      constructor
      · rintro ⟨j, hj, rfl⟩
        exact ⟨hj, (mem_lst hl).mp (List.get_mem pr j)⟩
      · rintro ⟨h1, h2⟩
        obtain ⟨j, rfl⟩ := List.get_of_mem ((mem_lst hl).mpr h2)
        exact ⟨j, h1, rfl⟩
    rw [e, ← hpS w hw']
    exact h w hw'

/-! ### The open graph -/

theorem mem2 (hg : g.Inv) {u v : ℕ} (h : g.adj u v ≠ none) : v ∈ g.verts := hg.mem v u (by rw [hg.symm]; exact h)

open Classical in
theorem mem_openIn {v : ℕ} : v ∈ g.openIn ↔ v ∈ g.verts ∧ g.OpenIn v := by unfold openIn; rw [Finset.mem_filter]

theorem mem_patternInputs (hg : g.Inv) {v : ℕ} : v ∈ patternInputs g ↔ v ∈ g.openIn := by
  rw [mem_openIn]
  unfold patternInputs OpenIn
  simp only [Finset.mem_union, Finset.mem_filter, List.mem_toFinset, Finset.mem_biUnion, mem_nbrs hg]
  constructor
  · rintro (h | ⟨i, ⟨h1, h2⟩, h3⟩)
    · exact ⟨hg.inp v h.1, Or.inl h⟩
    · exact ⟨mem2 hg h3, Or.inr ⟨i, h1, h2, h3⟩⟩
  · rintro ⟨-, h | ⟨i, h1, h2, h3⟩⟩
    · exact Or.inl h
    · exact Or.inr ⟨i, ⟨h1, h2⟩, h3⟩

theorem patternInputs_eq (hg : g.Inv) : patternInputs g = g.openIn := by
  ext v; exact mem_patternInputs hg

/-- The neighbours of an input boundary are inputs of the open graph. -/
theorem nbr_input (hg : g.Inv) {w a : ℕ} (hw : w ∈ g.inputs.toFinset \ g.openIn) (h : g.adj w a ≠ none) : a ∈ g.openIn := by
  rw [Finset.mem_sdiff, List.mem_toFinset] at hw
  have ht : g.ty w = .boundary := by
    by_contra hc
    refine hw.2 ?_
    rw [mem_openIn]
    exact ⟨hg.inp w hw.1, Or.inl ⟨hw.1, hc⟩⟩
  rw [mem_openIn]
  exact ⟨mem2 hg h, Or.inr ⟨w, hw.1, ht, h⟩⟩

/-- A flow gives a solution as soon as all later vertices are processed. -/
theorem flow_step (hg : g.Inv) {O : Finset ℕ} {f : ℕ → Finset ℕ} {lt : ℕ → ℕ → Prop} (hf : IsGFlow g g.openV g.openIn O f lt)
    {u : ℕ} (hu : u ∈ g.openV \ O) (hupd : u ∉ pd) (hlater : ∀ w ∈ g.openV, lt u w → w ∈ pd) :
    u ∈ g.verts \ pd ∧ f u ⊆ pd \ patternInputs g ∧ ∀ w ∈ g.verts \ pd, (Odd (f u ∩ g.nbrs w).card ↔ w = u) := by
  have huV : u ∈ g.verts := by
    have := (Finset.mem_sdiff.mp hu).1
    unfold openV at this
    exact (Finset.mem_sdiff.mp this).1
  refine ⟨Finset.mem_sdiff.mpr ⟨huV, hupd⟩, fun w hw => ?_, fun w hw => ⟨fun ho => ?_, fun e => ?_⟩⟩
  · have h1 := Finset.mem_sdiff.mp (hf.sub u hu hw)
    rw [Finset.mem_sdiff, patternInputs_eq hg]
    exact ⟨hlater w h1.1 (hf.later u hu w hw), h1.2⟩
  · by_contra hne
    rw [Finset.mem_sdiff] at hw
    by_cases hV : w ∈ g.openV
    · exact hw.2 (hlater w hV (hf.other u hu w hV hne ho))
    · have hin : w ∈ g.inputs.toFinset \ g.openIn := by
        by_contra hc
        exact hV (by unfold openV; exact Finset.mem_sdiff.mpr ⟨hw.1, hc⟩)
      obtain ⟨a, ha⟩ := Finset.card_pos.mp ho.pos
      rw [Finset.mem_inter, mem_nbrs hg] at ha
      exact (Finset.mem_sdiff.mp (hf.sub u hu ha.1)).2 (nbr_input hg hin ha.2)
  · rw [e]; exact hf.odd u hu

/-! ### The loop -/

/-- Invariant of the loop. `O` is the set of outputs, `pd` the set of processed vertices. -/
structure LInv (g : Graph) (O pd : Finset ℕ) (l : ℕ → Option ℕ) (gf : ℕ → Option (Finset ℕ)) (k : ℕ) : Prop where
  pos : 0 < k
  sub : pd ⊆ g.verts
  out : O ⊆ pd
  inp : ∀ v ∈ g.inputs.toFinset \ g.openIn, v ∉ pd
  dom : ∀ v, (l v).isSome ↔ v ∈ pd
  lt : ∀ v j, l v = some j → j < k
  zero : ∀ v, l v = some 0 ↔ v ∈ O
  gdom : ∀ v, (gf v).isSome ↔ v ∈ pd \ O
  flow : ∀ u S j, gf u = some S → l u = some j → S ⊆ pd \ g.openIn ∧ (∀ w ∈ S, ∃ i < j, l w = some i) ∧
    ∀ w ∈ g.verts, (∀ i, l w = some i → j ≤ i) → (Odd (S ∩ g.nbrs w).card ↔ w = u)
  early : ∀ (f' : ℕ → Finset ℕ) (l' : ℕ → ℕ), IsGFlow g g.openV g.openIn O f' (fun u w => l' w < l' u) →
    (∀ v ∈ g.openV, l' v < k → v ∈ pd) ∧ ∀ v j, l v = some j → j ≤ l' v

theorem lookup_some_mem {c : List (ℕ × Finset ℕ)} {v : ℕ} {S : Finset ℕ} (h : c.lookup v = some S) : (v, S) ∈ c := by
  induction c with
  | nil => simp at h
  | cons p c ih =>
    rw [List.lookup_cons] at h
    by_cases e : v = p.1
    · rw [show (v == p.1) = true by simpa using e] at h
      simp only [Option.some.injEq] at h
      rw [List.mem_cons]; left
      exact Prod.ext e h.symm
    · rw [show (v == p.1) = false by simpa using e] at h
      exact List.mem_cons_of_mem _ (ih h)

theorem lookup_isSome {c : List (ℕ × Finset ℕ)} {v : ℕ} : (c.lookup v).isSome ↔ v ∈ c.map (·.1) := by
  induction c with
  | nil => simp
  | cons p c ih =>
    rw [List.lookup_cons, List.map_cons, List.mem_cons]
    by_cases e : v = p.1
    · rw [show (v == p.1) = true by simpa using e]
      simp [e]
    · rw [show (v == p.1) = false by simpa using e]
      simp only [e, false_or]
      exact ih

theorem LInv.step (hg : g.Inv) (hl : SetOrder lst) {O : Finset ℕ} {l : ℕ → Option ℕ} {gf : ℕ → Option (Finset ℕ)} {k : ℕ} (h : LInv g O pd l gf k) :
    LInv g O (pd ∪ ((corrections lst stale g pd).map (·.1)).toFinset)
      (fun v => if v ∈ (corrections lst stale g pd).map (·.1) then some k else l v)
      (fun v => ((corrections lst stale g pd).lookup v).or (gf v)) (k + 1) := by
  set c := corrections lst stale g pd with hc
  have hcs : ∀ u ∈ c.map (·.1), u ∈ g.verts ∧ u ∉ pd := by
    intro u hu
    obtain ⟨⟨a, S⟩, hq, rfl⟩ := List.mem_map.mp hu
    exact Finset.mem_sdiff.mp (corrections_sound hg hl hq).1
  have hmem : ∀ v, v ∈ pd ∪ (c.map (·.1)).toFinset ↔ v ∈ pd ∨ v ∈ c.map (·.1) := by
    intro v; rw [Finset.mem_union, List.mem_toFinset]
  have hlold : ∀ v ∈ pd, (if v ∈ c.map (·.1) then some k else l v) = l v := fun v hv => if_neg fun hv' => (hcs v hv').2 hv
  refine ⟨Nat.succ_pos k, fun v hv => ?_, fun v hv => (hmem v).mpr (Or.inl (h.out hv)), fun v hv hv' => ?_, fun v => ?_, fun v j hj => ?_,
    fun v => ?_, fun v => ?_, fun u S j hS hj => ?_, fun f' l' hf' => ⟨fun v hv hlt => ?_, fun v j hj => ?_⟩⟩
  · rcases (hmem v).mp hv with h1 | h1
    · exact h.sub h1
    · exact (hcs v h1).1
  · rcases (hmem v).mp hv' with h1 | h1
    · exact h.inp v hv h1
    · obtain ⟨⟨a, S⟩, hq, rfl⟩ := List.mem_map.mp h1
      obtain ⟨k1, k2, k3⟩ := corrections_sound hg hl hq
      obtain ⟨w, hw⟩ := Finset.card_pos.mp ((k3 a k1).mpr rfl).pos
      rw [Finset.mem_inter, mem_nbrs hg] at hw
      refine (Finset.mem_sdiff.mp (k2 hw.1)).2 ?_
      rw [patternInputs_eq hg]
      exact nbr_input hg hv hw.2
  · rw [hmem]
    beta_reduce
    by_cases e : v ∈ c.map (·.1)
    · rw [if_pos e]; simp [e]
    · rw [if_neg e, h.dom]; simp [e]
  · beta_reduce at hj
    by_cases e : v ∈ c.map (·.1)
    · rw [if_pos e] at hj; simp at hj; omega
    · rw [if_neg e] at hj; exact Nat.lt_succ_of_lt (h.lt v j hj)
  · beta_reduce
    by_cases e : v ∈ c.map (·.1)
    · rw [if_pos e]
      have := h.pos
      constructor
      · intro hk; simp at hk; omega
      · intro hv; exact absurd (h.out hv) (hcs v e).2
    · rw [if_neg e]; exact h.zero v
  · beta_reduce
    rw [Option.isSome_or, Bool.or_eq_true, lookup_isSome, h.gdom, Finset.mem_sdiff, Finset.mem_sdiff, hmem]
    constructor
    · rintro (h1 | h1)
      · exact ⟨Or.inr h1, fun hO => (hcs v h1).2 (h.out hO)⟩
      · exact ⟨Or.inl h1.1, h1.2⟩
    · rintro ⟨h1 | h1, h2⟩
      · exact Or.inr ⟨h1, h2⟩
      · exact Or.inl h1
  · beta_reduce at hS hj
    by_cases e : u ∈ c.map (·.1)
    · rw [if_pos e, Option.some.injEq] at hj
      subst hj
      have hlk := lookup_isSome.mpr e
      obtain ⟨S', hS'⟩ := Option.isSome_iff_exists.mp hlk
      rw [hS', Option.some_or, Option.some.injEq] at hS
      subst hS
      obtain ⟨k1, k2, k3⟩ := corrections_sound hg hl (lookup_some_mem hS')
      rw [patternInputs_eq hg] at k2
      refine ⟨fun w hw => ?_, fun w hw => ?_, fun w hw hi => ?_⟩
      · have := Finset.mem_sdiff.mp (k2 hw)
        exact Finset.mem_sdiff.mpr ⟨(hmem w).mpr (Or.inl this.1), this.2⟩
      · have hp := (Finset.mem_sdiff.mp (k2 hw)).1
        obtain ⟨i, hi⟩ := Option.isSome_iff_exists.mp ((h.dom w).mpr hp)
        exact ⟨i, h.lt w i hi, by beta_reduce; rw [hlold w hp]; exact hi⟩
      · refine k3 w (Finset.mem_sdiff.mpr ⟨hw, fun hp => ?_⟩)
        obtain ⟨i, hi'⟩ := Option.isSome_iff_exists.mp ((h.dom w).mpr hp)
        have h1 := hi i (by beta_reduce; rw [hlold w hp]; exact hi')
        have h2 := h.lt w i hi'
        omega
    · rw [if_neg e] at hj
      have hlk : c.lookup u = none := by
        rw [← Option.not_isSome_iff_eq_none, lookup_isSome]; exact e
      rw [hlk, Option.none_or] at hS
      obtain ⟨k1, k2, k3⟩ := h.flow u S j hS hj
      have hjk := h.lt u j hj
      refine ⟨fun w hw => ?_, fun w hw => ?_, fun w hw hi => k3 w hw fun i hi' => ?_⟩
      · have := Finset.mem_sdiff.mp (k1 hw)
        exact Finset.mem_sdiff.mpr ⟨(hmem w).mpr (Or.inl this.1), this.2⟩
      · obtain ⟨i, hi1, hi2⟩ := k2 w hw
        refine ⟨i, hi1, ?_⟩
        beta_reduce
        rw [hlold w (Finset.mem_sdiff.mp (k1 hw)).1]; exact hi2
      · have hp := (h.dom w).mp (by rw [hi']; rfl)
        exact hi i (by beta_reduce; rw [hlold w hp]; exact hi')
  · obtain ⟨e1, e2⟩ := h.early f' l' hf'
    by_contra hv'
    have hvp : v ∉ pd := fun hp => hv' ((hmem v).mpr (Or.inl hp))
    obtain ⟨s1, s2, s3⟩ := flow_step (pd := pd) hg hf' (Finset.mem_sdiff.mpr ⟨hv, fun hO => hvp (h.out hO)⟩) hvp
      fun w hw hlt' => e1 w hw (by omega)
    obtain ⟨S', hS'⟩ := corrections_complete (stale := stale) hg hl s1 s2 s3
    exact hv' ((hmem v).mpr (Or.inr (List.mem_map_of_mem hS')))
  · obtain ⟨e1, e2⟩ := h.early f' l' hf'
    beta_reduce at hj
    by_cases e : v ∈ c.map (·.1)
    · rw [if_pos e, Option.some.injEq] at hj
      subst hj
      by_contra hlt
      refine (hcs v e).2 (e1 v ?_ (by omega))
      unfold openV
      refine Finset.mem_sdiff.mpr ⟨(hcs v e).1, fun hin => ?_⟩
      obtain ⟨⟨a, S⟩, hq, rfl⟩ := List.mem_map.mp e
      obtain ⟨k1, k2, k3⟩ := corrections_sound hg hl hq
      obtain ⟨w, hw⟩ := Finset.card_pos.mp ((k3 a k1).mpr rfl).pos
      rw [Finset.mem_inter, mem_nbrs hg] at hw
      refine (Finset.mem_sdiff.mp (k2 hw.1)).2 ?_
      rw [patternInputs_eq hg]
      exact nbr_input hg hin hw.2
    · rw [if_neg e] at hj
      exact e2 v j hj

theorem LInv.init (hg : g.Inv) {grounds : Finset ℕ} (hgr : grounds ⊆ g.verts)
    (hio : ∀ v ∈ g.inputs, g.ty v = .boundary → v ∉ g.outputs ∧ v ∉ grounds) :
    LInv g (g.outputs.toFinset ∪ grounds) (g.outputs.toFinset ∪ grounds)
      (fun v => if v ∈ g.outputs.toFinset ∪ grounds then some 0 else none) (fun _ => none) 1 := by
  refine ⟨one_pos, fun v hv => ?_, fun v hv => hv, fun v hv hv' => ?_, fun v => ?_, fun v j hj => ?_, fun v => ?_, fun v => ?_, fun u S j hS hj => ?_,
    fun f' l' hf' => ⟨fun v hv hlt => ?_, fun v j hj => ?_⟩⟩
  · rcases Finset.mem_union.mp hv with h | h
    · exact hg.out v (List.mem_toFinset.mp h)
    · exact hgr h
  · rw [Finset.mem_sdiff, List.mem_toFinset] at hv
    have ht : g.ty v = .boundary := by
      by_contra hc
      refine hv.2 ?_
      rw [mem_openIn]
      exact ⟨hg.inp v hv.1, Or.inl ⟨hv.1, hc⟩⟩
    obtain ⟨h1, h2⟩ := hio v hv.1 ht
    rcases Finset.mem_union.mp hv' with h | h
    · exact h1 (List.mem_toFinset.mp h)
    · exact h2 h
  · beta_reduce
    by_cases e : v ∈ g.outputs.toFinset ∪ grounds
    · rw [if_pos e]; simp [e]
    · rw [if_neg e]; simp [e]
  · beta_reduce at hj
    by_cases e : v ∈ g.outputs.toFinset ∪ grounds
    · rw [if_pos e] at hj; simp at hj; omega
    · rw [if_neg e] at hj; simp at hj
  · beta_reduce
    by_cases e : v ∈ g.outputs.toFinset ∪ grounds
    · rw [if_pos e]; simp [e]
    · rw [if_neg e]; simp [e]
  · simp
  · simp at hS
  · by_contra hO
    have hu := Finset.mem_sdiff.mpr ⟨hv, hO⟩
    obtain ⟨a, ha⟩ := Finset.card_pos.mp (hf'.odd v hu).pos
    have := hf'.later v hu a (Finset.mem_inter.mp ha).1
    beta_reduce at this
    omega
  · beta_reduce at hj
    by_cases e : v ∈ g.outputs.toFinset ∪ grounds
    · rw [if_pos e] at hj; simp at hj; omega
    · rw [if_neg e] at hj; simp at hj

/-- If nothing can be corrected, either all is processed or there is no flow. -/
theorem stuck (hg : g.Inv) (hl : SetOrder lst) {O : Finset ℕ} (hO : O ⊆ pd) (hc : corrections lst stale g pd = []) {f : ℕ → Finset ℕ}
    {lt : ℕ → ℕ → Prop} (hf : IsGFlow g g.openV g.openIn O f lt) : g.openV ⊆ pd := by
  by_contra hsub
  have hne : ∃ u, u ∈ g.openV ∧ u ∉ pd := by
    by_contra hno
    push_neg at hno
    exact hsub hno
  let R : {u // u ∈ g.openV} → {u // u ∈ g.openV} → Prop := fun a b => lt b.1 a.1
  have hwf : WellFounded R := by
    haveI : IsTrans _ R := ⟨fun a b c h1 h2 => hf.trans _ _ _ h2 h1⟩
    haveI : Std.Irrefl R := ⟨fun a => hf.irrefl a.1⟩
    exact Finite.wellFounded_of_trans_of_irrefl R
  obtain ⟨u0, h1, h2⟩ := hne
  obtain ⟨m, hm, hmin⟩ := hwf.has_min {a | a.1 ∉ pd} ⟨⟨u0, h1⟩, h2⟩
  have hm' : m.1 ∉ pd := hm
  obtain ⟨s1, s2, s3⟩ := flow_step (pd := pd) hg hf (Finset.mem_sdiff.mpr ⟨m.2, fun h => hm' (hO h)⟩) hm' fun w hw hlt => by
    by_contra hwp
    exact hmin ⟨w, hw⟩ hwp hlt
  obtain ⟨S', hS'⟩ := corrections_complete (stale := stale) hg hl s1 s2 s3
  rw [hc] at hS'
  simp at hS'

theorem loop_spec (hg : g.Inv) {lst : ℕ → Finset ℕ → List ℕ} (hl : ∀ k, SetOrder (lst k)) {stale : ℕ → ℕ → List ℕ} {O : Finset ℕ} :
    ∀ (fuel : ℕ) (pd : Finset ℕ) (l : ℕ → Option ℕ) (gf : ℕ → Option (Finset ℕ)) (k : ℕ), LInv g O pd l gf k →
      (loop lst stale g fuel pd l gf k = .running ∧ fuel ≤ (g.verts \ pd).card) ∨
      (loop lst stale g fuel pd l gf k = .none ∧ ∀ f lt, ¬ IsGFlow g g.openV g.openIn O f lt) ∨
      ∃ pd' l' gf' k', loop lst stale g fuel pd l gf k = .some l' gf' k' ∧ LInv g O pd' l' gf' k' ∧ pd' = g.openV := by
  intro fuel
  induction fuel with
  | zero => intro pd l gf k _; exact Or.inl ⟨rfl, Nat.zero_le _⟩
  | succ fuel ih =>
    intro pd l gf k h
    unfold loop
    simp only
    by_cases hc : corrections (lst k) (stale k) g pd = []
    · rw [if_pos hc]
      right
      by_cases he : g.verts \ pd = g.inputs.toFinset \ patternInputs g
      · rw [if_pos he]
        refine Or.inr ⟨pd, l, gf, k, rfl, h, ?_⟩
        rw [patternInputs_eq hg] at he
        unfold openV
        rw [← he, Finset.sdiff_sdiff_eq_self h.sub]
      · rw [if_neg he]
        refine Or.inl ⟨rfl, fun f lt hf => he ?_⟩
        have := stuck hg (hl k) h.out hc hf
        rw [patternInputs_eq hg]
        ext v
        constructor
        · intro hv
          rw [Finset.mem_sdiff] at hv
          by_contra hn
          exact hv.2 (this (by unfold openV; exact Finset.mem_sdiff.mpr ⟨hv.1, hn⟩))
        · intro hv
          exact Finset.mem_sdiff.mpr ⟨hg.inp v (List.mem_toFinset.mp (Finset.mem_sdiff.mp hv).1), h.inp v hv⟩
    · rw [if_neg hc]
      rcases ih _ _ _ _ (h.step (stale := stale k) hg (hl k)) with ⟨h1, h2⟩ | h1 | h1
      · refine Or.inl ⟨h1, ?_⟩
        obtain ⟨⟨u, S⟩, hq⟩ := List.exists_mem_of_ne_nil _ hc
        have hu := (corrections_sound hg (hl k) hq).1
        have : (g.verts \ (pd ∪ ((corrections (lst k) (stale k) g pd).map (·.1)).toFinset)).card < (g.verts \ pd).card := by
          refine Finset.card_lt_card ⟨fun v hv => ?_, fun hs => ?_⟩
          · rw [Finset.mem_sdiff, Finset.mem_union, not_or] at hv
            exact Finset.mem_sdiff.mpr ⟨hv.1, hv.2.1⟩
          · have := Finset.mem_sdiff.mp (hs hu)
            refine this.2 (Finset.mem_union.mpr (Or.inr ?_))
            rw [List.mem_toFinset]
            exact List.mem_map_of_mem hq
        omega
      · exact Or.inr (Or.inl h1)
      · exact Or.inr (Or.inr h1)

end GFlow
end PyZX
