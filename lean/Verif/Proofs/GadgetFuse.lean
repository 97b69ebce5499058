import Verif.Model.GadgetFuse
import Verif.Proofs.Supp

/-!
# Fusion of phase gadgets: proofs
-/

namespace PyZX
open Finset Graph

namespace Rules
open Graph Basic

/-- A phase gadget: a green leaf attached by a Hadamard edge to a green axel with phase 0 or π and targets `P`. -/
structure GadgetAt (g : Graph) (P : Finset ℕ) (n v : ℕ) : Prop where
  nm : n ∈ g.verts
  vm : v ∈ g.verts
  tn : g.ty n = .Z
  tv : g.ty v = .Z
  had : g.adj n v = some .had
  leaf : ∀ u, g.adj v u ≠ none → u = n
  par : ∀ u, u ∈ P ↔ u ≠ v ∧ g.adj n u ≠ none
  phase : g.phase n = 0 ∨ g.phase n = 1
  nc : ¬ (g.phase v = 0 ∨ g.phase v = 1)

/-- A group of gadgets with the same targets. If there are several, all the targets are green and attached by Hadamard edges. -/
structure GroupOK (g : Graph) (d : GadGroup) : Prop where
  ne : d.mem ≠ []
  mem : ∀ q ∈ d.mem, GadgetAt g d.par q.1 q.2
  multi : 2 ≤ d.mem.length → ∀ u ∈ d.par, g.ty u = .Z ∧ ∀ q ∈ d.mem, g.adj q.1 u = some .had

/-- The gadgets use different vertices, and the axels of different groups with several gadgets are not connected. -/
structure GroupSep (g : Graph) (ds : List GadGroup) : Prop where
  nodup : ((ds.flatMap (·.mem)).map (·.1)).Nodup
  sep : ds.Pairwise fun d d' => 2 ≤ d.mem.length → 2 ≤ d'.mem.length → ∀ q ∈ d.mem, ∀ q' ∈ d'.mem, g.adj q.1 q'.1 = none

private theorem ps1 (a : ℕ) (f : ℕ → ℕ → ℂ) : pairProd ({a} : Finset ℕ) f = 1 := by simp [pairProd, pairs, Finset.filter_singleton]

theorem leaf_sumOut {g : Graph} (hg : ∀ u v, g.adj u v = g.adj v u) {n v : ℕ} (tn : g.ty n = .Z) (tv : g.ty v = .Z) (hh : g.adj n v = some .had)
    (leaf : ∀ u, g.adj v u ≠ none → u = n) {U : Finset ℕ} (hn : n ∈ U) (hv : v ∉ U) (x : ℕ → Bool) :
    psum {v} (g.grpW U {v}) x = sq2⁻¹ * (1 + ph (g.phase v) * sgn (x n)) := by
  have hne : n ≠ v := fun h => hv (h ▸ hn)
  have vv : g.vval v = ph (g.phase v) := by unfold vval; rw [tv]
  have key : ∀ b, g.grpW U {v} (Function.update x v b) = (if b then ph (g.phase v) else 1) * hmat b (x n) := by
    intro b
    unfold grpW
    rw [Finset.prod_singleton, ps1, Finset.prod_singleton, Function.update_self]
    have : ∏ w ∈ U, g.edgeK (Function.update x v b) v w = hmat b (x n) := by
      rw [Finset.prod_eq_single_of_mem n hn (fun w _ hw => edgeK_none (by by_contra h; exact hw (leaf w h)))]
      have he : g.eff v n .had = true := by unfold eff isX; rw [tn, tv]; rfl
      rw [edgeK_some (by rw [hg]; exact hh), he, Function.update_self, Function.update_of_ne hne]
      rfl
    rw [this]
    unfold vwt
    rw [vv]
    ring
  rw [show ({v} : Finset ℕ) = insert v ∅ from rfl, psum_insert_env (by simp)]
  simp only [psum_empty]
  rw [show (insert v ∅ : Finset ℕ) = {v} from rfl, key, key]
  simp only [hmat_sgn, Bool.false_and, Bool.true_and, if_true, Bool.false_eq_true, if_false]
  rw [show sgn false = 1 from rfl]
  ring

theorem gadget_sumOut {g : Graph} (hg : ∀ u v, g.adj u v = g.adj v u) {n v : ℕ} (hne : n ≠ v) (tn : g.ty n = .Z) (tv : g.ty v = .Z)
    (hh : g.adj n v = some .had)
    (leaf : ∀ u, g.adj v u ≠ none → u = n) {U P : Finset ℕ} (hn : n ∉ U) (hv : v ∉ U) (hP : P ⊆ U)
    (par : ∀ u, u ∈ U → (u ∈ P ↔ g.adj n u ≠ none)) (hz : ∀ u ∈ P, g.ty u = .Z ∧ g.adj n u = some .had)
    (x : ℕ → Bool) {p : Bool} (hp : ∀ c : Bool, ∏ w ∈ P, sgn (c && x w) = sgn (c && p)) :
    psum {n, v} (g.grpW U {n, v}) x = (sq2⁻¹) ^ P.card * sq2⁻¹ *
      ((1 + ph (g.phase v)) + ph (g.phase n) * sgn p * (1 - ph (g.phase v))) := by
  have vv : g.vval v = ph (g.phase v) := by unfold vval; rw [tv]
  have vn : g.vval n = ph (g.phase n) := by unfold vval; rw [tn]
  have key : ∀ b c, g.grpW U {n, v} (Function.update (Function.update x n b) v c) =
      (if b then ph (g.phase n) else 1) * (if c then ph (g.phase v) else 1) * hmat b c * ((sq2⁻¹) ^ P.card * sgn (b && p)) := by
    intro b c
    have hy : ∀ u ∈ P, Function.update (Function.update x n b) v c u = x u := by
      intro u hu
      have := hP hu
      rw [Function.update_of_ne, Function.update_of_ne]
      · rintro rfl; exact hn this
      · rintro rfl; exact hv this
    have e1 : ∏ w ∈ U, g.edgeK (Function.update (Function.update x n b) v c) n w = (sq2⁻¹) ^ P.card * sgn (b && p) := by
      rw [← prod_hmat_fin hp b]
      symm
      refine Finset.prod_subset_one_on_sdiff hP (fun u hu => ?_) (fun u hu => ?_)
      · rw [Finset.mem_sdiff] at hu
        refine edgeK_none ?_
        by_contra h
        exact hu.2 ((par u hu.1).mpr h)
      · obtain ⟨t1, t2⟩ := hz u hu
        have : g.eff n u .had = true := by unfold eff isX; rw [tn, t1]; rfl
        rw [edgeK_some t2, this, hy u hu, Function.update_of_ne hne, Function.update_self]
        rfl
    have e2 : ∏ w ∈ U, g.edgeK (Function.update (Function.update x n b) v c) v w = 1 := by
      refine Finset.prod_eq_one fun w hw => edgeK_none ?_
      by_contra h
      exact hn (leaf w h ▸ hw)
    have e3 : g.edgeK (Function.update (Function.update x n b) v c) n v = hmat b c := by
      have : g.eff n v .had = true := by unfold eff isX; rw [tn, tv]; rfl
      rw [edgeK_some hh, this, Function.update_self, Function.update_of_ne hne, Function.update_self]
      rfl
    unfold grpW
    rw [show ({n, v} : Finset ℕ) = insert n {v} from rfl, Finset.prod_insert (by simpa using hne), Finset.prod_singleton,
      pairProd_insert (by simpa using hne) (edgeK_comm hg _), ps1, Finset.prod_singleton,
      Finset.prod_insert (by simpa using hne), Finset.prod_singleton, e1, e2, e3,
      Function.update_self, Function.update_of_ne hne, Function.update_self]
    unfold vwt
    rw [vv, vn]
    ring
  rw [show ({n, v} : Finset ℕ) = insert n (insert v ∅) from rfl, psum_insert_env (by simpa using hne), psum_insert_env (by simp),
    psum_insert_env (by simp)]
  simp only [psum_empty]
  rw [show (insert n (insert v ∅) : Finset ℕ) = {n, v} from rfl, key, key, key, key]
  generalize (sq2⁻¹ : ℂ) ^ P.card = A
  simp only [hmat_sgn, Bool.false_and, Bool.true_and, if_true, Bool.false_eq_true, if_false]
  rw [show sgn false = 1 from rfl, show sgn true = -1 from rfl]
  ring

/-- The value of a gadget whose targets have parity `p`. -/
theorem gadget_value {φ α : ℚ} (hφ : φ = 0 ∨ φ = 1) (A : ℂ) (p : Bool) :
    A * sq2⁻¹ * ((1 + ph α) + ph φ * sgn p * (1 - ph α)) =
      A * sq2 * ((if φ = 0 then 1 else ph α) * if p then ph (if φ = 0 then α else -α) else 1) := by
  have h2 : sq2⁻¹ * 2 = sq2 := by rw [← sq2_mul_self]; field_simp [sq2_ne_zero]
  have hm := ph_mul_neg α
  generalize sq2⁻¹ = r at *
  generalize sq2 = t at *
  rcases hφ with rfl | rfl <;> cases p <;> simp [sgn, ph_zero, ph_one] <;> rw [← h2]
  · ring
  · ring
  · ring
  · linear_combination (-A * r * 2) * hm

/-- The vertices of a group that are summed over: for a single gadget with phase π on the axel the leaf, for several gadgets all their vertices. -/
def gItems (g : Graph) (d : GadGroup) : List (Bool × ℕ × ℕ) :=
  match d.mem with
  | [] => []
  | [q] => if g.phase q.1 ≠ 0 then [(false, q)] else []
  | q :: q' :: L => (q :: q' :: L).map fun q => (true, q)

/-- The gadgets of a group that are kept. -/
def gKept (g : Graph) (d : GadGroup) : List (Bool × ℕ × ℕ) :=
  match d.mem with
  | [] => []
  | [q] => if g.phase q.1 ≠ 0 then [(false, q)] else []
  | q :: q' :: L => [(true, (q :: q' :: L).getLast (by simp))]

def gSet (i : Bool × ℕ × ℕ) : Finset ℕ := if i.1 then {i.2.1, i.2.2} else {i.2.2}

/-- The number recorded for a group. -/
noncomputable def gScal (g : Graph) (d : GadGroup) : ℂ :=
  match d.mem with
  | [] => 1
  | [q] => if g.phase q.1 ≠ 0 then ph (g.phase q.2) else 1
  | q :: q' :: L => ((q :: q' :: L).map fun q => if g.phase q.1 = 0 then 1 else ph (g.phase q.2)).prod *
      sq2 ^ (-(((d.par.card : ℤ) - 1) * (((q :: q' :: L).length : ℤ) - 1)))

/-- The matches of a group. -/
def gMatch (g : Graph) (d : GadGroup) : List GadMatch :=
  match d.mem with
  | [] => []
  | [q] => if g.phase q.1 ≠ 0 then [⟨q.2, q.1, -g.phase q.2, [], []⟩] else []
  | q :: q' :: L =>
    let gad := q :: q' :: L
    let last := gad.getLast (by simp)
    [⟨last.2, last.1, totPhase g gad, gad.dropLast.map (·.1), gad.dropLast.map (·.2)⟩]

/-- Two graphs that only differ in the scalar. -/
def SameButScalar (g h : Graph) : Prop := SameBut g h ∧ h.phase = g.phase

theorem SameButScalar.scal {g h : Graph} (hs : SameButScalar g h) (c : Scalar) : SameButScalar g { h with scalar := c } :=
  ⟨hs.1.trans ⟨⟨rfl, rfl, rfl, rfl, rfl⟩, rfl, rfl, rfl⟩, hs.2⟩

theorem gadgetScalars_spec {g : Graph} (L : List (ℕ × ℕ)) : ∀ h : Graph, SameButScalar g h →
    SameButScalar g (gadgetScalars h L) ∧ (gadgetScalars h L).scalar.toNumber =
      h.scalar.toNumber * (L.map fun q => if g.phase q.1 = 0 then 1 else ph (g.phase q.2)).prod := by
  induction L with
  | nil => intro h hs; exact ⟨hs, by simp [gadgetScalars]⟩
  | cons q L ih =>
    intro h hs
    have hp : h.phase = g.phase := hs.2
    unfold gadgetScalars at ih ⊢
    rw [List.foldl_cons]
    by_cases c : g.phase q.1 = 0
    · rw [if_neg (by rw [hp]; simpa using c), List.map_cons, List.prod_cons, if_pos c, one_mul]
      exact ih h hs
    · rw [if_pos (by rw [hp]; exact c), List.map_cons, List.prod_cons, if_neg c]
      obtain ⟨i1, i2⟩ := ih (h.addScalarPhase (h.phase q.2)) (hs.scal _)
      refine ⟨i1, ?_⟩
      rw [i2]
      show (h.scalar.addPhase _).toNumber * _ = _
      rw [Scalar.addPhase_toNumber, hp]
      ring

theorem gadgetEmit_spec {g : Graph} (d : GadGroup) (h : Graph) (ms : List GadMatch) (hs : SameButScalar g h) :
    SameButScalar g (gadgetEmit (h, ms) d).1 ∧ (gadgetEmit (h, ms) d).2 = ms ++ gMatch g d ∧
      (gadgetEmit (h, ms) d).1.scalar.toNumber = h.scalar.toNumber * gScal g d := by
  have hp : h.phase = g.phase := hs.2
  obtain ⟨P, mem⟩ := d
  match mem with
  | [] => exact ⟨hs, by simp [gadgetEmit, gMatch], by simp [gadgetEmit, gScal]⟩
  | [q] =>
    by_cases c : g.phase q.1 = 0
    · simp only [gadgetEmit, gMatch, gScal, hp, c, ne_eq, not_true_eq_false, if_false, List.append_nil, mul_one, and_true]
      exact hs
    · simp only [gadgetEmit, gMatch, gScal, hp, c, ne_eq, not_false_eq_true, if_true, true_and]
      refine ⟨?_, ?_⟩
      · exact hs.scal _
      · show (h.scalar.addPhase _).toNumber = _
        rw [Scalar.addPhase_toNumber]
  | q :: q' :: L =>
    obtain ⟨i1, i2⟩ := gadgetScalars_spec (g := g) (q :: q' :: L) h hs
    simp only [gadgetEmit, gMatch, gScal]
    refine ⟨?_, ?_, ?_⟩
    · exact i1.scal _
    · unfold totPhase; rw [hp]
    · show ((gadgetScalars h (q :: q' :: L)).scalar.addPower _).toNumber = _
      rw [Scalar.addPower_toNumber, i2, mul_assoc]

theorem gadgetEmit_fold {g : Graph} (ds : List GadGroup) : ∀ (h : Graph) (ms : List GadMatch), SameButScalar g h →
    SameButScalar g (ds.foldl gadgetEmit (h, ms)).1 ∧ (ds.foldl gadgetEmit (h, ms)).2 = ms ++ ds.flatMap (gMatch g) ∧
      (ds.foldl gadgetEmit (h, ms)).1.scalar.toNumber = h.scalar.toNumber * (ds.map (gScal g)).prod := by
  induction ds with
  | nil => intro h ms hs; exact ⟨hs, by simp, by simp⟩
  | cons d ds ih =>
    intro h ms hs
    obtain ⟨e1, e2, e3⟩ := gadgetEmit_spec d h ms hs
    obtain ⟨i1, i2, i3⟩ := ih (gadgetEmit (h, ms) d).1 (gadgetEmit (h, ms) d).2 e1
    rw [List.foldl_cons]
    refine ⟨i1, ?_, ?_⟩
    · rw [i2, e2]; simp
    · rw [i3, e3]; simp [mul_assoc]

/-- The vertices whose phase a match sets. -/
def mKeys (m : GadMatch) : List ℕ := [m.leaf, m.axel]

theorem merge_fold (U : Finset ℕ) (ms : List GadMatch) : ∀ (h : Graph) (rem : List ℕ), (ms.flatMap mKeys).Nodup →
    (∀ m ∈ ms, m.leaf ∉ U ∧ (m.axel ∈ U → h.phase m.axel = 1 ∧ h.ty m.axel = .Z)) →
    SameBut h (ms.foldl gadgetMerge (h, rem)).1 ∧
    (ms.foldl gadgetMerge (h, rem)).2 = rem ++ ms.flatMap (fun m => m.axels ++ m.leaves) ∧
    (∀ u, u ∉ ms.flatMap mKeys → (ms.foldl gadgetMerge (h, rem)).1.phase u = h.phase u) ∧
    (∀ m ∈ ms, (ms.foldl gadgetMerge (h, rem)).1.phase m.leaf = mod2 m.phase ∧ (ms.foldl gadgetMerge (h, rem)).1.phase m.axel = 0) ∧
    (∀ x, (ms.foldl gadgetMerge (h, rem)).1.wOn U x = h.wOn U x * (ms.map fun m => if m.axel ∈ U then sgn (x m.axel) else 1).prod) := by
  induction ms with
  | nil => intro h rem _ _; exact ⟨SameBut.refl h, by simp, by simp, by simp, by simp⟩
  | cons m ms ih =>
    intro h rem hn hU
    rw [List.flatMap_cons, List.nodup_append] at hn
    obtain ⟨n1, n2, n3⟩ := hn
    have hne : m.leaf ≠ m.axel := by simpa [mKeys] using n1
    set h1 := (h.setPhase m.leaf m.phase).setPhase m.axel 0 with hh1
    have s1 : SameBut h h1 := ⟨⟨rfl, rfl, rfl, rfl, rfl⟩, rfl, rfl, rfl⟩
    have p1 : ∀ u, u ≠ m.leaf → u ≠ m.axel → h1.phase u = h.phase u := by
      intro u u1 u2
      simp [hh1, setPhase, Function.update_of_ne u1, Function.update_of_ne u2]
    have nk : ∀ m' ∈ ms, ∀ u ∈ mKeys m', u ≠ m.leaf ∧ u ≠ m.axel := by
      intro m' hm' u hu
      have hu' : u ∈ ms.flatMap mKeys := List.mem_flatMap.mpr ⟨m', hm', hu⟩
      exact ⟨fun e => n3 m.leaf (by simp [mKeys]) u hu' e.symm, fun e => n3 m.axel (by simp [mKeys]) u hu' e.symm⟩
    obtain ⟨i1, i2, i3, i4, i5⟩ := ih h1 (rem ++ m.axels ++ m.leaves) n2 (fun m' hm' => by
      refine ⟨(hU m' (by simp [hm'])).1, fun ha => ?_⟩
      obtain ⟨k1, k2⟩ := nk m' hm' m'.axel (by simp [mKeys])
      rw [p1 _ k1 k2]
      exact (hU m' (by simp [hm'])).2 ha)
    rw [List.foldl_cons]
    show SameBut h (ms.foldl gadgetMerge (h1, rem ++ m.axels ++ m.leaves)).1 ∧ _
    have hl1 : h1.phase m.leaf = mod2 m.phase := by simp [hh1, setPhase, Function.update_of_ne hne]
    have ha1 : h1.phase m.axel = 0 := by simp [hh1, setPhase, mod2]
    refine ⟨s1.trans i1, ?_, fun u hu => ?_, fun m' hm' => ?_, fun x => ?_⟩
    · show (ms.foldl gadgetMerge (h1, rem ++ m.axels ++ m.leaves)).2 = _
      rw [i2]; simp
    · rw [List.flatMap_cons, List.mem_append, not_or] at hu
      show (ms.foldl gadgetMerge (h1, rem ++ m.axels ++ m.leaves)).1.phase u = _
      rw [i3 u hu.2]
      have := hu.1
      simp only [mKeys, List.mem_cons, List.not_mem_nil, or_false, not_or] at this
      exact p1 u this.1 this.2
    · show (ms.foldl gadgetMerge (h1, rem ++ m.axels ++ m.leaves)).1.phase m'.leaf = _ ∧
        (ms.foldl gadgetMerge (h1, rem ++ m.axels ++ m.leaves)).1.phase m'.axel = _
      rw [List.mem_cons] at hm'
      rcases hm' with hm' | hm'
      · rw [hm', i3 m.leaf (fun h' => n3 m.leaf (by simp [mKeys]) m.leaf h' rfl), i3 m.axel (fun h' => n3 m.axel (by simp [mKeys]) m.axel h' rfl)]
        exact ⟨hl1, ha1⟩
      · exact i4 m' hm'
    · show (ms.foldl gadgetMerge (h1, rem ++ m.axels ++ m.leaves)).1.wOn U x = _
      rw [i5 x, List.map_cons, List.prod_cons, ← mul_assoc]
      congr 1
      obtain ⟨u1, u2⟩ := hU m (by simp)
      have hedge : ∀ u v, h1.edgeK x u v = h.edgeK x u v := fun _ _ => rfl
      by_cases ha : m.axel ∈ U
      · rw [if_pos ha]
        obtain ⟨a1, a2⟩ := u2 ha
        rw [wOn_vval_mul (g := h) (g' := h1) (c := -1) ha rfl rfl (fun _ => rfl) ?_ ?_]
        · cases x m.axel <;> simp [sgn]
        · unfold vval
          rw [show h1.ty = h.ty from rfl, a2, ha1, a1, ph_zero, ph_one]
          ring
        · intro v hv hva
          unfold vval
          rw [show h1.ty = h.ty from rfl, show h1.label = h.label from rfl, p1 v (fun e => u1 (e ▸ hv)) hva]
      · rw [if_neg ha, mul_one]
        refine wOn_congr rfl (fun v hv => ?_) (fun v _ w _ _ => rfl)
        unfold vval
        rw [show h1.ty = h.ty from rfl, show h1.label = h.label from rfl, p1 v (fun e => u1 (e ▸ hv)) (fun e => ha (e ▸ hv))]


/-! ### The whole round -/

section Round
variable {g : Graph} {ds : List GadGroup}

theorem groups_same (hs : GroupSep g ds) {d d' : GadGroup} (hd : d ∈ ds) (hd' : d' ∈ ds) {q q' : ℕ × ℕ} (hq : q ∈ d.mem) (hq' : q' ∈ d'.mem)
    (h : q.1 = q'.1) : d = d' ∧ q = q' := by
  have hn := hs.nodup
  have hA : q = q' := by
    have h1 : q ∈ ds.flatMap (·.mem) := List.mem_flatMap.mpr ⟨d, hd, hq⟩
    have h2 : q' ∈ ds.flatMap (·.mem) := List.mem_flatMap.mpr ⟨d', hd', hq'⟩
    exact List.inj_on_of_nodup_map hn h1 h2 h
  refine ⟨?_, hA⟩
  by_contra hne
  have hp := (List.nodup_flatMap.mp (List.Nodup.of_map _ hn)).2
  have hsym : Std.Symm (Function.onFun List.Disjoint fun d : GadGroup => d.mem) := ⟨fun a b hab => List.Disjoint.symm hab⟩
  exact (hp.forall hd hd' hne) hq (hA ▸ hq')

theorem gItems_mem {d : GadGroup} {i : Bool × ℕ × ℕ} (h : i ∈ gItems g d) :
    i.2 ∈ d.mem ∧ (i.1 = true → 2 ≤ d.mem.length) ∧ (i.1 = false → d.mem = [i.2] ∧ g.phase i.2.1 ≠ 0) := by
  obtain ⟨P, mem⟩ := d
  match mem with
  | [] => simp [gItems] at h
  | [q] =>
    simp only [gItems] at h
    by_cases c : g.phase q.1 ≠ 0
    · rw [if_pos c, List.mem_singleton] at h
      rw [h]; simp [c]
    · rw [if_neg c] at h; simp at h
  | q :: q' :: L =>
    simp only [gItems, List.mem_map] at h
    obtain ⟨r, hr, rfl⟩ := h
    refine ⟨hr, fun _ => by simp, fun h => by simp at h⟩

theorem gKept_sublist (d : GadGroup) : (gKept g d).Sublist (gItems g d) := by
  obtain ⟨P, mem⟩ := d
  match mem with
  | [] => simp [gKept, gItems]
  | [q] => simp only [gKept, gItems]; exact List.Sublist.refl _
  | q :: q' :: L =>
    simp only [gKept, gItems]
    have : [(true, (q :: q' :: L).getLast (by simp))] = [(q :: q' :: L).getLast (by simp)].map fun q => (true, q) := rfl
    rw [this]
    exact List.Sublist.map _ (List.singleton_sublist.mpr (List.getLast_mem _))

theorem gItems_sublist (d : GadGroup) : ((gItems g d).map (·.2)).Sublist d.mem := by
  obtain ⟨P, mem⟩ := d
  match mem with
  | [] => simp [gItems]
  | [q] =>
    simp only [gItems]
    by_cases c : g.phase q.1 ≠ 0
    · rw [if_pos c]; simp
    · rw [if_neg c]; simp
  | q :: q' :: L => simp [gItems, Function.comp_def]

theorem flatMap_sublist {α β : Type*} {f h : α → List β} (l : List α) (H : ∀ a, (f a).Sublist (h a)) : (l.flatMap f).Sublist (l.flatMap h) := by
  induction l with
  | nil => simp
  | cons a l ih => rw [List.flatMap_cons, List.flatMap_cons]; exact (H a).append ih

/-- The vertices of an item as a list. -/
def iVerts (i : Bool × ℕ × ℕ) : List ℕ := if i.1 then [i.2.1, i.2.2] else [i.2.2]

theorem mem_iVerts {i : Bool × ℕ × ℕ} {v : ℕ} : v ∈ iVerts i ↔ v ∈ gSet i := by
  unfold iVerts gSet
  cases i.1 <;> simp

/-- The vertices removed by a match. -/
def mRem (m : GadMatch) : List ℕ := m.axels ++ m.leaves

theorem perm_group (d : GadGroup) :
    ((gKept g d).flatMap iVerts ++ (gMatch g d).flatMap mRem).Perm ((gItems g d).flatMap iVerts) := by
  obtain ⟨P, mem⟩ := d
  match mem with
  | [] => simp [gKept, gMatch, gItems]
  | [q] =>
    simp only [gKept, gMatch, gItems]
    by_cases c : g.phase q.1 ≠ 0
    · rw [if_pos c, if_pos c]; simp [mRem]
    · rw [if_neg c, if_neg c]; simp
  | q :: q' :: L =>
    simp only [gKept, gMatch, gItems]
    have hne : q :: q' :: L ≠ [] := by simp
    have h1 : (q :: q' :: L) = (q :: q' :: L).dropLast ++ [(q :: q' :: L).getLast hne] := (List.dropLast_append_getLast hne).symm
    generalize (q :: q' :: L).getLast hne = z at *
    generalize (q :: q' :: L).dropLast = D at *
    rw [h1]
    simp only [List.flatMap_cons, List.flatMap_nil, List.append_nil, mRem, List.map_append, List.map_cons, List.map_nil, List.flatMap_append]
    refine List.perm_append_comm.trans (List.Perm.append_right _ ?_)
    clear h1
    induction D with
    | nil => simp
    | cons a D ih =>
      simp only [List.map_cons, List.flatMap_cons, iVerts, if_true, List.cons_append, List.nil_append]
      refine List.Perm.cons _ (List.perm_middle.trans (List.Perm.cons _ ?_))
      exact ih

theorem perm_all (ds : List GadGroup) :
    ((ds.flatMap (gKept g)).flatMap iVerts ++ (ds.flatMap (gMatch g)).flatMap mRem).Perm ((ds.flatMap (gItems g)).flatMap iVerts) := by
  induction ds with
  | nil => simp
  | cons d ds ih =>
    simp only [List.flatMap_cons, List.flatMap_append]
    have h1 := perm_group (g := g) d
    refine List.Perm.trans ?_ (h1.append ih)
    simp only [List.append_assoc]
    refine List.Perm.append_left _ ?_
    rw [← List.append_assoc, ← List.append_assoc]
    exact List.Perm.append_right _ List.perm_append_comm

theorem keys_perm (d : GadGroup) : ((gMatch g d).flatMap mKeys).Subperm (d.mem.flatMap fun q => [q.1, q.2]) := by
  obtain ⟨P, mem⟩ := d
  match mem with
  | [] => simp [gMatch]
  | [q] =>
    simp only [gMatch]
    by_cases c : g.phase q.1 ≠ 0
    · rw [if_pos c]
      simp only [List.flatMap_cons, List.flatMap_nil, List.append_nil, mKeys]
      exact (List.Perm.swap _ _ _).subperm
    · rw [if_neg c]; simp
  | q :: q' :: L =>
    simp only [gMatch, List.flatMap_cons, List.flatMap_nil, List.append_nil, mKeys]
    have hm := List.getLast_mem (show q :: q' :: L ≠ [] by simp)
    generalize (q :: q' :: L).getLast _ = z at *
    have : ([z].flatMap fun q => [q.1, q.2]).Sublist ((q :: q' :: L).flatMap fun q => [q.1, q.2]) := by
      generalize q :: q' :: L = M at hm
      obtain ⟨l1, l2, rfl⟩ := List.append_of_mem hm
      rw [List.flatMap_append, List.flatMap_cons]
      exact (List.Sublist.refl _ |>.append (List.nil_sublist _)).trans (List.sublist_append_right _ _)
    exact (List.Perm.swap _ _ _).subperm.trans this.subperm

theorem keys_perm_all (ds : List GadGroup) :
    ((ds.flatMap (gMatch g)).flatMap mKeys).Subperm ((ds.flatMap (·.mem)).flatMap fun q => [q.1, q.2]) := by
  induction ds with
  | nil => simp
  | cons d ds ih =>
    simp only [List.flatMap_cons, List.flatMap_append]
    exact (keys_perm d).append ih

/-- All vertices of gadgets are different. -/
theorem verts_nodup (hg : g.WF) (hok : ∀ d ∈ ds, GroupOK g d) (hs : GroupSep g ds) : ((ds.flatMap (·.mem)).flatMap fun q => [q.1, q.2]).Nodup := by
  have hq : ∀ q ∈ ds.flatMap (·.mem), ∃ P, GadgetAt g P q.1 q.2 := by
    intro q hq
    obtain ⟨d, hd, h⟩ := List.mem_flatMap.mp hq
    exact ⟨d.par, (hok d hd).mem q h⟩
  have hcross : ∀ q ∈ ds.flatMap (·.mem), ∀ q' ∈ ds.flatMap (·.mem), q.1 ≠ q'.2 := by
    intro q h1 q' h2 e
    obtain ⟨P, a⟩ := hq q h1
    obtain ⟨P', b⟩ := hq q' h2
    exact b.nc (e ▸ a.phase)
  rw [List.nodup_flatMap]
  refine ⟨fun q h => by simpa using hcross q h q h, ?_⟩
  have hn := List.pairwise_map.mp hs.nodup
  have hmem : (ds.flatMap (·.mem)).Pairwise fun m m' => m ∈ ds.flatMap (·.mem) ∧ m' ∈ ds.flatMap (·.mem) := by
    rw [List.pairwise_iff_forall_sublist]
    intro a b hab
    exact ⟨hab.subset (by simp), hab.subset (by simp)⟩
  refine (hn.and hmem).imp fun {q q'} h => ?_
  obtain ⟨h1, h2, h3⟩ := h
  obtain ⟨P, a⟩ := hq q h2
  obtain ⟨P', b⟩ := hq q' h3
  rw [Function.onFun, List.disjoint_iff_ne]
  intro u hu w hw e
  simp only [List.mem_cons, List.not_mem_nil, or_false] at hu hw
  rcases hu with hu | hu <;> rcases hw with hw | hw
  · exact h1 (hu.symm.trans (e.trans hw))
  · exact hcross q h2 q' h3 (hu.symm.trans (e.trans hw))
  · exact hcross q' h3 q h2 (hw.symm.trans (e.symm.trans hu))
  · have e2 : q.2 = q'.2 := hu.symm.trans (e.trans hw)
    exact h1 (b.leaf q.1 (by rw [← e2, hg.symm, a.had]; simp))


/-- Everything that is summed over. -/
def gAll (g : Graph) (ds : List GadGroup) : Finset ℕ := unions (ds.flatMap (gItems g)) gSet

theorem items_mem {i : Bool × ℕ × ℕ} (h : i ∈ ds.flatMap (gItems g)) :
    ∃ d ∈ ds, i.2 ∈ d.mem ∧ (i.1 = true → 2 ≤ d.mem.length) ∧ (i.1 = false → d.mem = [i.2] ∧ g.phase i.2.1 ≠ 0) := by
  obtain ⟨d, hd, h'⟩ := List.mem_flatMap.mp h
  exact ⟨d, hd, gItems_mem h'⟩

theorem items_pairwise (hg : g.WF) (hok : ∀ d ∈ ds, GroupOK g d) (hs : GroupSep g ds) :
    (ds.flatMap (gItems g)).Pairwise fun i j => Disjoint (gSet i) (gSet j) ∧ ∀ v ∈ gSet i, ∀ w ∈ gSet j, g.adj v w = none := by
  have hsub : ((ds.flatMap (gItems g)).map (·.2)).Sublist (ds.flatMap (·.mem)) := by
    rw [List.map_flatMap]
    exact flatMap_sublist ds fun d => gItems_sublist d
  have hn : (ds.flatMap (gItems g)).Pairwise fun i j => i.2.1 ≠ j.2.1 := by
    have := (hsub.map (·.1)).nodup hs.nodup
    rw [List.map_map] at this
    exact List.pairwise_map.mp this
  have hmem : (ds.flatMap (gItems g)).Pairwise fun m m' => m ∈ ds.flatMap (gItems g) ∧ m' ∈ ds.flatMap (gItems g) := by
    rw [List.pairwise_iff_forall_sublist]
    intro a b hab
    exact ⟨hab.subset (by simp), hab.subset (by simp)⟩
  refine (hn.and hmem).imp fun {i j} h => ?_
  obtain ⟨h1, h2, h3⟩ := h
  obtain ⟨d, hd, q1, q2, q3⟩ := items_mem h2
  obtain ⟨d', hd', r1, r2, r3⟩ := items_mem h3
  have a := (hok d hd).mem _ q1
  have b := (hok d' hd').mem _ r1
  have c1 : i.2.1 ≠ j.2.2 := fun e => b.nc (e ▸ a.phase)
  have c2 : j.2.1 ≠ i.2.2 := fun e => a.nc (e ▸ b.phase)
  have c3 : i.2.2 ≠ j.2.2 := fun e => h1 (b.leaf i.2.1 (by rw [← e, hg.symm, a.had]; simp))
  have gs : ∀ (k : Bool × ℕ × ℕ) u, u ∈ gSet k → (k.1 = true ∧ u = k.2.1) ∨ u = k.2.2 := by
    intro k u hu
    unfold gSet at hu
    cases hk : k.1
    · rw [hk] at hu; right; simpa using hu
    · rw [hk] at hu; simpa using hu
  constructor
  · rw [Finset.disjoint_left]
    intro u hu hu'
    rcases gs i u hu with ⟨-, e⟩ | e <;> rcases gs j u hu' with ⟨-, e'⟩ | e'
    · exact h1 (e.symm.trans e')
    · exact c1 (e.symm.trans e')
    · exact c2 (e'.symm.trans e)
    · exact c3 (e.symm.trans e')
  · intro u hu w hw
    rcases gs i u hu with ⟨t, e⟩ | e <;> rcases gs j w hw with ⟨t', e'⟩ | e'
    · rw [e, e']
      by_cases hdd : d = d'
      · by_contra h'
        have h4 : j.2.1 ∈ d.par := (a.par j.2.1).mpr ⟨c2, h'⟩
        rw [hdd] at h4
        exact ((b.par j.2.1).mp h4).2 (hg.loopless _)
      · have hsym : Std.Symm (fun d d' : GadGroup => 2 ≤ d.mem.length → 2 ≤ d'.mem.length → ∀ q ∈ d.mem, ∀ q' ∈ d'.mem, g.adj q.1 q'.1 = none) :=
          ⟨fun a b hab x1 x2 p hp p' hp' => by rw [hg.symm]; exact hab x2 x1 p' hp' p hp⟩
        exact (hs.sep.forall hd hd' hdd) (q2 t) (r2 t') _ q1 _ r1
    · rw [e, e', hg.symm]
      by_contra h'
      exact h1 (b.leaf _ h')
    · rw [e, e']
      by_contra h'
      exact h1 (a.leaf _ h').symm
    · rw [e, e']
      by_contra h'
      exact c1 (a.leaf _ h').symm

/-- The axel of a single gadget is not summed over. -/
theorem single_axel (hok : ∀ d ∈ ds, GroupOK g d) (hs : GroupSep g ds) {d : GadGroup} (hd : d ∈ ds) {q : ℕ × ℕ} (hm : d.mem = [q]) :
    q.1 ∉ gAll g ds := by
  intro h
  obtain ⟨j, hj, hu⟩ := mem_unions.mp h
  obtain ⟨d', hd', r1, r2, r3⟩ := items_mem hj
  have hq : q ∈ d.mem := by rw [hm]; simp
  have a := (hok d hd).mem q hq
  have b := (hok d' hd').mem _ r1
  have c1 : q.1 ≠ j.2.2 := fun e => b.nc (e ▸ a.phase)
  unfold gSet at hu
  cases hk : j.1
  · rw [hk] at hu; exact c1 (by simpa using hu)
  · rw [hk] at hu
    have e : q.1 = j.2.1 := by simpa [c1] using hu
    have := (groups_same hs hd hd' hq r1 e).1
    have h2 := r2 hk
    rw [← this, hm] at h2
    simp at h2

/-- The targets of several gadgets are not summed over. -/
theorem multi_par (hg : g.WF) (hok : ∀ d ∈ ds, GroupOK g d) (hs : GroupSep g ds) {d : GadGroup} (hd : d ∈ ds) (hm : 2 ≤ d.mem.length) :
    d.par ⊆ g.verts \ gAll g ds := by
  intro u hu
  obtain ⟨q, hq⟩ := List.exists_mem_of_ne_nil _ (hok d hd).ne
  have a := (hok d hd).mem q hq
  have hqu := ((a.par u).mp hu).2
  have huv : u ∈ g.verts := by
    obtain ⟨e, he⟩ := Option.ne_none_iff_exists'.mp hqu
    exact (hg.edge he).2.1
  refine Finset.mem_sdiff.mpr ⟨huv, fun h => ?_⟩
  obtain ⟨j, hj, hj'⟩ := mem_unions.mp h
  obtain ⟨d', hd', r1, r2, r3⟩ := items_mem hj
  have b := (hok d' hd').mem _ r1
  have c1 : u ≠ j.2.2 := by
    intro e
    have e2 : q.1 = j.2.1 := b.leaf q.1 (by rw [← e, hg.symm]; exact hqu)
    have := (groups_same hs hd hd' hq r1 e2).2
    exact ((a.par u).mp hu).1 (by rw [e, this])
  unfold gSet at hj'
  cases hk : j.1
  · rw [hk] at hj'; exact c1 (by simpa using hj')
  · rw [hk] at hj'
    have e : u = j.2.1 := by simpa [c1] using hj'
    by_cases hdd : d = d'
    · have h4 : u ∈ d'.par := hdd ▸ hu
      rw [e] at h4
      exact ((b.par _).mp h4).2 (hg.loopless _)
    · have hsym : Std.Symm (fun d d' : GadGroup => 2 ≤ d.mem.length → 2 ≤ d'.mem.length → ∀ q ∈ d.mem, ∀ q' ∈ d'.mem, g.adj q.1 q'.1 = none) :=
        ⟨fun a b hab x1 x2 p hp p' hp' => by rw [hg.symm]; exact hab x2 x1 p' hp' p hp⟩
      exact hqu (by rw [e]; exact (hs.sep.forall hd hd' hdd) hm (r2 hk) _ hq _ r1)

/-- What is needed of the resulting graph to compute the sums. -/
structure After (g g' : Graph) (R : Finset ℕ) : Prop where
  symm : ∀ u v, g'.adj u v = g'.adj v u
  ty : g'.ty = g.ty
  adj : ∀ a b, a ∉ R → b ∉ R → g'.adj a b = g.adj a b
  adj' : ∀ a b, g'.adj a b ≠ none → g.adj a b ≠ none

theorem group_value (hg : g.WF) (hok : ∀ d ∈ ds, GroupOK g d) (hs : GroupSep g ds) {g' : Graph} {R : Finset ℕ} (hR : R ⊆ gAll g ds)
    (ha : After g g' R) {d : GadGroup} (hd : d ∈ ds)
    (hph : ∀ m ∈ gMatch g d, g'.phase m.leaf = mod2 m.phase ∧ g'.phase m.axel = 0 ∧ m.leaf ∉ R ∧ m.axel ∉ R) (x : ℕ → Bool) :
    ((gItems g d).map fun i => psum (gSet i) (g.grpW (g.verts \ gAll g ds) (gSet i)) x).prod =
      gScal g d * ((gMatch g d).map fun m => if m.axel ∈ g.verts \ gAll g ds then sgn (x m.axel) else 1).prod *
        ((gKept g d).map fun i => psum (gSet i) (g'.grpW (g.verts \ gAll g ds) (gSet i)) x).prod := by
  have hokd := hok d hd
  have hpar := fun h => multi_par hg hok hs hd h
  have hsing := fun q (h : d.mem = [q]) => single_axel hok hs hd h
  have hall : ∀ i ∈ gItems g d, gSet i ⊆ gAll g ds := fun i hi u hu => mem_unions.mpr ⟨i, List.mem_flatMap.mpr ⟨d, hd, hi⟩, hu⟩
  generalize hU : g.verts \ gAll g ds = U at *
  have hUR : ∀ u ∈ U, u ∉ R := by
    intro u hu hr
    rw [← hU] at hu
    exact (Finset.mem_sdiff.mp hu).2 (hR hr)
  have hUA : ∀ u ∈ U, u ∉ gAll g ds := by
    intro u hu
    rw [← hU] at hu
    exact (Finset.mem_sdiff.mp hu).2
  obtain ⟨P, mem⟩ := d
  match mem with
  | [] => simp [gItems, gScal, gMatch, gKept]
  | [q] =>
    simp only [gItems, gScal, gMatch, gKept] at hph hall ⊢
    have a := hokd.mem q (by simp)
    by_cases c : g.phase q.1 ≠ 0
    · rw [if_pos c] at hph hall
      rw [if_pos c, if_pos c, if_pos c]
      obtain ⟨p1, p2, p3, p4⟩ := hph _ (List.mem_singleton.mpr rfl)
      simp only at p1 p2 p3 p4
      have hn : q.1 ∈ U := by
        rw [← hU]
        exact Finset.mem_sdiff.mpr ⟨a.nm, hsing q rfl⟩
      have hv : q.2 ∉ U := fun h => hUA _ h (hall (false, q) (by simp) (by simp [gSet]))
      have g1 : gSet (false, q) = {q.2} := by simp [gSet]
      simp only [List.map_cons, List.map_nil, List.prod_cons, List.prod_nil, mul_one, g1]
      rw [if_pos hn, leaf_sumOut hg.symm a.tn a.tv a.had a.leaf hn hv x,
        leaf_sumOut ha.symm (by rw [ha.ty]; exact a.tn) (by rw [ha.ty]; exact a.tv) (by rw [ha.adj _ _ p4 p3]; exact a.had)
          (fun u hu => a.leaf u (ha.adj' _ _ hu)) hn hv x, p1, ph_mod2]
      have hm := ph_mul_neg (g.phase q.2)
      have h2 := sgn_mul_self (x q.1)
      linear_combination (-sq2⁻¹ * sgn (x q.1) * sgn (x q.1)) * hm - sq2⁻¹ * h2
    · rw [if_neg c, if_neg c, if_neg c]; simp
  | q :: q' :: L =>
    have h2 : 2 ≤ (q :: q' :: L).length := by simp
    have hP := hpar h2
    simp only at hP
    simp only [gItems, gScal, gMatch, gKept] at hph hall ⊢
    obtain ⟨p1, p2, p3, p4⟩ := hph _ (List.mem_singleton.mpr rfl)
    simp only at p1 p2 p3 p4
    have hlm := List.getLast_mem (show q :: q' :: L ≠ [] by simp)
    have hlen : 1 ≤ (q :: q' :: L).length := by simp
    have hmem := hokd.mem
    have hmul := hokd.multi h2
    simp only at hmem hmul
    generalize (q :: q' :: L).getLast _ = z at *
    generalize q :: q' :: L = M at *
    obtain ⟨p, hp⟩ := exists_par_fin P x
    have g1 : ∀ r : ℕ × ℕ, gSet (true, r) = {r.1, r.2} := fun r => by simp [gSet]
    have hvert : ∀ r ∈ M, r.1 ∉ U ∧ r.2 ∉ U := by
      intro r hr
      have := hall (true, r) (List.mem_map.mpr ⟨r, hr, rfl⟩)
      rw [g1] at this
      exact ⟨fun h => hUA _ h (this (by simp)), fun h => hUA _ h (this (by simp))⟩
    have val : ∀ r ∈ M, psum (gSet (true, r)) (g.grpW U (gSet (true, r))) x =
        (sq2⁻¹) ^ P.card * sq2 * ((if g.phase r.1 = 0 then 1 else ph (g.phase r.2)) *
          if p then ph (if g.phase r.1 = 0 then g.phase r.2 else -g.phase r.2) else 1) := by
      intro r hr
      have a := hmem r hr
      have hne : r.1 ≠ r.2 := fun e => a.nc (e ▸ a.phase)
      rw [g1, gadget_sumOut hg.symm hne a.tn a.tv a.had a.leaf (hvert r hr).1 (hvert r hr).2 hP
        (fun u hu => ⟨fun h => ((a.par u).mp h).2, fun h => (a.par u).mpr ⟨fun e => (hvert r hr).2 (e ▸ hu), h⟩⟩)
        (fun u hu => ⟨(hmul u hu).1, (hmul u hu).2 r hr⟩) x hp, gadget_value a.phase]
    have val' : psum (gSet (true, z)) (g'.grpW U (gSet (true, z))) x =
        (sq2⁻¹) ^ P.card * sq2 * (if p then ph (totPhase g M) else 1) := by
      have a := hmem z hlm
      have hne : z.1 ≠ z.2 := fun e => a.nc (e ▸ a.phase)
      rw [g1, gadget_sumOut ha.symm hne (by rw [ha.ty]; exact a.tn) (by rw [ha.ty]; exact a.tv) (by rw [ha.adj _ _ p4 p3]; exact a.had)
        (fun u hu => a.leaf u (ha.adj' _ _ hu)) (hvert z hlm).1 (hvert z hlm).2 hP
        (fun u hu => by
          rw [ha.adj _ _ p4 (hUR u hu)]
          exact ⟨fun h => ((a.par u).mp h).2, fun h => (a.par u).mpr ⟨fun e => (hvert z hlm).2 (e ▸ hu), h⟩⟩)
        (fun u hu => by
          rw [ha.ty, ha.adj _ _ p4 (hUR u (hP hu))]
          exact ⟨(hmul u hu).1, (hmul u hu).2 z hlm⟩) x hp, gadget_value (Or.inl p2), p2, if_pos rfl, if_pos rfl, one_mul, p1, ph_mod2]
    simp only [List.map_cons, List.map_nil, List.prod_cons, List.prod_nil, mul_one]
    rw [if_neg (hvert z hlm).1, mul_one, val']
    have e1 : (List.map (fun i => psum (gSet i) (g.grpW U (gSet i)) x) (List.map (fun q => (true, q)) M)) =
        M.map fun r => (sq2⁻¹) ^ P.card * sq2 * ((if g.phase r.1 = 0 then 1 else ph (g.phase r.2)) *
          if p then ph (if g.phase r.1 = 0 then g.phase r.2 else -g.phase r.2) else 1) := by
      rw [List.map_map]
      exact List.map_congr_left fun r hr => val r hr
    rw [e1, List.prod_map_mul, List.prod_map_mul, List.prod_map_mul]
    have e2 : (M.map fun r => if p then ph (if g.phase r.1 = 0 then g.phase r.2 else -g.phase r.2) else 1).prod =
        if p then ph (totPhase g M) else 1 := by
      cases p
      · simp
      · simp only [if_true]
        unfold totPhase
        rw [ph_mod2]
        generalize M = M'
        induction M' with
        | nil => simp [ph_zero]
        | cons r M' ih => rw [List.map_cons, List.prod_cons, ih, List.map_cons, List.sum_cons, ph_add]
    rw [e2]
    have e3 : (M.map fun _ => (sq2⁻¹) ^ P.card * sq2).prod =
        sq2 ^ (-(((P.card : ℤ) - 1) * ((M.length : ℤ) - 1))) * ((sq2⁻¹) ^ P.card * sq2) := by
      have e4 : (sq2⁻¹) ^ P.card * sq2 = sq2 ^ (1 - (P.card : ℤ)) := by
        rw [zpow_sub₀ sq2_ne_zero, zpow_one, zpow_natCast, inv_pow]
        field_simp [sq2_ne_zero]
      rw [e4, List.map_const', List.prod_replicate, ← zpow_natCast, ← zpow_mul, ← zpow_add₀ sq2_ne_zero]
      congr 1
      ring
    rw [List.prod_map_mul] at e3
    rw [e3]
    ring


theorem prod_split (hg : g.WF) (hok : ∀ d ∈ ds, GroupOK g d) (hs : GroupSep g ds) {g' : Graph} {R : Finset ℕ} (hR : R ⊆ gAll g ds)
    (ha : After g g' R) (x : ℕ → Bool) : ∀ es : List GadGroup, (∀ d ∈ es, d ∈ ds) →
    (∀ m ∈ es.flatMap (gMatch g), g'.phase m.leaf = mod2 m.phase ∧ g'.phase m.axel = 0 ∧ m.leaf ∉ R ∧ m.axel ∉ R) →
    ((es.flatMap (gItems g)).map fun i => psum (gSet i) (g.grpW (g.verts \ gAll g ds) (gSet i)) x).prod =
      (es.map (gScal g)).prod * ((es.flatMap (gMatch g)).map fun m => if m.axel ∈ g.verts \ gAll g ds then sgn (x m.axel) else 1).prod *
        ((es.flatMap (gKept g)).map fun i => psum (gSet i) (g'.grpW (g.verts \ gAll g ds) (gSet i)) x).prod := by
  intro es
  induction es with
  | nil => intro _ _; simp
  | cons d es ih =>
    intro hes hph
    have h1 := group_value hg hok hs hR ha (hes d (by simp)) (fun m hm => hph m (by simp [hm])) x
    have h2 := ih (fun d' hd' => hes d' (by simp [hd'])) (fun m hm => hph m (by
      rw [List.flatMap_cons, List.mem_append]; exact Or.inr hm))
    simp only [List.flatMap_cons, List.map_append, List.prod_append, List.map_cons, List.prod_cons]
    rw [h1, h2]
    ring

/-- The matcher and the rewrite preserve the meaning for groups that do not interact. -/
theorem gadget_sound (hg : g.WF) (hok : ∀ d ∈ ds, GroupOK g d) (hs : GroupSep g ds) :
    ∃ g', mergeGadgets (ds.foldl gadgetEmit (g, [])).1 (ds.foldl gadgetEmit (g, [])).2 = some g' ∧ Preserves g g' ∧
      g'.verts = g.verts \ ((ds.flatMap (gMatch g)).flatMap mRem).toFinset ∧ ((ds.flatMap (gMatch g)).flatMap mRem).Nodup ∧
      ((ds.flatMap (gMatch g)).flatMap mRem).toFinset ⊆ g.verts ∧
      After g g' ((ds.flatMap (gMatch g)).flatMap mRem).toFinset ∧
      (∀ m ∈ ds.flatMap (gMatch g), g'.phase m.leaf = mod2 m.phase ∧ g'.phase m.axel = 0 ∧
        m.leaf ∉ ((ds.flatMap (gMatch g)).flatMap mRem).toFinset ∧ m.axel ∉ ((ds.flatMap (gMatch g)).flatMap mRem).toFinset) ∧
      ∀ u, u ∉ (ds.flatMap (gMatch g)).flatMap mKeys → g'.phase u = g.phase u := by
  obtain ⟨s1, m1, n1⟩ := gadgetEmit_fold (g := g) ds g [] ⟨SameBut.refl g, rfl⟩
  rw [List.nil_append] at m1
  set h1 := (ds.foldl gadgetEmit (g, [])).1 with hh1
  rw [m1]
  set ms := ds.flatMap (gMatch g) with hms
  set A := gAll g ds with hA
  set U := g.verts \ A with hU
  have hW := verts_nodup hg hok hs
  have hkeys : (ms.flatMap mKeys).Nodup := by
    obtain ⟨l, hl1, hl2⟩ := keys_perm_all (g := g) ds
    exact hl1.nodup_iff.mp (hl2.nodup hW)
  have hpw := items_pairwise hg hok hs
  have hitn : ((ds.flatMap (gItems g)).flatMap iVerts).Nodup := by
    rw [List.nodup_flatMap]
    refine ⟨fun i hi => ?_, hpw.imp fun {i j} h => ?_⟩
    · obtain ⟨d, hd, q1, -, -⟩ := items_mem hi
      have a := (hok d hd).mem _ q1
      have hne : i.2.1 ≠ i.2.2 := fun e => a.nc (e ▸ a.phase)
      unfold iVerts
      cases i.1 <;> simp [hne]
    · rw [Function.onFun, List.disjoint_iff_ne]
      intro u hu w hw e
      exact Finset.disjoint_left.mp h.1 (mem_iVerts.mp hu) (mem_iVerts.mp (e ▸ hw))
  have hperm := perm_all (g := g) ds
  have hkr := (hperm.nodup_iff.mpr hitn)
  rw [List.nodup_append] at hkr
  obtain ⟨-, hremn, hdisj⟩ := hkr
  set rem := ms.flatMap mRem with hrem
  set R := rem.toFinset with hR
  set K := unions (ds.flatMap (gKept g)) gSet with hK
  have memA : ∀ u, u ∈ A ↔ u ∈ (ds.flatMap (gItems g)).flatMap iVerts := by
    intro u
    rw [hA, gAll, mem_unions, List.mem_flatMap]
    simp only [mem_iVerts]
  have memK : ∀ u, u ∈ K ↔ u ∈ (ds.flatMap (gKept g)).flatMap iVerts := by
    intro u
    rw [hK, mem_unions, List.mem_flatMap]
    simp only [mem_iVerts]
  have hAKR : A = K ∪ R := by
    ext u
    rw [memA, Finset.mem_union, memK, hR, List.mem_toFinset, ← hperm.mem_iff, List.mem_append]
  have hKR : Disjoint K R := by
    rw [Finset.disjoint_left]
    intro u hu hu'
    rw [hR, List.mem_toFinset] at hu'
    exact hdisj u ((memK u).mp hu) u hu' rfl
  have hAi : A ⊆ g.interior := by
    intro u hu
    obtain ⟨i, hi, hu'⟩ := mem_unions.mp hu
    obtain ⟨d, hd, q1, -, -⟩ := items_mem hi
    have a := (hok d hd).mem _ q1
    have : u = i.2.1 ∨ u = i.2.2 := by
      unfold gSet at hu'
      revert hu'
      cases i.1
      · intro h; right; simpa using h
      · intro h; simpa using h
    rcases this with e | e <;> rw [e]
    · exact Finset.mem_filter.mpr ⟨a.nm, by rw [a.tn]; decide⟩
    · exact Finset.mem_filter.mpr ⟨a.vm, by rw [a.tv]; decide⟩
  have hAv : A ⊆ g.verts := fun v hv => (Finset.mem_filter.mp (hAi hv)).1
  have hRA : R ⊆ A := by rw [hAKR]; exact Finset.subset_union_right
  have hKA : K ⊆ A := by rw [hAKR]; exact Finset.subset_union_left
  -- every match comes from a group
  have hmatch : ∀ m ∈ ms, m.leaf ∈ K ∧ (m.axel ∈ K ∨ (m.axel ∈ U ∧ g.phase m.axel = 1 ∧ g.ty m.axel = .Z)) := by
    intro m hm
    obtain ⟨d, hd, hmd⟩ := List.mem_flatMap.mp hm
    have hk : ∀ i ∈ gKept g d, gSet i ⊆ K := fun i hi u hu => mem_unions.mpr ⟨i, List.mem_flatMap.mpr ⟨d, hd, hi⟩, hu⟩
    have hokd := hok d hd
    have hsing := fun q (h : d.mem = [q]) => single_axel hok hs hd h
    obtain ⟨P, mem⟩ := d
    match mem with
    | [] => simp [gMatch] at hmd
    | [q] =>
      have a := hokd.mem q (by simp)
      simp only [gMatch, gKept] at hmd hk
      by_cases c : g.phase q.1 ≠ 0
      · rw [if_pos c] at hmd hk
        rw [List.mem_singleton] at hmd
        rw [hmd]
        refine ⟨hk (false, q) (by simp) (by simp [gSet]), Or.inr ⟨Finset.mem_sdiff.mpr ⟨a.nm, hsing q rfl⟩, a.phase.resolve_left c, a.tn⟩⟩
      · rw [if_neg c] at hmd; simp at hmd
    | q :: q' :: L =>
      simp only [gMatch, gKept] at hmd hk
      rw [List.mem_singleton] at hmd
      rw [hmd]
      have := hk _ (List.mem_singleton.mpr rfl)
      refine ⟨this (by simp [gSet]), Or.inl (this (by simp [gSet]))⟩
  have hKU : ∀ u ∈ K, u ∉ U := fun u hu hu' => (Finset.mem_sdiff.mp hu').2 (hKA hu)
  obtain ⟨s2, r2, f2, p2, w2⟩ := merge_fold U ms h1 [] hkeys (fun m hm => by
    obtain ⟨k1, k2⟩ := hmatch m hm
    refine ⟨hKU _ k1, fun h => ?_⟩
    rw [s1.2, s1.1.ty]
    exact (k2.resolve_left fun h' => hKU _ h' h).2)
  rw [List.nil_append] at r2
  unfold mergeGadgets
  simp only
  set h2 := (ms.foldl gadgetMerge (h1, [])).1 with hh2
  rw [r2]
  have s12 : SameBut g h2 := s1.1.trans s2
  have hw2 : h2.WF := s12.wf hg
  change ∃ g', h2.removeVertices rem = some g' ∧ _
  obtain ⟨g', e2⟩ := removeVertices_isSome hw2.toInv hremn (fun v hv => by
    rw [s12.verts]
    exact hAv (hRA (List.mem_toFinset.mpr hv)))
  obtain ⟨hr, -, -, hw⟩ := removeVertices_spec e2
  rw [← hR] at hr
  have hw' := hw hw2
  have hverts : g'.verts = g.verts \ R := by rw [hr.verts, s12.verts]
  have hnb : ∀ v, g.ty v = .boundary → v ∉ R := fun v hb hv => (Finset.mem_filter.mp (hAi (hRA hv))).2 hb
  have hty : g'.ty = g.ty := by rw [hr.ty, s12.ty]
  have hafter : After g g' R := by
    refine ⟨hw'.symm, hty, fun a b h h' => by rw [hr.adj a b h h', s12.adj], fun a b h => ?_⟩
    obtain ⟨e, he⟩ := Option.ne_none_iff_exists'.mp h
    obtain ⟨k1, k2, -⟩ := hw'.edge he
    rw [hverts, Finset.mem_sdiff] at k1 k2
    rw [hr.adj a b k1.2 k2.2, s12.adj] at h
    exact h
  have hKR' : ∀ u ∈ K, u ∉ R := fun u hu hu' => Finset.disjoint_left.mp hKR hu hu'
  have hph : ∀ m ∈ ms, g'.phase m.leaf = mod2 m.phase ∧ g'.phase m.axel = 0 ∧ m.leaf ∉ R ∧ m.axel ∉ R := by
    intro m hm
    obtain ⟨k1, k2⟩ := hmatch m hm
    rw [hr.phase]
    refine ⟨(p2 m hm).1, (p2 m hm).2, hKR' _ k1, ?_⟩
    rcases k2 with k2 | k2
    · exact hKR' _ k2
    · exact fun h => (Finset.mem_sdiff.mp k2.1).2 (hRA h)
  have hUdis : ∀ i ∈ ds.flatMap (gItems g), Disjoint U (gSet i) := by
    intro i hi
    rw [Finset.disjoint_left]
    intro u hu hu'
    exact (Finset.mem_sdiff.mp hu).2 (mem_unions.mpr ⟨i, hi, hu'⟩)
  have hksub : (ds.flatMap (gKept g)).Sublist (ds.flatMap (gItems g)) := flatMap_sublist ds fun d => gKept_sublist d
  refine ⟨g', e2, ⟨hw', ?_, ?_, fun v => ?_, fun b => ?_⟩, hverts, hremn, hRA.trans hAv, hafter, hph,
    fun u hu => by rw [hr.phase, f2 u hu, s1.2]⟩
  · rw [hr.inputs, s12.inputs]
    exact List.filter_eq_self.mpr fun v hv => by simpa using hnb v (hg.io v (Or.inl hv))
  · rw [hr.outputs, s12.outputs]
    exact List.filter_eq_self.mpr fun v hv => by simpa using hnb v (hg.io v (Or.inr hv))
  · rw [hverts, hty, Finset.mem_sdiff]
    exact ⟨fun h => ⟨h.1.1, h.2⟩, fun h => ⟨⟨h.1, hnb v h.2⟩, h.2⟩⟩
  · rw [sem_eq_amp hw', sem_eq_amp hg]
    refine amp_of_kept (hRA.trans hAi) (hKA.trans hAi) hKR hverts (fun v _ => by rw [hty]) (fun x => ?_) b
    rw [← hAKR]
    have t1 : psum A g.weight x = g.wOn U x * ((ds.flatMap (gItems g)).map fun i => psum (gSet i) (g.grpW U (gSet i)) x).prod := by
      have h3 := psum_groups hg.symm (U := U) (ds.flatMap (gItems g)) gSet (fun _ _ => 1) hUdis hpw
        (hpw.imp fun _ => ⟨fun _ _ _ => rfl, fun _ _ _ => rfl⟩) x
      have h4 : psum A g.weight x = psum (unions (ds.flatMap (gItems g)) gSet)
          (fun x => g.wOn (U ∪ unions (ds.flatMap (gItems g)) gSet) x * ((ds.flatMap (gItems g)).map fun _ => (1 : ℂ)).prod) x := by
        refine psum_congr fun y _ => ?_
        rw [weight_eq_wOn, show unions (ds.flatMap (gItems g)) gSet = A from rfl, hU, Finset.sdiff_union_of_subset hAv]
        simp
      rw [h4, h3]
      simp only [mul_one]
    have t2 : psum K g'.weight x = g'.wOn U x * ((ds.flatMap (gKept g)).map fun i => psum (gSet i) (g'.grpW U (gSet i)) x).prod := by
      have hpw' : (ds.flatMap (gKept g)).Pairwise fun i j => Disjoint (gSet i) (gSet j) ∧ ∀ v ∈ gSet i, ∀ w ∈ gSet j, g'.adj v w = none := by
        refine (hpw.sublist hksub).imp fun {i j} h => ⟨h.1, fun v hv w hw => ?_⟩
        by_contra h'
        exact hafter.adj' _ _ h' (h.2 v hv w hw)
      have h3 := psum_groups hw'.symm (U := U) (ds.flatMap (gKept g)) gSet (fun _ _ => 1) (fun i hi => hUdis i (hksub.subset hi)) hpw'
        (hpw'.imp fun _ => ⟨fun _ _ _ => rfl, fun _ _ _ => rfl⟩) x
      have h4 : psum K g'.weight x = psum (unions (ds.flatMap (gKept g)) gSet)
          (fun x => g'.wOn (U ∪ unions (ds.flatMap (gKept g)) gSet) x * ((ds.flatMap (gKept g)).map fun _ => (1 : ℂ)).prod) x := by
        refine psum_congr fun y _ => ?_
        rw [weight_eq_wOn, show unions (ds.flatMap (gKept g)) gSet = K from rfl]
        have : g'.verts = U ∪ K := by
          rw [hverts, hU, hAKR]
          ext u
          simp only [Finset.mem_sdiff, Finset.mem_union, not_or]
          constructor
          · rintro ⟨k1, k2⟩
            by_cases k3 : u ∈ K
            · exact Or.inr k3
            · exact Or.inl ⟨k1, k3, k2⟩
          · rintro (⟨k1, k2, k3⟩ | k1)
            · exact ⟨k1, k3⟩
            · exact ⟨hAv (hKA k1), hKR' u k1⟩
        rw [this]
        simp
      rw [h4, h3]
      simp only [mul_one]
    have hUR : Disjoint U R := by
      rw [Finset.disjoint_left]
      intro u hu hu'
      exact (Finset.mem_sdiff.mp hu).2 (hRA hu')
    have t3 : h1.wOn U x = g.wOn U x * (ds.map (gScal g)).prod := by
      unfold wOn
      have v1 : ∀ v, h1.vwt v (x v) = g.vwt v (x v) := by
        intro v; unfold vwt vval; rw [s1.1.ty, s1.2, s1.1.label]
      have v2 : h1.edgeK x = g.edgeK x := by
        funext a b; unfold edgeK eff isX; rw [s1.1.adj, s1.1.ty]
      simp only [v1]
      rw [v2, n1]
      ring
    rw [t1, t2, prod_split hg hok hs hRA hafter x ds (fun _ h => h) hph, hr.wOn U hUR, w2, t3]
    ring

end Round

end Rules
end PyZX
