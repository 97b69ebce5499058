import Verif.Sem.OpsInv

/-!
# Path sums of diagrams with H-boxes

The same as `Verif.Sem.PathSum`, for diagrams that also contain H-boxes of any phase. The tensor of an H-box is a sum of two
products over its legs, so that it also gets one path variable. Only what building a diagram needs is proved: adding a
vertex, and adding an edge between two vertices that are not connected.
-/

namespace PyZX

/-- Leg of a vertex of the given type. -/
noncomputable def legT (t : VType) (c a : Bool) : ℂ :=
  match t with
  | .X => hmat c a
  | .hbox => if c then (if a then 1 else 0) else 1
  | _ => dmat c a

/-- An edge contracted with the legs `α` and `β` at its ends. -/
noncomputable def contr (e : EType) (α β : Bool → ℂ) : ℂ :=
  (α false * β false * edgeMat e false false + α false * β true * edgeMat e false true) +
    (α true * β false * edgeMat e true false + α true * β true * edgeMat e true true)

theorem edgeMat_comm (e : EType) (a b : Bool) : edgeMat e a b = edgeMat e b a := by
  cases e
  · exact dmat_comm a b
  · exact hmat_comm a b
  · exact dmat_comm a b

theorem contr_comm (e : EType) (α β : Bool → ℂ) : contr e α β = contr e β α := by
  unfold contr
  rw [edgeMat_comm e true false]
  ring

/-- Weight of the variable of a vertex. -/
noncomputable def wtT (t : VType) (p : ℚ) (l : ℂ) (c : Bool) : ℂ :=
  if c then
    match t with
    | .boundary => 1
    | .zbox => l
    | .hbox => ph p - 1
    | _ => ph p
  else 1

namespace Graph

/-- Weight of the variable of `v`. -/
noncomputable def wtH (g : Graph) (v : ℕ) (c : Bool) : ℂ := wtT (g.ty v) (g.phase v) (g.label v) c

/-- Kernel of a pair of vertices. -/
noncomputable def edgeH (g : Graph) (x : ℕ → Bool) (u v : ℕ) : ℂ :=
  match g.adj u v with
  | none => 1
  | some e => contr e (legT (g.ty u) (x u)) (legT (g.ty v) (x v))

/-- Weight of an assignment on a set of vertices. -/
noncomputable def wH (g : Graph) (S : Finset ℕ) (x : ℕ → Bool) : ℂ :=
  g.scalar.toNumber * ((∏ v ∈ S, g.wtH v (x v)) * pairProd S (g.edgeH x))

/-- No W-nodes. -/
def NoW (g : Graph) : Prop := ∀ v ∈ g.verts, g.ty v ≠ .winput ∧ g.ty v ≠ .woutput

theorem edgeH_comm {g : Graph} (h : ∀ u v, g.adj u v = g.adj v u) (x : ℕ → Bool) (u v : ℕ) :
    g.edgeH x u v = g.edgeH x v u := by
  unfold edgeH
  rw [h u v]
  cases g.adj v u with
  | none => rfl
  | some e => simp only; rw [contr_comm]

theorem prod_hleg (s : Finset ℕ) (y : ℕ → Bool) :
    ∏ w ∈ s, legT .hbox true (y w) = if ∀ w ∈ s, y w = true then 1 else 0 := by
  split
  · next h => exact Finset.prod_eq_one fun w hw => by simp [legT, h w hw]
  · next h =>
    push Not at h
    obtain ⟨w, hw, hne⟩ := h
    exact Finset.prod_eq_zero hw (by simp [legT, hne])

theorem nodeTensorH_eq {g : Graph} (h : g.NoW) (b : ℕ → Bool) {v : ℕ} (hv : v ∈ g.verts) (y : ℕ → Bool) :
    g.nodeTensor b v y =
      if v ∈ g.interior then
        (g.wtH v false * ∏ w ∈ g.nbrs v, legT (g.ty v) false (y w)) + (g.wtH v true * ∏ w ∈ g.nbrs v, legT (g.ty v) true (y w))
      else g.wtH v (b v) * ∏ w ∈ g.nbrs v, legT (g.ty v) (b v) (y w) := by
  have hI : v ∈ g.interior ↔ g.ty v ≠ .boundary := by simp [interior, hv]
  obtain ⟨h1, h2⟩ := h v hv
  have ed : ∀ t : VType, t ≠ .X → t ≠ .hbox → ∀ c a, legT t c a = dmat c a := by
    intro t h3 h4 c a
    cases t <;> first | rfl | exact absurd rfl h3 | exact absurd rfl h4
  cases ht : g.ty v with
  | winput => exact absurd ht h1
  | woutput => exact absurd ht h2
  | boundary =>
    rw [if_neg (by rw [hI]; simp [ht])]
    simp only [nodeTensor, ht, ed .boundary (by decide) (by decide), prod_dmat, wtH, wtT]
    simp
  | Z =>
    rw [if_pos (by rw [hI]; simp [ht])]
    simp only [nodeTensor, ht, ed .Z (by decide) (by decide), prod_dmat, wtH, wtT, zTensor]
    simp
  | zbox =>
    rw [if_pos (by rw [hI]; simp [ht])]
    simp only [nodeTensor, ht, ed .zbox (by decide) (by decide), prod_dmat, wtH, wtT, zTensor]
    simp
  | X =>
    rw [if_pos (by rw [hI]; simp [ht])]
    have e : ∀ c a, legT .X c a = hmat c a := fun _ _ => rfl
    simp only [nodeTensor, ht, e, prod_hmat_true, prod_hmat_false, wtH, wtT, xTensor]
    simp only [Bool.false_eq_true, if_false, if_true]
    ring
  | hbox =>
    rw [if_pos (by rw [hI]; simp [ht])]
    have e : ∏ w ∈ g.nbrs v, legT .hbox false (y w) = 1 := Finset.prod_eq_one fun w _ => by simp [legT]
    simp only [nodeTensor, ht, e, prod_hleg, wtH, wtT]
    by_cases hh : ∀ w ∈ g.nbrs v, y w = true
    · rw [if_pos hh, if_pos hh]; simp
    · rw [if_neg hh, if_neg hh]; simp

theorem halves_pairs' {g : Graph} (h : g.Inv) :
    halves ((pairs g.verts).filter fun p => (g.adj p.1 p.2).isSome) = g.halfEdges := by
  ext ⟨u, v⟩
  simp only [halves, halfEdges, Finset.mem_union, Finset.mem_filter, mem_pairs, Finset.mem_image, Finset.mem_product]
  constructor
  · rintro (⟨⟨a, b, -⟩, c⟩ | ⟨⟨a, b⟩, ⟨⟨h1, h2, -⟩, h4⟩, h5⟩)
    · exact ⟨⟨a, b⟩, c⟩
    · simp only [Prod.swap_prod_mk, Prod.mk.injEq] at h5
      obtain ⟨rfl, rfl⟩ := h5
      exact ⟨⟨h2, h1⟩, by rw [h.symm]; exact h4⟩
  · rintro ⟨⟨a, b⟩, c⟩
    rcases lt_trichotomy u v with hl | rfl | hl
    · exact Or.inl ⟨⟨a, b, hl⟩, c⟩
    · simp [h.loopless] at c
    · exact Or.inr ⟨(v, u), ⟨⟨b, a, hl⟩, by rw [h.symm]; exact c⟩, rfl⟩

/-- The tensor network denoted by a diagram without W-nodes is its path sum. -/
theorem sem_eq_wH {g : Graph} (hi : g.Inv) (h : g.NoW) (b : ℕ → Bool) : g.sem b = psum g.interior (g.wH g.verts) b := by
  unfold sem wH
  rw [psum_const_mul]
  congr 1
  set E := (pairs g.verts).filter fun p => (g.adj p.1 p.2).isSome with hE
  have hElt : ∀ p ∈ E, p.1 < p.2 := fun p hp => (mem_pairs.mp (Finset.mem_filter.mp hp).1).2.2
  have hH : halves E = g.halfEdges := halves_pairs' hi
  have h1 : ∀ y : ℕ × ℕ → Bool, ∏ v ∈ g.verts, g.nodeTensor b v (fun w => y (v, w)) =
      psum g.interior (fun x => ∏ v ∈ g.verts, (g.wtH v (x v) * ∏ w ∈ g.nbrs v, legT (g.ty v) (x v) (y (v, w)))) b := by
    intro y
    rw [psum_prod g.interior g.verts (Finset.filter_subset _ _)
      (fun v c => g.wtH v c * ∏ w ∈ g.nbrs v, legT (g.ty v) c (y (v, w)))]
    exact Finset.prod_congr rfl fun v hv => nodeTensorH_eq h b hv _
  simp only [h1, ← psum_mul_const]
  rw [psum_comm]
  refine psum_congr fun x _ => ?_
  have h2 : ∀ y : ℕ × ℕ → Bool, ∏ v ∈ g.verts, (g.wtH v (x v) * ∏ w ∈ g.nbrs v, legT (g.ty v) (x v) (y (v, w))) =
      (∏ v ∈ g.verts, g.wtH v (x v)) *
        ∏ p ∈ E, (legT (g.ty p.1) (x p.1) (y p) * legT (g.ty p.2) (x p.2) (y p.swap)) := by
    intro y
    rw [Finset.prod_mul_distrib, prod_nbrs (fun p => legT (g.ty p.1) (x p.1) (y p)), ← hH, prod_halves E hElt]
    rfl
  have h3 : ∀ y : ℕ × ℕ → Bool, pairProd g.verts (fun u v => edgeT (g.adj u v) (y (u, v)) (y (v, u))) =
      ∏ p ∈ E, edgeT (g.adj p.1 p.2) (y p) (y p.swap) := by
    intro y
    unfold pairProd
    rw [hE, Finset.prod_filter]
    refine Finset.prod_congr rfl fun p _ => ?_
    cases hp : g.adj p.1 p.2 with
    | none => simp [edgeT, hp]
    | some e => simp [Prod.swap, hp]
  have h4 : pairProd g.verts (g.edgeH x) = ∏ p ∈ E, g.edgeH x p.1 p.2 := by
    unfold pairProd
    rw [hE, Finset.prod_filter]
    refine Finset.prod_congr rfl fun p _ => ?_
    cases hp : g.adj p.1 p.2 with
    | none => simp [edgeH, hp]
    | some e => simp
  simp only [h2, h3]
  rw [h4]
  simp only [mul_assoc]
  rw [psum_const_mul]
  congr 1
  simp only [← Finset.prod_mul_distrib]
  rw [← hH, psum_halves E hElt (fun p a c => legT (g.ty p.1) (x p.1) a * legT (g.ty p.2) (x p.2) c *
    edgeT (g.adj p.1 p.2) a c)]
  refine Finset.prod_congr rfl fun p hp => ?_
  have hs := (Finset.mem_filter.mp hp).2
  unfold edgeH
  cases hq : g.adj p.1 p.2 with
  | none => rw [hq] at hs; simp at hs
  | some e => rfl

theorem wH_congr {g g' : Graph} {S : Finset ℕ} {x : ℕ → Bool} (hs : g'.scalar.toNumber = g.scalar.toNumber)
    (hv : ∀ v ∈ S, g'.wtH v (x v) = g.wtH v (x v)) (he : ∀ u ∈ S, ∀ v ∈ S, u < v → g'.edgeH x u v = g.edgeH x u v) :
    g'.wH S x = g.wH S x := by
  unfold wH
  rw [hs]
  congr 2
  · exact Finset.prod_congr rfl hv
  · exact pairProd_congr fun a ha b hb hab => he a ha b hb hab

theorem edgeH_congr_env {g : Graph} {x y : ℕ → Bool} {u v : ℕ} (hu : x u = y u) (hv : x v = y v) :
    g.edgeH x u v = g.edgeH y u v := by
  unfold edgeH; rw [hu, hv]

theorem wH_congr_env {g : Graph} {S : Finset ℕ} {x y : ℕ → Bool} (h : ∀ v ∈ S, x v = y v) : g.wH S x = g.wH S y := by
  unfold wH
  congr 2
  · exact Finset.prod_congr rfl fun v hv => by rw [h v hv]
  · exact pairProd_congr fun a ha b hb _ => edgeH_congr_env (h a ha) (h b hb)

theorem wH_insert {g : Graph} (hg : ∀ u v, g.adj u v = g.adj v u) {S : Finset ℕ} {v : ℕ} (hv : v ∉ S) (x : ℕ → Bool) :
    g.wH (insert v S) x = g.wtH v (x v) * (∏ w ∈ S, g.edgeH x v w) * g.wH S x := by
  unfold wH
  rw [Finset.prod_insert hv, pairProd_insert hv (edgeH_comm hg x)]
  ring

/-- A vertex added without edges multiplies the weight by the weight of its variable. -/
theorem wH_addVertex {g : Graph} (hg : g.Inv) (t : VType) (p : ℚ) (x : ℕ → Bool) :
    (g.addVertex t p).wH (g.addVertex t p).verts x = wtT t (mod2 p) 1 (x g.vindex) * g.wH g.verts x := by
  obtain ⟨h1, h2, h3, h4, h5, h6, h7, h8, h9, h10⟩ := addVertex_fields g t p
  have hn := hg.notMem_vindex
  have hne : ∀ v ∈ g.verts, v ≠ g.vindex := by rintro v hv rfl; exact hn hv
  have ha := hg.addVertex_adj t p
  rw [h1, wH_insert (by rw [ha]; exact hg.symm) hn]
  have e1 : (g.addVertex t p).wH g.verts x = g.wH g.verts x := by
    refine wH_congr (by rw [h8]) ?_ ?_
    · intro v hv
      unfold wtH
      rw [h3, h4, h5, Function.update_of_ne (hne v hv), Function.update_of_ne (hne v hv), Function.update_of_ne (hne v hv)]
    · intro u hu v hv _
      unfold edgeH
      rw [ha, h3, Function.update_of_ne (hne u hu), Function.update_of_ne (hne v hv)]
  have e2 : ∏ w ∈ g.verts, (g.addVertex t p).edgeH x g.vindex w = 1 := by
    refine Finset.prod_eq_one fun w _ => ?_
    unfold edgeH
    rw [ha, hg.adj_vindex (Or.inl rfl)]
  rw [e1, e2, mul_one]
  unfold wtH
  rw [h3, h4, h5, Function.update_self, Function.update_self, Function.update_self]

/-- A new edge multiplies the weight by its kernel. -/
theorem wH_setAdj {g : Graph} (hg : g.Inv) {s t : ℕ} (hs : s ∈ g.verts) (ht : t ∈ g.verts) (hst : s ≠ t) (hn : g.adj s t = none)
    (e : EType) (k : ℤ) (x : ℕ → Bool) :
    ({ g.setAdj s t (some e) with nedges := k } : Graph).wH g.verts x =
      contr e (legT (g.ty s) (x s)) (legT (g.ty t) (x t)) * g.wH g.verts x := by
  set g' : Graph := { g.setAdj s t (some e) with nedges := k } with hg'
  have hsym : ∀ u v, g'.adj u v = g'.adj v u := setAdj_symm hg.symm s t (some e)
  have hs' : ∀ x u v, g'.edgeH x u v = g'.edgeH x v u := fun x u v => edgeH_comm hsym x u v
  have hv : ∀ v, g'.wtH v = g.wtH v := fun _ => rfl
  have hother : ∀ u v, ¬ (u = s ∧ v = t) → ¬ (u = t ∧ v = s) → g'.edgeH x u v = g.edgeH x u v := by
    intro u v h1 h2
    unfold edgeH
    rw [show g'.adj u v = g.adj u v from setAdj_adj_other g _ h1 h2]
    rfl
  have hself : g'.edgeH x s t = contr e (legT (g.ty s) (x s)) (legT (g.ty t) (x t)) := by
    unfold edgeH
    rw [show g'.adj s t = some e from setAdj_adj_self g s t (some e)]
    rfl
  have hS : g.verts = insert s (g.verts.erase s) := (Finset.insert_erase hs).symm
  have e1 : g'.wH (g.verts.erase s) x = g.wH (g.verts.erase s) x := by
    refine wH_congr rfl (fun v _ => by rw [hv]) fun u hu v hv' _ => hother u v ?_ ?_
    · rintro ⟨rfl, -⟩; exact Finset.notMem_erase _ _ hu
    · rintro ⟨-, rfl⟩; exact Finset.notMem_erase _ _ hv'
  have htS : t ∈ g.verts.erase s := Finset.mem_erase.mpr ⟨Ne.symm hst, ht⟩
  have e2 : ∏ w ∈ g.verts.erase s, g'.edgeH x s w =
      contr e (legT (g.ty s) (x s)) (legT (g.ty t) (x t)) * ∏ w ∈ g.verts.erase s, g.edgeH x s w := by
    rw [← Finset.mul_prod_erase _ _ htS, ← Finset.mul_prod_erase _ (fun w => g.edgeH x s w) htS, hself]
    have : g.edgeH x s t = 1 := by unfold edgeH; rw [hn]
    rw [this, one_mul]
    congr 1
    refine Finset.prod_congr rfl fun w hw => hother s w ?_ ?_
    · rintro ⟨-, rfl⟩; exact Finset.notMem_erase _ _ hw
    · rintro ⟨h, -⟩; exact hst h
  rw [hS, wH_insert hsym (Finset.notMem_erase s g.verts), wH_insert hg.symm (Finset.notMem_erase s g.verts), e1, e2, hv]
  ring

theorem wH_addPower (g : Graph) (S : Finset ℕ) (n : ℤ) (x : ℕ → Bool) : (g.addPower n).wH S x = sq2 ^ n * g.wH S x := by
  have : (g.addPower n).scalar.toNumber = g.scalar.toNumber * sq2 ^ n := Scalar.addPower_toNumber _ _
  unfold wH
  rw [this]
  have h1 : ∀ v, (g.addPower n).wtH v = g.wtH v := fun _ => rfl
  have h2 : (g.addPower n).edgeH x = g.edgeH x := rfl
  simp only [h1, h2]
  ring

/-- Setting the phase of a vertex of phase zero. -/
theorem wH_setPhase {g : Graph} {v : ℕ} (hv : v ∈ g.verts) (ht : g.ty v = .Z) (hp : g.phase v = 0) (p : ℚ) (x : ℕ → Bool) :
    (g.setPhase v p).wH g.verts x = (if x v then ph p else 1) * g.wH g.verts x := by
  unfold wH
  have h2 : (g.setPhase v p).edgeH x = g.edgeH x := rfl
  have h3 : ∏ w ∈ g.verts, (g.setPhase v p).wtH w (x w) = (if x v then ph p else 1) * ∏ w ∈ g.verts, g.wtH w (x w) := by
    rw [← Finset.mul_prod_erase _ _ hv, ← Finset.mul_prod_erase _ (fun w => g.wtH w (x w)) hv, ← mul_assoc]
    congr 1
    · unfold wtH wtT
      show (if x v then match g.ty v with
        | .boundary => (1 : ℂ) | .zbox => _ | .hbox => _ | _ => ph ((g.setPhase v p).phase v) else 1) = _
      rw [ht, hp]
      simp only [setPhase, Function.update_self, ph_mod2, ph_zero]
      cases x v <;> simp
    · refine Finset.prod_congr rfl fun w hw => ?_
      unfold wtH setPhase
      simp only
      rw [Function.update_of_ne (Finset.ne_of_mem_erase hw)]
  rw [h2, h3, show (g.setPhase v p).scalar = g.scalar from rfl]
  ring

end Graph
end PyZX
