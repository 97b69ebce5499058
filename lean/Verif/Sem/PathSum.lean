import Verif.Spec.Tensor

/-!
# Path-sum form of the semantics

One Boolean variable per vertex. `sem_eq_amp` shows that it agrees with the tensor network of `Verif.Spec.Tensor`.
-/

namespace PyZX

open Finset

section General

variable {α β : Type*} [DecidableEq α] [DecidableEq β]

theorem psum_comm (I : Finset α) (J : Finset β) (f : (α → Bool) → (β → Bool) → ℂ) (a : α → Bool) (b : β → Bool) :
    psum I (fun x => psum J (fun y => f x y) b) a = psum J (fun y => psum I (fun x => f x y) a) b := by
  unfold psum; rw [Finset.sum_comm]

/-- A sum of products of one-variable functions is the product of the sums. -/
theorem psum_prod (I V : Finset α) (h : I ⊆ V) (F : α → Bool → ℂ) (b : α → Bool) :
    psum I (fun x => ∏ v ∈ V, F v (x v)) b =
      ∏ v ∈ V, (if v ∈ I then F v false + F v true else F v (b v)) := by
  induction I using Finset.induction_on generalizing b with
  | empty => simp
  | insert u I hu ih =>
    have hI : I ⊆ V := fun w hw => h (Finset.mem_insert_of_mem hw)
    have huV : u ∈ V := h (Finset.mem_insert_self u I)
    rw [psum_insert_env hu, ih hI, ih hI, ← Finset.mul_prod_erase _ _ huV, ← Finset.mul_prod_erase _ _ huV,
      ← Finset.mul_prod_erase _ _ huV]
    have e : ∀ c, ∏ v ∈ V.erase u, (if v ∈ I then F v false + F v true else F v (Function.update b u c v)) =
        ∏ v ∈ V.erase u, (if v ∈ insert u I then F v false + F v true else F v (b v)) := by
      intro c
      refine Finset.prod_congr rfl fun v hv => ?_
      have hvu := (Finset.mem_erase.mp hv).1
      simp [Finset.mem_insert, hvu]
    rw [e, e]
    simp only [hu, if_false, Function.update_self, Finset.mem_insert_self, if_true]
    ring

end General

/-- Kernel between two path variables. -/
noncomputable def kern (h : Bool) (a b : Bool) : ℂ := if h then hmat a b else dmat a b

theorem hmat_comm (a b : Bool) : hmat a b = hmat b a := by
  unfold hmat; rw [Bool.and_comm]

theorem dmat_comm (a b : Bool) : dmat a b = dmat b a := by
  unfold dmat; simp only [eq_comm]

theorem kern_comm (h a b : Bool) : kern h a b = kern h b a := by
  unfold kern; split
  · exact hmat_comm a b
  · exact dmat_comm a b

namespace Graph

/-- Weight of a vertex when its variable is 1. -/
noncomputable def vval (g : Graph) (v : ℕ) : ℂ :=
  match g.ty v with
  | .boundary => 1
  | .zbox => g.label v
  | _ => ph (g.phase v)

/-- Weight of a vertex at its variable. -/
noncomputable def vwt (g : Graph) (v : ℕ) (c : Bool) : ℂ := if c then g.vval v else 1

/-- Whether a vertex is an X-spider. -/
def isX (g : Graph) (v : ℕ) : Bool := decide (g.ty v = .X)

/-- Whether the kernel of an edge of type `e` between `u` and `v` is of Hadamard kind. -/
def eff (g : Graph) (u v : ℕ) (e : EType) : Bool := xor (decide (e = .had)) (xor (g.isX u) (g.isX v))

/-- Kernel of the pair `u`, `v` (1 if not connected). -/
noncomputable def edgeK (g : Graph) (x : ℕ → Bool) (u v : ℕ) : ℂ :=
  match g.adj u v with
  | none => 1
  | some e => kern (g.eff u v e) (x u) (x v)

/-- Weight of an assignment. -/
noncomputable def weight (g : Graph) (x : ℕ → Bool) : ℂ :=
  g.scalar.toNumber * ((∏ v ∈ g.verts, g.vwt v (x v)) * pairProd g.verts (g.edgeK x))

/-- Vertices that are summed over. -/
def interior (g : Graph) : Finset ℕ := g.verts.filter fun v => g.ty v ≠ .boundary

/-- The path sum. -/
noncomputable def amp (g : Graph) (b : ℕ → Bool) : ℂ := psum g.interior g.weight b

theorem eff_comm (g : Graph) (u v : ℕ) (e : EType) : g.eff u v e = g.eff v u e := by
  unfold eff; rw [Bool.xor_comm (g.isX u)]

theorem edgeK_comm {g : Graph} (h : ∀ u v, g.adj u v = g.adj v u) (x : ℕ → Bool) (u v : ℕ) :
    g.edgeK x u v = g.edgeK x v u := by
  unfold edgeK
  rw [h u v]
  cases g.adj v u with
  | none => rfl
  | some e => simp only; rw [eff_comm, kern_comm]

theorem mem_nbrs {g : Graph} (h : g.Inv) {u v : ℕ} : v ∈ g.nbrs u ↔ g.adj u v ≠ none := by
  unfold nbrs
  rw [Finset.mem_filter]
  constructor
  · rintro ⟨-, h2⟩ h3; simp [h3] at h2
  · intro h1
    refine ⟨h.mem v u (by rw [h.symm]; exact h1), ?_⟩
    cases hh : g.adj u v with
    | none => exact absurd hh h1
    | some e => rfl

/-! ### The tensor network equals the path sum -/

/-- Leg of a spider: identity, or Hadamard for X. -/
noncomputable def leg (g : Graph) (v : ℕ) (c a : Bool) : ℂ := if g.isX v then hmat c a else dmat c a

theorem prod_dmat (s : Finset ℕ) (c : Bool) (y : ℕ → Bool) :
    ∏ w ∈ s, dmat c (y w) = if ∀ w ∈ s, y w = c then 1 else 0 := by
  split
  · next h => exact Finset.prod_eq_one fun w hw => by simp [dmat, h w hw]
  · next h =>
    push Not at h
    obtain ⟨w, hw, hne⟩ := h
    exact Finset.prod_eq_zero hw (by simp [dmat, Ne.symm hne])

theorem prod_hmat_false (s : Finset ℕ) (y : ℕ → Bool) :
    ∏ w ∈ s, hmat false (y w) = (sq2⁻¹) ^ s.card := by
  rw [Finset.prod_congr rfl (g := fun _ => sq2⁻¹) (fun w _ => by simp [hmat]), Finset.prod_const]

theorem prod_hmat_true (s : Finset ℕ) (y : ℕ → Bool) :
    ∏ w ∈ s, hmat true (y w) = (sq2⁻¹) ^ s.card * (-1) ^ (s.filter fun w => y w = true).card := by
  unfold hmat
  rw [Finset.prod_mul_distrib, Finset.prod_const]
  simp only [Bool.true_and]
  rw [Finset.prod_ite, Finset.prod_const, Finset.prod_const_one, mul_one]

theorem nodeTensor_eq {g : Graph} (h : g.WF) (b : ℕ → Bool) {v : ℕ} (hv : v ∈ g.verts) (y : ℕ → Bool) :
    g.nodeTensor b v y =
      if v ∈ g.interior then
        (g.vwt v false * ∏ w ∈ g.nbrs v, g.leg v false (y w)) + (g.vwt v true * ∏ w ∈ g.nbrs v, g.leg v true (y w))
      else g.vwt v (b v) * ∏ w ∈ g.nbrs v, g.leg v (b v) (y w) := by
  have hI : v ∈ g.interior ↔ g.ty v ≠ .boundary := by simp [interior, hv]
  rcases h.types v hv with ht | ht | ht | ht
  · rw [if_neg (by rw [hI]; simp [ht])]
    have e : ∀ c a, g.leg v c a = dmat c a := by intro c a; simp [leg, isX, ht]
    simp only [nodeTensor, ht, e, prod_dmat, vwt, vval]
    simp
  · rw [if_pos (by rw [hI]; simp [ht])]
    have e : ∀ c a, g.leg v c a = dmat c a := by intro c a; simp [leg, isX, ht]
    simp only [nodeTensor, ht, e, prod_dmat, vwt, vval, zTensor]
    simp
  · rw [if_pos (by rw [hI]; simp [ht])]
    have e : ∀ c a, g.leg v c a = hmat c a := by intro c a; simp [leg, isX, ht]
    simp only [nodeTensor, ht, e, prod_hmat_true, prod_hmat_false, vwt, vval, xTensor]
    simp only [Bool.false_eq_true, if_false, if_true]
    ring
  · rw [if_pos (by rw [hI]; simp [ht])]
    have e : ∀ c a, g.leg v c a = dmat c a := by intro c a; simp [leg, isX, ht]
    simp only [nodeTensor, ht, e, prod_dmat, vwt, vval, zTensor]
    simp

/-- Contracting one edge with the legs at its ends. -/
theorem edge_contract (g : Graph) (u v : ℕ) (e : EType) (he : e ≠ .wio) (a b : Bool) :
    (g.leg u a false * g.leg v b false * edgeMat e false false + g.leg u a false * g.leg v b true * edgeMat e false true) +
    (g.leg u a true * g.leg v b false * edgeMat e true false + g.leg u a true * g.leg v b true * edgeMat e true true) =
      kern (g.eff u v e) a b := by
  have hs : sq2⁻¹ * sq2⁻¹ = (1 / 2 : ℂ) := by
    rw [← mul_inv, sq2_mul_self]; norm_num
  unfold leg eff kern
  cases e
  · cases g.isX u <;> cases g.isX v <;> cases a <;> cases b <;>
      simp [edgeMat, dmat, hmat] <;> first | ring1 | linear_combination (2 : ℂ) * hs
  · cases g.isX u <;> cases g.isX v <;> cases a <;> cases b <;>
      simp [edgeMat, dmat, hmat] <;>
      (first | ring1 | linear_combination (2 * sq2⁻¹ : ℂ) * hs | linear_combination (2 : ℂ) * hs | linear_combination (-2 * sq2⁻¹ : ℂ) * hs)
  · exact absurd rfl he

/-- Half-edges of a set of ordered pairs. -/
def halves (P : Finset (ℕ × ℕ)) : Finset (ℕ × ℕ) := P ∪ P.image Prod.swap

/-- Contracting all edges: the sum over half-edge labels factorises over edges. -/
theorem psum_halves (P : Finset (ℕ × ℕ)) (hP : ∀ p ∈ P, p.1 < p.2) (K : ℕ × ℕ → Bool → Bool → ℂ)
    (b : ℕ × ℕ → Bool) :
    psum (halves P) (fun y => ∏ p ∈ P, K p (y p) (y p.swap)) b =
      ∏ p ∈ P, ((K p false false + K p false true) + (K p true false + K p true true)) := by
  induction P using Finset.induction_on generalizing b with
  | empty => simp [halves]
  | insert p P hp ih =>
    have hlt := hP p (Finset.mem_insert_self p P)
    have hP' : ∀ q ∈ P, q.1 < q.2 := fun q hq => hP q (Finset.mem_insert_of_mem hq)
    have hne : p ≠ p.swap := by
      intro h; have := congrArg Prod.fst h; simp at this; omega
    have hs1 : p.swap ∉ P := by
      intro h; have := hP' _ h; simp at this; omega
    have hs2 : p ∉ P.image Prod.swap := by
      intro h
      obtain ⟨q, hq, hqe⟩ := Finset.mem_image.mp h
      have := hP' _ hq
      subst hqe
      simp at hlt
      omega
    have hs3 : p.swap ∉ P.image Prod.swap := by
      intro h
      obtain ⟨q, hq, hqe⟩ := Finset.mem_image.mp h
      rw [Prod.swap_inj] at hqe
      subst hqe; exact hp hq
    have hset : halves (insert p P) = insert p (insert p.swap (halves P)) := by
      ext q
      simp only [halves, Finset.image_insert, Finset.mem_union, Finset.mem_insert]
      tauto
    have n1 : p ∉ insert p.swap (halves P) := by
      simp only [halves, Finset.mem_insert, Finset.mem_union]
      tauto
    have n2 : p.swap ∉ halves P := by
      simp only [halves, Finset.mem_union]
      tauto
    rw [hset, psum_insert_env n1, psum_insert_env n2, psum_insert_env n2]
    have nP : ∀ q ∈ P, q ∉ ({p, p.swap} : Finset (ℕ × ℕ)) := by
      intro q hq h
      simp at h
      rcases h with rfl | rfl
      · exact hp hq
      · exact hs1 hq
    have key : ∀ a c : Bool, psum (halves P) (fun y => ∏ q ∈ insert p P, K q (y q) (y q.swap))
        (Function.update (Function.update b p a) p.swap c) =
        K p a c * ∏ p ∈ P, ((K p false false + K p false true) + (K p true false + K p true true)) := by
      intro a c
      rw [← ih hP' (Function.update (Function.update b p a) p.swap c), ← psum_const_mul]
      refine psum_congr fun x hx => ?_
      have hxp : x p = a := by
        rw [hx p (fun h => n1 (Finset.mem_insert_of_mem h)), Function.update_of_ne hne, Function.update_self]
      have hxs : x p.swap = c := by
        rw [hx _ n2, Function.update_self]
      rw [Finset.prod_insert hp, hxp, hxs]
    rw [key, key, key, key, Finset.prod_insert hp]
    ring

theorem halves_pairs {g : Graph} (h : g.WF) :
    halves ((pairs g.verts).filter fun p => (g.adj p.1 p.2).isSome) = g.halfEdges := by
  ext ⟨u, v⟩
  simp only [halves, halfEdges, Finset.mem_union, Finset.mem_filter, mem_pairs, Finset.mem_image, Finset.mem_product]
  constructor
  · rintro (⟨⟨a, b, -⟩, c⟩ | ⟨⟨a, b⟩, ⟨⟨h1, h2, -⟩, h4⟩, h5⟩)
    · exact ⟨⟨a, b⟩, c⟩
    · simp only [Prod.swap_prod_mk, Prod.mk.injEq] at h5
      obtain ⟨rfl, rfl⟩ := h5
      exact ⟨⟨h2, h1⟩, by rw [h.symm]; exact h4⟩
  · rintro ⟨⟨a, b⟩, c⟩
    rcases lt_trichotomy u v with hl | rfl | hl
    · exact Or.inl ⟨⟨a, b, hl⟩, c⟩
    · simp [h.loopless] at c
    · exact Or.inr ⟨(v, u), ⟨⟨b, a, hl⟩, by rw [h.symm]; exact c⟩, rfl⟩

theorem prod_halves (P : Finset (ℕ × ℕ)) (hP : ∀ p ∈ P, p.1 < p.2) (G : ℕ × ℕ → ℂ) :
    ∏ p ∈ halves P, G p = ∏ p ∈ P, (G p * G p.swap) := by
  unfold halves
  rw [Finset.prod_union, Finset.prod_mul_distrib, Finset.prod_image]
  · intro a _ c _ hac; exact Prod.swap_inj.mp hac
  · rw [Finset.disjoint_left]
    intro p hp h
    obtain ⟨q, hq, hqe⟩ := Finset.mem_image.mp h
    have h1 := hP _ hp
    have h2 := hP _ hq
    subst hqe
    simp at h1
    omega

theorem prod_nbrs {g : Graph} (G : ℕ × ℕ → ℂ) :
    ∏ v ∈ g.verts, ∏ w ∈ g.nbrs v, G (v, w) = ∏ p ∈ g.halfEdges, G p := by
  unfold halfEdges nbrs
  rw [Finset.prod_filter, Finset.prod_product]
  refine Finset.prod_congr rfl fun v _ => ?_
  rw [Finset.prod_filter]

/-- The tensor network denoted by a well-formed diagram is its path sum. -/
theorem sem_eq_amp {g : Graph} (h : g.WF) (b : ℕ → Bool) : g.sem b = g.amp b := by
  unfold sem amp weight
  rw [psum_const_mul]
  congr 1
  set E := (pairs g.verts).filter fun p => (g.adj p.1 p.2).isSome with hE
  have hElt : ∀ p ∈ E, p.1 < p.2 := fun p hp => (mem_pairs.mp (Finset.mem_filter.mp hp).1).2.2
  have hH : halves E = g.halfEdges := halves_pairs h
  -- expand the vertex tensors
  have h1 : ∀ y : ℕ × ℕ → Bool, ∏ v ∈ g.verts, g.nodeTensor b v (fun w => y (v, w)) =
      psum g.interior (fun x => ∏ v ∈ g.verts, (g.vwt v (x v) * ∏ w ∈ g.nbrs v, g.leg v (x v) (y (v, w)))) b := by
    intro y
    rw [psum_prod g.interior g.verts (Finset.filter_subset _ _)
      (fun v c => g.vwt v c * ∏ w ∈ g.nbrs v, g.leg v c (y (v, w)))]
    exact Finset.prod_congr rfl fun v hv => nodeTensor_eq h b hv _
  simp only [h1, ← psum_mul_const]
  rw [psum_comm]
  refine psum_congr fun x _ => ?_
  have h2 : ∀ y : ℕ × ℕ → Bool, ∏ v ∈ g.verts, (g.vwt v (x v) * ∏ w ∈ g.nbrs v, g.leg v (x v) (y (v, w))) =
      (∏ v ∈ g.verts, g.vwt v (x v)) * ∏ p ∈ E, (g.leg p.1 (x p.1) (y p) * g.leg p.2 (x p.2) (y p.swap)) := by
    intro y
    rw [Finset.prod_mul_distrib, prod_nbrs (fun p => g.leg p.1 (x p.1) (y p)), ← hH, prod_halves E hElt]
    rfl
  have h3 : ∀ y : ℕ × ℕ → Bool, pairProd g.verts (fun u v => edgeT (g.adj u v) (y (u, v)) (y (v, u))) =
      ∏ p ∈ E, edgeT (g.adj p.1 p.2) (y p) (y p.swap) := by
    intro y
    unfold pairProd
    rw [hE, Finset.prod_filter]
    refine Finset.prod_congr rfl fun p _ => ?_
    cases hp : g.adj p.1 p.2 with
    | none => simp [edgeT, hp]
    | some e => simp [Prod.swap, hp]
  have h4 : pairProd g.verts (g.edgeK x) = ∏ p ∈ E, g.edgeK x p.1 p.2 := by
    unfold pairProd
    rw [hE, Finset.prod_filter]
    refine Finset.prod_congr rfl fun p _ => ?_
    cases hp : g.adj p.1 p.2 with
    | none => simp [edgeK, hp]
    | some e => simp
  simp only [h2, h3]
  rw [h4]
  simp only [mul_assoc]
  rw [psum_const_mul]
  congr 1
  simp only [← Finset.prod_mul_distrib]
  rw [← hH, psum_halves E hElt (fun p a c => g.leg p.1 (x p.1) a * g.leg p.2 (x p.2) c *
    edgeT (g.adj p.1 p.2) a c)]
  refine Finset.prod_congr rfl fun p hp => ?_
  have hs := (Finset.mem_filter.mp hp).2
  unfold edgeK
  cases hq : g.adj p.1 p.2 with
  | none => rw [hq] at hs; simp at hs
  | some e =>
    simp only [edgeT]
    exact edge_contract g p.1 p.2 e (by rintro rfl; exact h.noWio _ _ hq) _ _

end Graph
end PyZX
