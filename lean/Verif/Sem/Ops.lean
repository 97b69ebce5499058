import Verif.Sem.PathSum
import Verif.Props.Scalar

/-!
# Effect of the elementary graph operations on path-sum weights

`wOn g S x` is the weight restricted to the vertices in `S`. Every operation changes it by an explicit factor.
-/

namespace PyZX

open Finset

theorem kern_false_false (a b : Bool) : kern false a b * kern false a b = kern false a b := by
  cases a <;> cases b <;> simp [kern, dmat]

theorem kern_true_true (a b : Bool) : kern true a b * kern true a b = sq2 ^ (-2 : ℤ) := by
  have h : sq2⁻¹ * sq2⁻¹ = sq2 ^ (-2 : ℤ) := by
    rw [show (-2 : ℤ) = -1 + -1 by norm_num, zpow_add₀ sq2_ne_zero, zpow_neg_one]
  rw [← h]
  cases a <;> cases b <;> simp [kern, hmat]

theorem kern_false_true (a b : Bool) :
    kern false a b * kern true a b = kern false a b * (if a then -1 else 1) * sq2 ^ (-1 : ℤ) := by
  rw [zpow_neg_one]
  cases a <;> cases b <;> simp [kern, dmat, hmat]

namespace Graph

/-- Weight restricted to a set of vertices. -/
noncomputable def wOn (g : Graph) (S : Finset ℕ) (x : ℕ → Bool) : ℂ :=
  g.scalar.toNumber * ((∏ v ∈ S, g.vwt v (x v)) * pairProd S (g.edgeK x))

theorem weight_eq_wOn (g : Graph) (x : ℕ → Bool) : g.weight x = g.wOn g.verts x := rfl

theorem edgeK_congr_env {g : Graph} {x y : ℕ → Bool} {u v : ℕ} (hu : x u = y u) (hv : x v = y v) :
    g.edgeK x u v = g.edgeK y u v := by
  unfold edgeK; rw [hu, hv]

theorem wOn_congr_env {g : Graph} {S : Finset ℕ} {x y : ℕ → Bool} (h : ∀ v ∈ S, x v = y v) :
    g.wOn S x = g.wOn S y := by
  unfold wOn
  congr 2
  · exact Finset.prod_congr rfl fun v hv => by rw [h v hv]
  · exact pairProd_congr fun a ha b hb _ => edgeK_congr_env (h a ha) (h b hb)

theorem wOn_congr {g g' : Graph} {S : Finset ℕ} {x : ℕ → Bool} (hs : g'.scalar.toNumber = g.scalar.toNumber)
    (hv : ∀ v ∈ S, g'.vval v = g.vval v) (he : ∀ u ∈ S, ∀ v ∈ S, u < v → g'.edgeK x u v = g.edgeK x u v) :
    g'.wOn S x = g.wOn S x := by
  unfold wOn
  rw [hs]
  congr 2
  · exact Finset.prod_congr rfl fun v h => by unfold vwt; rw [hv v h]
  · exact pairProd_congr fun a ha b hb hab => he a ha b hb hab

theorem wOn_insert {g : Graph} (hg : ∀ u v, g.adj u v = g.adj v u) {S : Finset ℕ} {v : ℕ} (hv : v ∉ S)
    (x : ℕ → Bool) :
    g.wOn (insert v S) x = g.vwt v (x v) * (∏ w ∈ S, g.edgeK x v w) * g.wOn S x := by
  unfold wOn
  rw [Finset.prod_insert hv, pairProd_insert hv (edgeK_comm hg x)]
  ring

theorem wOn_erase {g : Graph} (hg : ∀ u v, g.adj u v = g.adj v u) {S : Finset ℕ} {v : ℕ} (hv : v ∈ S)
    (x : ℕ → Bool) :
    g.wOn S x = g.vwt v (x v) * (∏ w ∈ S.erase v, g.edgeK x v w) * g.wOn (S.erase v) x := by
  conv_lhs => rw [← Finset.insert_erase hv]
  exact wOn_insert hg (Finset.notMem_erase v S) x

/-- The product of kernels at `v` only involves neighbours. -/
theorem prod_edgeK_nbrs {g : Graph} (hg : g.Inv) {v : ℕ} {S : Finset ℕ} (hS : g.nbrs v ⊆ S) (x : ℕ → Bool) :
    ∏ w ∈ S, g.edgeK x v w = ∏ w ∈ g.nbrs v, g.edgeK x v w := by
  symm
  refine Finset.prod_subset hS fun w _ hw => ?_
  rw [mem_nbrs hg, not_not] at hw
  simp [edgeK, hw]

/-! ### Vertex data -/

theorem vval_update_ne {g g' : Graph} {s v : ℕ} (_ : v ≠ s) (ht : g'.ty v = g.ty v)
    (hp : g'.phase v = g.phase v) (hl : g'.label v = g.label v) : g'.vval v = g.vval v := by
  unfold vval; rw [ht, hp, hl]

/-- Changing the value of one vertex in `S` by a factor. -/
theorem wOn_vval_mul {g g' : Graph} {S : Finset ℕ} {x : ℕ → Bool} {s : ℕ} {c : ℂ} (hs : s ∈ S)
    (hsc : g'.scalar.toNumber = g.scalar.toNumber) (hadj : g'.adj = g.adj) (hty : ∀ v, g'.isX v = g.isX v)
    (hv : g'.vval s = g.vval s * c) (ho : ∀ v ∈ S, v ≠ s → g'.vval v = g.vval v) :
    g'.wOn S x = g.wOn S x * (if x s then c else 1) := by
  unfold wOn
  have hp : pairProd S (g'.edgeK x) = pairProd S (g.edgeK x) :=
    pairProd_congr fun a _ b _ _ => by unfold edgeK eff; rw [hadj, hty, hty]
  rw [hsc, hp, ← Finset.mul_prod_erase _ _ hs, ← Finset.mul_prod_erase _ _ hs]
  have h1 : ∏ v ∈ S.erase s, g'.vwt v (x v) = ∏ v ∈ S.erase s, g.vwt v (x v) :=
    Finset.prod_congr rfl fun v hv' => by
      obtain ⟨h1, h2⟩ := Finset.mem_erase.mp hv'
      unfold vwt; rw [ho v h2 h1]
  have h2 : g'.vwt s (x s) = g.vwt s (x s) * (if x s then c else 1) := by
    unfold vwt; split <;> simp [hv]
  rw [h1, h2]; ring

theorem wOn_addToPhase (g : Graph) {S : Finset ℕ} {s : ℕ} (hs : s ∈ S) (hb : g.ty s ≠ .boundary)
    (hz : g.ty s ≠ .zbox) (p : ℚ) (x : ℕ → Bool) :
    (g.addToPhase s p).wOn S x = g.wOn S x * (if x s then ph p else 1) := by
  refine wOn_vval_mul hs rfl rfl (fun _ => rfl) ?_ ?_
  · unfold vval addToPhase
    simp only [Function.update_self]
    cases h : g.ty s <;> simp_all [ph_mod2, ph_add]
  · intro v _ hv
    exact vval_update_ne hv rfl (by simp [addToPhase, hv]) rfl

theorem wOn_addToPhase_notMem (g : Graph) {S : Finset ℕ} {s : ℕ} (hs : s ∉ S) (p : ℚ) (x : ℕ → Bool) :
    (g.addToPhase s p).wOn S x = g.wOn S x := by
  refine wOn_congr rfl ?_ ?_
  · intro v hv
    have : v ≠ s := by rintro rfl; exact hs hv
    exact vval_update_ne this rfl (by simp [addToPhase, this]) rfl
  · intros; rfl

/-- Adding a phase to a boundary vertex has no effect. -/
theorem wOn_addToPhase_boundary (g : Graph) {S : Finset ℕ} {s : ℕ} (hb : g.ty s = .boundary) (p : ℚ) (x : ℕ → Bool) :
    (g.addToPhase s p).wOn S x = g.wOn S x := by
  refine wOn_congr rfl ?_ ?_
  · intro v hv
    by_cases h : v = s
    · subst h; simp [vval, addToPhase, hb]
    · exact vval_update_ne h rfl (by simp [addToPhase, h]) rfl
  · intros; rfl

theorem wOn_setLabel_neg (g : Graph) {S : Finset ℕ} {s : ℕ} (hs : s ∈ S) (hz : g.ty s = .zbox) (x : ℕ → Bool) :
    (g.setLabel s (g.label s * (-1))).wOn S x = g.wOn S x * (if x s then -1 else 1) := by
  refine wOn_vval_mul hs rfl rfl (fun _ => rfl) ?_ ?_
  · simp [vval, setLabel, hz]
  · intro v _ hv
    exact vval_update_ne hv rfl rfl (by simp [setLabel, hv])

theorem wOn_addPower (g : Graph) (S : Finset ℕ) (n : ℤ) (x : ℕ → Bool) :
    (g.addPower n).wOn S x = g.wOn S x * sq2 ^ n := by
  unfold wOn
  show (g.scalar.addPower n).toNumber * _ = _
  rw [Scalar.addPower_toNumber]
  show _ * ((∏ v ∈ S, g.vwt v (x v)) * pairProd S (g.edgeK x)) = _
  ring

theorem wOn_addScalarPhase (g : Graph) (S : Finset ℕ) (p : ℚ) (x : ℕ → Bool) :
    (g.addScalarPhase p).wOn S x = g.wOn S x * ph p := by
  unfold wOn
  show (g.scalar.addPhase p).toNumber * _ = _
  rw [Scalar.addPhase_toNumber]
  show _ * ((∏ v ∈ S, g.vwt v (x v)) * pairProd S (g.edgeK x)) = _
  ring

/-! ### Edges -/

theorem setAdj_adj_self (g : Graph) (s t : ℕ) (e : Option EType) : (g.setAdj s t e).adj s t = e := by
  simp [setAdj]

theorem setAdj_adj_other (g : Graph) {s t a b : ℕ} (e : Option EType) (h1 : ¬ (a = s ∧ b = t))
    (h2 : ¬ (a = t ∧ b = s)) : (g.setAdj s t e).adj a b = g.adj a b := by
  simp [setAdj, h1, h2]

theorem setAdj_symm {g : Graph} (h : ∀ u v, g.adj u v = g.adj v u) (s t : ℕ) (e : Option EType) :
    ∀ u v, (g.setAdj s t e).adj u v = (g.setAdj s t e).adj v u := by
  intro u v
  simp only [setAdj]
  by_cases h1 : (u = s ∧ v = t) ∨ (u = t ∧ v = s)
  · rw [if_pos h1, if_pos (by tauto)]
  · rw [if_neg h1, if_neg (by tauto), h]

/-- Changing one edge multiplies the weight by the ratio of the kernels. -/
theorem wOn_setAdj {g : Graph} (hg : ∀ u v, g.adj u v = g.adj v u) {S : Finset ℕ} {s t : ℕ} (hs : s ∈ S) (ht : t ∈ S)
    (hst : s ≠ t) (e : Option EType) (x : ℕ → Bool) {c : ℂ}
    (hc : (g.setAdj s t e).edgeK x s t = g.edgeK x s t * c) :
    (g.setAdj s t e).wOn S x = g.wOn S x * c := by
  unfold wOn
  rw [pairProd_single hs ht hst (edgeK_comm hg x) (edgeK_comm (setAdj_symm hg s t e) x) hc]
  · show g.scalar.toNumber * ((∏ v ∈ S, g.vwt v (x v)) * _) = _
    ring
  · intro u w h1 h2
    unfold edgeK
    rw [setAdj_adj_other g e h1 h2]
    rfl

/-- The four ways in which `add_edge` can succeed. -/
theorem addEdge_cases {g g' : Graph} {s t : ℕ} {e : EType} (h : g.addEdge s t e = some g') :
    s ∈ g.verts ∧
    ((g.adj s t = none ∧ t ∈ g.verts ∧ g' = { g.setAdj s t (some e) with nedges := g.nedges + 1 }) ∨
     (∃ e1, g.adj s t = some e1 ∧ (g.ty s).zxLike ∧ (g.ty t).zxLike ∧
        ((g.eff s t e = false ∧ g.eff s t e1 = false ∧ g' = g) ∨
         (xor (g.eff s t e) (g.eff s t e1) = true ∧ ∃ f, f ≠ EType.wio ∧ g.eff s t f = false ∧
            g' = (if g.ty s = .zbox then (g.setAdj s t (some f)).setLabel s ((g.setAdj s t (some f)).label s * (-1))
              else (g.setAdj s t (some f)).addToPhase s 1).addPower (-1)) ∨
         (g.eff s t e = true ∧ g.eff s t e1 = true ∧ s ≠ t ∧
            g' = Graph.addPower { g.setAdj s t none with nedges := g.nedges - 1 } (-2))))) := by
  unfold addEdge at h
  split at h
  · exact absurd h (by simp)
  · next hs =>
    rw [not_not] at hs
    refine ⟨hs, ?_⟩
    split at h
    · next hn =>
      split at h
      · exact absurd h (by simp)
      · next ht =>
        rw [not_not] at ht
        exact Or.inl ⟨hn, ht, (Option.some.inj h).symm⟩
    · next e1 hn =>
      right
      refine ⟨e1, hn, ?_⟩
      split at h
      · next hz =>
        refine ⟨hz.1, hz.2, ?_⟩
        have hcol : ((g.ty s).zLike = (g.ty t).zLike) ↔ xor (g.isX s) (g.isX t) = false := by
          unfold isX
          obtain ⟨h1, h2⟩ := hz
          cases hs' : g.ty s <;> cases ht' : g.ty t <;> simp_all [VType.zLike, VType.zxLike]
        by_cases hsame : (g.ty s).zLike = (g.ty t).zLike
        · have hx := hcol.mp hsame
          have eff_eq : ∀ f, g.eff s t f = decide (f = .had) := by
            intro f; unfold eff; rw [hx]; simp
          simp only [hsame, if_true] at h
          split at h
          · next h1 =>
            obtain ⟨rfl, rfl⟩ := h1
            exact Or.inl ⟨by simp [eff_eq], by simp [eff_eq], (Option.some.inj h).symm⟩
          · split at h
            · next h1 =>
              refine Or.inr (Or.inl ⟨?_, .simple, by simp, by simp [eff_eq], ?_⟩)
              · rw [eff_eq, eff_eq]
                rcases h1 with ⟨rfl, rfl⟩ | ⟨rfl, rfl⟩ <;> simp
              · rw [← Option.some.inj h]
                rfl
            · split at h
              · next h1 =>
                obtain ⟨rfl, rfl⟩ := h1
                unfold removeEdge at h
                split at h
                · simp at h
                · next h2 =>
                  push Not at h2
                  simp only [Option.map_some] at h
                  exact Or.inr (Or.inr ⟨by simp [eff_eq], by simp [eff_eq], h2.2, (Option.some.inj h).symm⟩)
              · simp at h
        · have hx : xor (g.isX s) (g.isX t) = true := by
            by_contra hne
            exact hsame (hcol.mpr (by simpa using hne))
          have eff_eq : ∀ f, g.eff s t f = !decide (f = .had) := by
            intro f; unfold eff; rw [hx]; simp
          simp only [hsame, if_false] at h
          split at h
          · next h1 =>
            obtain ⟨rfl, rfl⟩ := h1
            exact Or.inl ⟨by simp [eff_eq], by simp [eff_eq], (Option.some.inj h).symm⟩
          · split at h
            · next h1 =>
              refine Or.inr (Or.inl ⟨?_, .had, by simp, by simp [eff_eq], ?_⟩)
              · rw [eff_eq, eff_eq]
                rcases h1 with ⟨rfl, rfl⟩ | ⟨rfl, rfl⟩ <;> simp
              · rw [← Option.some.inj h]
                rfl
            · split at h
              · next h1 =>
                obtain ⟨rfl, rfl⟩ := h1
                unfold removeEdge at h
                split at h
                · simp at h
                · next h2 =>
                  push Not at h2
                  simp only [Option.map_some] at h
                  exact Or.inr (Or.inr ⟨by simp [eff_eq], by simp [eff_eq], h2.2, (Option.some.inj h).symm⟩)
              · simp at h
      · simp at h

/-- The data of a graph that `add_edge` leaves alone. -/
structure SameFrame (g g' : Graph) : Prop where
  verts : g'.verts = g.verts
  ty : g'.ty = g.ty
  vindex : g'.vindex = g.vindex
  inputs : g'.inputs = g.inputs
  outputs : g'.outputs = g.outputs

theorem SameFrame.refl (g : Graph) : SameFrame g g := ⟨rfl, rfl, rfl, rfl, rfl⟩

theorem SameFrame.trans {g g' g'' : Graph} (h : SameFrame g g') (h' : SameFrame g' g'') : SameFrame g g'' :=
  ⟨h'.1.trans h.1, h'.2.trans h.2, h'.3.trans h.3, h'.4.trans h.4, h'.5.trans h.5⟩

theorem SameFrame.eff {g g' : Graph} (h : SameFrame g g') (u v : ℕ) (e : EType) : g'.eff u v e = g.eff u v e := by
  unfold Graph.eff isX; rw [h.ty]

theorem SameFrame.interior {g g' : Graph} (h : SameFrame g g') : g'.interior = g.interior := by
  unfold Graph.interior; rw [h.ty, h.verts]

theorem addEdge_frame {g g' : Graph} {s t : ℕ} {e : EType} (h : g.addEdge s t e = some g') : SameFrame g g' := by
  obtain ⟨-, ⟨-, -, rfl⟩ | ⟨e1, -, -, -, ⟨-, -, rfl⟩ | ⟨-, f, -, -, rfl⟩ | ⟨-, -, -, rfl⟩⟩⟩ := addEdge_cases h
  · exact ⟨rfl, rfl, rfl, rfl, rfl⟩
  · exact SameFrame.refl _
  · split <;> exact ⟨rfl, rfl, rfl, rfl, rfl⟩
  · exact ⟨rfl, rfl, rfl, rfl, rfl⟩

theorem edgeK_some {g : Graph} {x : ℕ → Bool} {u v : ℕ} {e : EType} (h : g.adj u v = some e) :
    g.edgeK x u v = kern (g.eff u v e) (x u) (x v) := by
  unfold edgeK; rw [h]

theorem edgeK_none {g : Graph} {x : ℕ → Bool} {u v : ℕ} (h : g.adj u v = none) :
    g.edgeK x u v = 1 := by
  unfold edgeK; rw [h]

/-- `add_edge` multiplies every weight by the kernel of the added edge: exactly as if the parallel edge
were present. -/
theorem wOn_addEdge {g g' : Graph} {s t : ℕ} {e : EType} (h : g.addEdge s t e = some g')
    (hg : ∀ u v, g.adj u v = g.adj v u) {S : Finset ℕ} (hs : s ∈ S) (ht : t ∈ S) (hst : s ≠ t)
    (x : ℕ → Bool) :
    g'.wOn S x = g.wOn S x * kern (g.eff s t e) (x s) (x t) := by
  obtain ⟨-, ⟨hn, -, rfl⟩ | ⟨e1, hn, hzs, hzt, ⟨h1, h2, rfl⟩ | ⟨h1, f, -, hf, rfl⟩ | ⟨h1, h2, -, rfl⟩⟩⟩ := addEdge_cases h
  · refine wOn_setAdj hg hs ht hst (some e) x ?_
    rw [edgeK_none hn, edgeK_some (setAdj_adj_self g s t (some e)), one_mul]
    rfl
  · rw [h1]
    have hst' : t ∈ S.erase s := Finset.mem_erase.mpr ⟨Ne.symm hst, ht⟩
    rw [wOn_erase hg hs, ← Finset.mul_prod_erase _ _ hst', edgeK_some hn, h2]
    have := kern_false_false (x s) (x t)
    linear_combination (-(g'.vwt s (x s) * (∏ w ∈ (S.erase s).erase t, g'.edgeK x s w) * g'.wOn (S.erase s) x)) * this
  · have hkk : kern (g.eff s t e1) (x s) (x t) * kern (g.eff s t e) (x s) (x t) =
        kern false (x s) (x t) * ((if x s then -1 else 1) * sq2 ^ (-1 : ℤ)) := by
      rw [← mul_assoc, ← kern_false_true]
      cases he : g.eff s t e <;> cases he1 : g.eff s t e1 <;> simp_all
      exact mul_comm _ _
    have hst' : t ∈ S.erase s := Finset.mem_erase.mpr ⟨Ne.symm hst, ht⟩
    set g1 := g.setAdj s t (some f) with hg1
    have e1' : (if g.ty s = .zbox then g1.setLabel s (g1.label s * (-1)) else g1.addToPhase s 1).wOn S x =
        g1.wOn S x * (if x s then -1 else 1) := by
      split
      · next hz => exact wOn_setLabel_neg g1 hs hz x
      · next hz =>
        rw [wOn_addToPhase g1 hs _ hz, ph_one]
        show g.ty s ≠ _
        intro hb; rw [hb] at hzs; exact absurd hzs (by simp [VType.zxLike, VType.zLike])
    have e2 : g1.wOn S x * ((if x s then -1 else 1) * sq2 ^ (-1 : ℤ)) =
        g.wOn S x * kern (g.eff s t e) (x s) (x t) := by
      have hg1s : ∀ u v, g1.adj u v = g1.adj v u := setAdj_symm hg s t _
      rw [wOn_erase hg hs, ← Finset.mul_prod_erase _ _ hst', edgeK_some hn,
        wOn_erase hg1s hs, ← Finset.mul_prod_erase _ _ hst', edgeK_some (setAdj_adj_self g s t (some f))]
      have hf' : g1.eff s t f = false := hf
      have hv : g1.vwt s (x s) = g.vwt s (x s) := rfl
      have hp : ∏ w ∈ (S.erase s).erase t, g1.edgeK x s w = ∏ w ∈ (S.erase s).erase t, g.edgeK x s w := by
        refine Finset.prod_congr rfl fun w hw => ?_
        unfold edgeK
        rw [hg1, setAdj_adj_other]
        · rfl
        · rintro ⟨-, rfl⟩; simp at hw
        · rintro ⟨h, -⟩; exact hst h
      have hw : g1.wOn (S.erase s) x = g.wOn (S.erase s) x := by
        refine wOn_congr rfl (fun _ _ => rfl) fun u hu v hv _ => ?_
        unfold edgeK
        rw [hg1, setAdj_adj_other]
        · rfl
        · rintro ⟨rfl, -⟩; simp at hu
        · rintro ⟨-, rfl⟩; simp at hv
      rw [hf', hv, hp, hw]
      linear_combination (-(g.vwt s (x s) * (∏ w ∈ (S.erase s).erase t, g.edgeK x s w) * g.wOn (S.erase s) x)) * hkk
    rw [wOn_addPower, e1', ← e2]
    ring
  · rw [wOn_addPower]
    have hkk := kern_true_true (x s) (x t)
    have e2 : ({ g.setAdj s t none with nedges := g.nedges - 1 } : Graph).wOn S x * kern true (x s) (x t) = g.wOn S x := by
      have hg1s : ∀ u v, (g.setAdj s t none).adj u v = (g.setAdj s t none).adj v u := setAdj_symm hg s t _
      have hst' : t ∈ S.erase s := Finset.mem_erase.mpr ⟨Ne.symm hst, ht⟩
      have hw := wOn_setAdj (g := g.setAdj s t none) hg1s hs ht hst (some e1) x (c := kern true (x s) (x t)) (by
        rw [edgeK_none (setAdj_adj_self g s t none), edgeK_some (setAdj_adj_self _ s t (some e1)), one_mul]
        show kern (g.eff s t e1) _ _ = _
        rw [h2])
      have hback : (g.setAdj s t none).setAdj s t (some e1) = g := by
        have : ((g.setAdj s t none).setAdj s t (some e1)).adj = g.adj := by
          funext a b
          simp only [setAdj]
          split
          · next hab =>
            rcases hab with ⟨rfl, rfl⟩ | ⟨rfl, rfl⟩
            · exact hn.symm
            · rw [hg]; exact hn.symm
          · rfl
        have h0 : (g.setAdj s t none).setAdj s t (some e1) = { g with adj := ((g.setAdj s t none).setAdj s t (some e1)).adj } := rfl
        rw [h0, this]
      rw [hback] at hw
      rw [hw]
      rfl
    rw [← e2, h1, mul_assoc, hkk]

end Graph
end PyZX
