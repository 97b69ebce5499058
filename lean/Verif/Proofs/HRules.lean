import Verif.Model.HRules
import Verif.Sem.PathSumH
import Verif.Sem.Total

/-! # Conversion of H-boxes to Hadamard edges: helper lemmas -/

namespace PyZX
open Finset

namespace Graph

/-- Changing the edge between `s` and `t`, the weight of `s` and the scalar. -/
theorem wH_ratio {g g' : Graph} (hg : ∀ u v, g.adj u v = g.adj v u) (hg' : ∀ u v, g'.adj u v = g'.adj v u) {S : Finset ℕ} {s t : ℕ}
    (hs : s ∈ S) (ht : t ∈ S) (hst : s ≠ t) {x : ℕ → Bool} {c : ℂ} (hv : ∀ v, v ≠ s → g'.wtH v (x v) = g.wtH v (x v))
    (he : ∀ u w, ¬ (u = s ∧ w = t) → ¬ (u = t ∧ w = s) → g'.edgeH x u w = g.edgeH x u w)
    (key : g'.scalar.toNumber * g'.wtH s (x s) * g'.edgeH x s t = g.scalar.toNumber * g.wtH s (x s) * g.edgeH x s t * c) :
    g'.wH S x = g.wH S x * c := by
  have hS : S = insert s (S.erase s) := (Finset.insert_erase hs).symm
  have htS : t ∈ S.erase s := Finset.mem_erase.mpr ⟨Ne.symm hst, ht⟩
  have hn := Finset.notMem_erase s S
  have e1 : ∏ v ∈ S.erase s, g'.wtH v (x v) = ∏ v ∈ S.erase s, g.wtH v (x v) :=
    Finset.prod_congr rfl fun v h => hv v (Finset.ne_of_mem_erase h)
  have e2 : pairProd (S.erase s) (g'.edgeH x) = pairProd (S.erase s) (g.edgeH x) :=
    pairProd_congr fun a ha b hb _ => he a b (by rintro ⟨rfl, -⟩; exact hn ha) (by rintro ⟨-, rfl⟩; exact hn hb)
  have e3 : ∏ w ∈ (S.erase s).erase t, g'.edgeH x s w = ∏ w ∈ (S.erase s).erase t, g.edgeH x s w :=
    Finset.prod_congr rfl fun w hw => he s w (by rintro ⟨-, rfl⟩; exact Finset.notMem_erase _ _ hw) (by rintro ⟨h, -⟩; exact hst h)
  unfold wH
  rw [hS, Finset.prod_insert hn, Finset.prod_insert hn, pairProd_insert hn (edgeH_comm hg' x), pairProd_insert hn (edgeH_comm hg x),
    ← Finset.mul_prod_erase _ (fun w => g'.edgeH x s w) htS, ← Finset.mul_prod_erase _ (fun w => g.edgeH x s w) htS, e1, e2, e3]
  linear_combination ((∏ v ∈ S.erase s, g.wtH v (x v)) * (∏ w ∈ (S.erase s).erase t, g.edgeH x s w) * pairProd (S.erase s) (g.edgeH x)) * key

theorem legT_zx {g : Graph} {v : ℕ} (h : (g.ty v).zxLike) (c a : Bool) : legT (g.ty v) c a = g.leg v c a := by
  unfold leg isX
  cases ht : g.ty v <;> rw [ht] at h <;> simp_all [VType.zxLike, VType.zLike, legT]

/-- Between spiders the kernel is that of the path sums of `Verif.Sem.PathSum`. -/
theorem contr_zx {g : Graph} {s t : ℕ} (hs : (g.ty s).zxLike) (ht : (g.ty t).zxLike) (e : EType) (a b : Bool) :
    contr e (legT (g.ty s) a) (legT (g.ty t) b) = kern (g.eff s t e) a b := by
  have key : ∀ e, e ≠ EType.wio → contr e (legT (g.ty s) a) (legT (g.ty t) b) = kern (g.eff s t e) a b := by
    intro e he
    rw [← edge_contract g s t e he a b]
    unfold contr
    simp only [legT_zx hs, legT_zx ht]
  by_cases he : e = .wio
  · subst he
    have h1 : contr .wio (legT (g.ty s) a) (legT (g.ty t) b) = contr .simple (legT (g.ty s) a) (legT (g.ty t) b) := rfl
    rw [h1, key .simple (by decide)]
    rfl
  · exact key e he

theorem edgeH_some {g : Graph} {x : ℕ → Bool} {u v : ℕ} {e : EType} (h : g.adj u v = some e) :
    g.edgeH x u v = contr e (legT (g.ty u) (x u)) (legT (g.ty v) (x v)) := by
  unfold edgeH; rw [h]

theorem edgeH_none {g : Graph} {x : ℕ → Bool} {u v : ℕ} (h : g.adj u v = none) : g.edgeH x u v = 1 := by
  unfold edgeH; rw [h]

/-- `add_edge` multiplies every weight by the kernel of the added edge, also when the diagram contains H-boxes. -/
theorem wH_addEdge {g g' : Graph} {s t : ℕ} {e : EType} (h : g.addEdge s t e = some g') (hg : ∀ u v, g.adj u v = g.adj v u)
    {S : Finset ℕ} (hs : s ∈ S) (ht : t ∈ S) (hst : s ≠ t) (x : ℕ → Bool) :
    g'.wH S x = g.wH S x * contr e (legT (g.ty s) (x s)) (legT (g.ty t) (x t)) := by
  obtain ⟨-, ⟨hn, -, rfl⟩ | ⟨e1, hn, hzs, hzt, ⟨h1, h2, rfl⟩ | ⟨h1, f, -, hf, rfl⟩ | ⟨h1, h2, -, rfl⟩⟩⟩ := addEdge_cases h
  · refine wH_ratio hg (setAdj_symm hg s t (some e)) hs ht hst (fun _ _ => rfl) (fun u w a b => ?_) ?_
    · unfold edgeH
      rw [show ({ g.setAdj s t (some e) with nedges := g.nedges + 1 } : Graph).adj u w = g.adj u w from setAdj_adj_other g _ a b]
      rfl
    · have e1 : (g.setAdj s t (some e)).edgeH x s t =
          contr e (legT (g.ty s) (x s)) (legT (g.ty t) (x t)) := edgeH_some (setAdj_adj_self g s t (some e))
      rw [e1, edgeH_none hn, mul_one]
      rfl
  · refine wH_ratio hg hg hs ht hst (fun _ _ => rfl) (fun _ _ _ _ => rfl) ?_
    rw [edgeH_some hn, contr_zx hzs hzt, contr_zx hzs hzt, h1, h2, mul_assoc _ (kern _ _ _), kern_false_false]
  · have hkk : kern (g.eff s t e1) (x s) (x t) * kern (g.eff s t e) (x s) (x t) =
        kern false (x s) (x t) * ((if x s then -1 else 1) * sq2 ^ (-1 : ℤ)) := by
      rw [← mul_assoc, ← kern_false_true]
      cases he : g.eff s t e <;> cases he1 : g.eff s t e1 <;> simp_all
      exact mul_comm _ _
    set g2 := (if g.ty s = .zbox then (g.setAdj s t (some f)).setLabel s ((g.setAdj s t (some f)).label s * (-1))
      else (g.setAdj s t (some f)).addToPhase s 1) with hg2
    have a2 : g2.adj = (g.setAdj s t (some f)).adj := by rw [hg2]; split <;> rfl
    have t2 : g2.ty = g.ty := by rw [hg2]; split <;> rfl
    have s2 : (g2.addPower (-1)).scalar.toNumber = g.scalar.toNumber * sq2 ^ (-1 : ℤ) := by
      have : g2.scalar = g.scalar := by rw [hg2]; split <;> rfl
      show (g2.scalar.addPower (-1)).toNumber = _
      rw [Scalar.addPower_toNumber, this]
    refine wH_ratio hg (by intro u v; show g2.adj u v = g2.adj v u; rw [a2]; exact setAdj_symm hg s t _ u v) hs ht hst (fun v hv => ?_)
      (fun u w a b => ?_) ?_
    · show g2.wtH v (x v) = _
      unfold wtH
      rw [t2]
      have p2 : g2.phase v = g.phase v := by rw [hg2]; split <;> simp [setLabel, addToPhase, setAdj, hv]
      have l2 : g2.label v = g.label v := by rw [hg2]; split <;> simp [setLabel, addToPhase, setAdj, hv]
      rw [p2, l2]
    · show g2.edgeH x u w = _
      unfold edgeH
      rw [a2, t2, setAdj_adj_other g _ a b]
    · have w2 : g2.wtH s (x s) = g.wtH s (x s) * (if x s then -1 else 1) := by
        unfold wtH wtT
        rw [t2]
        cases hx : x s
        · simp
        · simp only [if_true]
          by_cases hz : g.ty s = .zbox
          · rw [hz, hg2, if_pos hz]
            simp [setLabel, setAdj]
          · rw [hg2, if_neg hz]
            cases hty : g.ty s <;> rw [hty] at hzs hz <;> simp_all [VType.zxLike, VType.zLike, addToPhase, setAdj, ph_mod2, ph_add, ph_one]
      have k2 : g2.edgeH x s t = kern false (x s) (x t) := by
        rw [edgeH_some (e := f) (by rw [a2]; exact setAdj_adj_self g s t (some f)), t2, contr_zx hzs hzt, hf]
      rw [s2, show (g2.addPower (-1)).wtH s (x s) = g2.wtH s (x s) from rfl, show (g2.addPower (-1)).edgeH x s t = g2.edgeH x s t from rfl, w2, k2,
        edgeH_some hn, contr_zx hzs hzt, contr_zx hzs hzt]
      linear_combination (-(g.scalar.toNumber * g.wtH s (x s))) * hkk
  · set g2 : Graph := { g.setAdj s t none with nedges := g.nedges - 1 } with hg2
    have s2 : (g2.addPower (-2)).scalar.toNumber = g.scalar.toNumber * sq2 ^ (-2 : ℤ) := by
      show (g.scalar.addPower (-2)).toNumber = _
      rw [Scalar.addPower_toNumber]
    refine wH_ratio (g' := g2.addPower (-2)) hg (setAdj_symm hg s t none) hs ht hst (fun _ _ => rfl) (fun u w a b => ?_) ?_
    · show g2.edgeH x u w = _
      unfold edgeH
      rw [show g2.adj u w = g.adj u w from setAdj_adj_other g _ a b]
      rfl
    · rw [s2, show (g2.addPower (-2)).wtH s (x s) = g.wtH s (x s) from rfl, show (g2.addPower (-2)).edgeH x s t = g2.edgeH x s t from rfl,
        edgeH_none (g := g2) (setAdj_adj_self g s t none), edgeH_some hn, contr_zx hzs hzt, contr_zx hzs hzt, h1, h2, mul_assoc _ (kern _ _ _),
        kern_true_true]
      ring

/-- Kernel of an entry of an edge table. -/
noncomputable def keyH (g : Graph) (x : ℕ → Bool) (k p : ℕ × ℕ) : ℂ :=
  contr .simple (legT (g.ty k.1) (x k.1)) (legT (g.ty k.2) (x k.2)) ^ p.1 * contr .had (legT (g.ty k.1) (x k.1)) (legT (g.ty k.2) (x k.2)) ^ p.2

theorem addEdgeN_specH {g g' : Graph} {s t n : ℕ} {e : EType} (h : g.addEdgeN s t e n = some g') (hg : g.Inv) (hst : s ≠ t) :
    g'.Inv ∧ SameFrame g g' ∧ ∀ (S : Finset ℕ) (x : ℕ → Bool), s ∈ S → t ∈ S →
      g'.wH S x = g.wH S x * contr e (legT (g.ty s) (x s)) (legT (g.ty t) (x t)) ^ n := by
  induction n generalizing g with
  | zero =>
    simp only [addEdgeN, Option.some.injEq] at h
    subst h
    exact ⟨hg, SameFrame.refl _, by simp⟩
  | succ n ih =>
    simp only [addEdgeN] at h
    obtain ⟨g1, h1, h2⟩ := Option.bind_eq_some_iff.mp h
    obtain ⟨hw, hf, hk⟩ := ih h2 (hg.addEdge h1 hst)
    have hf1 := addEdge_frame h1
    refine ⟨hw, hf1.trans hf, fun S x hs ht => ?_⟩
    rw [hk S x hs ht, wH_addEdge h1 hg.symm hs ht hst, hf1.ty]
    ring

/-- `add_edge_table` multiplies every weight by the kernel of the table. -/
theorem addEdgeTable_specH {g g' : Graph} {t : ETab} (h : g.addEdgeTable t = some g') (hg : g.Inv) {S : Finset ℕ}
    (hk : ∀ e ∈ t, e.1.1 ∈ S ∧ e.1.2 ∈ S ∧ e.1.1 ≠ e.1.2) :
    g'.Inv ∧ SameFrame g g' ∧ ∀ (x : ℕ → Bool), g'.wH S x = g.wH S x * (t.map fun e => g.keyH x e.1 e.2).prod := by
  induction t generalizing g with
  | nil =>
    simp only [addEdgeTable, List.foldlM_nil, Option.pure_def, Option.some.injEq] at h
    subst h
    exact ⟨hg, SameFrame.refl _, by simp⟩
  | cons e t ih =>
    obtain ⟨g1, g2, h1, h2, h3⟩ := addEdgeTable_cons h
    obtain ⟨k1, k2, k3⟩ := hk e (by simp)
    obtain ⟨hw1, hf1, hk1⟩ := addEdgeN_specH h1 hg k3
    obtain ⟨hw2, hf2, hk2⟩ := addEdgeN_specH h2 hw1 k3
    obtain ⟨hw, hf, hk3⟩ := ih h3 hw2 (fun e he => hk e (by simp [he]))
    have hff := hf1.trans hf2
    refine ⟨hw, hff.trans hf, fun x => ?_⟩
    rw [hk3 x, hk2 S x k1 k2, hk1 S x k1 k2, hf1.ty, List.map_cons, List.prod_cons]
    have : ∀ e : (ℕ × ℕ) × (ℕ × ℕ), g2.keyH x e.1 e.2 = g.keyH x e.1 e.2 := fun e => by unfold keyH; rw [hff.ty]
    simp only [this]
    unfold keyH
    ring

/-! ### Summing out removed vertices -/

/-- Local weight of a vertex. -/
noncomputable def localH (g : Graph) (v : ℕ) (x : ℕ → Bool) : ℂ := g.wtH v (x v) * ∏ w ∈ g.nbrs v, g.edgeH x v w

theorem localH_insens {g : Graph} {v : ℕ} {R : Finset ℕ} (hv : v ∉ R) (hn : Disjoint (g.nbrs v) R) : Insens (g.localH v) R := by
  intro x y hxy
  unfold localH
  rw [hxy v hv]
  congr 1
  exact Finset.prod_congr rfl fun w hw => edgeH_congr_env (hxy v hv) (hxy w (Finset.disjoint_left.mp hn hw))

theorem wH_peel {g : Graph} (hg : g.Inv) (vs : List ℕ) (hn : vs.Nodup) {S : Finset ℕ} (hS : ∀ v ∈ vs, v ∈ S)
    (hnb : ∀ v ∈ vs, g.nbrs v ⊆ S \ vs.toFinset) (x : ℕ → Bool) :
    g.wH S x = g.wH (S \ vs.toFinset) x * (vs.map fun v => g.localH v x).prod := by
  induction vs generalizing S with
  | nil => simp
  | cons v vs ih =>
    have hv := List.nodup_cons.mp hn
    have e0 : g.wH S x = g.wtH v (x v) * (∏ w ∈ S.erase v, g.edgeH x v w) * g.wH (S.erase v) x := by
      conv_lhs => rw [← Finset.insert_erase (hS v (by simp))]
      exact wH_insert hg.symm (Finset.notMem_erase v S) x
    have e1 : ∏ w ∈ S.erase v, g.edgeH x v w = ∏ w ∈ g.nbrs v, g.edgeH x v w := by
      symm
      refine Finset.prod_subset ?_ fun w _ hw => ?_
      · intro u hu
        have := hnb v (by simp) hu
        simp only [List.toFinset_cons, Finset.mem_sdiff, Finset.mem_insert, not_or, Finset.mem_erase] at *
        tauto
      · rw [mem_nbrs hg, not_not] at hw
        exact edgeH_none hw
    rw [e0, e1, ih hv.2 (S := S.erase v)]
    · have : S.erase v \ vs.toFinset = S \ (v :: vs).toFinset := by
        ext w; simp only [List.toFinset_cons, Finset.mem_sdiff, Finset.mem_erase, Finset.mem_insert]; tauto
      rw [this]
      simp only [List.map_cons, List.prod_cons, localH]
      ring
    · intro w hw
      refine Finset.mem_erase.mpr ⟨?_, hS w (by simp [hw])⟩
      rintro rfl; exact hv.1 hw
    · intro w hw u hu
      have := hnb w (by simp [hw]) hu
      simp only [List.toFinset_cons, Finset.mem_sdiff, Finset.mem_insert, not_or, Finset.mem_erase] at *
      tauto

/-- Summing out pairwise non-adjacent vertices. -/
theorem psum_singlesH {g : Graph} (hg : g.Inv) (ms : List ℕ) (hn : ms.Nodup) (hmem : ∀ m ∈ ms, m ∈ g.verts)
    (hind : ∀ m ∈ ms, ∀ m' ∈ ms, m' ∉ g.nbrs m) (x : ℕ → Bool) :
    psum ms.toFinset (g.wH g.verts) x = g.wH (g.verts \ ms.toFinset) x * (ms.map fun m => psum {m} (g.localH m) x).prod := by
  have hW : g.wH g.verts = fun y => g.wH (g.verts \ ms.toFinset) y * (ms.map fun m => g.localH m y).prod := by
    funext y
    rw [wH_peel hg ms hn hmem]
    intro v hv w hw
    refine Finset.mem_sdiff.mpr ⟨(Finset.mem_filter.mp hw).1, ?_⟩
    intro hw'
    exact hind v hv w (List.mem_toFinset.mp hw') hw
  have hfold : ms.foldr (fun i s => ({i} : Finset ℕ) ∪ s) ∅ = ms.toFinset := by
    have := foldr_singletons ms id
    simpa using this
  rw [hW, ← hfold]
  have hdisj : ms.Pairwise fun i j => Disjoint ({i} : Finset ℕ) {j} := hn.imp fun {a b} hab => by simpa using hab
  have hmemP : ms.Pairwise fun i j => i ∈ ms ∧ j ∈ ms := by
    rw [List.pairwise_iff_forall_sublist]
    intro a b hab
    exact ⟨hab.subset (by simp), hab.subset (by simp)⟩
  refine psum_batch ms (fun m => {m}) (fun m => g.localH m) _ hdisj ?_ ?_ x
  · intro m hm a b hab
    refine wH_congr_env fun v hv => hab v ?_
    rw [hfold] at hv
    simp only [Finset.mem_sdiff, List.mem_toFinset] at hv
    rw [Finset.mem_singleton]
    rintro rfl
    exact hv.2 hm
  · refine (hdisj.and hmemP).imp ?_
    rintro a b ⟨h1, ha, hb⟩
    rw [Finset.disjoint_singleton_right, Finset.mem_singleton] at h1
    constructor
    · refine localH_insens (by simpa using fun h => h1 h.symm) ?_
      rw [Finset.disjoint_singleton_right]
      exact hind a ha b hb
    · refine localH_insens (by simpa using h1) ?_
      rw [Finset.disjoint_singleton_right]
      exact hind b hb a ha

/-- An H-box with two legs and phase 1 is a Hadamard gate times √2. -/
theorem had_contr {e1 e2 : EType} (h1 : e1 ≠ .wio) (h2 : e2 ≠ .wio) (α β : Bool → ℂ) :
    contr e1 (legT .hbox false) α * contr e2 (legT .hbox false) β - 2 * (contr e1 (legT .hbox true) α * contr e2 (legT .hbox true) β) =
      sq2 * contr (if e1 = e2 then .had else .simple) α β := by
  have hs : sq2⁻¹ * sq2⁻¹ = (1 / 2 : ℂ) := by
    rw [← mul_inv, sq2_mul_self]; norm_num
  have hi : sq2 * sq2⁻¹ = 1 := mul_inv_cancel₀ sq2_ne_zero
  have hsq : sq2 = 2 * sq2⁻¹ := by
    have := sq2_mul_self
    linear_combination sq2⁻¹ * this - sq2 * hi
  cases e1 <;> cases e2 <;> first | exact absurd rfl h1 | exact absurd rfl h2 | skip
  · simp [contr, legT, edgeMat, dmat, hmat]
    linear_combination (-(α false * β false + α false * β true + α true * β false - α true * β true)) * hi
  · simp [contr, legT, edgeMat, dmat, hmat]
    linear_combination (-(α false * β false + α true * β true)) * hsq
  · simp [contr, legT, edgeMat, dmat, hmat]
    linear_combination (-(α false * β false + α true * β true)) * hsq
  · simp [contr, legT, edgeMat, dmat, hmat]
    linear_combination (2 * (α false * β false + α false * β true + α true * β false - α true * β true)) * hs - (α false * β false + α false * β true + α true * β false - α true * β true) * hi

end Graph
end PyZX
