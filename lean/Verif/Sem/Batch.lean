import Verif.Sem.OpsInv
import Verif.Model.Rule

/-!
# Edge tables and simultaneous application of several matches
-/

namespace PyZX

open Finset

namespace Graph

/-- Kernel of `ns` simple and `nh` Hadamard edges between `k.1` and `k.2`. -/
noncomputable def keyK (g : Graph) (x : ℕ → Bool) (k p : ℕ × ℕ) : ℂ :=
  kern (g.eff k.1 k.2 .simple) (x k.1) (x k.2) ^ p.1 * kern (g.eff k.1 k.2 .had) (x k.1) (x k.2) ^ p.2

/-- Kernel of a whole edge table. -/
noncomputable def tableK (g : Graph) (x : ℕ → Bool) (t : ETab) : ℂ := (t.map fun e => g.keyK x e.1 e.2).prod

@[simp] theorem tableK_nil (g : Graph) (x : ℕ → Bool) : g.tableK x [] = 1 := rfl

theorem tableK_cons (g : Graph) (x : ℕ → Bool) (e) (t : ETab) :
    g.tableK x (e :: t) = g.keyK x e.1 e.2 * g.tableK x t := by simp [tableK]

theorem tableK_congr_ty {g g' : Graph} (h : ∀ v, g'.isX v = g.isX v) (x : ℕ → Bool) (t : ETab) :
    g'.tableK x t = g.tableK x t := by
  unfold tableK keyK eff
  simp only [h]

theorem tableK_upd (g : Graph) (x : ℕ → Bool) (t : ETab) (k : ℕ × ℕ) (f : ℕ × ℕ → ℕ × ℕ) {c : ℂ}
    (hf : g.keyK x k (f (ETab.get t k)) = g.keyK x k (ETab.get t k) * c) :
    g.tableK x (ETab.upd t k f) = g.tableK x t * c := by
  induction t with
  | nil =>
    simp only [ETab.upd, ETab.get] at *
    rw [tableK_cons, hf]
    simp [keyK]
  | cons e t ih =>
    obtain ⟨k', p⟩ := e
    simp only [ETab.upd, ETab.get] at *
    by_cases h : k' = k
    · subst h
      simp only [if_true] at *
      rw [tableK_cons, tableK_cons, hf]
      ring
    · simp only [h, if_false] at *
      rw [tableK_cons, tableK_cons, ih hf]
      ring

theorem tableK_incr (g : Graph) (x : ℕ → Bool) (t : ETab) (k : ℕ × ℕ) {e : EType} (he : e ≠ .wio) :
    g.tableK x (ETab.incr t k e) = g.tableK x t * kern (g.eff k.1 k.2 e) (x k.1) (x k.2) := by
  unfold ETab.incr
  refine tableK_upd g x t k _ ?_
  unfold keyK
  cases e
  · simp only [if_true]; ring
  · simp only [reduceCtorEq, if_false]; ring
  · exact absurd rfl he

theorem tableK_setHad (g : Graph) (x : ℕ → Bool) (t : ETab) (k : ℕ × ℕ) (h : (ETab.get t k).1 = 0) :
    g.tableK x (ETab.setHad t k) = g.tableK x t * kern (g.eff k.1 k.2 .had) (x k.1) (x k.2) := by
  unfold ETab.setHad
  refine tableK_upd g x t k _ ?_
  unfold keyK
  simp only [h]
  ring

/-- A property of all entries is kept by an update. -/
theorem forall_upd {P : (ℕ × ℕ) → (ℕ × ℕ) → Prop} {t : ETab} (ht : ∀ e ∈ t, P e.1 e.2) {k : ℕ × ℕ}
    {f : ℕ × ℕ → ℕ × ℕ} (h0 : P k (f (0, 0))) (h1 : ∀ p, P k p → P k (f p)) : ∀ e ∈ ETab.upd t k f, P e.1 e.2 := by
  induction t with
  | nil =>
    intro e he
    simp only [ETab.upd, List.mem_singleton] at he
    subst he; exact h0
  | cons e t ih =>
    obtain ⟨k', p⟩ := e
    simp only [ETab.upd]
    split
    · next hk =>
      subst hk
      intro e he
      rcases List.mem_cons.mp he with rfl | he
      · exact h1 p (ht (k', p) (by simp))
      · exact ht e (by simp [he])
    · intro e he
      rcases List.mem_cons.mp he with rfl | he
      · exact ht _ (by simp)
      · exact ih (fun e he => ht e (by simp [he])) e he

theorem forall_incr {P : (ℕ × ℕ) → Prop} {t : ETab} (ht : ∀ e ∈ t, P e.1) {k : ℕ × ℕ} (h0 : P k) (e : EType) :
    ∀ e' ∈ ETab.incr t k e, P e'.1 :=
  forall_upd (P := fun k _ => P k) ht h0 fun _ h => h

theorem forall_setHad {P : (ℕ × ℕ) → Prop} {t : ETab} (ht : ∀ e ∈ t, P e.1) {k : ℕ × ℕ} (h0 : P k) :
    ∀ e' ∈ ETab.setHad t k, P e'.1 :=
  forall_upd (P := fun k _ => P k) ht h0 fun _ h => h

/-- A property of an entry read from the table. -/
theorem get_of_forall {P : (ℕ × ℕ) → (ℕ × ℕ) → Prop} {t : ETab} (ht : ∀ e ∈ t, P e.1 e.2) (k : ℕ × ℕ)
    (h0 : P k (0, 0)) : P k (ETab.get t k) := by
  induction t with
  | nil => exact h0
  | cons e t ih =>
    obtain ⟨k', p⟩ := e
    simp only [ETab.get]
    split
    · next hk => subst hk; exact ht (k', p) (by simp)
    · exact ih fun e he => ht e (by simp [he])

theorem addEdgeN_spec {g g' : Graph} {s t n : ℕ} {e : EType} (h : g.addEdgeN s t e n = some g') (hg : g.WF)
    (hst : n ≠ 0 → s ≠ t) (he : e ≠ .wio) :
    g'.WF ∧ SameFrame g g' ∧ ∀ (S : Finset ℕ) (x : ℕ → Bool), (n ≠ 0 → s ∈ S ∧ t ∈ S) →
      g'.wOn S x = g.wOn S x * kern (g.eff s t e) (x s) (x t) ^ n := by
  induction n generalizing g with
  | zero =>
    simp only [addEdgeN, Option.some.injEq] at h
    subst h
    exact ⟨hg, SameFrame.refl _, by simp⟩
  | succ n ih =>
    simp only [addEdgeN] at h
    obtain ⟨g1, h1, h2⟩ := Option.bind_eq_some_iff.mp h
    have hst := hst (Nat.succ_ne_zero n)
    obtain ⟨hw, hf, hk⟩ := ih h2 (hg.addEdge h1 hst he) (fun _ => hst)
    have hf1 := addEdge_frame h1
    refine ⟨hw, hf1.trans hf, fun S x hS => ?_⟩
    have hS := hS (Nat.succ_ne_zero n)
    rw [hk S x (fun _ => hS), wOn_addEdge h1 hg.symm hS.1 hS.2 hst, hf1.eff]
    ring

/-- Keys of a table with non-zero counts are pairs of distinct elements of `S`. -/
def KeysIn (t : ETab) (S : Finset ℕ) : Prop := ∀ e ∈ t, e.2 ≠ (0, 0) → e.1.1 ∈ S ∧ e.1.2 ∈ S ∧ e.1.1 ≠ e.1.2

/-- `add_edge_table` multiplies every weight by the kernel of the table. -/
theorem addEdgeTable_spec {g g' : Graph} {t : ETab} (h : g.addEdgeTable t = some g') (hg : g.WF)
    {S : Finset ℕ} (hk : KeysIn t S) :
    g'.WF ∧ SameFrame g g' ∧ ∀ (x : ℕ → Bool), g'.wOn S x = g.wOn S x * g.tableK x t := by
  induction t generalizing g with
  | nil =>
    simp only [addEdgeTable, List.foldlM_nil, Option.pure_def, Option.some.injEq] at h
    subst h
    exact ⟨hg, SameFrame.refl _, by simp⟩
  | cons e t ih =>
    simp only [addEdgeTable, List.foldlM_cons, Option.bind_eq_bind] at h
    obtain ⟨g2, h1, h3⟩ := Option.bind_eq_some_iff.mp h
    obtain ⟨g1, h1, h2⟩ := Option.bind_eq_some_iff.mp h1
    have hke := hk e (by simp)
    obtain ⟨hw1, hf1, hk1⟩ := addEdgeN_spec h1 hg (fun hn => (hke (by intro h; rw [h] at hn; simp at hn)).2.2) (by simp)
    obtain ⟨hw2, hf2, hk2⟩ := addEdgeN_spec h2 hw1 (fun hn => (hke (by intro h; rw [h] at hn; simp at hn)).2.2) (by simp)
    obtain ⟨hw, hf, hk3⟩ := ih h3 hw2 (fun e he => hk e (by simp [he]))
    have hff := hf1.trans hf2
    refine ⟨hw, hff.trans hf, fun x => ?_⟩
    rw [hk3 x, hk2 S x, hk1 S x, tableK_cons, hf1.eff, tableK_congr_ty (g := g) (g' := g2) (fun v => by unfold isX; rw [hff.ty])]
    · unfold keyK; ring
    · intro hn; have := hke (by intro h; rw [h] at hn; simp at hn); exact ⟨this.1, this.2.1⟩
    · intro hn; have := hke (by intro h; rw [h] at hn; simp at hn); exact ⟨this.1, this.2.1⟩

/-! ### Summing out the removed vertices -/

/-- Local weight of a vertex: its own value and the kernels to its neighbours. -/
noncomputable def localW (g : Graph) (v : ℕ) (x : ℕ → Bool) : ℂ :=
  g.vwt v (x v) * ∏ w ∈ g.nbrs v, g.edgeK x v w

/-- `f` does not depend on the variables in `R`. -/
def Insens (f : (ℕ → Bool) → ℂ) (R : Finset ℕ) : Prop := ∀ x y, (∀ v, v ∉ R → x v = y v) → f x = f y

theorem wOn_insens (g : Graph) {S R : Finset ℕ} (h : Disjoint S R) : Insens (g.wOn S) R := by
  intro x y hxy
  exact wOn_congr_env fun v hv => hxy v (Finset.disjoint_left.mp h hv)

theorem localW_insens {g : Graph} {v : ℕ} {R : Finset ℕ} (hv : v ∉ R) (hn : Disjoint (g.nbrs v) R) :
    Insens (g.localW v) R := by
  intro x y hxy
  unfold localW
  rw [hxy v hv]
  congr 1
  exact Finset.prod_congr rfl fun w hw => edgeK_congr_env (hxy v hv) (hxy w (Finset.disjoint_left.mp hn hw))

/-- Sum of a product of factors with disjoint sets of summed variables. -/
theorem psum_batch {ι : Type*} (ms : List ι) (R : ι → Finset ℕ) (L : ι → (ℕ → Bool) → ℂ) (W : (ℕ → Bool) → ℂ)
    (hd : ms.Pairwise fun i j => Disjoint (R i) (R j)) (hW : ∀ i ∈ ms, Insens W (R i))
    (hL : ms.Pairwise fun i j => Insens (L i) (R j) ∧ Insens (L j) (R i)) (x : ℕ → Bool) :
    psum (ms.foldr (fun i s => R i ∪ s) ∅) (fun x => W x * (ms.map fun i => L i x).prod) x =
      W x * (ms.map fun i => psum (R i) (L i) x).prod := by
  induction ms generalizing W with
  | nil => simp
  | cons i ms ih =>
    simp only [List.foldr_cons, List.map_cons, List.prod_cons]
    rw [List.pairwise_cons] at hd hL
    have hdis : Disjoint (R i) (ms.foldr (fun i s => R i ∪ s) ∅) := by
      have : ∀ l : List ι, (∀ j ∈ l, Disjoint (R i) (R j)) → Disjoint (R i) (l.foldr (fun i s => R i ∪ s) ∅) := by
        intro l hl
        induction l with
        | nil => simp
        | cons j l ihl =>
          simp only [List.foldr_cons]
          rw [Finset.disjoint_union_right]
          exact ⟨hl j (by simp), ihl fun k hk => hl k (by simp [hk])⟩
      exact this ms hd.1
    rw [Finset.union_comm, psum_union hdis.symm]
    -- inner sum over R i
    have h1 : ∀ y, psum (R i) (fun x => W x * (L i x * (ms.map fun i => L i x).prod)) y =
        (W y * psum (R i) (L i) y) * (ms.map fun i => L i y).prod := by
      intro y
      rw [mul_right_comm, ← psum_const_mul]
      refine psum_congr fun z hz => ?_
      have hWz : W z = W y := hW i (by simp) z y hz
      have hLz : (ms.map fun i => L i z).prod = (ms.map fun i => L i y).prod := by
        congr 1
        refine List.map_congr_left fun j hj => ?_
        exact (hL.1 j hj).2 z y hz
      rw [hWz, hLz]; ring
    rw [show psum (R i) (fun x => W x * (L i x * (ms.map fun i => L i x).prod)) = _ from funext h1]
    rw [ih (fun y => W y * psum (R i) (L i) y) hd.2 _ hL.2]
    · ring
    · intro j hj a b hab
      show W a * psum (R i) (L i) a = W b * psum (R i) (L i) b
      rw [hW j (by simp [hj]) a b hab]
      congr 1
      unfold psum
      refine Finset.sum_congr rfl fun T _ => ?_
      refine (hL.1 j hj).1 _ _ fun v hv => ?_
      unfold setOn
      split
      · rfl
      · exact hab v hv

/-- Splitting off pairwise non-adjacent vertices from the weight. -/
theorem wOn_peel {g : Graph} (hg : g.Inv) (vs : List ℕ) (hn : vs.Nodup) {S : Finset ℕ} (hS : ∀ v ∈ vs, v ∈ S)
    (hnb : ∀ v ∈ vs, g.nbrs v ⊆ S \ vs.toFinset) (x : ℕ → Bool) :
    g.wOn S x = g.wOn (S \ vs.toFinset) x * (vs.map fun v => g.localW v x).prod := by
  induction vs generalizing S with
  | nil => simp
  | cons v vs ih =>
    have hv := List.nodup_cons.mp hn
    rw [wOn_erase hg.symm (hS v (by simp)), prod_edgeK_nbrs hg (S := S.erase v), ih hv.2 (S := S.erase v)]
    · have : S.erase v \ vs.toFinset = S \ (v :: vs).toFinset := by
        ext w; simp only [List.toFinset_cons, Finset.mem_sdiff, Finset.mem_erase, Finset.mem_insert]; tauto
      rw [this]
      simp only [List.map_cons, List.prod_cons, localW]
      ring
    · intro w hw
      refine Finset.mem_erase.mpr ⟨?_, hS w (by simp [hw])⟩
      rintro rfl; exact hv.1 hw
    · intro w hw u hu
      have := hnb w (by simp [hw]) hu
      simp only [List.toFinset_cons, Finset.mem_sdiff, Finset.mem_insert, not_or, Finset.mem_erase] at *
      tauto
    · intro u hu
      have := hnb v (by simp) hu
      simp only [List.toFinset_cons, Finset.mem_sdiff, Finset.mem_insert, not_or, Finset.mem_erase] at *
      tauto

/-- If summing out the removed vertices gives the weight of the new graph, the path sums agree. -/
theorem amp_of_removed {g g' : Graph} {R : Finset ℕ} (hR : R ⊆ g.interior)
    (hv : g'.verts = g.verts \ R) (ht : ∀ v ∈ g'.verts, (g'.ty v = .boundary ↔ g.ty v = .boundary))
    (h : ∀ x, psum R g.weight x = g'.weight x) (b : ℕ → Bool) : g'.amp b = g.amp b := by
  have hI : g.interior = g'.interior ∪ R := by
    ext v
    simp only [interior, Finset.mem_union, Finset.mem_filter, hv, Finset.mem_sdiff]
    constructor
    · rintro ⟨h1, h2⟩
      by_cases hvR : v ∈ R
      · exact Or.inr hvR
      · refine Or.inl ⟨⟨h1, hvR⟩, ?_⟩
        intro h3
        exact h2 ((ht v (by rw [hv]; exact Finset.mem_sdiff.mpr ⟨h1, hvR⟩)).mp h3)
    · rintro (⟨⟨h1, h2⟩, h3⟩ | h1)
      · exact ⟨h1, fun h4 => h3 ((ht v (by rw [hv]; exact Finset.mem_sdiff.mpr ⟨h1, h2⟩)).mpr h4)⟩
      · have := hR h1
        simpa [interior] using this
  have hd : Disjoint g'.interior R := by
    rw [Finset.disjoint_left]
    intro v h1 h2
    simp only [interior, Finset.mem_filter, hv, Finset.mem_sdiff] at h1
    exact h1.1.2 h2
  unfold amp
  rw [hI, psum_union hd]
  exact psum_congr fun x _ => (h x).symm

/-- The set of removed vertices as a union of singletons. -/
theorem foldr_singletons {ι : Type*} (ms : List ι) (f : ι → ℕ) :
    ms.foldr (fun i s => ({f i} : Finset ℕ) ∪ s) ∅ = (ms.map f).toFinset := by
  induction ms with
  | nil => rfl
  | cons m ms ih => rw [List.foldr_cons, ih, List.map_cons, List.toFinset_cons, Finset.insert_eq]

/-- Summing out pairwise non-adjacent interior vertices, one per match. -/
theorem psum_singles {ι : Type*} {g : Graph} (hg : g.WF) (ms : List ι) (f : ι → ℕ) (hn : (ms.map f).Nodup)
    (hmem : ∀ m ∈ ms, f m ∈ g.verts) (hind : ∀ m ∈ ms, ∀ m' ∈ ms, f m' ∉ g.nbrs (f m)) (x : ℕ → Bool) :
    psum (ms.map f).toFinset g.weight x =
      g.wOn (g.verts \ (ms.map f).toFinset) x * (ms.map fun m => psum {f m} (g.localW (f m)) x).prod := by
  have hW : g.weight = fun y => g.wOn (g.verts \ (ms.map f).toFinset) y * (ms.map fun m => g.localW (f m) y).prod := by
    funext y
    rw [weight_eq_wOn, wOn_peel hg.toInv (ms.map f) hn, List.map_map]
    · rfl
    · intro v hv
      obtain ⟨m, hm, rfl⟩ := List.mem_map.mp hv
      exact hmem m hm
    · intro v hv w hw
      obtain ⟨m, hm, rfl⟩ := List.mem_map.mp hv
      refine Finset.mem_sdiff.mpr ⟨(Finset.mem_filter.mp hw).1, ?_⟩
      intro hw'
      obtain ⟨m', hm', rfl⟩ := List.mem_map.mp (List.mem_toFinset.mp hw')
      exact hind m hm m' hm' hw
  rw [hW, ← foldr_singletons]
  have hdisj : ms.Pairwise fun i j => Disjoint ({f i} : Finset ℕ) {f j} := by
    have := List.pairwise_map.mp hn
    refine this.imp ?_
    intro a b hab
    simpa using hab
  have hmemP : ms.Pairwise fun i j => i ∈ ms ∧ j ∈ ms := by
    rw [List.pairwise_iff_forall_sublist]
    intro a b hab
    exact ⟨hab.subset (by simp), hab.subset (by simp)⟩
  refine psum_batch ms (fun m => {f m}) (fun m => g.localW (f m)) _ hdisj ?_ ?_ x
  · intro m hm
    refine wOn_insens g ?_
    rw [Finset.disjoint_singleton_right, foldr_singletons]
    simp only [Finset.mem_sdiff, List.mem_toFinset, not_and, not_not]
    intro _
    exact List.mem_map_of_mem hm
  · refine (hdisj.and hmemP).imp ?_
    rintro a b ⟨h1, ha, hb⟩
    rw [Finset.disjoint_singleton_right, Finset.mem_singleton] at h1
    constructor
    · refine localW_insens (by simpa using fun h => h1 h.symm) ?_
      rw [Finset.disjoint_singleton_right]
      exact hind a ha b hb
    · refine localW_insens (by simpa using h1) ?_
      rw [Finset.disjoint_singleton_right]
      exact hind b hb a ha

/-- Induction over the matches of a rewrite: an invariant relating the state to the remaining matches, and a
quantity that every match multiplies by its own factor. -/
theorem fold_sound {ι : Type*} (step : RewriteState → ι → RewriteState) (P : RewriteState → List ι → Prop)
    (Φ : RewriteState → (ℕ → Bool) → ℂ) (F : ι → (ℕ → Bool) → ℂ)
    (hstep : ∀ s m rest, P s (m :: rest) → P (step s m) rest ∧ ∀ x, Φ (step s m) x = Φ s x * F m x)
    (ms : List ι) (s : RewriteState) (h : P s ms) :
    P (ms.foldl step s) [] ∧ ∀ x, Φ (ms.foldl step s) x = Φ s x * (ms.map fun m => F m x).prod := by
  induction ms generalizing s with
  | nil => exact ⟨h, fun x => by simp⟩
  | cons m ms ih =>
    obtain ⟨h1, h2⟩ := hstep s m ms h
    obtain ⟨h3, h4⟩ := ih _ h1
    refine ⟨h3, fun x => ?_⟩
    rw [List.foldl_cons, h4, h2, List.map_cons, List.prod_cons]
    ring

/-- Removing edges that have an endpoint outside `S`. -/
theorem removeEdges_spec {g g' : Graph} {es : List (ℕ × ℕ)} (h : g.removeEdges es = some g') (hg : g.WF)
    {S : Finset ℕ} (hS : ∀ e ∈ es, e.1 ∉ S ∨ e.2 ∉ S) :
    g'.WF ∧ SameFrame g g' ∧ ∀ x, g'.wOn S x = g.wOn S x := by
  induction es generalizing g with
  | nil =>
    simp only [removeEdges, List.foldlM_nil, Option.pure_def, Option.some.injEq] at h
    subst h
    exact ⟨hg, SameFrame.refl _, fun _ => rfl⟩
  | cons e es ih =>
    simp only [removeEdges, List.foldlM_cons, Option.bind_eq_bind] at h
    obtain ⟨g1, h1, h2⟩ := Option.bind_eq_some_iff.mp h
    obtain ⟨hw, hf, hk⟩ := ih h2 (hg.removeEdge h1) fun e he => hS e (by simp [he])
    refine ⟨hw, (removeEdge_frame h1).trans hf, fun x => ?_⟩
    rw [hk x]
    obtain ⟨-, -, rfl⟩ := removeEdge_eq h1
    refine wOn_congr rfl (fun _ _ => rfl) fun u hu v hv _ => ?_
    unfold edgeK
    show (match (g.setAdj e.1 e.2 none).adj u v with | none => 1 | some e => kern (g.eff u v e) (x u) (x v)) = _
    rw [setAdj_adj_other]
    · rfl
    · rintro ⟨rfl, rfl⟩
      rcases hS e (by simp) with h | h
      · exact h hu
      · exact h hv
    · rintro ⟨rfl, rfl⟩
      rcases hS e (by simp) with h | h
      · exact h hv
      · exact h hu

/-- Soundness of a rewrite: if the mutations and the edge table of the rewrite account for the sum over the removed
vertices, then the graph obtained denotes the same tensor. -/
theorem rule_sound {g g' : Graph} {s : RewriteState} (hg : g.WF) (hfin : s.finish = some g') (hsg : s.g.WF)
    (hverts : s.g.verts = g.verts) (hty : ∀ v ∈ g.verts, (s.g.ty v = .boundary ↔ g.ty v = .boundary))
    (hin : s.g.inputs = g.inputs) (hout : s.g.outputs = g.outputs)
    (hR : s.remVerts.toFinset ⊆ g.interior)
    (hk : KeysIn s.etab (g.verts \ s.remVerts.toFinset))
    (hre : ∀ e ∈ s.remEdges, e.1 ∈ s.remVerts ∨ e.2 ∈ s.remVerts)
    (hsum : ∀ x, psum s.remVerts.toFinset g.weight x =
      s.g.wOn (g.verts \ s.remVerts.toFinset) x * s.g.tableK x s.etab) :
    Preserves g g' ∧ g'.verts = g.verts \ s.remVerts.toFinset := by
  unfold RewriteState.finish at hfin
  obtain ⟨g1, h1, hfin⟩ := Option.bind_eq_some_iff.mp hfin
  obtain ⟨g2, h2, h3⟩ := Option.bind_eq_some_iff.mp hfin
  set R := s.remVerts.toFinset with hRdef
  obtain ⟨hw1, hf1, hk1⟩ := addEdgeTable_spec h1 hsg hk
  obtain ⟨hw2, hf2, hk2⟩ := removeEdges_spec h2 hw1 (S := g.verts \ R) (by
    intro e he
    rcases hre e he with h | h
    · left; simp [hRdef, h]
    · right; simp [hRdef, h])
  obtain ⟨hr, hm, hi, hw⟩ := removeVertices_spec h3
  have hf := hf1.trans hf2
  have hv' : g'.verts = g.verts \ R := by rw [hr.verts, hf.verts, hverts]
  have hty' : ∀ v ∈ g'.verts, (g'.ty v = .boundary ↔ g.ty v = .boundary) := by
    intro v hv
    rw [hr.ty, hf.ty]
    exact hty v (by rw [hv'] at hv; exact (Finset.mem_sdiff.mp hv).1)
  have hio : ∀ v, v ∈ g.inputs ∨ v ∈ g.outputs → v ∉ R := by
    intro v hv hvR
    have h1 := hg.io v hv
    have h2 := hR hvR
    simp only [interior, Finset.mem_filter] at h2
    exact h2.2 h1
  refine ⟨⟨hw hw2, ?_, ?_, ?_, ?_⟩, hv'⟩
  · rw [hr.inputs, hf.inputs, hin, List.filter_eq_self]
    intro v hv; simpa [hRdef] using hio v (Or.inl hv)
  · rw [hr.outputs, hf.outputs, hout, List.filter_eq_self]
    intro v hv; simpa [hRdef] using hio v (Or.inr hv)
  · intro v
    constructor
    · rintro ⟨h1, h2⟩
      exact ⟨by rw [hv'] at h1; exact (Finset.mem_sdiff.mp h1).1, (hty' v h1).mp h2⟩
    · rintro ⟨h1, h2⟩
      have hvR : v ∉ R := by
        intro hvR
        have h3 := hR hvR
        simp only [interior, Finset.mem_filter] at h3
        exact h3.2 h2
      have h4 : v ∈ g'.verts := by rw [hv']; exact Finset.mem_sdiff.mpr ⟨h1, hvR⟩
      exact ⟨h4, (hty' v h4).mpr h2⟩
  · intro b
    rw [sem_eq_amp (hw hw2), sem_eq_amp hg]
    refine amp_of_removed hR hv' hty' (fun x => ?_) b
    rw [hsum x, weight_eq_wOn, hv', hr.wOn _ Finset.sdiff_disjoint, hk2, hk1]

end Graph
end PyZX
