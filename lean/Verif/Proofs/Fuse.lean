import Verif.Proofs.StrongComp
import Verif.Proofs.Spider
import Verif.Proofs.Ids

/-!
# `basicrules.fuse`, `basicrules.remove_id` and `basicrules.pi_commute_Z`
-/

namespace PyZX
open Finset Graph
namespace Basic

theorem psum_one (v : ℕ) (f : (ℕ → Bool) → ℂ) (x : ℕ → Bool) :
    psum {v} f x = f (Function.update x v false) + f (Function.update x v true) := by
  rw [show ({v} : Finset ℕ) = insert v ∅ from rfl, psum_insert (by simp), psum_empty]

/-- The weight of one vertex and of the rest. -/
theorem weight_localW {g : Graph} (hg : g.WF) {v : ℕ} (hv : v ∈ g.verts) (x : ℕ → Bool) :
    g.weight x = g.localW v x * g.wOn (g.verts.erase v) x := by
  rw [weight_eq_wOn, ← Finset.insert_erase hv, wOn_insert hg.symm (Finset.notMem_erase v _), Finset.insert_erase hv]
  unfold localW
  congr 2
  symm
  refine Finset.prod_subset (fun u hu => ?_) fun u hu hnu => ?_
  · rw [mem_nbrs hg.toInv] at hu
    refine Finset.mem_erase.mpr ⟨?_, hg.mem u v (by rw [hg.symm]; exact hu)⟩
    rintro rfl
    exact hu (hg.loopless u)
  · refine edgeK_none ?_
    rw [mem_nbrs hg.toInv] at hnu
    simpa using hnu

theorem psum_one_weight {g : Graph} (hg : g.WF) {v : ℕ} (hv : v ∈ g.verts) (x : ℕ → Bool) :
    psum {v} g.weight x = psum {v} (g.localW v) x * g.wOn (g.verts.erase v) x := by
  rw [psum_one, psum_one, weight_localW hg hv, weight_localW hg hv]
  have : ∀ c, g.wOn (g.verts.erase v) (Function.update x v c) = g.wOn (g.verts.erase v) x := fun c =>
    wOn_congr_env fun u hu => Function.update_of_ne (Finset.ne_of_mem_erase hu) _ _
  rw [this, this]
  ring

/-! ### fuse -/

theorem vval_zbox {g : Graph} {v : ℕ} (h : g.ty v = .zbox) : g.vval v = g.label v := by
  unfold vval; rw [h]

theorem fuseData_eq (g : Graph) (v1 v2 : ℕ) : Rules.spiderPhase g v1 v2 =
    if g.ty v1 = .zbox ∨ g.ty v2 = .zbox then (fuseData g v1 v2).setPhase v1 0 else fuseData g v1 v2 := by
  by_cases h : g.ty v1 = .zbox ∨ g.ty v2 = .zbox
  · rw [if_pos h]
    unfold Rules.spiderPhase fuseData
    rw [if_pos h, if_pos h]
    rfl
  · rw [if_neg h]
    unfold Rules.spiderPhase fuseData
    rw [if_neg h, if_neg h]

theorem fuseData_zbox (g : Graph) {v1 v2 : ℕ} (h : g.ty v1 = .zbox ∨ g.ty v2 = .zbox)
    (hty : (g.ty v1).zLike) : (fuseData g v1 v2).ty v1 = .zbox := by
  have h1 : g.ty v1 = .Z ∨ g.ty v1 = .zbox := by
    revert hty; cases g.ty v1 <;> simp [VType.zLike]
  have hz : ∀ (g : Graph) v u, (zToZBox g v).ty u = if u = v then .zbox else g.ty u := by
    intro g v u
    show Function.update g.ty v .zbox u = _
    rw [Function.update_apply]
  unfold fuseData
  rw [if_pos h]
  simp only [setLabel]
  have k : ∀ g' : Graph, g'.ty v1 = .zbox → (if g'.ty v2 = .Z then zToZBox g' v2 else g').ty v1 = .zbox := by
    intro g' hg'
    split
    · rw [hz]; split
      · rfl
      · exact hg'
    · exact hg'
  rcases h1 with h1 | h1
  · rw [if_pos h1]
    exact k _ (by rw [hz, if_pos rfl])
  · rw [if_neg (show ¬ g.ty v1 = .Z by rw [h1]; simp)]
    exact k _ h1

theorem fuseData_spec (g : Graph) {v1 v2 : ℕ} (hne : v1 ≠ v2)
    (hty : (g.ty v1 = .X ∧ g.ty v2 = .X) ∨ ((g.ty v1).zLike ∧ (g.ty v2).zLike)) :
    let g' := fuseData g v1 v2
    g'.verts = g.verts ∧ g'.adj = g.adj ∧ g'.vindex = g.vindex ∧ g'.nedges = g.nedges ∧ g'.inputs = g.inputs ∧
    g'.outputs = g.outputs ∧ (∀ v, g'.ty v = g.ty v ∨ (g.ty v = .Z ∧ g'.ty v = .zbox)) ∧
    ∀ (S : Finset ℕ), v1 ∈ S → v2 ∉ S → ∀ x, g'.wOn S x = g.wOn S x * (if x v1 then g.vval v2 else 1) := by
  obtain ⟨s1, s2, s3, s4, s5, s6, s7, -, s9⟩ := spiderPhase_spec g hne hty
  rw [fuseData_eq] at s1 s2 s3 s4 s5 s6 s7
  have key : ∀ S x, (fuseData g v1 v2).wOn S x = (Rules.spiderPhase g v1 v2).wOn S x := by
    intro S x
    rw [fuseData_eq]
    by_cases h : g.ty v1 = .zbox ∨ g.ty v2 = .zbox
    · rw [if_pos h]
      have hz : (g.ty v1).zLike := by
        rcases hty with ⟨a, b⟩ | ⟨a, b⟩
        · rw [a, b] at h; simp at h
        · exact a
      refine wOn_congr rfl (fun v _ => ?_) fun _ _ _ _ _ => rfl
      by_cases hv : v = v1
      · have ht := fuseData_zbox g (v2 := v2) h hz
        rw [hv, vval_zbox ht, vval_zbox (g := (fuseData g v1 v2).setPhase v1 0) ht]
        rfl
      · refine vval_update_ne hv rfl ?_ rfl
        simp [setPhase, hv]
    · rw [if_neg h]
  intro g'
  by_cases h : g.ty v1 = .zbox ∨ g.ty v2 = .zbox
  · rw [if_pos h] at s1 s2 s3 s4 s5 s6
    simp only [if_pos h] at s7
    exact ⟨s1, s2, s3, s4, s5, s6, s7, fun S a b x => by rw [key]; exact s9 S a b x⟩
  · rw [if_neg h] at s1 s2 s3 s4 s5 s6
    simp only [if_neg h] at s7
    exact ⟨s1, s2, s3, s4, s5, s6, s7, fun S a b x => by rw [key]; exact s9 S a b x⟩

theorem fuseLoop_spec {v1 v2 : ℕ} : ∀ (ns : List ℕ) {g g' : Graph}, g.WF → ns.Nodup → v1 ≠ v2 → v2 ∉ ns → g.adj v2 v1 = some .simple →
    (∀ w ∈ ns, g.adj v2 w ≠ none) → ns.foldlM (fuseStep v1 v2) g = some g' →
    g'.WF ∧ SameFrame g g' ∧ ∀ S : Finset ℕ, v1 ∈ S → (∀ w ∈ ns, w ∈ S) → ∀ x, g'.wOn S x =
      g.wOn S x * ∏ w ∈ ns.toFinset.erase v1, kern (g.eff v1 w ((g.adj v2 w).getD .simple)) (x v1) (x w) := by
  intro ns
  induction ns with
  | nil =>
    intro g g' hg _ _ _ _ _ h
    rw [List.foldlM_nil] at h
    obtain rfl := Option.some.inj h
    exact ⟨hg, SameFrame.refl _, fun S _ _ x => by simp⟩
  | cons u r ih =>
    intro g g' hg hnd hne hv2 hsimp hadj h
    rw [List.foldlM_cons] at h
    obtain ⟨hur, hr⟩ := List.nodup_cons.mp hnd
    by_cases hu : u = v1
    · have hs : fuseStep v1 v2 g u = some g := by
        unfold fuseStep
        rw [if_pos ⟨hu, by rw [hu]; exact hsimp⟩]
      rw [hs] at h
      obtain ⟨e1, e2, e3⟩ := ih hg hr hne (fun hh => hv2 (by simp [hh])) hsimp (fun w hw => hadj w (by simp [hw])) h
      refine ⟨e1, e2, fun S h1 h2 x => ?_⟩
      rw [e3 S h1 (fun w hw => h2 w (by simp [hw])), List.toFinset_cons, hu, Finset.erase_insert_eq_erase]
    · obtain ⟨e, he⟩ := Option.ne_none_iff_exists'.mp (hadj u (by simp))
      have hs : fuseStep v1 v2 g u = g.addEdge v1 u e := by
        unfold fuseStep
        rw [if_neg (fun hh => hu hh.1), he]; rfl
      rw [hs] at h
      obtain ⟨g1, h1, h2⟩ := Option.bind_eq_some_iff.mp h
      obtain ⟨-, hum, hne2, -, hwio⟩ := hg.edge he
      have w1 := hg.addEdge h1 (Ne.symm hu) hwio
      have f1 := addEdge_frame h1
      have ha : ∀ w, g1.adj v2 w = g.adj v2 w := by
        intro w
        refine addEdge_adj_other h1 ?_
        rintro (⟨a, -⟩ | ⟨a, -⟩)
        · exact hne a.symm
        · exact hne2 a
      obtain ⟨e1, e2, e3⟩ := ih w1 hr hne (fun hh => hv2 (by simp [hh])) (by rw [ha]; exact hsimp)
        (fun w hw => by rw [ha]; exact hadj w (by simp [hw])) h2
      refine ⟨e1, f1.trans e2, fun S k1 k2 x => ?_⟩
      rw [e3 S k1 (fun w hw => k2 w (by simp [hw])), wOn_addEdge h1 hg.symm k1 (k2 u (by simp)) (Ne.symm hu), List.toFinset_cons,
        Finset.erase_insert_of_ne hu, Finset.prod_insert (by simp [hur]), he]
      simp only [ha, f1.eff, Option.getD_some]
      ring

theorem fuseLoop_isSome {v1 v2 : ℕ} : ∀ (ns : List ℕ) {g : Graph}, g.WF → ns.Nodup → v1 ∈ g.verts → v1 ≠ v2 → v2 ∉ ns →
    g.adj v2 v1 = some .simple → (∀ w ∈ ns, g.adj v2 w ≠ none) → g.ty v1 ≠ .boundary →
    (∀ w ∈ ns, g.ty w ≠ .boundary ∨ g.adj v1 w = none) → ∃ g', ns.foldlM (fuseStep v1 v2) g = some g' := by
  intro ns
  induction ns with
  | nil => intro g _ _ _ _ _ _ _ _ _; exact ⟨g, rfl⟩
  | cons u r ih =>
    intro g hg hnd hm hne hv2 hsimp hadj hb hbd
    obtain ⟨hur, hr⟩ := List.nodup_cons.mp hnd
    rw [List.foldlM_cons]
    by_cases hu : u = v1
    · have hs : fuseStep v1 v2 g u = some g := by
        unfold fuseStep
        rw [if_pos ⟨hu, by rw [hu]; exact hsimp⟩]
      rw [hs]
      exact ih hg hr hm hne (fun hh => hv2 (by simp [hh])) hsimp (fun w hw => hadj w (by simp [hw])) hb (fun w hw => hbd w (by simp [hw]))
    · obtain ⟨e, he⟩ := Option.ne_none_iff_exists'.mp (hadj u (by simp))
      have hs : fuseStep v1 v2 g u = g.addEdge v1 u e := by
        unfold fuseStep
        rw [if_neg (fun hh => hu hh.1), he]; rfl
      obtain ⟨-, hum, hne2, -, hwio⟩ := hg.edge he
      obtain ⟨g1, h1⟩ := addEdge_isSome hg hm hum (Ne.symm hu) hwio (by
        rcases hbd u (by simp) with h | h
        · exact Or.inr ⟨hg.zx hm hb, hg.zx hum h⟩
        · exact Or.inl h)
      rw [hs, h1]
      have f1 := addEdge_frame h1
      have ha : ∀ w, g1.adj v2 w = g.adj v2 w := by
        intro w
        refine addEdge_adj_other h1 ?_
        rintro (⟨a, -⟩ | ⟨a, -⟩)
        · exact hne a.symm
        · exact hne2 a
      refine ih (hg.addEdge h1 (Ne.symm hu) hwio) hr (by rw [f1.verts]; exact hm) hne (fun hh => hv2 (by simp [hh])) (by rw [ha]; exact hsimp)
        (fun w hw => by rw [ha]; exact hadj w (by simp [hw])) (by rw [f1.ty]; exact hb) fun w hw => ?_
      rw [f1.ty]
      rcases hbd w (by simp [hw]) with h | h
      · exact Or.inl h
      · right
        rw [addEdge_adj_other h1, h]
        have hwu : w ≠ u := fun hh => hur (hh ▸ hw)
        rintro (⟨-, a⟩ | ⟨a, b⟩)
        · exact hwu a
        · exact hu a.symm

theorem checkFuse_iff {g : Graph} {v1 v2 : ℕ} (h : checkFuse g v1 v2 = true) :
    ((g.ty v1 = .X ∧ g.ty v2 = .X) ∨ ((g.ty v1).zLike ∧ (g.ty v2).zLike)) ∧ g.adj v1 v2 = some .simple := by
  simp only [checkFuse, Bool.and_eq_true, Bool.or_eq_true, decide_eq_true_eq] at h
  exact h

theorem zLike_ne {t : VType} (h : t.zLike = true) : t ≠ .boundary ∧ t ≠ .X := by
  cases t <;> simp_all [VType.zLike]

theorem fuse_sound {g g' : Graph} {ord : ℕ → List ℕ} (hg : g.WF) (ho : Rules.NbrOrder g ord) {v1 v2 : ℕ}
    (hc : checkFuse g v1 v2 = true) {b : Bool} (h : fuse g ord v1 v2 = some (g', b)) :
    b = true ∧ Preserves g g' ∧ g'.verts = g.verts.erase v2 := by
  obtain ⟨hty, hadj⟩ := checkFuse_iff hc
  obtain ⟨h1, h2, h12, hadj', -⟩ := hg.edge hadj
  unfold fuse at h
  rw [if_neg (by rw [hc]; simp)] at h
  obtain ⟨gL, hL, h⟩ := Option.bind_eq_some_iff.mp h
  obtain ⟨g6, h6, h⟩ := Option.map_eq_some_iff.mp h
  obtain ⟨rfl, rfl⟩ := Prod.mk.inj h
  obtain ⟨s1, s2, s3, s4, s5, s6, s7, s8⟩ := fuseData_spec g h12 hty
  set gD := fuseData g v1 v2 with hgD
  have hX : ∀ v, gD.isX v = g.isX v := by
    intro v; unfold isX
    rcases s7 v with h | ⟨h1, h2⟩
    · rw [h]
    · rw [h1, h2]; rfl
  have wD : gD.WF :=
    { hg.toInv.congr s1 s2 s3 s4 s5 s6 with
      noWio := by rw [s2]; exact hg.noWio
      types := by
        intro v hv
        rw [s1] at hv
        rcases s7 v with h | ⟨h1, h2⟩
        · rw [h]; exact hg.types v hv
        · rw [h2]; simp
      io := by
        intro v hv
        rw [s5, s6] at hv
        have := hg.io v hv
        rcases s7 v with h | ⟨h1, h2⟩
        · rw [h]; exact this
        · rw [this] at h1; exact absurd h1 (by simp) }
  have hmem : ∀ u, u ∈ ord v2 ↔ g.adj v2 u ≠ none := by
    intro u; rw [← mem_nbrs hg.toInv, ← (ho v2 h2).2, List.mem_toFinset]
  obtain ⟨wL, fL, hwL⟩ := fuseLoop_spec (ord v2) wD (ho v2 h2).1 h12 (fun hh => (hmem v2).mp hh (hg.loopless v2)) (by rw [s2]; exact hadj')
    (fun w hw => by rw [s2]; exact (hmem w).mp hw) hL
  obtain ⟨r6, -, -, w6⟩ := removeVertices_spec h6
  have w6 := w6 wL
  have nb2 : g.ty v2 ≠ .boundary := by
    rcases hty with ⟨-, h⟩ | ⟨-, h⟩
    · rw [h]; simp
    · exact (zLike_ne h).1
  have hXX : g.isX v1 = g.isX v2 := by
    unfold isX
    rcases hty with ⟨a, b⟩ | ⟨a, b⟩
    · rw [a, b]
    · rw [decide_eq_false (zLike_ne a).2, decide_eq_false (zLike_ne b).2]
  have hverts : g6.verts = g.verts.erase v2 := by
    rw [r6.verts, fL.verts, s1]; ext u; simp [and_comm]
  have hio : ∀ l : List ℕ, (∀ v ∈ l, g.ty v = .boundary) → l.filter (· ∉ [v2].toFinset) = l := by
    intro l hl
    rw [List.filter_eq_self]
    intro v hv
    have n2 : v ≠ v2 := fun h => nb2 (h ▸ hl v hv)
    simp [n2]
  refine ⟨rfl, ?_, hverts⟩
  refine replace_preserves hg w6 (R := {v2}) (N := ∅) ?_ (by simp) (by rw [hverts]; ext u; simp [and_comm]) (by simp) ?_ ?_ ?_ ?_
  · intro u hu
    rw [Finset.mem_singleton] at hu
    exact Finset.mem_filter.mpr ⟨hu ▸ h2, hu ▸ nb2⟩
  · intro v hv _
    rw [r6.ty, fL.ty]
    rcases s7 v with h | ⟨h1, h2⟩
    · rw [h]
    · rw [h1, h2]; simp
  · rw [r6.inputs, fL.inputs, s5]
    exact hio _ fun v hv => hg.io v (Or.inl hv)
  · rw [r6.outputs, fL.outputs, s6]
    exact hio _ fun v hv => hg.io v (Or.inr hv)
  intro x
  have hv1 : v1 ∈ g.verts.erase v2 := Finset.mem_erase.mpr ⟨h12, h1⟩
  rw [psum_empty, psum_one_weight hg h2, spider_local hg (p := (v1, v2)) hadj hXX, weight_eq_wOn, hverts,
    r6.wOn _ (by simp), hwL _ hv1, s8 _ hv1 (by simp)]
  · unfold spiderF
    rw [(ho v2 h2).2]
    have : ∀ w, gD.eff v1 w ((gD.adj v2 w).getD .simple) = g.eff v1 w ((g.adj v2 w).getD .simple) := by
      intro w; unfold eff; rw [hX, hX, s2]
    simp only [this]
    ring
  · intro w hw
    have hne := (hmem w).mp hw
    refine Finset.mem_erase.mpr ⟨?_, hg.mem w v2 (by rw [hg.symm]; exact hne)⟩
    rintro rfl
    exact hne (hg.loopless w)

theorem fuse_total {g : Graph} {ord : ℕ → List ℕ} (hg : g.WF) (hbd : g.BDeg) (ho : Rules.NbrOrder g ord) {v1 v2 : ℕ}
    (hc : checkFuse g v1 v2 = true) : ∃ g', fuse g ord v1 v2 = some (g', true) := by
  obtain ⟨hty, hadj⟩ := checkFuse_iff hc
  obtain ⟨h1, h2, h12, hadj', -⟩ := hg.edge hadj
  obtain ⟨s1, s2, s3, s4, s5, s6, s7, -⟩ := fuseData_spec g h12 hty
  have tyb : ∀ v, (fuseData g v1 v2).ty v = .boundary ↔ g.ty v = .boundary := by
    intro v
    rcases s7 v with h | ⟨h1, h2⟩
    · rw [h]
    · rw [h1, h2]; simp
  have wD : (fuseData g v1 v2).WF :=
    { hg.toInv.congr s1 s2 s3 s4 s5 s6 with
      noWio := by rw [s2]; exact hg.noWio
      types := by
        intro v hv
        rw [s1] at hv
        rcases s7 v with h | ⟨h1, h2⟩
        · rw [h]; exact hg.types v hv
        · rw [h2]; simp
      io := by
        intro v hv
        rw [s5, s6] at hv
        exact (tyb v).mpr (hg.io v hv) }
  have hmem : ∀ u, u ∈ ord v2 ↔ g.adj v2 u ≠ none := by
    intro u; rw [← mem_nbrs hg.toInv, ← (ho v2 h2).2, List.mem_toFinset]
  have nb1 : g.ty v1 ≠ .boundary := by
    rcases hty with ⟨h, -⟩ | ⟨h, -⟩
    · rw [h]; simp
    · exact (zLike_ne h).1
  obtain ⟨gL, hL⟩ := fuseLoop_isSome (ord v2) wD (ho v2 h2).1 (by rw [s1]; exact h1) h12 (fun hh => (hmem v2).mp hh (hg.loopless v2))
    (by rw [s2]; exact hadj') (fun w hw => by rw [s2]; exact (hmem w).mp hw) (fun h => nb1 ((tyb v1).mp h)) (by
      intro w hw
      by_cases hb : g.ty w = .boundary
      · right
        rw [s2]
        by_contra hne
        have hw2 : g.adj w v2 ≠ none := by rw [hg.symm]; exact (hmem w).mp hw
        have hw1 : g.adj w v1 ≠ none := by rw [hg.symm]; exact hne
        exact h12 (hbd w (hg.mem w v2 hw2) hb v1 v2 hw1 hw2)
      · exact Or.inl fun h => hb ((tyb w).mp h))
  obtain ⟨wL, fL, -⟩ := fuseLoop_spec (ord v2) wD (ho v2 h2).1 h12 (fun hh => (hmem v2).mp hh (hg.loopless v2)) (by rw [s2]; exact hadj')
    (fun w hw => by rw [s2]; exact (hmem w).mp hw) hL
  obtain ⟨g6, e6⟩ := removeVertices_isSome wL.toInv (vs := [v2]) (by simp) (by rw [fL.verts, s1]; simpa using h2)
  refine ⟨g6, ?_⟩
  unfold fuse
  rw [if_neg (by rw [hc]; simp), hL, Option.bind_some, e6]; rfl

/-! ### remove_id -/

theorem removeId_sound {g g' : Graph} {ord : ℕ → List ℕ} (hg : g.WF) (ho : Rules.NbrOrder g ord) {v : ℕ} (hv : v ∈ g.verts)
    (hb : g.ty v ≠ .boundary) (hc : checkRemoveId g v) {b : Bool} (h : removeId g ord v = some (g', b)) :
    b = true ∧ Preserves g g' ∧ g'.verts = g.verts.erase v := by
  unfold removeId at h
  rw [if_neg (not_not.mpr hc)] at h
  rcases hord : ord v with _ | ⟨v1, _ | ⟨v2, _ | ⟨v3, r⟩⟩⟩
  · rw [hord] at h; simp at h
  · rw [hord] at h; simp at h
  · rw [hord] at h
    simp only at h
    obtain ⟨g1, h1, h⟩ := Option.bind_eq_some_iff.mp h
    obtain ⟨g2, h2, h⟩ := Option.map_eq_some_iff.mp h
    obtain ⟨rfl, rfl⟩ := Prod.mk.inj h
    have hnb : g.nbrs v = {v1, v2} := by rw [← (ho v hv).2, hord]; simp
    have h12 : v1 ≠ v2 := by
      have := (ho v hv).1; rw [hord] at this; simpa using this
    obtain ⟨e1, he1⟩ := Option.ne_none_iff_exists'.mp ((mem_nbrs hg.toInv).mp (show v1 ∈ g.nbrs v by rw [hnb]; simp))
    obtain ⟨e2, he2⟩ := Option.ne_none_iff_exists'.mp ((mem_nbrs hg.toInv).mp (show v2 ∈ g.nbrs v by rw [hnb]; simp))
    obtain ⟨-, m1, n1, -, q1⟩ := hg.edge he1
    obtain ⟨-, m2, n2, -, q2⟩ := hg.edge he2
    rw [he1, he2] at h1
    set e : EType := if some e1 = some e2 then .simple else .had with he
    have hew : e ≠ .wio := by rw [he]; split <;> simp
    have w1 := hg.addEdge h1 h12 hew
    have f1 := addEdge_frame h1
    obtain ⟨r2, -, -, w2⟩ := removeVertices_spec h2
    have w2 := w2 w1
    have hverts : g2.verts = g.verts.erase v := by
      rw [r2.verts, f1.verts]; ext u; simp [and_comm]
    have hio : ∀ l : List ℕ, (∀ u ∈ l, g.ty u = .boundary) → l.filter (· ∉ [v].toFinset) = l := by
      intro l hl
      rw [List.filter_eq_self]
      intro u hu
      have n2 : u ≠ v := fun h => hb (h ▸ hl u hu)
      simp [n2]
    have hval : g.vval v = 1 := by
      obtain ⟨-, ⟨t, l⟩ | ⟨t, p⟩⟩ := hc
      · unfold vval; rw [t]; exact l
      · unfold vval
        rw [p]
        rcases hg.types v hv with h | h | h | h
        · exact absurd h hb
        · rw [h]; simp
        · rw [h]; simp
        · exact absurd h t
    refine ⟨rfl, ?_, hverts⟩
    refine replace_preserves hg w2 (R := {v}) (N := ∅) ?_ (by simp) (by rw [hverts]; ext u; simp [and_comm]) (by simp) ?_ ?_ ?_ ?_
    · intro u hu
      rw [Finset.mem_singleton] at hu
      exact Finset.mem_filter.mpr ⟨hu ▸ hv, hu ▸ hb⟩
    · intro u _ _; rw [r2.ty, f1.ty]
    · rw [r2.inputs, f1.inputs]; exact hio _ fun v hv => hg.io v (Or.inl hv)
    · rw [r2.outputs, f1.outputs]; exact hio _ fun v hv => hg.io v (Or.inr hv)
    intro x
    have k1 : v1 ∈ g.verts.erase v := Finset.mem_erase.mpr ⟨Ne.symm n1, m1⟩
    have k2 : v2 ∈ g.verts.erase v := Finset.mem_erase.mpr ⟨Ne.symm n2, m2⟩
    rw [psum_empty, psum_one_weight hg hv, psum_one, weight_eq_wOn, hverts, r2.wOn _ (by simp), wOn_addEdge h1 hg.symm k1 k2 h12]
    unfold localW vwt
    rw [hnb, Finset.prod_pair h12, Finset.prod_pair h12, hval, edgeK_some he1, edgeK_some he2, edgeK_some he1, edgeK_some he2]
    simp only [Function.update_self, Function.update_of_ne (Ne.symm n1), Function.update_of_ne (Ne.symm n2), ite_self, one_mul]
    rw [kern_comp, mul_comm]
    congr 2
    rw [he]
    unfold eff
    revert q1 q2
    cases e1 <;> cases e2 <;> cases g.isX v <;> cases g.isX v1 <;> cases g.isX v2 <;> simp
  · rw [hord] at h; simp at h

theorem removeId_total {g : Graph} {ord : ℕ → List ℕ} (hg : g.WF) (hbd : g.BDeg) (ho : Rules.NbrOrder g ord) {v : ℕ} (hv : v ∈ g.verts)
    (hc : checkRemoveId g v) : ∃ g', removeId g ord v = some (g', true) := by
  have hlen : (ord v).length = 2 := by
    rw [← List.toFinset_card_of_nodup (ho v hv).1, (ho v hv).2]; exact hc.1
  obtain ⟨v1, v2, hord⟩ := List.length_eq_two.mp hlen
  have hnb : g.nbrs v = {v1, v2} := by rw [← (ho v hv).2, hord]; simp
  have h12 : v1 ≠ v2 := by
    have := (ho v hv).1; rw [hord] at this; simpa using this
  obtain ⟨e1, he1⟩ := Option.ne_none_iff_exists'.mp ((mem_nbrs hg.toInv).mp (show v1 ∈ g.nbrs v by rw [hnb]; simp))
  obtain ⟨e2, he2⟩ := Option.ne_none_iff_exists'.mp ((mem_nbrs hg.toInv).mp (show v2 ∈ g.nbrs v by rw [hnb]; simp))
  obtain ⟨-, m1, n1, s1, q1⟩ := hg.edge he1
  obtain ⟨-, m2, n2, s2, q2⟩ := hg.edge he2
  have key : g.adj v1 v2 = none ∨ ((g.ty v1).zxLike ∧ (g.ty v2).zxLike) := by
    by_cases hb1 : g.ty v1 = .boundary
    · left
      by_contra hne
      exact n2 (hbd v1 m1 hb1 v v2 (by rw [s1]; simp) hne)
    · by_cases hb2 : g.ty v2 = .boundary
      · left
        by_contra hne
        exact n1 (hbd v2 m2 hb2 v v1 (by rw [s2]; simp) (by rw [hg.symm]; exact hne))
      · exact Or.inr ⟨hg.zx m1 hb1, hg.zx m2 hb2⟩
  have hew : (if g.adj v v1 = g.adj v v2 then EType.simple else .had) ≠ .wio := by split <;> simp
  obtain ⟨g1, h1⟩ := addEdge_isSome hg m1 m2 h12 hew key
  have w1 := hg.addEdge h1 h12 hew
  obtain ⟨g2, h2⟩ := removeVertices_isSome w1.toInv (vs := [v]) (by simp) (by rw [(addEdge_frame h1).verts]; simpa using hv)
  refine ⟨g2, ?_⟩
  unfold removeId
  rw [if_neg (not_not.mpr hc), hord]
  simp only
  rw [h1, Option.bind_some, h2]; rfl

/-! ### pi_commute_Z -/

theorem addPi_spec : ∀ (ns : List ℕ) (g : Graph), (∀ w ∈ ns, g.ty w = .Z ∨ g.ty w = .X) → ns.Nodup →
    SameFrame g (ns.foldl (fun g w => g.addToPhase w 1) g) ∧ (ns.foldl (fun g w => g.addToPhase w 1) g).adj = g.adj ∧
    (ns.foldl (fun g w => g.addToPhase w 1) g).nedges = g.nedges ∧
    (ns.foldl (fun g w => g.addToPhase w 1) g).vindex = g.vindex ∧
    ∀ S : Finset ℕ, (∀ w ∈ ns, w ∈ S) → ∀ x,
      (ns.foldl (fun g w => g.addToPhase w 1) g).wOn S x = g.wOn S x * ∏ w ∈ ns.toFinset, sgn (x w) := by
  intro ns
  induction ns with
  | nil => intro g _ _; exact ⟨SameFrame.refl g, rfl, rfl, rfl, fun S _ x => by simp⟩
  | cons u r ih =>
    intro g ht hn
    obtain ⟨hur, hr⟩ := List.nodup_cons.mp hn
    obtain ⟨e1, e2, e3, e4, e5⟩ := ih (g.addToPhase u 1) (fun w hw => ht w (by simp [hw])) hr
    rw [List.foldl_cons]
    refine ⟨⟨e1.verts, e1.ty, e1.vindex, e1.inputs, e1.outputs⟩, e2, e3, e4, fun S hS x => ?_⟩
    rw [e5 S (fun w hw => hS w (by simp [hw])), wOn_addToPhase _ (hS u (by simp))
      (by rcases ht u (by simp) with h | h <;> rw [h] <;> simp) (by rcases ht u (by simp) with h | h <;> rw [h] <;> simp), List.toFinset_cons, Finset.prod_insert (by simpa using hur)]
    have : (if x u then ph 1 else 1) = sgn (x u) := by simp [sgn]
    rw [this]
    ring

theorem piCommuteZ_sound {g g' : Graph} {ord : ℕ → List ℕ} (hg : g.WF) (ho : Rules.NbrOrder g ord) {v : ℕ} (hv : v ∈ g.verts)
    (h : piCommuteZ g ord v = some (g', true)) :
    g'.WF ∧ g'.inputs = g.inputs ∧ g'.outputs = g.outputs ∧ g'.verts = g.verts ∧ g'.ty = g.ty ∧
      ∀ b, g'.sem b = ph (-g.phase v) * g.sem b := by
  unfold piCommuteZ at h
  by_cases hz : g.ty v ≠ .Z
  · rw [if_pos hz] at h; simp at h
  rw [if_neg hz] at h
  rw [not_not] at hz
  by_cases ha : (ord v).all (piAbsorbs g v)
  swap
  · rw [if_neg ha] at h; simp at h
  rw [if_pos ha] at h
  obtain ⟨rfl, -⟩ := Prod.mk.inj (Option.some.inj h)
  have hmem : ∀ u, u ∈ ord v ↔ g.adj v u ≠ none := by
    intro u; rw [← mem_nbrs hg.toInv, ← (ho v hv).2, List.mem_toFinset]
  have habs : ∀ w ∈ ord v, (g.ty w = .Z ∧ g.adj v w = some .had) ∨ (g.ty w = .X ∧ g.adj v w = some .simple) := by
    intro w hw
    have := List.all_eq_true.mp ha w hw
    simpa [piAbsorbs] using this
  obtain ⟨f1, f2, f3, f4, f5⟩ := addPi_spec (ord v) (g.setPhase v (-g.phase v)) (fun w hw => by
    rcases habs w hw with ⟨h, -⟩ | ⟨h, -⟩
    · exact Or.inl h
    · exact Or.inr h) (ho v hv).1
  set g1 := (ord v).foldl (fun g w => g.addToPhase w 1) (g.setPhase v (-g.phase v)) with hg1
  have w1 : g1.WF := hg.congr (hg.toInv.congr f1.verts f2 f4 f3 f1.inputs f1.outputs) f1.verts f2 f1.ty f1.inputs f1.outputs
  refine ⟨w1, f1.inputs, f1.outputs, f1.verts, f1.ty, fun b => ?_⟩
  have hw : ∀ x, g1.weight x = ph (-g.phase v) * g.weight (Function.update x v (!x v)) := by
    intro x
    rw [weight_eq_wOn, f1.verts]
    show g1.wOn g.verts x = _
    rw [f5 g.verts (fun w hw => hg.mem w v (by rw [hg.symm]; exact (hmem w).mp hw))]
    have w0 : (g.setPhase v (-g.phase v)).WF := hg.congr (hg.toInv.congr rfl rfl rfl rfl rfl rfl) rfl rfl rfl rfl rfl
    have e0 := weight_localW w0 hv x
    rw [weight_eq_wOn] at e0
    rw [show (g.setPhase v (-g.phase v)).wOn g.verts x = _ from e0, weight_localW hg hv]
    have e1 : (g.setPhase v (-g.phase v)).wOn (g.verts.erase v) x = g.wOn (g.verts.erase v) (Function.update x v (!x v)) := by
      rw [wOn_congr_env (x := Function.update x v (!x v)) (y := x) fun u hu => Function.update_of_ne (Finset.ne_of_mem_erase hu) _ _]
      refine wOn_congr rfl (fun u hu => ?_) fun _ _ _ _ _ => rfl
      have hne := Finset.ne_of_mem_erase hu
      refine vval_update_ne hne rfl ?_ rfl
      show Function.update _ v _ u = _
      rw [Function.update_of_ne hne]
    have e2 : (g.setPhase v (-g.phase v)).localW v x * ∏ w ∈ (ord v).toFinset, sgn (x w) =
        ph (-g.phase v) * g.localW v (Function.update x v (!x v)) := by
      have hval : (g.setPhase v (-g.phase v)).vval v = ph (-g.phase v) := by
        have ht : (g.setPhase v (-g.phase v)).ty v = .Z := hz
        have hp : (g.setPhase v (-g.phase v)).phase v = mod2 (-g.phase v) := by simp [setPhase]
        unfold vval
        rw [ht, hp, ph_mod2]
      have hval0 : g.vval v = ph (g.phase v) := by unfold vval; rw [hz]
      have hnb : (g.setPhase v (-g.phase v)).nbrs v = g.nbrs v := rfl
      unfold localW vwt
      rw [hval, hval0, hnb, (ho v hv).2, mul_assoc, ← Finset.prod_mul_distrib, Function.update_self]
      have : ∏ w ∈ g.nbrs v, ((g.setPhase v (-g.phase v)).edgeK x v w * sgn (x w)) =
          ∏ w ∈ g.nbrs v, g.edgeK (Function.update x v (!x v)) v w := by
        refine Finset.prod_congr rfl fun w hw => ?_
        rw [mem_nbrs hg.toInv] at hw
        have hwv : w ≠ v := by rintro rfl; exact hw (hg.loopless w)
        have hk : ∀ (G : Graph), G.ty = g.ty → G.adj = g.adj → ∀ y : ℕ → Bool, G.edgeK y v w = hmat (y v) (y w) := by
          intro G hG1 hG2 y
          rcases habs w ((hmem w).mpr hw) with ⟨ht, he⟩ | ⟨ht, he⟩
          · rw [edgeK_some (by rw [hG2]; exact he)]
            have : G.eff v w .had = true := by unfold eff isX; rw [hG1, hz, ht]; rfl
            rw [this]; rfl
          · rw [edgeK_some (by rw [hG2]; exact he)]
            have : G.eff v w .simple = true := by unfold eff isX; rw [hG1, hz, ht]; rfl
            rw [this]; rfl
        rw [hk (g.setPhase v (-g.phase v)) rfl rfl, hk g rfl rfl, Function.update_self, Function.update_of_ne hwv]
        cases x v <;> cases x w <;> simp [hmat, sgn]
      rw [this, ← mul_assoc]
      congr 1
      cases x v
      · simp [← ph_add]
      · simp
    rw [show (g.setPhase v (-g.phase v)).wOn ((g.setPhase v (-g.phase v)).verts.erase v) x = _ from e1, mul_right_comm, e2]
    ring
  rw [sem_eq_amp w1, sem_eq_amp hg]
  unfold amp
  have hint : g1.interior = g.interior := by
    unfold Graph.interior; rw [f1.verts, f1.ty]; rfl
  have hvi : v ∈ g.interior := Finset.mem_filter.mpr ⟨hv, by rw [hz]; simp⟩
  rw [hint, psum_erase hvi, psum_erase hvi g.weight, ← psum_const_mul]
  refine psum_congr fun x _ => ?_
  rw [hw, hw]
  simp only [Function.update_self, Function.update_idem, Bool.not_false, Bool.not_true]
  ring

end Basic
end PyZX
