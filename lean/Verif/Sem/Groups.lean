import Verif.Sem.Frame

/-! # Matches that sum out a group of vertices and keep some of them -/

namespace PyZX
open Finset

namespace Graph

/-- Weight of a group of vertices with all its edges inside the group and to `U`. -/
noncomputable def grpW (g : Graph) (U G : Finset ℕ) (x : ℕ → Bool) : ℂ :=
  (∏ v ∈ G, g.vwt v (x v)) * pairProd G (g.edgeK x) * ∏ v ∈ G, ∏ w ∈ U, g.edgeK x v w

@[simp] theorem grpW_empty (g : Graph) (U : Finset ℕ) (x : ℕ → Bool) : g.grpW U ∅ x = 1 := by simp [grpW]

theorem wOn_union {g : Graph} (hg : ∀ u v, g.adj u v = g.adj v u) {U G : Finset ℕ} (h : Disjoint U G) (x : ℕ → Bool) :
    g.wOn (U ∪ G) x = g.wOn U x * g.grpW U G x := by
  induction G using Finset.induction_on with
  | empty => simp
  | insert v G hv ih =>
    rw [Finset.disjoint_insert_right] at h
    have hv' : v ∉ U ∪ G := by simp [hv, h.1]
    rw [Finset.union_insert, wOn_insert hg hv', ih h.2, Finset.prod_union h.2]
    unfold grpW
    rw [Finset.prod_insert hv, Finset.prod_insert hv, pairProd_insert hv (edgeK_comm hg x)]
    ring

/-- Union of a list of sets. -/
def unions {ι : Type*} (ms : List ι) (G : ι → Finset ℕ) : Finset ℕ := ms.foldr (fun i s => G i ∪ s) ∅

theorem mem_unions {ι : Type*} {ms : List ι} {G : ι → Finset ℕ} {v : ℕ} :
    v ∈ unions ms G ↔ ∃ m ∈ ms, v ∈ G m := by
  induction ms with
  | nil => simp [unions]
  | cons m ms ih =>
    have : unions (m :: ms) G = G m ∪ unions ms G := rfl
    rw [this, Finset.mem_union, ih]
    simp

theorem grpW_union {g : Graph} {U U' G : Finset ℕ} (hd : Disjoint U U') (h : ∀ v ∈ G, ∀ w ∈ U', g.adj v w = none) (x : ℕ → Bool) :
    g.grpW (U ∪ U') G x = g.grpW U G x := by
  unfold grpW
  congr 1
  refine Finset.prod_congr rfl fun v hv => ?_
  rw [Finset.prod_union hd]
  rw [Finset.prod_eq_one (s := U') fun w hw => edgeK_none (h v hv w hw), mul_one]

theorem wOn_groups {ι : Type*} {g : Graph} (hg : ∀ u v, g.adj u v = g.adj v u) {U : Finset ℕ} (ms : List ι) (G : ι → Finset ℕ)
    (hU : ∀ m ∈ ms, Disjoint U (G m)) (hd : ms.Pairwise fun i j => Disjoint (G i) (G j) ∧ ∀ v ∈ G i, ∀ w ∈ G j, g.adj v w = none)
    (x : ℕ → Bool) :
    g.wOn (U ∪ unions ms G) x = g.wOn U x * (ms.map fun m => g.grpW U (G m) x).prod := by
  induction ms with
  | nil => simp [unions]
  | cons m ms ih =>
    rw [List.pairwise_cons] at hd
    have hun : unions (m :: ms) G = unions ms G ∪ G m := by rw [Finset.union_comm]; rfl
    have hd1 : Disjoint U (unions ms G) := by
      rw [Finset.disjoint_left]
      intro v hv hv'
      obtain ⟨m', hm', h⟩ := mem_unions.mp hv'
      exact Finset.disjoint_left.mp (hU m' (by simp [hm'])) hv h
    have hd2 : Disjoint (U ∪ unions ms G) (G m) := by
      rw [Finset.disjoint_union_left]
      refine ⟨hU m (by simp), ?_⟩
      rw [Finset.disjoint_left]
      intro v hv hv'
      obtain ⟨m', hm', h⟩ := mem_unions.mp hv
      exact Finset.disjoint_left.mp (hd.1 m' hm').1 hv' h
    rw [hun, ← Finset.union_assoc, wOn_union hg hd2, ih (fun m hm => hU m (by simp [hm])) hd.2, grpW_union hd1]
    · simp only [List.map_cons, List.prod_cons]
      ring
    · intro v hv w hw
      obtain ⟨m', hm', h⟩ := mem_unions.mp hw
      exact (hd.1 m' hm').2 v hv w h

theorem grpW_insens {g : Graph} {U G R : Finset ℕ} (hG : Disjoint G R) (hU : Disjoint U R) : Insens (g.grpW U G) R := by
  intro x y hxy
  unfold grpW
  have h1 : ∀ v ∈ G, x v = y v := fun v hv => hxy v (Finset.disjoint_left.mp hG hv)
  have h2 : ∀ v ∈ U, x v = y v := fun v hv => hxy v (Finset.disjoint_left.mp hU hv)
  congr 1
  · congr 1
    · exact Finset.prod_congr rfl fun v hv => by rw [h1 v hv]
    · exact pairProd_congr fun a ha b hb _ => edgeK_congr_env (h1 a ha) (h1 b hb)
  · exact Finset.prod_congr rfl fun v hv => Finset.prod_congr rfl fun w hw => edgeK_congr_env (h1 v hv) (h2 w hw)

theorem grpW_congr {g g' : Graph} {U G : Finset ℕ} {x : ℕ → Bool} (hadj : g'.adj = g.adj) (hX : ∀ v, g'.isX v = g.isX v)
    (hv : ∀ v ∈ G, g'.vval v = g.vval v) : g'.grpW U G x = g.grpW U G x := by
  have he : g'.edgeK x = g.edgeK x := by
    funext u v; unfold edgeK eff; rw [hadj, hX, hX]
  unfold grpW
  rw [he]
  congr 2
  exact Finset.prod_congr rfl fun v h => by unfold vwt; rw [hv v h]

/-- `amp_of_removed` when some interior vertices `K` are kept but have to be summed over as well. -/
theorem amp_of_kept {g g' : Graph} {R K : Finset ℕ} (hR : R ⊆ g.interior) (hK : K ⊆ g.interior) (hRK : Disjoint K R)
    (hv : g'.verts = g.verts \ R) (ht : ∀ v ∈ g'.verts, (g'.ty v = .boundary ↔ g.ty v = .boundary))
    (h : ∀ x, psum (K ∪ R) g.weight x = psum K g'.weight x) (b : ℕ → Bool) : g'.amp b = g.amp b := by
  have hI' : g'.interior = g.interior \ R := by
    ext v
    simp only [interior, Finset.mem_filter, Finset.mem_sdiff]
    constructor
    · rintro ⟨h1, h2⟩
      have h1' := h1
      rw [hv, Finset.mem_sdiff] at h1
      exact ⟨⟨h1.1, fun h3 => h2 ((ht v h1').mpr h3)⟩, h1.2⟩
    · rintro ⟨⟨h1, h2⟩, h3⟩
      have h1' : v ∈ g'.verts := by rw [hv]; exact Finset.mem_sdiff.mpr ⟨h1, h3⟩
      exact ⟨h1', fun h4 => h2 ((ht v h1').mp h4)⟩
  have e1 : g.interior = (g.interior \ (K ∪ R)) ∪ (K ∪ R) :=
    (Finset.sdiff_union_of_subset (Finset.union_subset hK hR)).symm
  have e2 : g'.interior = (g.interior \ (K ∪ R)) ∪ K := by
    rw [hI']
    ext v
    simp only [Finset.mem_sdiff, Finset.mem_union]
    constructor
    · rintro ⟨h1, h2⟩; by_cases h3 : v ∈ K
      · exact Or.inr h3
      · exact Or.inl ⟨h1, by tauto⟩
    · rintro (⟨h1, h2⟩ | h1)
      · exact ⟨h1, by tauto⟩
      · exact ⟨hK h1, Finset.disjoint_left.mp hRK h1⟩
  unfold amp
  rw [e2, e1, psum_union Finset.sdiff_disjoint, psum_union]
  · rw [← e1]
    exact psum_congr fun x _ => (h x).symm
  · exact Finset.sdiff_disjoint.mono_right Finset.subset_union_left

/-- `rule_sound` when some of the kept vertices `K` have to be summed over as well. -/
theorem rule_sound_kept {g g' : Graph} {s : RewriteState} (hg : g.WF) (hfin : s.finish = some g') (hsg : s.g.WF)
    (hverts : s.g.verts = g.verts) (hty : ∀ v ∈ g.verts, (s.g.ty v = .boundary ↔ g.ty v = .boundary))
    (hin : s.g.inputs = g.inputs) (hout : s.g.outputs = g.outputs)
    (hR : s.remVerts.toFinset ⊆ g.interior)
    (hk : KeysIn s.etab (g.verts \ s.remVerts.toFinset))
    (hre : ∀ e ∈ s.remEdges, e.1 ∈ s.remVerts ∨ e.2 ∈ s.remVerts)
    {K : Finset ℕ} (hK : K ⊆ g.interior) (hKR : Disjoint K s.remVerts.toFinset)
    (hsum : ∀ x, psum (K ∪ s.remVerts.toFinset) g.weight x =
      psum K (fun x => s.g.wOn (g.verts \ s.remVerts.toFinset) x * s.g.tableK x s.etab) x) :
    Preserves g g' ∧ g'.verts = g.verts \ s.remVerts.toFinset := by
  unfold RewriteState.finish at hfin
  obtain ⟨g1, h1, hfin⟩ := Option.bind_eq_some_iff.mp hfin
  obtain ⟨g2, h2, h3⟩ := Option.bind_eq_some_iff.mp hfin
  set R := s.remVerts.toFinset with hRdef
  obtain ⟨hw1, hf1, hk1⟩ := addEdgeTable_spec h1 hsg hk
  obtain ⟨hw2, hf2, hk2⟩ := removeEdges_spec h2 hw1 (S := g.verts \ R) (by
    intro e he
    rcases hre e he with h | h
    · left; simp [hRdef, h]
    · right; simp [hRdef, h])
  obtain ⟨hr, hm, hi, hw⟩ := removeVertices_spec h3
  have hf := hf1.trans hf2
  have hv' : g'.verts = g.verts \ R := by rw [hr.verts, hf.verts, hverts]
  have hty' : ∀ v ∈ g'.verts, (g'.ty v = .boundary ↔ g.ty v = .boundary) := by
    intro v hv
    rw [hr.ty, hf.ty]
    exact hty v (by rw [hv'] at hv; exact (Finset.mem_sdiff.mp hv).1)
  have hio : ∀ v, v ∈ g.inputs ∨ v ∈ g.outputs → v ∉ R := by
    intro v hv hvR
    have h1 := hg.io v hv
    have h2 := hR hvR
    simp only [interior, Finset.mem_filter] at h2
    exact h2.2 h1
  refine ⟨⟨hw hw2, ?_, ?_, ?_, ?_⟩, hv'⟩
  · rw [hr.inputs, hf.inputs, hin, List.filter_eq_self]
    intro v hv; simpa [hRdef] using hio v (Or.inl hv)
  · rw [hr.outputs, hf.outputs, hout, List.filter_eq_self]
    intro v hv; simpa [hRdef] using hio v (Or.inr hv)
  · intro v
    constructor
    · rintro ⟨h1, h2⟩
      exact ⟨by rw [hv'] at h1; exact (Finset.mem_sdiff.mp h1).1, (hty' v h1).mp h2⟩
    · rintro ⟨h1, h2⟩
      have hvR : v ∉ R := by
        intro hvR
        have h3 := hR hvR
        simp only [interior, Finset.mem_filter] at h3
        exact h3.2 h2
      have h4 : v ∈ g'.verts := by rw [hv']; exact Finset.mem_sdiff.mpr ⟨h1, hvR⟩
      exact ⟨h4, (hty' v h4).mpr h2⟩
  · intro b
    rw [sem_eq_amp (hw hw2), sem_eq_amp hg]
    refine amp_of_kept hR hK hKR hv' hty' (fun x => ?_) b
    rw [hsum x]
    refine psum_congr fun y _ => ?_
    rw [weight_eq_wOn, hv', hr.wOn _ Finset.sdiff_disjoint, hk2, hk1]

/-- Summing out disjoint, non-adjacent groups. -/
theorem psum_groups {ι : Type*} {g : Graph} (hg : ∀ u v, g.adj u v = g.adj v u) {U : Finset ℕ} (ms : List ι) (G : ι → Finset ℕ)
    (F : ι → (ℕ → Bool) → ℂ)
    (hU : ∀ m ∈ ms, Disjoint U (G m)) (hd : ms.Pairwise fun i j => Disjoint (G i) (G j) ∧ ∀ v ∈ G i, ∀ w ∈ G j, g.adj v w = none)
    (hF : ms.Pairwise fun i j => Insens (F i) (G j) ∧ Insens (F j) (G i))
    (x : ℕ → Bool) :
    psum (unions ms G) (fun x => g.wOn (U ∪ unions ms G) x * (ms.map fun m => F m x).prod) x =
      g.wOn U x * (ms.map fun m => psum (G m) (fun x => g.grpW U (G m) x * F m x) x).prod := by
  have hW : (fun x => g.wOn (U ∪ unions ms G) x * (ms.map fun m => F m x).prod) =
      fun x => g.wOn U x * (ms.map fun m => g.grpW U (G m) x * F m x).prod := by
    funext y
    rw [wOn_groups hg ms G hU hd, List.prod_map_mul]
    ring
  rw [hW]
  have hmemP : ms.Pairwise fun i j => i ∈ ms ∧ j ∈ ms := by
    rw [List.pairwise_iff_forall_sublist]
    intro a b hab
    exact ⟨hab.subset (by simp), hab.subset (by simp)⟩
  refine psum_batch ms G (fun m x => g.grpW U (G m) x * F m x) _ (hd.imp fun h => h.1) ?_ ?_ x
  · intro m hm
    exact wOn_insens g (hU m hm)
  · refine ((hd.and hF).and hmemP).imp ?_
    rintro a b ⟨⟨⟨h1, -⟩, h3, h4⟩, ha, hb⟩
    constructor
    · intro x y hxy
      show g.grpW U (G a) x * F a x = g.grpW U (G a) y * F a y
      rw [h3 x y hxy, grpW_insens h1 (hU b hb) x y hxy]
    · intro x y hxy
      show g.grpW U (G b) x * F b x = g.grpW U (G b) y * F b y
      rw [h4 x y hxy, grpW_insens h1.symm (hU a ha) x y hxy]

end Graph
end PyZX
