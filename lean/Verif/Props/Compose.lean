import Verif.Proofs.Compose
import Verif.Spec.Example
import Verif.Props.Scalar
import Mathlib.Data.List.GetD

/-!
# C25, C39: copying, adjoint and tensor product
-/

namespace PyZX
namespace Props

open Graph Finset

theorem idxOf_map_inj {ρ : ℕ → ℕ} (hρ : Function.Injective ρ) (l : List ℕ) (v : ℕ) : (l.map ρ).idxOf (ρ v) = l.idxOf v := by
  induction l with
  | nil => rfl
  | cons w l ih =>
    rw [List.map_cons]
    by_cases h : w = v
    · rw [h, List.idxOf_cons_self, List.idxOf_cons_self]
    · rw [List.idxOf_cons_ne _ (fun h' => h (hρ h')), List.idxOf_cons_ne _ h, ih]

theorem mem_map_inj {ρ : ℕ → ℕ} (hρ : Function.Injective ρ) {l : List ℕ} {v : ℕ} : ρ v ∈ l.map ρ ↔ v ∈ l := by
  rw [List.mem_map]
  exact ⟨fun ⟨w, hw, e⟩ => hρ e ▸ hw, fun h => ⟨v, h, rfl⟩⟩

theorem renamed_of_pasted {g g' : Graph} {s : Scalar} {ρ : ℕ → ℕ} (P : Pasted { empty with scalar := s } g 1 g.verts ρ g') : Renamed g g' ρ where
  inj := P.inj
  verts := by rw [P.verts]; simp [empty]
  ty := P.tyNew
  phase v hv := by rw [P.phaseNew v hv, one_mul]
  label := P.labelNew
  adj := P.adjNew

/-- C39: `clone` denotes the same tensor, has the same vertices, edges, data and boundary, and the same counters. -/
theorem clone_spec (g : Graph) : g.clone.verts = g.verts ∧ g.clone.adj = g.adj ∧ g.clone.ty = g.ty ∧ g.clone.phase = g.phase ∧
    g.clone.label = g.label ∧ g.clone.inputs = g.inputs ∧ g.clone.outputs = g.outputs ∧ g.clone.nedges = g.nedges ∧ g.clone.vindex = g.vindex ∧
    ∀ b, g.clone.sem b = g.sem b := by
  refine ⟨rfl, rfl, rfl, rfl, rfl, rfl, rfl, rfl, rfl, fun b => ?_⟩
  show (g.scalar.copy false).toNumber * _ = g.scalar.toNumber * _
  rw [Scalar.copy_toNumber]
  rfl

/-- C39: `copy` always succeeds. It denotes the same tensor and the same matrix, is the original graph with its vertices renamed in
the order of their enumeration, and has the same scalar and the renamed inputs and outputs in the same order. -/
theorem copy_spec {g : Graph} (hg : g.WF) {vs : List ℕ} {es : List (ℕ × ℕ)} (hvs : VertOrder g vs) (hes : EdgeOrder g es) :
    ∃ ρ g', g.copy false vs es = some g' ∧ g'.WF ∧ (∀ v ∈ vs, ρ v = vs.idxOf v) ∧ Renamed g g' ρ ∧ g'.inputs = g.inputs.map ρ ∧ g'.outputs = g.outputs.map ρ ∧
      g'.scalar.toNumber = g.scalar.toNumber ∧ (∀ b, g'.sem b = g.sem fun v => b (ρ v)) ∧ ∀ x y, g'.mat x y = g.mat x y := by
  obtain ⟨ρ, g', e, P, hi, ho, hidx⟩ := copy_eq hg false hvs hes
  have hsem : ∀ b, g'.sem b = g.sem fun v => b (ρ v) := by
    intro b
    rw [copy_sem hg P, sem_eq_amp hg, amp_eq_coreAmp, Scalar.copy_toNumber]
    simp only [Bool.false_eq_true, if_false, scaled_one]
  refine ⟨ρ, g', e, P.wf, hidx, renamed_of_pasted P, hi, ho, by rw [P.scalar]; exact Scalar.copy_toNumber _, hsem, fun x y => ?_⟩
  unfold mat
  rw [hsem]
  refine congrArg _ (funext fun v => ?_)
  unfold bval
  rw [hi, ho]
  simp only [Bool.false_eq_true, if_false, mem_map_inj P.inj, idxOf_map_inj P.inj]

theorem copyVertices_range {o : Graph} {m : ℚ} (vs : List ℕ) : ∀ (g : Graph) (t : ℕ → Option ℕ), g.verts = range g.vindex →
    (vs.foldl (copyVertex o m) (g, t)).1.verts = range (g.vindex + vs.length) := by
  induction vs with
  | nil => intro g t h; simpa using h
  | cons v vs ih =>
    intro g t h
    rw [List.foldl_cons]
    obtain ⟨f1, -, -, -, -, f6, -⟩ := addVertex_fields g (o.ty v) (m * o.phase v)
    have h1 : (copyVertex o m (g, t) v).1.verts = insert g.vindex g.verts := f1
    have h2 : (copyVertex o m (g, t) v).1.vindex = g.vindex + 1 := f6
    have := ih (copyVertex o m (g, t) v).1 (copyVertex o m (g, t) v).2 (by rw [h1, h2, h, range_add_one])
    rw [h2] at this
    rw [List.length_cons, show g.vindex + (vs.length + 1) = g.vindex + 1 + vs.length by omega]
    exact this

theorem copyEdges_verts {o : Graph} {t : ℕ → Option ℕ} (es : List (ℕ × ℕ)) : ∀ {g g' : Graph}, copyEdges g o t es = some g' → g'.verts = g.verts := by
  unfold copyEdges
  induction es with
  | nil =>
    intro g g' h
    rw [List.foldlM_nil] at h
    cases h
    rfl
  | cons p es ih =>
    intro g g' h
    rw [List.foldlM_cons, Option.bind_eq_bind, Option.bind_eq_some_iff] at h
    obtain ⟨g1, h1, h⟩ := h
    unfold copyEdge at h1
    simp only [Option.bind_eq_bind, Option.bind_eq_some_iff] at h1
    obtain ⟨a, -, b, -, e, -, h1⟩ := h1
    rw [ih h, (addEdge_frame h1).verts]

/-- C39: the note in the documentation of `copy`: the copy has consecutive vertex indices. -/
theorem copy_consecutive {g g' : Graph} (a : Bool) {vs : List ℕ} {es : List (ℕ × ℕ)} (hvs : VertOrder g vs)
    (h : g.copy a vs es = some g') : g'.verts = range g.verts.card := by
  unfold copy at h
  simp only [Option.bind_eq_bind, Option.bind_eq_some_iff] at h
  obtain ⟨ins, -, outs, -, h⟩ := h
  rw [copyEdges_verts _ h]
  have := copyVertices_range (o := g) (m := if a then -1 else 1) vs { empty with scalar := g.scalar.copy a } (fun _ => none) rfl
  refine Eq.trans this ?_
  have hc : vs.length = g.verts.card := by
    rw [← List.toFinset_card_of_nodup hvs.1]
    congr 1
    ext v
    simp [hvs.2 v]
  rw [hc]
  simp [empty]

/-- The parameters of Z-boxes are real. -/
def RealBoxes (g : Graph) : Prop := ∀ v ∈ g.verts, g.ty v = .zbox → (starRingEnd ℂ) (g.label v) = g.label v

theorem conj_coreAmp {g : Graph} (hr : RealBoxes g) (b : ℕ → Bool) : (g.scaled (-1)).coreAmp b = (starRingEnd ℂ) (g.coreAmp b) := by
  have hk : ∀ h a b, (starRingEnd ℂ) (kern h a b) = kern h a b := by
    intro h a b
    cases h <;> cases a <;> cases b <;> simp [kern, dmat, hmat, conj_sq2]
  have hw : ∀ x, (g.scaled (-1)).coreW g.verts x = (starRingEnd ℂ) (g.coreW g.verts x) := by
    intro x
    unfold coreW
    rw [map_mul, map_prod]
    congr 1
    · refine prod_congr rfl fun v hv => ?_
      unfold vwt
      cases x v with
      | false => simp
      | true =>
        simp only [if_true]
        unfold vval
        show (match g.ty v with
          | .boundary => 1
          | .zbox => g.label v
          | _ => ph (-1 * g.phase v)) = _
        cases ht : g.ty v with
        | zbox => exact (hr v hv ht).symm
        | _ => simp [conj_ph]
    · unfold pairProd
      rw [map_prod]
      refine prod_congr rfl fun p _ => ?_
      unfold edgeK
      show (match g.adj p.1 p.2 with
        | none => 1
        | some e => kern (g.eff p.1 p.2 e) (x p.1) (x p.2)) = _
      cases g.adj p.1 p.2 with
      | none => simp
      | some e => exact (hk _ _ _).symm
  unfold coreAmp psum
  rw [map_sum]
  exact sum_congr rfl fun T _ => hw _

/-- C25: `adjoint` always succeeds and denotes the conjugate transpose, for diagrams in which the parameters of Z-boxes are real (in particular
diagrams without Z-boxes). For other Z-boxes see `adjoint_zbox_wrong`. -/
theorem adjoint_spec_partial {g : Graph} (hg : g.WF) (hio : IO g) (hr : RealBoxes g) {vs : List ℕ} {es : List (ℕ × ℕ)} (hvs : VertOrder g vs)
    (hes : EdgeOrder g es) :
    ∃ g', g.adjoint vs es = some g' ∧ g'.WF ∧ IO g' ∧ g'.inputs.length = g.outputs.length ∧ g'.outputs.length = g.inputs.length ∧
      ∀ x y, g'.mat x y = (starRingEnd ℂ) (g.mat y x) := by
  obtain ⟨ρ, g', e, P, hi, ho, -⟩ := copy_eq hg true hvs hes
  simp only [if_true] at hi ho P
  refine ⟨g', e, P.wf, ⟨?_, ?_, ?_, ?_⟩, by rw [hi, List.length_map], by rw [ho, List.length_map], fun x y => ?_⟩
  · rw [hi]; exact hio.nodupOut.map P.inj
  · rw [ho]; exact hio.nodupIn.map P.inj
  · intro v hv hv'
    rw [hi, List.mem_map] at hv
    obtain ⟨u, hu, rfl⟩ := hv
    rw [ho, mem_map_inj P.inj] at hv'
    exact hio.disj u hv' hu
  · intro v hv ht
    rw [P.verts] at hv
    simp only [empty, empty_union, mem_image] at hv
    obtain ⟨u, hu, rfl⟩ := hv
    rw [P.tyNew u hu] at ht
    rw [hi, ho, mem_map_inj P.inj, mem_map_inj P.inj]
    exact (hio.all u hu ht).symm
  · unfold mat
    rw [copy_sem hg P, sem_eq_amp hg, amp_eq_coreAmp, Scalar.copy_conj_toNumber, conj_coreAmp hr, map_mul]
    congr 2
    have : ∀ c, g.coreAmp c = ({ g with scalar := Scalar.new } : Graph).amp c := fun c => by
      rw [amp_eq_coreAmp, Scalar.new_toNumber, one_mul]; rfl
    rw [this, this]
    refine amp_congr fun v hv ht => ?_
    unfold bval
    rw [hi, ho]
    simp only [mem_map_inj P.inj, idxOf_map_inj P.inj]
    rcases hio.all v hv ht with h | h
    · rw [if_pos h, if_neg (hio.disj v h)]
    · rw [if_pos h, if_neg (fun h' => hio.disj v h' h)]

/-- C25: `tensor` always succeeds and denotes the Kronecker product: the inputs and outputs of the first graph come first. -/
theorem tensor_spec {g o : Graph} (hg : g.WF) (ho : o.WF) (hio : IO g) (hio' : IO o) {vs vs' : List ℕ} {es es' : List (ℕ × ℕ)}
    (hvs : VertOrder g vs) (hes : EdgeOrder g es) (hvs' : VertOrder o vs') (hes' : EdgeOrder o es') :
    ∃ g', g.tensor o vs es vs' es' = some g' ∧ g'.WF ∧ IO g' ∧ g'.inputs.length = g.inputs.length + o.inputs.length ∧
      g'.outputs.length = g.outputs.length + o.outputs.length ∧
      ∀ x y, g'.mat x y = g.mat x y * o.mat (fun i => x (g.inputs.length + i)) fun i => y (g.outputs.length + i) := by
  obtain ⟨ρ, g0, e0, P, hi, hu, -⟩ := copy_eq hg false hvs hes
  simp only [Bool.false_eq_true, if_false] at hi hu P
  have hlist : vs'.toFinset = o.verts := by ext v; simp [hvs'.2 v]
  have hw0 : ({ g0 with scalar := g0.scalar.multWithScalar o.scalar } : Graph).WF :=
    P.wf.congr (P.wf.toInv.congr rfl rfl rfl rfl rfl rfl) rfl rfl rfl rfl rfl
  obtain ⟨σ, Q0, -, qi, qo, t1, -⟩ := copyVertices_spec ho 1 vs' { g0 with scalar := g0.scalar.multWithScalar o.scalar } (fun _ => none)
    hw0 hvs'.1 (fun v hv => (hvs'.2 v).mp hv)
  obtain ⟨g1, e1, Q, qi1, qo1⟩ := Q0.edges ho t1 hes'.1 (fun p => by
      rw [hes'.2 p]
      constructor
      · rintro ⟨h1, h2⟩
        exact ⟨h1, (hvs'.2 _).mpr (ho.mem _ _ h2), (hvs'.2 _).mpr (ho.mem _ _ (by rwa [ho.symm])), h2⟩
      · rintro ⟨h1, -, -, h2⟩; exact ⟨h1, h2⟩)
  rw [hlist] at Q
  have gi : g1.inputs = g.inputs.map ρ := (qi1.trans qi).trans hi
  have go : g1.outputs = g.outputs.map ρ := (qo1.trans qo).trans hu
  have hρ0 : ∀ v ∈ g.verts, ρ v ∈ g0.verts := fun v hv => by rw [P.verts]; exact mem_union_right _ (mem_image_of_mem _ hv)
  have hρ1 : ∀ v ∈ g.verts, ρ v ∈ g1.verts ∧ g1.ty (ρ v) = g.ty v := fun v hv =>
    ⟨by rw [Q.verts]; exact mem_union_left _ (hρ0 v hv), by rw [Q.tyOld _ (hρ0 v hv)]; exact P.tyNew v hv⟩
  have hσ1 : ∀ v ∈ o.verts, σ v ∈ g1.verts ∧ g1.ty (σ v) = o.ty v := fun v hv =>
    ⟨by rw [Q.verts]; exact mem_union_right _ (mem_image_of_mem _ hv), Q.tyNew v hv⟩
  have hne : ∀ u ∈ g.verts, ∀ v, ρ u ≠ σ v := fun u hu v h => Q.fresh v (h ▸ hρ0 u hu)
  have hcross1 : ∀ u ∈ g.verts, ∀ l : List ℕ, ρ u ∉ l.map σ := fun u hu l h => by
    obtain ⟨v, -, e⟩ := List.mem_map.mp h
    exact hne u hu v e.symm
  have hcross2 : ∀ v, ∀ l : List ℕ, (∀ u ∈ l, u ∈ g.verts) → σ v ∉ l.map ρ := fun v l hl h => by
    obtain ⟨u, hu, e⟩ := List.mem_map.mp h
    exact hne u (hl u hu) v e
  have hw1 := Q.wf.setIO (i := g1.inputs ++ o.inputs.map σ) (j := g1.outputs ++ o.outputs.map σ) (by
      intro v hv
      rw [gi, List.mem_append, List.mem_map, List.mem_map] at hv
      rcases hv with ⟨u, hu, rfl⟩ | ⟨u, hu, rfl⟩
      · exact ⟨(hρ1 u (hg.inp u hu)).1, (hρ1 u (hg.inp u hu)).2.trans (hg.io u (Or.inl hu))⟩
      · exact ⟨(hσ1 u (ho.inp u hu)).1, (hσ1 u (ho.inp u hu)).2.trans (ho.io u (Or.inl hu))⟩) (by
      intro v hv
      rw [go, List.mem_append, List.mem_map, List.mem_map] at hv
      rcases hv with ⟨u, hu, rfl⟩ | ⟨u, hu, rfl⟩
      · exact ⟨(hρ1 u (hg.out u hu)).1, (hρ1 u (hg.out u hu)).2.trans (hg.io u (Or.inr hu))⟩
      · exact ⟨(hσ1 u (ho.out u hu)).1, (hσ1 u (ho.out u hu)).2.trans (ho.io u (Or.inr hu))⟩)
  have R := Q.setIO hw1
  have hT : g.tensor o vs es vs' es' = some { g1 with inputs := g1.inputs ++ o.inputs.map σ, outputs := g1.outputs ++ o.outputs.map σ } := by
    unfold tensor
    rw [e0]
    simp only [Option.bind_eq_bind, Option.bind_some]
    unfold copyVertices
    rw [e1, Option.bind_some, mapM_table (fun v hv => t1 v ((hvs'.2 v).mpr (ho.inp v hv))), Option.bind_some,
      mapM_table (fun v hv => t1 v ((hvs'.2 v).mpr (ho.out v hv))), Option.bind_some]
    rfl
  refine ⟨_, hT, hw1, ⟨?_, ?_, ?_, ?_⟩, by simp [gi], by simp [go], fun x y => ?_⟩
  · show (g1.inputs ++ o.inputs.map σ).Nodup
    rw [gi, List.nodup_append]
    refine ⟨hio.nodupIn.map P.inj, hio'.nodupIn.map Q.inj, ?_⟩
    rintro a ha b hb rfl
    obtain ⟨u, hu, rfl⟩ := List.mem_map.mp ha
    exact hcross1 u (hg.inp u hu) _ hb
  · show (g1.outputs ++ o.outputs.map σ).Nodup
    rw [go, List.nodup_append]
    refine ⟨hio.nodupOut.map P.inj, hio'.nodupOut.map Q.inj, ?_⟩
    rintro a ha b hb rfl
    obtain ⟨u, hu, rfl⟩ := List.mem_map.mp ha
    exact hcross1 u (hg.out u hu) _ hb
  · show ∀ v ∈ g1.inputs ++ o.inputs.map σ, v ∉ g1.outputs ++ o.outputs.map σ
    rw [gi, go]
    intro v hv hv'
    rw [List.mem_append] at hv hv'
    rcases hv with hv | hv
    · obtain ⟨u, hu, rfl⟩ := List.mem_map.mp hv
      rcases hv' with hv' | hv'
      · exact hio.disj u hu ((mem_map_inj P.inj).mp hv')
      · exact hcross1 u (hg.inp u hu) _ hv'
    · obtain ⟨u, hu, rfl⟩ := List.mem_map.mp hv
      rcases hv' with hv' | hv'
      · exact hcross2 u _ hg.out hv'
      · exact hio'.disj u hu ((mem_map_inj Q.inj).mp hv')
  · show ∀ v ∈ g1.verts, g1.ty v = .boundary → v ∈ g1.inputs ++ o.inputs.map σ ∨ v ∈ g1.outputs ++ o.outputs.map σ
    intro v hv ht
    rw [gi, go, List.mem_append, List.mem_append]
    rw [Q.verts, mem_union] at hv
    rcases hv with hv | hv
    · change v ∈ g0.verts at hv
      rw [P.verts] at hv
      simp only [empty, empty_union, mem_image] at hv
      obtain ⟨u, hu, rfl⟩ := hv
      rw [(hρ1 u hu).2] at ht
      rcases hio.all u hu ht with h | h
      · exact Or.inl (Or.inl (List.mem_map_of_mem h))
      · exact Or.inr (Or.inl (List.mem_map_of_mem h))
    · obtain ⟨u, hu, rfl⟩ := mem_image.mp hv
      rw [(hσ1 u hu).2] at ht
      rcases hio'.all u hu ht with h | h
      · exact Or.inl (Or.inr (List.mem_map_of_mem h))
      · exact Or.inr (Or.inr (List.mem_map_of_mem h))
  · have hs : ∀ b, ({ g1 with inputs := g1.inputs ++ o.inputs.map σ, outputs := g1.outputs ++ o.outputs.map σ } : Graph).sem b =
        (g.sem fun v => b (ρ v)) * o.sem fun v => b (σ v) := by
      intro b
      rw [sem_eq_amp R.wf, amp_eq_coreAmp, R.coreAmp ho, R.scalar]
      show (g0.scalar.multWithScalar o.scalar).toNumber * (g0.coreAmp b * _) = _
      rw [P.coreAmp hg, Scalar.multWithScalar_toNumber, P.scalar, scaled_one, scaled_one, sem_eq_amp hg, sem_eq_amp ho, amp_eq_coreAmp, amp_eq_coreAmp]
      have : ({ empty with scalar := g.scalar.copy false } : Graph).coreAmp b = 1 := by
        unfold Graph.coreAmp Graph.interior Graph.coreW
        simp [empty]
      rw [this]
      show (g.scalar.copy false).toNumber * _ * _ = _
      rw [Scalar.copy_toNumber]
      ring
    unfold mat
    rw [hs]
    congr 1
    · refine sem_congr hg fun v hv ht => ?_
      unfold bval
      simp only [gi, go, List.mem_append, mem_map_inj P.inj, hcross1 v hv, or_false]
      rcases hio.all v hv ht with h | h
      · rw [if_pos h, if_pos h, List.idxOf_append_of_mem ((mem_map_inj P.inj).mpr h), idxOf_map_inj P.inj]
      · have hn := fun h' => hio.disj v h' h
        rw [if_neg hn, if_neg hn, List.idxOf_append_of_mem ((mem_map_inj P.inj).mpr h), idxOf_map_inj P.inj]
    · refine sem_congr ho fun v hv ht => ?_
      unfold bval
      simp only [gi, go, List.mem_append, mem_map_inj Q.inj, hcross2 v _ hg.inp, false_or]
      rcases hio'.all v hv ht with h | h
      · rw [if_pos h, if_pos h, List.idxOf_append_of_notMem (hcross2 v _ hg.inp), idxOf_map_inj Q.inj, List.length_map]
      · have hn := fun h' => hio'.disj v h' h
        rw [if_neg hn, if_neg hn, List.idxOf_append_of_notMem (hcross2 v _ hg.out), idxOf_map_inj Q.inj, List.length_map]

/-! ### Composition -/

theorem composeInto_spec {g o : Graph} (hg : g.WF) (ho : o.WF) (hio : IO g) (hio' : IO o) (hb : BDeg g) (hb' : BDeg o) (hw : Wired g g.outputs)
    (hw' : Wired o o.inputs) (hlen : g.outputs.length = o.inputs.length) {ord ord' : ℕ → List ℕ} (hord : Rules.NbrOrder g ord)
    (hord' : Rules.NbrOrder o ord') {vs : List ℕ} {es : List (ℕ × ℕ)} (hvs : VertOrder o vs) (hes : EdgeOrder o es) :
    ∃ g', composeInto g o ord ord' vs es = some g' ∧ g'.WF ∧ IO g' ∧ g'.inputs = g.inputs ∧ g'.outputs.length = o.outputs.length ∧
      ∀ x y, g'.mat x y = psum (range g.outputs.length) (fun z => g.mat x z * o.mat z y) fun _ => false := by
  obtain ⟨ρ, g', e, wf, inj, fresh, hv, tA, tB, hi, hout, n, n', hn, hn', hW⟩ := composeInto_eq hg ho hio hio' hb hb' hw hw' hlen hord hord' hvs hes
  set A := g.verts \ g.outputs.toFinset with hA
  set B := o.verts \ o.inputs.toFinset with hB
  have hinA : ∀ v ∈ g.inputs, v ∈ A := fun v hv => mem_sdiff.mpr ⟨hg.inp v hv, by simpa using hio.disj v hv⟩
  have houtB : ∀ v ∈ o.outputs, v ∈ B := fun v hv => mem_sdiff.mpr ⟨ho.out v hv, by simpa using fun h => hio'.disj v h hv⟩
  have hρin : ∀ v, ρ v ∉ g.inputs := fun v h => fresh v (hinA _ h)
  have hρout : ∀ v ∈ A, v ∉ o.outputs.map ρ := fun v hv h => by
    obtain ⟨u, -, e⟩ := List.mem_map.mp h
    exact fresh u (e ▸ hv)
  refine ⟨g', e, wf, ⟨?_, ?_, ?_, ?_⟩, hi, by rw [hout, List.length_map], fun x y => ?_⟩
  · rw [hi]; exact hio.nodupIn
  · rw [hout]; exact hio'.nodupOut.map inj
  · rw [hi, hout]; exact fun v hv => hρout v (hinA v hv)
  · intro v hvv ht
    rw [hi, hout]
    rw [hv, mem_union] at hvv
    rcases hvv with h | h
    · rw [tA v h] at ht
      rcases hio.all v (mem_sdiff.mp h).1 ht with h' | h'
      · exact Or.inl h'
      · exact absurd (by simpa using h') (mem_sdiff.mp h).2
    · obtain ⟨u, hu, rfl⟩ := mem_image.mp h
      rw [tB u hu] at ht
      rcases hio'.all u (mem_sdiff.mp hu).1 ht with h' | h'
      · exact absurd (by simpa using h') (mem_sdiff.mp hu).2
      · exact Or.inr (List.mem_map_of_mem h')
  -- the sum over the inner variables of the composite
  have hint : g'.interior = g.interior ∪ o.interior.image ρ := by
    ext w
    unfold Graph.interior
    rw [mem_filter, hv]
    simp only [mem_union, mem_filter, mem_image]
    constructor
    · rintro ⟨h | ⟨u, hu, rfl⟩, h2⟩
      · exact Or.inl ⟨(mem_sdiff.mp h).1, by rwa [tA w h] at h2⟩
      · exact Or.inr ⟨u, ⟨(mem_sdiff.mp hu).1, by rwa [tB u hu] at h2⟩, rfl⟩
    · rintro (⟨h, h2⟩ | ⟨u, ⟨hu, h2⟩, rfl⟩)
      · have : w ∈ A := mem_sdiff.mpr ⟨h, fun h' => h2 (hg.io w (Or.inr (by simpa using h')))⟩
        exact ⟨Or.inl this, by rwa [tA w this]⟩
      · have : u ∈ B := mem_sdiff.mpr ⟨hu, fun h' => h2 (ho.io u (Or.inl (by simpa using h')))⟩
        exact ⟨Or.inr ⟨u, this, rfl⟩, by rwa [tB u this]⟩
  have hIA : g.interior ⊆ A := fun v hv => by
    have := mem_filter.mp hv
    exact mem_sdiff.mpr ⟨this.1, fun h' => this.2 (hg.io v (Or.inr (by simpa using h')))⟩
  set b := g'.bval x y with hbdef
  have hk1 : ∀ k ∈ range g.outputs.length, g.outputs.getD k 0 ∈ g.outputs := fun k hk => by
    rw [List.getD_eq_getElem _ _ (mem_range.mp hk)]; exact List.getElem_mem _
  have hk2 : ∀ k ∈ range g.outputs.length, o.inputs.getD k 0 ∈ o.inputs := fun k hk => by
    rw [List.getD_eq_getElem _ _ (by rw [← hlen]; exact mem_range.mp hk)]; exact List.getElem_mem _
  have hnA : ∀ v ∈ g.outputs, n v ∈ A := fun v hv =>
    mem_sdiff.mpr ⟨hg.mem _ v (by rw [hg.symm]; exact (hn v hv).2.1), by simpa using (hn v hv).1⟩
  have hL : g'.mat x y = psum g.interior (fun u => psum o.interior (fun w => g.scalar.toNumber * o.scalar.toNumber * (g.coreW A u *
      o.coreW B w * ∏ k ∈ range g.outputs.length,
        kern (xor (g.wireK (g.outputs.getD k 0) (n (g.outputs.getD k 0))) (o.wireK (o.inputs.getD k 0) (n' (o.inputs.getD k 0))))
          (u (n (g.outputs.getD k 0))) (w (n' (o.inputs.getD k 0))))) fun v => b (ρ v)) b := by
    unfold mat
    rw [sem_eq_amp wf]
    unfold amp
    rw [hint, ← psum_paste (V := A) inj hIA fresh (F := fun u w => g.scalar.toNumber * o.scalar.toNumber * (g.coreW A u *
      o.coreW B w * ∏ k ∈ range g.outputs.length,
        kern (xor (g.wireK (g.outputs.getD k 0) (n (g.outputs.getD k 0))) (o.wireK (o.inputs.getD k 0) (n' (o.inputs.getD k 0))))
          (u (n (g.outputs.getD k 0))) (w (n' (o.inputs.getD k 0)))))]
    · exact psum_congr fun u _ => by rw [weight_eq_wOn]; exact hW u
    · intro u u' w huu
      rw [coreW_congr_env huu]
      congr 2
      exact prod_congr rfl fun k hk => by rw [huu _ (hnA _ (hk1 k hk))]
  have hG : ∀ z, g.mat x z = g.scalar.toNumber * psum g.interior (fun u => g.coreW A u *
      ∏ k ∈ range g.outputs.length, kern (g.wireK (g.outputs.getD k 0) (n (g.outputs.getD k 0))) (z k) (u (n (g.outputs.getD k 0)))) b := by
    intro z
    unfold mat
    rw [sem_wires hg hio.nodupOut (fun v hv => ⟨hg.out v hv, hg.io v (Or.inr hv)⟩) hn (c := b)]
    · congr 2
      funext u
      congr 1
      refine prod_congr rfl fun k hk => ?_
      congr 1
      unfold bval
      rw [if_neg fun h => hio.disj _ h (hk1 k hk), List.getD_eq_getElem _ _ (mem_range.mp hk), hio.nodupOut.idxOf_getElem]
    · intro v hvv hvo ht
      have hin := (hio.all v hvv ht).resolve_right hvo
      rw [hbdef]
      unfold bval
      rw [hi, if_pos hin, if_pos hin]
  have hO : ∀ z, o.mat z y = o.scalar.toNumber * psum o.interior (fun w => o.coreW B w *
      ∏ k ∈ range g.outputs.length, kern (o.wireK (o.inputs.getD k 0) (n' (o.inputs.getD k 0))) (z k) (w (n' (o.inputs.getD k 0)))) fun v => b (ρ v) := by
    intro z
    unfold mat
    rw [sem_wires ho hio'.nodupIn (fun v hv => ⟨ho.inp v hv, ho.io v (Or.inl hv)⟩) hn' (c := fun v => b (ρ v)), ← hlen]
    · congr 2
      funext u
      congr 1
      refine prod_congr rfl fun k hk => ?_
      congr 1
      unfold bval
      rw [if_pos (hk2 k hk), List.getD_eq_getElem _ _ (by rw [← hlen]; exact mem_range.mp hk), hio'.nodupIn.idxOf_getElem]
    · intro v hvv hvo ht
      have hin := (hio'.all v hvv ht).resolve_left hvo
      rw [hbdef]
      unfold bval
      rw [if_neg hvo, hi, if_neg (hρin v), hout, idxOf_map_inj inj]
  rw [hL]
  have hR : psum (range g.outputs.length) (fun z => g.mat x z * o.mat z y) (fun _ => false) =
      psum (range g.outputs.length) (fun z => psum g.interior (fun u => psum o.interior (fun w =>
        g.scalar.toNumber * o.scalar.toNumber * (g.coreW A u * o.coreW B w) * ∏ k ∈ range g.outputs.length,
          (kern (g.wireK (g.outputs.getD k 0) (n (g.outputs.getD k 0))) (z k) (u (n (g.outputs.getD k 0))) *
            kern (o.wireK (o.inputs.getD k 0) (n' (o.inputs.getD k 0))) (z k) (w (n' (o.inputs.getD k 0)))))
        fun v => b (ρ v)) b) fun _ => false := by
    refine psum_congr fun z _ => ?_
    rw [hG z, hO z, mul_mul_mul_comm, psum_mul_psum, ← psum_const_mul]
    refine psum_congr fun u _ => ?_
    rw [← psum_const_mul]
    refine psum_congr fun w _ => ?_
    rw [prod_mul_distrib]
    ring
  rw [hR]
  refine Eq.trans ?_ (psum_comm _ _ _ _ _)
  refine psum_congr fun u _ => ?_
  refine Eq.trans ?_ (psum_comm _ _ _ _ _)
  refine psum_congr fun w _ => ?_
  rw [psum_const_mul, psum_prod _ _ (Subset.refl _) (fun k c => kern (g.wireK (g.outputs.getD k 0) (n (g.outputs.getD k 0))) c (u (n (g.outputs.getD k 0))) *
            kern (o.wireK (o.inputs.getD k 0) (n' (o.inputs.getD k 0))) c (w (n' (o.inputs.getD k 0))))]
  have aux : ∀ s a P Q : ℂ, P = Q → s * (a * P) = s * a * Q := by intro s a P Q h; rw [h]; ring
  refine aux _ _ _ _ (prod_congr rfl fun k hk => ?_)
  rw [if_pos hk, kern_comp]

theorem Renamed.io {o o' : Graph} {ρ : ℕ → ℕ} (h : Renamed o o' ρ) (hi : o'.inputs = o.inputs.map ρ) (hu : o'.outputs = o.outputs.map ρ) (hio : IO o) :
    IO o' where
  nodupIn := by rw [hi]; exact hio.nodupIn.map h.inj
  nodupOut := by rw [hu]; exact hio.nodupOut.map h.inj
  disj v hv hv' := by
    rw [hi] at hv
    obtain ⟨u, hu', rfl⟩ := List.mem_map.mp hv
    rw [hu, mem_map_inj h.inj] at hv'
    exact hio.disj u hu' hv'
  all v hv ht := by
    rw [h.verts] at hv
    obtain ⟨u, hu', rfl⟩ := mem_image.mp hv
    rw [h.ty u hu'] at ht
    rw [hi, hu, mem_map_inj h.inj, mem_map_inj h.inj]
    exact hio.all u hu' ht

theorem Renamed.adj_inv {o o' : Graph} {ρ : ℕ → ℕ} (h : Renamed o o' ρ) (ho' : o'.WF) {u w : ℕ} (hu : u ∈ o.verts) (ha : o'.adj (ρ u) w ≠ none) :
    ∃ v ∈ o.verts, w = ρ v ∧ o.adj u v ≠ none := by
  have hw : w ∈ o'.verts := ho'.mem w (ρ u) (by rwa [ho'.symm])
  rw [h.verts] at hw
  obtain ⟨v, hv, rfl⟩ := mem_image.mp hw
  exact ⟨v, hv, rfl, by rwa [← h.adj u hu v hv]⟩

theorem Renamed.bdeg {o o' : Graph} {ρ : ℕ → ℕ} (h : Renamed o o' ρ) (ho' : o'.WF) (hb : BDeg o) : BDeg o' := by
  intro c hc ht u w hu hw
  rw [h.verts] at hc
  obtain ⟨a, ha, rfl⟩ := mem_image.mp hc
  obtain ⟨u, -, rfl, hu2⟩ := Renamed.adj_inv h ho' ha hu
  obtain ⟨w, -, rfl, hw2⟩ := Renamed.adj_inv h ho' ha hw
  rw [hb a ha (by rwa [h.ty a ha] at ht) u w hu2 hw2]

theorem Renamed.wired {o o' : Graph} {ρ : ℕ → ℕ} (h : Renamed o o' ρ) (ho : o.WF) (ho' : o'.WF) {l : List ℕ} (hl : ∀ v ∈ l, v ∈ o.verts) (hb : Wired o l) :
    Wired o' (l.map ρ) := by
  intro c hc
  obtain ⟨a, ha, rfl⟩ := List.mem_map.mp hc
  obtain ⟨n, h1, h2, h3⟩ := hb a ha
  have hn : n ∈ o.verts := ho.mem n a (by rwa [ho.symm])
  refine ⟨ρ n, by rwa [mem_map_inj h.inj], by rwa [h.adj a (hl a ha) n hn], fun w hw => ?_⟩
  obtain ⟨w, -, rfl, hw2⟩ := Renamed.adj_inv h ho' (hl a ha) hw
  rw [h3 w hw2]

/-- C25: `compose` succeeds and denotes the matrix product, for diagrams whose boundaries have degree at most one, when every output of the first
and every input of the second is wired to exactly one vertex that is not itself such a boundary. Without the last condition see
`compose_cup_wrong`. -/
theorem compose_spec_partial {g o : Graph} (hg : g.WF) (ho : o.WF) (hio : IO g) (hio' : IO o) (hb : BDeg g) (hb' : BDeg o) (hw : Wired g g.outputs)
    (hw' : Wired o o.inputs) (hlen : g.outputs.length = o.inputs.length) {ord : ℕ → List ℕ} (hord : Rules.NbrOrder g ord)
    {vs : List ℕ} {es : List (ℕ × ℕ)} (hvs : VertOrder o vs) (hes : EdgeOrder o es)
    {ord' : Graph → ℕ → List ℕ} {vs' : Graph → List ℕ} {es' : Graph → List (ℕ × ℕ)} (hord' : ∀ h, h.WF → Rules.NbrOrder h (ord' h))
    (hvs' : ∀ h, h.WF → VertOrder h (vs' h)) (hes' : ∀ h, h.WF → EdgeOrder h (es' h)) :
    ∃ g', compose g o ord vs es ord' vs' es' = some g' ∧ g'.WF ∧ IO g' ∧ g'.inputs = g.inputs ∧ g'.outputs.length = o.outputs.length ∧
      ∀ x y, g'.mat x y = psum (range g.outputs.length) (fun z => g.mat x z * o.mat z y) fun _ => false := by
  obtain ⟨ρ, o', e, wf', -, R, hi, hu, -, -, hmat⟩ := copy_spec ho hvs hes
  obtain ⟨g', e', r1, r2, r3, r4, r5⟩ := composeInto_spec hg wf' hio (Renamed.io R hi hu hio') hb (Renamed.bdeg R wf' hb') hw
    (hi ▸ Renamed.wired R ho wf' ho.inp hw') (by rw [hi, List.length_map, hlen]) hord (hord' o' wf') (hvs' o' wf') (hes' o' wf')
  refine ⟨g', ?_, r1, r2, r3, by rw [r4, hu, List.length_map], fun x y => ?_⟩
  · unfold compose
    rw [e]
    exact e'
  · rw [r5]
    exact psum_congr fun z _ => by rw [hmat]

/-- C25: `compose` raises if the numbers of outputs and inputs differ. -/
theorem compose_length_raises {g o : Graph} (ho : o.WF) (hlen : g.outputs.length ≠ o.inputs.length) {ord : ℕ → List ℕ}
    {vs : List ℕ} {es : List (ℕ × ℕ)} (hvs : VertOrder o vs) (hes : EdgeOrder o es)
    {ord' : Graph → ℕ → List ℕ} {vs' : Graph → List ℕ} {es' : Graph → List (ℕ × ℕ)} : compose g o ord vs es ord' vs' es' = none := by
  obtain ⟨ρ, o', e, wf', -, R, hi, hu, -, -, hmat⟩ := copy_spec ho hvs hes
  unfold compose composeInto
  rw [e]
  show (if g.outputs.length ≠ o'.inputs.length then none else _) = none
  rw [if_pos (by rw [hi, List.length_map]; exact hlen)]

end Props
end PyZX
