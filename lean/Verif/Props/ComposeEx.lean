import Verif.Props.Compose

/-!
# C25: concrete cases, and diagrams on which composition and adjoint are wrong
-/

namespace PyZX
namespace Props

open Graph Finset

/-- Decidable form of `IO` for the diagrams of the examples. -/
theorem mkG_io {ts : List VType} {ps : List ℚ} {es : List (ℕ × ℕ × EType)} {ins outs : List ℕ} (h1 : ins.Nodup) (h2 : outs.Nodup)
    (h3 : ∀ v ∈ ins, v ∉ outs) (h4 : ∀ v < ts.length, ts.getD v .boundary = .boundary → v ∈ ins ∨ v ∈ outs) : IO (mkG ts ps es ins outs) :=
  ⟨h1, h2, h3, fun v hv ht => h4 v (mem_range.mp hv) ht⟩

/-- A Z-phase on one qubit. -/
noncomputable def exZ1 : Graph := mkG [.boundary, .Z, .boundary] [0, 1 / 3, 0] [(0, 1, .simple), (1, 2, .had)] [0] [2]

theorem exZ1_adj (u v : ℕ) : exZ1.adj u v ≠ none ↔ (u = 0 ∧ v = 1) ∨ (u = 1 ∧ v = 0) ∨ (u = 1 ∧ v = 2) ∨ (u = 2 ∧ v = 1) := by
  simp [exZ1, mkG]
  tauto

theorem exZ1_edges : EdgeOrder exZ1 [(0, 1), (1, 2)] := by
  refine ⟨by decide, fun p => ?_⟩
  rw [exZ1_adj]
  obtain ⟨a, b⟩ := p
  simp
  omega

theorem exZ1_verts : VertOrder exZ1 [0, 1, 2] := by
  refine ⟨by decide, fun v => ?_⟩
  simp [exZ1, mkG]
  omega

/-- The hypotheses of `copy_spec`, `adjoint_spec_partial` and `tensor_spec` hold for a phase followed by a Hadamard gate. -/
example : exZ1.WF ∧ IO exZ1 ∧ RealBoxes exZ1 ∧ VertOrder exZ1 [0, 1, 2] ∧ EdgeOrder exZ1 [(0, 1), (1, 2)] :=
  ⟨mkG_wf (by decide), mkG_io (by decide) (by decide) (by decide) (by decide), fun v _ _ => by simp [exZ1, mkG], exZ1_verts, exZ1_edges⟩

/-- The hypotheses of `compose_spec_partial` hold for that diagram composed with itself. -/
example : BDeg exZ1 ∧ Wired exZ1 exZ1.outputs ∧ Wired exZ1 exZ1.inputs ∧ exZ1.outputs.length = exZ1.inputs.length ∧ Rules.NbrOrder exZ1 exZ1.incOrd := by
  refine ⟨mkG_bdeg (by decide) (by decide), ?_, ?_, rfl, incOrd_ok _⟩
  · intro v hv
    have : v = 2 := by simpa [exZ1, mkG] using hv
    subst this
    refine ⟨1, by simp [exZ1, mkG], by rw [exZ1_adj]; simp, fun w hw => ?_⟩
    rw [exZ1_adj] at hw
    omega
  · intro v hv
    have : v = 0 := by simpa [exZ1, mkG] using hv
    subst this
    refine ⟨1, by simp [exZ1, mkG], by rw [exZ1_adj]; simp, fun w hw => ?_⟩
    rw [exZ1_adj] at hw
    omega

/-- A single Z-box with parameter `i`. -/
noncomputable def exBoxI : Graph := { mkG [.zbox] [0] [] [] [] with label := fun _ => Complex.I }

theorem exBoxI_wf : exBoxI.WF := by
  have h : (mkG [.zbox] [0] [] [] []).WF := mkG_wf (by decide)
  exact h.congr (h.toInv.congr rfl rfl rfl rfl rfl rfl) rfl rfl rfl rfl rfl

theorem exBoxI_coreAmp (m : ℚ) (b : ℕ → Bool) : (exBoxI.scaled m).coreAmp b = 1 + Complex.I := by
  have hv : (exBoxI.scaled m).verts = insert 0 ∅ := by ext v; simp [exBoxI, mkG, scaled]
  have hi : (exBoxI.scaled m).interior = insert 0 ∅ := by
    rw [Graph.interior, hv]
    refine filter_eq_self.mpr fun v h => ?_
    have : v = 0 := by simpa using h
    subst this
    simp [exBoxI, mkG, scaled]
  unfold coreAmp
  rw [hi, psum_insert_env (by simp), psum_empty, psum_empty, hv]
  unfold coreW
  simp [pairProd, pairs, Finset.filter_singleton, vwt, vval, scaled, exBoxI, mkG]

/-- C25 fails for Z-boxes: the adjoint of a Z-box with parameter `i` denotes the same number instead of its conjugate. -/
theorem adjoint_zbox_wrong : exBoxI.WF ∧ IO exBoxI ∧ ∃ g', exBoxI.adjoint [0] [] = some g' ∧
    ∀ x y, g'.mat x y = 1 + Complex.I ∧ (starRingEnd ℂ) (exBoxI.mat y x) = 1 - Complex.I := by
  refine ⟨exBoxI_wf, ⟨by simp [exBoxI, mkG], by simp [exBoxI, mkG], by simp [exBoxI, mkG], ?_⟩, ?_⟩
  · intro v hv ht
    have : v = 0 := by simpa [exBoxI, mkG] using hv
    subst this
    simp [exBoxI, mkG] at ht
  · obtain ⟨ρ, g', e, P, -⟩ := copy_eq (vs := [0]) (es := []) exBoxI_wf true ⟨by simp, by intro v; simp [exBoxI, mkG]⟩ ⟨by simp, by intro p; simp [exBoxI, mkG]⟩
    refine ⟨g', e, fun x y => ⟨?_, ?_⟩⟩
    · unfold mat
      rw [copy_sem exBoxI_wf P, exBoxI_coreAmp, Scalar.copy_conj_toNumber]
      simp [exBoxI, mkG, Scalar.new_toNumber]
    · unfold mat
      rw [sem_eq_amp exBoxI_wf, amp_eq_coreAmp, ← scaled_one exBoxI, exBoxI_coreAmp]
      simp [exBoxI, mkG, scaled, Scalar.new_toNumber]
      ring

/-! ### Composition with wires between outputs -/

/-- An isolated spider and a wire between two outputs. -/
noncomputable def exCup : Graph := mkG [.Z, .boundary, .boundary] [0, 0, 0] [(1, 2, .simple)] [] [1, 2]

/-- Two isolated spiders with phase pi, and two spiders with phase pi on the two inputs. -/
noncomputable def exEff : Graph := mkG [.boundary, .boundary, .Z, .Z, .Z, .Z] [0, 0, 1, 1, 1, 1] [(0, 4, .simple), (1, 5, .simple)] [0, 1] []

theorem exCup_adj (u v : ℕ) : exCup.adj u v ≠ none ↔ (u = 1 ∧ v = 2) ∨ (u = 2 ∧ v = 1) := by
  simp [exCup, mkG]
  tauto

theorem exEff_adj (u v : ℕ) : exEff.adj u v ≠ none ↔ (u = 0 ∧ v = 4) ∨ (u = 4 ∧ v = 0) ∨ (u = 1 ∧ v = 5) ∨ (u = 5 ∧ v = 1) := by
  simp [exEff, mkG]
  tauto

theorem exCup_wf : exCup.WF := mkG_wf (by decide)
theorem exEff_wf : exEff.WF := mkG_wf (by decide)

/-- The second diagram denotes zero, because of the isolated spiders with phase pi. -/
theorem exEff_zero (b : ℕ → Bool) : exEff.sem b = 0 := by
  have h2v : 2 ∈ exEff.verts := by simp [exEff, mkG]
  have h2 : 2 ∈ exEff.interior := mem_filter.mpr ⟨h2v, by simp [exEff, mkG]⟩
  rw [sem_eq_amp exEff_wf, amp_eq_coreAmp]
  unfold coreAmp
  rw [psum_erase h2]
  have : ∀ x : ℕ → Bool, exEff.coreW exEff.verts (Function.update x 2 false) + exEff.coreW exEff.verts (Function.update x 2 true) = 0 := by
    intro x
    have key : ∀ c, exEff.coreW exEff.verts (Function.update x 2 c) = exEff.vwt 2 c * exEff.coreW (exEff.verts.erase 2) x := by
      intro c
      rw [coreW_erase exEff_wf.symm h2v, Function.update_self, coreW_update (notMem_erase _ _), prod_eq_one, mul_one]
      intro w _
      refine edgeK_none ?_
      by_contra hne
      have := (exEff_adj _ _).mp hne
      omega
    rw [key, key, ← add_mul]
    have : exEff.vwt 2 false + exEff.vwt 2 true = 0 := by simp [vwt, vval, exEff, mkG, ph_one]
    rw [this, zero_mul]
  simp [this, psum]

theorem removeVertices_vindex {g g' : Graph} {vs : List ℕ} (h : g.removeVertices vs = some g') : g'.vindex = g'.verts.sup id + 1 := by
  unfold removeVertices at h
  obtain ⟨g1, -, rfl⟩ := Option.map_eq_some_iff.mp h
  rfl

/-- C25 fails when two outputs of the first diagram are wired together: the names of the removed outputs are given to new vertices, and the
composition connects unrelated vertices. Here the product of the matrices is 0 and the result denotes 8. -/
theorem compose_cup_wrong : exCup.WF ∧ exEff.WF ∧ IO exCup ∧ IO exEff ∧ BDeg exCup ∧ BDeg exEff ∧ Wired exEff exEff.inputs ∧
    exCup.outputs.length = exEff.inputs.length ∧
    ∃ g', composeInto exCup exEff exCup.incOrd exEff.incOrd [0, 1, 2, 3, 4, 5] [(0, 4), (1, 5)] = some g' ∧ g'.WF ∧
      ∀ x y, g'.mat x y = 8 ∧ psum (range exCup.outputs.length) (fun z => exCup.mat x z * exEff.mat z y) (fun _ => false) = 0 := by
  refine ⟨exCup_wf, exEff_wf, mkG_io (by decide) (by decide) (by decide) (by decide), mkG_io (by decide) (by decide) (by decide) (by decide),
    mkG_bdeg (by decide) (by decide), mkG_bdeg (by decide) (by decide), ?_, rfl, ?_⟩
  · intro v hv
    have : v = 0 ∨ v = 1 := by simpa [exEff, mkG] using hv
    rcases this with rfl | rfl
    · refine ⟨4, by simp [exEff, mkG], by rw [exEff_adj]; simp, fun w hw => ?_⟩
      rw [exEff_adj] at hw
      omega
    · refine ⟨5, by simp [exEff, mkG], by rw [exEff_adj]; simp, fun w hw => ?_⟩
      rw [exEff_adj] at hw
      omega
  -- the plugs
  have oc : ∀ v n, v ∈ exCup.verts → exCup.adj v n ≠ none → (∀ w, exCup.adj v w ≠ none → w = n) → exCup.incOrd v = [n] :=
    fun v n hv h1 h2 => ord_single exCup_wf (incOrd_ok _) hv h1 h2
  have oe : ∀ v n, v ∈ exEff.verts → exEff.adj v n ≠ none → (∀ w, exEff.adj v w ≠ none → w = n) → exEff.incOrd v = [n] :=
    fun v n hv h1 h2 => ord_single exEff_wf (incOrd_ok _) hv h1 h2
  have o1 := oc 1 2 (by simp [exCup, mkG]) (by rw [exCup_adj]; simp) (fun w hw => by rw [exCup_adj] at hw; omega)
  have o2 := oc 2 1 (by simp [exCup, mkG]) (by rw [exCup_adj]; simp) (fun w hw => by rw [exCup_adj] at hw; omega)
  have p0 := oe 0 4 (by simp [exEff, mkG]) (by rw [exEff_adj]; simp) (fun w hw => by rw [exEff_adj] at hw; omega)
  have p1 := oe 1 5 (by simp [exEff, mkG]) (by rw [exEff_adj]; simp) (fun w hw => by rw [exEff_adj] at hw; omega)
  have hplug : (exCup.outputs.zip exEff.inputs).mapM (plug exCup exEff exCup.incOrd exEff.incOrd) = some [(2, 4, .simple), (1, 5, .simple)] := by
    have : exCup.outputs.zip exEff.inputs = [(1, 0), (2, 1)] := rfl
    rw [this]
    have q1 : plug exCup exEff exCup.incOrd exEff.incOrd (1, 0) = some (2, 4, .simple) := by
      unfold plug
      simp only [o1, p0]
      simp [exCup, exEff, mkG]
    have q2 : plug exCup exEff exCup.incOrd exEff.incOrd (2, 1) = some (1, 5, .simple) := by
      unfold plug
      simp only [o2, p1]
      simp [exCup, exEff, mkG]
    rw [List.mapM_cons, q1, List.mapM_cons, q2]
    rfl
  -- the outputs are removed
  set g0 : Graph := { exCup with scalar := exCup.scalar.multWithScalar exEff.scalar } with hg0
  have hw0 : g0.WF := exCup_wf.congr (exCup_wf.toInv.congr rfl rfl rfl rfl rfl rfl) rfl rfl rfl rfl rfl
  obtain ⟨ga, ea⟩ := removeVertices_isSome hw0.toInv (vs := [1]) (by simp) (by simp [g0, exCup, mkG])
  obtain ⟨ra, -, -, wa⟩ := removeVertices_spec ea
  obtain ⟨gb, eb⟩ := removeVertices_isSome (wa hw0).toInv (vs := [2]) (by simp) (by rw [ra.verts]; simp [g0, exCup, mkG])
  obtain ⟨rb', -, -, wb⟩ := removeVertices_spec eb
  have hwb := wb (wa hw0)
  have rb := ra.trans rb'
  have vb : gb.verts = {0} := by
    rw [rb.verts]
    ext v
    simp [g0, exCup, mkG]
    omega
  have ib : gb.vindex = 1 := by rw [removeVertices_vindex eb, vb]; simp
  have efold : exCup.outputs.foldlM (fun g v => g.removeVertices [v]) g0 = some gb := by
    show [1, 2].foldlM (fun g v => g.removeVertices [v]) g0 = some gb
    rw [List.foldlM_cons, ea]
    show [2].foldlM (fun g v => g.removeVertices [v]) ga = some gb
    rw [List.foldlM_cons, eb]
    rfl
  -- the vertices of the other diagram are copied
  have hvs : [0, 1, 2, 3, 4, 5].filter (· ∉ exEff.inputs) = [2, 3, 4, 5] := by
    show [0, 1, 2, 3, 4, 5].filter (· ∉ [0, 1]) = [2, 3, 4, 5]
    decide
  have hes : [(0, 4), (1, 5)].filter (fun p : ℕ × ℕ => p.1 ∉ exEff.inputs ∧ p.2 ∉ exEff.inputs) = [] := by
    show [(0, 4), (1, 5)].filter (fun p : ℕ × ℕ => p.1 ∉ [0, 1] ∧ p.2 ∉ [0, 1]) = []
    decide
  obtain ⟨ρ, P, hidx, qi, qo, tb, -⟩ := copyVertices_spec exEff_wf 1 [2, 3, 4, 5] gb (fun _ => none) hwb (by decide) (by
    intro v hv
    simp only [List.mem_cons, List.not_mem_nil, or_false] at hv
    simp [exEff, mkG]
    omega)
  have r2 : ρ 2 = 1 := by rw [hidx 2 (by simp), ib]; rfl
  have r3 : ρ 3 = 2 := by rw [hidx 3 (by simp), ib]; rfl
  have r4 : ρ 4 = 3 := by rw [hidx 4 (by simp), ib]; rfl
  have r5 : ρ 5 = 4 := by rw [hidx 5 (by simp), ib]; rfl
  set s := [2, 3, 4, 5].foldl (copyVertex exEff 1) (gb, fun _ => none) with hs
  have vs1 : s.1.verts = insert 0 (insert 1 (insert 2 (insert 3 (insert 4 ∅)))) := by
    rw [P.verts, vb]
    simp [r2, r3, r4, r5]
    ext v
    simp
    omega
  have adj0 : ∀ u v, u ∈ [2, 3, 4, 5] → v ∈ [2, 3, 4, 5] → s.1.adj (ρ u) (ρ v) = none := fun u v hu hv =>
    P.adjNew u (by simpa using hu) v (by simpa using hv)
  -- the connecting edges
  have a1 : s.1.adj 2 3 = none := by have := adj0 3 4 (by simp) (by simp); rwa [r3, r4] at this
  have b1 := addEdge_fresh (g := s.1) (s := 2) (t := 3) (by rw [vs1]; simp) (by rw [vs1]; simp) a1 .simple
  set h1 : Graph := { s.1.setAdj 2 3 (some .simple) with nedges := s.1.nedges + 1 } with hh1
  have w1 : h1.WF := P.wf.addEdge b1 (by decide) (by decide)
  have v1 : h1.verts = s.1.verts := rfl
  have a2 : h1.adj 1 4 = none := by
    have := adj0 2 5 (by simp) (by simp)
    rw [r2, r5] at this
    rw [addEdge_adj_other b1 (by rintro (⟨h, -⟩ | ⟨h, -⟩) <;> simp at h), this]
  have b2 := addEdge_fresh (g := h1) (s := 1) (t := 4) (by rw [v1, vs1]; simp) (by rw [v1, vs1]; simp) a2 .simple
  set h2 : Graph := { h1.setAdj 1 4 (some .simple) with nedges := h1.nedges + 1 } with hh2
  have w2 : h2.WF := w1.addEdge b2 (by decide) (by decide)
  have v2 : h2.verts = s.1.verts := rfl
  have hout : exEff.outputs.mapM s.2 = some [] := rfl
  have hio : h2.outputs = [] := by
    show s.1.outputs = []
    rw [qo, rb.outputs]
    show [1, 2].filter _ = []
    decide
  have hw2 : ({ h2 with outputs := [] } : Graph).WF := w2.setIO (i := h2.inputs) (j := []) (fun v hv => ⟨w2.inp v hv, w2.io v (Or.inl hv)⟩) (by simp)
  refine ⟨{ h2 with outputs := [] }, ?_, hw2, fun x y => ⟨?_, ?_⟩⟩
  · unfold composeInto
    rw [if_neg (by decide +revert), hplug]
    simp only [Option.bind_eq_bind, Option.bind_some]
    rw [efold, Option.bind_some]
    unfold copyVertices
    rw [hvs, hes]
    have : copyEdges s.1 exEff s.2 [] = some s.1 := rfl
    rw [← hs, this, Option.bind_some]
    have hp : [(2, 4, EType.simple), (1, 5, EType.simple)].foldlM (plugEdge s.2) s.1 = some h2 := by
      have c1 : plugEdge s.2 s.1 (2, 4, .simple) = some h1 := by
        unfold plugEdge
        simp only [tb 4 (by simp), r4]
        exact b1
      have c2 : plugEdge s.2 h1 (1, 5, .simple) = some h2 := by
        unfold plugEdge
        simp only [tb 5 (by simp), r5]
        exact b2
      rw [List.foldlM_cons, c1]
      show [(1, 5, EType.simple)].foldlM (plugEdge s.2) h1 = some h2
      rw [List.foldlM_cons, c2]
      rfl
    rw [hp, Option.bind_some, hout, Option.bind_some]
    rfl
  · unfold mat
    rw [sem_eq_amp hw2]
    have tys : ∀ v ∈ s.1.verts, s.1.ty v = .Z := by
      intro v hv
      rw [vs1] at hv
      simp only [mem_insert, notMem_empty, or_false] at hv
      have t0 : s.1.ty 0 = .Z := by rw [P.tyOld 0 (by rw [vb]; simp), rb.ty]; rfl
      have tn : ∀ u ∈ [2, 3, 4, 5], s.1.ty (ρ u) = exEff.ty u := fun u hu => P.tyNew u (by simpa using hu)
      rcases hv with rfl | rfl | rfl | rfl | rfl
      · exact t0
      · rw [← r2, tn 2 (by simp)]; rfl
      · rw [← r3, tn 3 (by simp)]; rfl
      · rw [← r4, tn 4 (by simp)]; rfl
      · rw [← r5, tn 5 (by simp)]; rfl
    have phn : ∀ u ∈ [2, 3, 4, 5], s.1.phase (ρ u) = 1 := fun u hu => by
      rw [P.phaseNew u (by simpa using hu)]
      simp only [List.mem_cons, List.not_mem_nil, or_false] at hu
      have e1 : (exEff.noEdges).phase u = 1 := by rcases hu with rfl | rfl | rfl | rfl <;> rfl
      rw [e1, mul_one, mod2_of_range (by norm_num) (by norm_num)]
    have ph0 : s.1.phase 0 = 0 := by rw [P.phaseOld 0 (by rw [vb]; simp), rb.phase]; rfl
    have hint : ({ h2 with outputs := [] } : Graph).interior = s.1.verts := by
      refine filter_eq_self.mpr fun v hv => ?_
      show s.1.ty v ≠ _
      rw [tys v hv]
      decide
    have hadj : ∀ u ∈ s.1.verts, ∀ v ∈ s.1.verts, s.1.adj u v = none := by
      intro u hu v hv
      rw [P.verts, vb, mem_union, mem_singleton] at hu hv
      rcases hu with rfl | hu
      · rcases hv with rfl | hv
        · exact P.wf.loopless 0
        · obtain ⟨w, hw, rfl⟩ := mem_image.mp hv
          exact P.cross 0 (by rw [vb]; simp) w hw
      · obtain ⟨w, hw, rfl⟩ := mem_image.mp hu
        rcases hv with rfl | hv
        · rw [P.wf.symm]; exact P.cross 0 (by rw [vb]; simp) w hw
        · obtain ⟨w', hw', rfl⟩ := mem_image.mp hv
          exact P.adjNew w hw w' hw'
    have hsc : s.1.scalar.toNumber = 1 := by
      have := rb.wOn ∅ (by simp) (fun _ => false)
      simp only [wOn, prod_empty, pairProd_empty, mul_one] at this
      rw [P.scalar, this]
      show (exCup.scalar.multWithScalar exEff.scalar).toNumber = 1
      rw [Scalar.multWithScalar_toNumber]
      show Scalar.new.toNumber * Scalar.new.toNumber = 1
      rw [Scalar.new_toNumber, one_mul]
    have hwt : ∀ x, ({ h2 with outputs := [] } : Graph).weight x = (if x 1 then -1 else 1) * (if x 2 then -1 else 1) * (if x 3 then -1 else 1) *
        (if x 4 then -1 else 1) * dmat (x 2) (x 3) * dmat (x 1) (x 4) := by
      intro x
      rw [weight_eq_wOn]
      show h2.wOn s.1.verts x = _
      rw [wOn_addEdge b2 w1.symm (by rw [vs1]; simp) (by rw [vs1]; simp) (by decide),
        wOn_addEdge b1 P.wf.symm (by rw [vs1]; simp) (by rw [vs1]; simp) (by decide)]
      have ef : ∀ u ∈ s.1.verts, ∀ v ∈ s.1.verts, s.1.eff u v .simple = false := fun u hu v hv => by
        unfold eff isX
        rw [tys u hu, tys v hv]
        rfl
      have e1 := ef 2 (by rw [vs1]; simp) 3 (by rw [vs1]; simp)
      have e2 : h1.eff 1 4 .simple = false := ef 1 (by rw [vs1]; simp) 4 (by rw [vs1]; simp)
      rw [e1, e2]
      have hpp : pairProd s.1.verts (s.1.edgeK x) = 1 := by
        rw [← pairProd_one s.1.verts]
        exact pairProd_congr fun a ha b hb _ => edgeK_none (hadj a ha b hb)
      unfold wOn
      rw [hpp, hsc, vs1, prod_insert (by simp), prod_insert (by simp), prod_insert (by simp), prod_insert (by simp), prod_insert (by simp), prod_empty]
      have vv : ∀ v ∈ s.1.verts, s.1.vval v = ph (s.1.phase v) := fun v hv => by unfold vval; rw [tys v hv]
      have f0 : s.1.vwt 0 (x 0) = 1 := by
        unfold vwt
        rw [vv 0 (by rw [vs1]; simp), ph0, ph_zero]
        simp
      have fn : ∀ u ∈ [2, 3, 4, 5], s.1.vwt (ρ u) (x (ρ u)) = if x (ρ u) then -1 else 1 := fun u hu => by
        unfold vwt
        rw [vv (ρ u) (by rw [P.verts]; exact mem_union_right _ (mem_image_of_mem _ (by simpa using hu))), phn u hu, ph_one]
      have f1 := fn 2 (by simp)
      have f2 := fn 3 (by simp)
      have f3 := fn 4 (by simp)
      have f4 := fn 5 (by simp)
      rw [r2] at f1
      rw [r3] at f2
      rw [r4] at f3
      rw [r5] at f4
      rw [f0, f1, f2, f3, f4]
      unfold kern
      simp only [Bool.false_eq_true, if_false]
      ring
    unfold amp
    rw [hint, vs1, psum_insert_env (by simp), psum_insert_env (by simp), psum_insert_env (by simp)]
    simp only [psum_insert_env (show (2 : ℕ) ∉ insert 3 (insert 4 (∅ : Finset ℕ)) by simp), psum_insert_env (show (1 : ℕ) ∉ insert 2 (insert 3 (insert 4 (∅ : Finset ℕ))) by simp),
      psum_insert_env (show (3 : ℕ) ∉ insert 4 (∅ : Finset ℕ) by simp), psum_insert_env (show (4 : ℕ) ∉ (∅ : Finset ℕ) by simp), psum_empty, hwt]
    simp [dmat]
    norm_num
  · have : ∀ z, exEff.mat z y = 0 := fun z => exEff_zero _
    simp [this, psum]

end Props
end PyZX
