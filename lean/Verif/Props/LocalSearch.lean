import Verif.Model.LocalSearch
import Verif.Proofs.Magic
import Verif.Spec.Matrix
import Verif.Props.Magic

/-!
# C62: the local complementation move of the local search

`apply_rand_lc` keeps the map of the diagram exactly, scalar included, for every vertex that is drawn, and leaves a phase of ±π/2 on that
vertex. It only unfuses the phase of the vertex: the local complementation itself is commented out in the code.
-/

namespace PyZX
namespace Props

open Graph LocalSearch Magic

theorem hmat_sq (a c : Bool) : ∑ d : Bool, hmat a d * hmat d c = if a = c then 1 else 0 := by
  have h2 : sq2⁻¹ * sq2⁻¹ = (1 / 2 : ℂ) := ToGraph.half_sq
  cases a <;> cases c <;> simp [hmat] <;> first | ring1 | linear_combination 2 * h2

theorem setPhase_eq (g : Graph) (v : ℕ) (q : ℚ) : g.setPhase v q = g.addToPhase v (q - g.phase v) := by
  unfold Graph.setPhase Graph.addToPhase
  rw [add_sub_cancel]

/-- **C62.** `lc_cong2` on a Z-spider never raises and keeps the map, the inputs and the outputs. When the phase is not ±π/2 before, it is -π/2
afterwards; no edge between the old vertices changes, and two spiders and two edges are added. -/
theorem lcCong2_sound {g : Graph} (h : g.WF) {v : ℕ} (hv : v ∈ g.verts) (ht : g.ty v = .Z) (hr : 0 ≤ g.phase v) :
    ∃ g', lcCong2 g v = some g' ∧ Preserves g g' ∧ (g'.phase v = 1/2 ∨ g'.phase v = 3/2) ∧
      (∀ a ∈ g.verts, ∀ c ∈ g.verts, g'.adj a c = g.adj a c) ∧ (g.phase v ≠ 1/2 → g'.verts.card = g.verts.card + 2 ∧ g'.nedges = g.nedges + 2) := by
  unfold lcCong2
  simp only
  by_cases hp : g.phase v = 1/2
  · rw [if_neg (by simp [hp])]
    exact ⟨g, rfl, .refl h, Or.inl hp, fun _ _ _ _ => rfl, fun hh => absurd hp hh⟩
  rw [if_pos ⟨hp, fun hh => by rw [hh] at hr; norm_num at hr⟩]
  set p := g.phase v with hpd
  have c1 := ch_addVertex h (p + 1/2)
  obtain ⟨e1, e2, e3, e4, e5, e6, e7, e8, e9, e10⟩ := addVertex_fields g .Z (p + 1/2)
  set g1 := g.addVertex .Z (p + 1/2) with hg1
  have c2 := ch_addVertex c1.wf 0
  obtain ⟨f1, f2, f3, f4, f5, f6, f7, f8, f9, f10⟩ := addVertex_fields g1 .Z 0
  set g2 := g1.addVertex .Z 0 with hg2
  have hnv := h.toInv.notMem_vindex
  have n0 : v ≠ g.vindex := fun hh => hnv (hh ▸ hv)
  have n1 : v ≠ g1.vindex := fun hh => by
    have := h.toInv.lt v hv
    rw [hh, e6] at this
    omega
  have n2 : g.vindex ≠ g1.vindex := by rw [e6]; omega
  have m0 : v ∈ g2.verts := by rw [f1, e1]; simp [hv]
  have m1 : g.vindex ∈ g2.verts := by rw [f1, e1]; simp
  have m2 : g1.vindex ∈ g2.verts := by rw [f1]; simp
  have t0 : g2.ty v = .Z := by rw [f3, e3, Function.update_of_ne n1, Function.update_of_ne n0, ht]
  have t1 : g2.ty g.vindex = .Z := by rw [f3, e3, Function.update_of_ne n2, Function.update_self]
  have t2 : g2.ty g1.vindex = .Z := by rw [f3, Function.update_self]
  have a12 : g2.adj g.vindex g1.vindex = none := by rw [f2]; simp
  have a20 : g2.adj g1.vindex v = none := by rw [f2]; simp
  obtain ⟨g3, -, q2, q3, q4, q5, q6⟩ := ch_edge c2.wf m1 m2 n2 a12 t1 t2 (e := .had) (by decide)
  obtain ⟨g4, -, r2, r3, r4, r5, r6⟩ := ch_edge q6.wf (s := g1.vindex) (t := v) (by rw [q3.verts]; exact m2) (by rw [q3.verts]; exact m0)
    (Ne.symm n1) (by rw [q5 _ _ (fun hh => n2 hh.1.symm) (fun hh => n0 hh.2)]; exact a20) (by rw [q3.ty]; exact t2) (by rw [q3.ty]; exact t0)
    (e := .had) (by decide)
  have hph : g4.phase v = p := by rw [r4, q4, f4, e4, Function.update_of_ne n1, Function.update_of_ne n0]
  have c5 := ch_addToPhase r6.wf (v := v) (by rw [r3.verts, q3.verts]; exact m0) (by rw [r3.ty, q3.ty]; exact t0) (-1/2 - p)
  have hset : g4.setPhase v (-1/2) = g4.addToPhase v (-1/2 - p) := by rw [setPhase_eq, hph]
  refine ⟨g4.setPhase v (-1/2), ?_, ?_, Or.inr ?_, ?_, fun _ => ⟨?_, ?_⟩⟩
  · show (g2.addEdge g.vindex g1.vindex .had).bind _ = _
    rw [q2]
    show (g3.addEdge g1.vindex v .had).bind _ = _
    rw [r2]
    rfl
  · rw [hset]
    have C := ((c1.trans c2).trans (q6.trans r6)).trans c5
    refine ⟨C.wf, C.ins, C.outs, fun w => ?_, fun b => ?_⟩
    · show w ∈ g4.verts ∧ g4.ty w = .boundary ↔ _
      rw [r3.verts, r3.ty, q3.verts, q3.ty, f1, f3, e1, e3]
      by_cases w1 : w = g1.vindex
      · subst w1
        rw [Function.update_self]
        refine iff_of_false (fun hh => by simp at hh) fun hh => ?_
        have := h.toInv.lt _ hh.1
        rw [e6] at this
        omega
      · rw [Function.update_of_ne w1]
        by_cases w0 : w = g.vindex
        · subst w0
          rw [Function.update_self]
          exact iff_of_false (fun hh => by simp at hh) fun hh => hnv hh.1
        · rw [Function.update_of_ne w0, Finset.mem_insert, Finset.mem_insert]
          simp [w0, w1]
    · rw [C.sem]
      have h1 : ∀ z : ℕ → Bool, (∑ c : Bool, (if c then ph (p + 1/2) else 1) * ∑ d : Bool, (if d then ph 0 else 1) *
          (edgeMat .had c d * (edgeMat .had d (z v) * ((if z v then ph (-1/2 - p) else 1) * 1)))) = 1 := by
        intro z
        have e : ∀ c d : Bool, edgeMat .had c d = hmat c d := fun _ _ => rfl
        have k1 : ph (p + 1/2) * ph (-1/2 - p) = 1 := by
          rw [← ph_add, show p + 1/2 + (-1/2 - p) = 0 by ring, ph_zero]
        have s1 := hmat_sq true true
        have s2 := hmat_sq true false
        have s3 := hmat_sq false true
        have s4 := hmat_sq false false
        simp only [e, Fintype.sum_bool, ph_zero] at s1 s2 s3 s4 ⊢
        generalize ph (p + 1/2) = A at k1 ⊢
        generalize ph (-1/2 - p) = B at k1 ⊢
        cases z v
        · simp only [Bool.true_eq_false, if_false, if_true, Bool.false_eq_true] at s2 s4 ⊢
          linear_combination A * s2 + s4
        · simp only [if_true, Bool.false_eq_true, if_false] at s1 s3 ⊢
          linear_combination A * B * s1 + B * s3 + k1
      rw [sem_eq_wH h.toInv (noW_of_wf h)]
      unfold ToGraph.opn
      refine psum_congr fun z _ => ?_
      have := h1 z
      simp only [Function.update_self, Function.update_of_ne n0, Function.update_of_ne n1, Function.update_of_ne n2] at this ⊢
      rw [this, mul_one]
  · show Function.update g4.phase v (mod2 (-1/2)) v = _
    rw [Function.update_self]
    norm_num [mod2]
  · intro a ha c hc
    show g4.adj a c = _
    have ne0 : ∀ w ∈ g.verts, w ≠ g.vindex ∧ w ≠ g1.vindex := fun w hw => by
      have := h.toInv.lt w hw
      rw [e6]
      omega
    rw [r5 _ _ (fun hh => (ne0 a ha).2 hh.1) (fun hh => (ne0 c hc).2 hh.2), q5 _ _ (fun hh => (ne0 a ha).1 hh.1) (fun hh => (ne0 a ha).2 hh.1),
      f2, e2]
    simp [(ne0 a ha).1, (ne0 a ha).2, (ne0 c hc).1, (ne0 c hc).2]
  · show g4.verts.card = _
    rw [r3.verts, q3.verts, f1, Finset.card_insert_of_notMem c1.wf.toInv.notMem_vindex, e1, Finset.card_insert_of_notMem hnv]
  · show g4.nedges = _
    have x1 := q2.symm.trans (addEdge_fresh m1 m2 a12 .had)
    have x2 := r2.symm.trans (addEdge_fresh (g := g3) (s := g1.vindex) (t := v) (by rw [q3.verts]; exact m2) (by rw [q3.verts]; exact m0)
      (by rw [q5 _ _ (fun hh => n2 hh.1.symm) (fun hh => n0 hh.2)]; exact a20) .had)
    rw [Option.some.inj x2]
    show g3.nedges + 1 = _
    rw [Option.some.inj x1]
    show g2.nedges + 1 + 1 = _
    rw [f7, e7]
    ring

/-- **C62.** `apply_rand_lc` raises exactly when there is no candidate; otherwise it keeps the map for every outcome of the draw. -/
theorem applyRandLc_sound {g : Graph} (h : g.WF) (hr : ∀ v ∈ g.verts, 0 ≤ g.phase v) {vs : List ℕ} (hvs : g.VertOrder vs) (pick : ℕ) :
    ((∀ v ∈ g.verts, isLcVertex g v = false) ∧ applyRandLc g vs pick = none) ∨
      ∃ v ∈ g.verts, isLcVertex g v = true ∧ ∃ g', applyRandLc g vs pick = some g' ∧ Preserves g g' ∧
        (g'.phase v = 1/2 ∨ g'.phase v = 3/2) := by
  unfold applyRandLc
  simp only
  split_ifs with he
  · left
    refine ⟨fun v hv => ?_, rfl⟩
    have := List.filter_eq_nil_iff.mp he v ((hvs.2 v).mpr hv)
    simpa using this
  · right
    have hm := List.getElem_mem (Nat.mod_lt pick (List.length_pos_of_ne_nil he))
    obtain ⟨m1, m2⟩ := List.mem_filter.mp hm
    have hv := (hvs.2 _).mp m1
    refine ⟨_, hv, m2, ?_⟩
    have ht : ∀ w, isLcVertex g w = true → g.ty w = .Z := by
      intro w hw
      unfold isLcVertex at hw
      by_contra hne
      rw [if_pos (Or.inr hne)] at hw
      simp at hw
    obtain ⟨g', a1, a2, a3, -⟩ := lcCong2_sound h hv (ht _ m2) (hr _ hv)
    exact ⟨g', a1, a2, a3⟩

/-! ### Example -/

/-- Three spiders in a row between an input and an output. -/
noncomputable def exLc : Graph :=
  mkG [.boundary, .Z, .Z, .Z, .boundary] [0, 0, 1/4, 0, 0] [(0, 1, .simple), (1, 2, .had), (2, 3, .had), (3, 4, .simple)] [0] [4]

theorem exLc_wf : exLc.WF := mkG_wf (by decide)

/-- The hypotheses hold, and the middle spider is a candidate. -/
example : exLc.WF ∧ exLc.VertOrder (List.range 5) ∧ (∀ v ∈ exLc.verts, 0 ≤ exLc.phase v) ∧ 2 ∈ exLc.verts ∧ isLcVertex exLc 2 = true ∧
    isLcVertex exLc 1 = false ∧ exLc.phase 2 ≠ 1/2 := by
  refine ⟨exLc_wf, ⟨List.nodup_range, fun v => ?_⟩, ?_, ?_, ?_, ?_, ?_⟩
  · rw [List.mem_range]
    show _ ↔ v ∈ Finset.range 5
    rw [Finset.mem_range]
  · intro v hv
    have hv' : v ∈ Finset.range 5 := hv
    fin_cases hv' <;> norm_num [exLc, mkG]
  · show 2 ∈ Finset.range 5
    decide
  · decide +kernel
  · decide +kernel
  · norm_num [exLc, mkG]

end Props
end PyZX
