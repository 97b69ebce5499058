import Verif.Proofs.Magic

/-!
# Lemmas on `replace_phi1`
-/

namespace PyZX
namespace Magic

open Graph ToGraph

/-! ### The terms `phi1` and `phi2` -/

/-- Factor of a shift of the phase by -pi/4. -/
noncomputable def sh (c : Bool) : ℂ := if c then ph (-1/4) else 1

theorem phiStep_spec {g : Graph} (h : g.WF) {w6 v : ℕ} (h6 : w6 ∈ g.verts) (t6 : g.ty w6 = .Z) (hv : v ∈ g.verts) (tv : g.ty v = .Z)
    (hne : w6 ≠ v) (l : List ℕ) :
    ∃ g', phiStep w6 (g, l) v = some (g', l ++ [g.vindex]) ∧ g'.verts = insert g.vindex g.verts ∧
      g'.ty = Function.update g.ty g.vindex .Z ∧ g'.phase = Function.update (g.addToPhase v (-1/4)).phase g.vindex (mod2 0) ∧
      g'.vindex = g.vindex + 1 ∧ (∀ a c, a ≠ g.vindex → c ≠ g.vindex → g'.adj a c = g.adj a c) ∧
      (∀ c, c ≠ w6 → c ≠ v → g'.adj g.vindex c = none) ∧
      Ch g g' (fun F z => sh (z v) * ∑ c : Bool, hmat (z w6) c * (hmat (z v) c * F (Function.update z g.vindex c))) := by
  have c1 := ch_addToPhase h hv tv (-1/4)
  obtain ⟨g', q1, q2, q3, q4, ⟨q6, q7, q8⟩, q5⟩ := ch_star c1.wf (vs := [w6, v]) (by simpa using hne) (by
    intro u hu
    simp only [List.mem_cons, List.not_mem_nil, or_false] at hu
    rcases hu with rfl | rfl
    · exact ⟨h6, t6⟩
    · exact ⟨hv, tv⟩) 0 (e := .had) (by decide)
  refine ⟨g', ?_, q2, q3, q4, q6, q7, fun c h1 h2 => q8 c (by simp [h1, h2]), (c1.trans q5).congr fun F z => ?_⟩
  · unfold phiStep
    simp only [List.map_cons, List.map_nil] at q1
    show (((g.addToPhase v (-1/4)).addVertex .Z 0).addEdges [(w6, (g.addToPhase v (-1/4)).vindex), (v, (g.addToPhase v (-1/4)).vindex)] .had).bind _ = _
    rw [q1]
    rfl
  · unfold sh
    refine congrArg _ (Finset.sum_congr rfl fun c _ => ?_)
    simp only [List.map_cons, List.map_nil, List.prod_cons, List.prod_nil, ph_zero, ite_self, one_mul, mul_one, mul_assoc]
    rfl

/-- The loop of `replace_phi1` pulled back. -/
noncomputable def phiT (w6 : ℕ) : List ℕ → ℕ → ((ℕ → Bool) → ℂ) → (ℕ → Bool) → ℂ
  | [], _, F, z => F z
  | v :: r, W, F, z => sh (z v) * ∑ c : Bool, hmat (z w6) c * (hmat (z v) c * phiT w6 r (W + 1) F (Function.update z W c))

theorem phi_loop (w6 : ℕ) (vs : List ℕ) : ∀ {g : Graph} (l : List ℕ), g.WF → w6 ∈ g.verts → g.ty w6 = .Z → vs.Nodup →
    (∀ v ∈ vs, v ∈ g.verts ∧ g.ty v = .Z ∧ w6 ≠ v) →
    ∃ g', vs.foldlM (phiStep w6) (g, l) = some (g', l ++ (List.range vs.length).map (g.vindex + ·)) ∧
      (∀ u, u ∈ g'.verts ↔ u ∈ g.verts ∨ (g.vindex ≤ u ∧ u < g.vindex + vs.length)) ∧
      (∀ u, u < g.vindex → g'.ty u = g.ty u) ∧ (∀ u, g.vindex ≤ u → u < g.vindex + vs.length → g'.ty u = .Z ∧ g'.phase u = 0) ∧
      (∀ u, u < g.vindex → u ∉ vs → g'.phase u = g.phase u) ∧ (∀ v ∈ vs, ∃ k : ℤ, g'.phase v = g.phase v - 1/4 + k / 2) ∧
      (∀ a c, a < g.vindex → c < g.vindex → g'.adj a c = g.adj a c) ∧
      (∀ a c, g.vindex ≤ c → a ≠ w6 → a ∉ vs → g'.adj a c = none) ∧
      Ch g g' (phiT w6 vs g.vindex) := by
  induction vs with
  | nil =>
    intro g l h _ _ _ _
    refine ⟨g, by simp, fun u => ?_, fun _ _ => rfl, fun u h1 h2 => ?_, fun _ _ _ => rfl, fun v hv => by simp at hv, fun _ _ _ _ => rfl,
      fun a c hc _ _ => ?_, h, rfl, rfl, fun F b => rfl⟩
    · simp only [List.length_nil, Nat.add_zero]
      exact ⟨Or.inl, fun hh => hh.resolve_right (by omega)⟩
    · simp only [List.length_nil, Nat.add_zero] at h2; omega
    · by_contra hne
      have hm := h.toInv.mem c a (by rw [h.toInv.symm]; exact hne)
      have := h.toInv.lt c hm
      omega
  | cons v r ih =>
    intro g l h h6 t6 hn hv
    obtain ⟨hvm, hvt, hv6⟩ := hv v (by simp)
    have hn' := List.nodup_cons.mp hn
    have l6 := h.toInv.lt _ h6
    have lv : ∀ u ∈ v :: r, u < g.vindex := fun u hu => h.toInv.lt u (hv u hu).1
    have lv0 := lv v (by simp)
    obtain ⟨x, r1, n1, y1, f1, i1, b1, k1, D1⟩ := phiStep_spec h h6 t6 hvm hvt hv6 l
    have ty1 : ∀ u, u ≠ g.vindex → x.ty u = g.ty u := fun u hu => by rw [y1, Function.update_of_ne hu]
    have lr : ∀ u ∈ r, u < g.vindex := fun u hu => lv u (by simp [hu])
    obtain ⟨x', r2, n2, y2, z2, f2, c2, b2, k2, D2⟩ := ih (g := x) (l ++ [g.vindex]) D1.wf (by rw [n1]; exact Finset.mem_insert_of_mem h6)
      (by rw [ty1 _ (by omega)]; exact t6) hn'.2 (fun u hu => by
        obtain ⟨a1, a2, a3⟩ := hv u (by simp [hu])
        have := lr u hu
        exact ⟨by rw [n1]; exact Finset.mem_insert_of_mem a1, by rw [ty1 u (by omega)]; exact a2, a3⟩)
    rw [i1] at r2 n2 y2 z2 f2 b2 k2 D2
    have po : ∀ u, u ≠ g.vindex → u ≠ v → x.phase u = g.phase u := fun u h1 h2 => by
      rw [f1, Function.update_of_ne h1]; exact Function.update_of_ne h2 _ _
    have pv : ∃ k : ℤ, x.phase v = g.phase v - 1/4 + k / 2 := by
      obtain ⟨k, hk⟩ := mod2_shift (g.phase v + -1/4)
      refine ⟨2 * k, ?_⟩
      rw [f1, Function.update_of_ne (by omega)]
      show Function.update g.phase v (mod2 (g.phase v + -1/4)) v = _
      rw [Function.update_self, hk]; push_cast; ring
    have pw : x.phase g.vindex = 0 := by rw [f1, Function.update_self, mod2_zero]
    refine ⟨x', ?_, fun u => ?_, fun u hu => ?_, fun u h1 h2 => ?_, fun u hu hun => ?_, fun u hu => ?_, fun a c ha hc => ?_,
      fun a c hc ha6 han => ?_, (D1.trans D2).congr fun F z => rfl⟩
    · rw [List.foldlM_cons]
      show (phiStep w6 (g, l) v).bind _ = _
      rw [r1]
      show List.foldlM (phiStep w6) (x, l ++ [g.vindex]) r = _
      rw [r2, List.append_assoc, List.length_cons, List.range_succ_eq_map, List.map_cons, List.map_map, List.singleton_append]
      congr 4
      refine List.map_congr_left fun i _ => ?_
      simp only [Function.comp]; omega
    · rw [n2, n1, Finset.mem_insert, List.length_cons]
      constructor
      · rintro ((rfl | hu) | hu)
        · right; omega
        · exact Or.inl hu
        · right; omega
      · rintro (hu | hu)
        · exact Or.inl (Or.inr hu)
        · by_cases he : u = g.vindex
          · exact Or.inl (Or.inl he)
          · right; omega
    · rw [y2 u (by omega), ty1 u (by omega)]
    · rw [List.length_cons] at h2
      by_cases he : u = g.vindex
      · subst he
        rw [y2 _ (by omega), y1, Function.update_self, f2 _ (by omega) (fun hh => by have := lr _ hh; omega), pw]
        exact ⟨rfl, rfl⟩
      · exact z2 u (by omega) (by omega)
    · simp only [List.mem_cons, not_or] at hun
      rw [f2 u (by omega) hun.2, po u (by omega) hun.1]
    · rcases List.mem_cons.mp hu with rfl | hu'
      · obtain ⟨k, hk⟩ := pv
        exact ⟨k, by rw [f2 u (by omega) hn'.1, hk]⟩
      · obtain ⟨k, hk⟩ := c2 u hu'
        have := lr u hu'
        exact ⟨k, by rw [hk, po u (by omega) (fun hh => hn'.1 (hh ▸ hu'))]⟩
    · rw [b2 a c (by omega) (by omega), b1 a c (by omega) (by omega)]
    · simp only [List.mem_cons, not_or] at han
      by_cases hcW : c = g.vindex
      · subst hcW
        by_cases haW : a < g.vindex + 1
        · rw [b2 a _ haW (by omega), D1.wf.toInv.symm]
          exact k1 a ha6 han.1
        · rw [D2.wf.toInv.symm]
          exact k2 _ a (by omega) (by omega) (fun hh => by have := lr _ hh; omega)
      · exact k2 a c (by omega) ha6 han.2

/-- Edges between new vertices. -/
theorem ch_pairs {e : EType} (he : e ≠ .wio) (ps : List (ℕ × ℕ)) : ∀ {g : Graph}, g.WF →
    (∀ p ∈ ps, p.1 ∈ g.verts ∧ p.2 ∈ g.verts ∧ g.ty p.1 = .Z ∧ g.ty p.2 = .Z ∧ g.adj p.1 p.2 = none ∧ p.1 < p.2) → ps.Nodup →
    ∃ g', g.addEdges ps e = some g' ∧ Same g g' ∧ g'.phase = g.phase ∧
      Ch g g' (fun F z => (ps.map fun p => edgeMat e (z p.1) (z p.2)).prod * F z) := by
  induction ps with
  | nil => intro g h _ _; exact ⟨g, rfl, Same.refl g, rfl, h, rfl, rfl, fun F b => by simp⟩
  | cons p r ih =>
    intro g h hp hn
    obtain ⟨a1, a2, a3, a4, a5, a6⟩ := hp p (by simp)
    have hn' := List.nodup_cons.mp hn
    obtain ⟨g1, q1, -, q3, q4, q5, q6⟩ := ch_edge h a1 a2 (by omega) a5 a3 a4 he
    obtain ⟨g2, r1, r2, r3, r4⟩ := ih q6.wf (fun q hq => by
      obtain ⟨b1, b2, b3, b4, b5, b6⟩ := hp q (by simp [hq])
      refine ⟨by rw [q3.verts]; exact b1, by rw [q3.verts]; exact b2, by rw [q3.ty]; exact b3, by rw [q3.ty]; exact b4, ?_, b6⟩
      rw [q5 q.1 q.2 (fun hh => hn'.1 ((Prod.ext hh.1 hh.2 : q = p) ▸ hq)) (fun hh => by omega)]
      exact b5) hn'.2
    refine ⟨g2, ?_, q3.trans r2, r3.trans q4, (q6.trans r4).congr fun F z => ?_⟩
    · unfold addEdges
      rw [List.foldlM_cons]
      show (g.addEdge0 p.1 p.2 e).bind _ = _
      rw [q1]
      exact r1
    · simp only [List.map_cons, List.prod_cons]; ring

/-- The start of `replace_phi1`. -/
theorem phi_start {g : Graph} (h : g.WF) {v6 : ℕ} (hv : v6 ∈ g.verts ∧ g.ty v6 = .Z) :
    ∃ g', (((((addFloat g cPHI).addPower 9).addScalarPhase (3/2)).addVertex .Z 1).addToPhase v6 (-1/4)).addEdge v6 g.vindex .simple = some g' ∧
      g'.vindex = g.vindex + 1 ∧ (∀ u, u ∈ g'.verts ↔ u = g.vindex ∨ u ∈ g.verts) ∧
      (∀ u, u ≠ g.vindex → g'.ty u = g.ty u) ∧ g'.ty g.vindex = .Z ∧ (∀ u, u ≠ g.vindex → u ≠ v6 → g'.phase u = g.phase u) ∧
      (∃ k : ℤ, g'.phase v6 = g.phase v6 - 1/4 + k / 2) ∧ (∃ k : ℤ, g'.phase g.vindex = k / 2) ∧
      Ch g g' (fun F z => cPHI * (sq2 ^ (9 : ℤ) * (ph (3/2) * ∑ c : Bool, (if c then ph 1 else 1) *
        (sh (z v6) * (dmat (z v6) c * F (Function.update z g.vindex c)))))) := by
  have l6 := h.toInv.lt _ hv.1
  have d1 := ch_float h cPHI
  have d2 := ch_power d1.wf 9
  have d3 := ch_sphase d2.wf (3/2)
  have dd := (d1.trans d2).trans d3
  have e : Same g (((addFloat g cPHI).addPower 9).addScalarPhase (3/2)) := ⟨rfl, rfl, rfl⟩
  have ep : (((addFloat g cPHI).addPower 9).addScalarPhase (3/2)).phase = g.phase := rfl
  generalize ((addFloat g cPHI).addPower 9).addScalarPhase (3/2) = g3 at dd e ep ⊢
  have d4 := ch_addVertex dd.wf 1
  obtain ⟨e1, e2, e3, e4, e5, e6, e7, e8, e9, e10⟩ := addVertex_fields g3 .Z 1
  rw [e.verts, e.vindex] at e1
  rw [e.vindex, e.ty] at e3
  rw [e.vindex, ep] at e4
  rw [e.vindex] at e6 d4
  have d5 := ch_addToPhase d4.wf (v := v6) (by rw [e1]; exact Finset.mem_insert_of_mem hv.1)
    (by rw [e3, Function.update_of_ne (by omega)]; exact hv.2) (-1/4)
  obtain ⟨g6, -, q6, s6, p6, a6, d6⟩ := ch_edge d5.wf (s := v6) (t := g.vindex) (by show _ ∈ (g3.addVertex .Z 1).verts; rw [e1]; exact Finset.mem_insert_of_mem hv.1)
    (by show _ ∈ (g3.addVertex .Z 1).verts; rw [e1]; exact Finset.mem_insert_self _ _) (by omega) (by
      show (g3.addVertex .Z 1).adj v6 g.vindex = none
      rw [dd.wf.toInv.addVertex_adj, ← e.vindex]
      exact dd.wf.toInv.adj_vindex (Or.inr rfl))
    (by show (g3.addVertex .Z 1).ty _ = _; rw [e3, Function.update_of_ne (by omega)]; exact hv.2)
    (by show (g3.addVertex .Z 1).ty _ = _; rw [e3, Function.update_self])
    (e := .simple) (by decide)
  refine ⟨g6, q6, s6.vindex.trans e6, fun u => ?_, fun u hu => ?_, ?_, fun u h1 h2 => ?_, ?_, ?_, (((dd.trans d4).trans d5).trans d6).congr fun F z => ?_⟩
  · rw [s6.verts]
    show u ∈ (g3.addVertex .Z 1).verts ↔ _
    rw [e1, Finset.mem_insert]
  · rw [s6.ty]
    show (g3.addVertex .Z 1).ty u = _
    rw [e3, Function.update_of_ne hu]
  · rw [s6.ty]
    show (g3.addVertex .Z 1).ty _ = _
    rw [e3, Function.update_self]
  · rw [p6]
    show Function.update (g3.addVertex .Z 1).phase v6 _ u = _
    rw [Function.update_of_ne h2, e4, Function.update_of_ne h1]
  · rw [p6]
    show ∃ k : ℤ, Function.update (g3.addVertex .Z 1).phase v6 (mod2 ((g3.addVertex .Z 1).phase v6 + -1/4)) v6 = _
    obtain ⟨k, hk⟩ := mod2_shift ((g3.addVertex .Z 1).phase v6 + -1/4)
    refine ⟨2 * k, ?_⟩
    rw [Function.update_self, hk, e4, Function.update_of_ne (by omega)]; push_cast; ring
  · rw [p6]
    show ∃ k : ℤ, Function.update (g3.addVertex .Z 1).phase v6 (mod2 ((g3.addVertex .Z 1).phase v6 + -1/4)) g.vindex = _
    obtain ⟨k, hk⟩ := mod2_shift 1
    refine ⟨2 + 2 * k, ?_⟩
    rw [Function.update_of_ne (by omega), e4, Function.update_self, hk]; push_cast; ring
  · refine congrArg _ (congrArg _ (congrArg _ (Finset.sum_congr rfl fun c _ => ?_)))
    beta_reduce
    rw [Function.update_self, Function.update_of_ne (by omega)]
    rfl

/-- The sum over the new vertices of `phi1`. -/
noncomputable def phiF (y1 y2 y3 y4 y5 y6 : Bool) : ℂ :=
  cPHI * (sq2 ^ (9 : ℤ) * (ph (3/2) * ∑ c6 : Bool, (if c6 then ph 1 else 1) * (sh y6 * (dmat y6 c6 *
    (sh y1 * ∑ c1 : Bool, hmat c6 c1 * (hmat y1 c1 * (sh y2 * ∑ c2 : Bool, hmat c6 c2 * (hmat y2 c2 *
      (sh y3 * ∑ c3 : Bool, hmat c6 c3 * (hmat y3 c3 * (sh y4 * ∑ c4 : Bool, hmat c6 c4 * (hmat y4 c4 *
        (sh y5 * ∑ c5 : Bool, hmat c6 c5 * (hmat y5 c5 *
          (hmat c1 c3 * (hmat c1 c4 * (hmat c2 c4 * (hmat c2 c5 * hmat c3 c5))))))))))))))))))

/-- The loop and the last edges, evaluated. -/
theorem phiT_eval {V v1 v2 v3 v4 v5 : ℕ} (l1 : v1 < V) (l2 : v2 < V) (l3 : v3 < V) (l4 : v4 < V) (l5 : v5 < V) (z : ℕ → Bool) :
    phiT V [v1, v2, v3, v4, v5] (V + 1) (fun z => ([(V + 1, V + 3), (V + 1, V + 4), (V + 2, V + 4), (V + 2, V + 5), (V + 3, V + 5)].map
      fun p => hmat (z p.1) (z p.2)).prod) z =
    (sh (z v1) * ∑ c1 : Bool, hmat (z V) c1 * (hmat (z v1) c1 * (sh (z v2) * ∑ c2 : Bool, hmat (z V) c2 * (hmat (z v2) c2 *
      (sh (z v3) * ∑ c3 : Bool, hmat (z V) c3 * (hmat (z v3) c3 * (sh (z v4) * ∑ c4 : Bool, hmat (z V) c4 * (hmat (z v4) c4 *
        (sh (z v5) * ∑ c5 : Bool, hmat (z V) c5 * (hmat (z v5) c5 *
          (hmat c1 c3 * (hmat c1 c4 * (hmat c2 c4 * (hmat c2 c5 * hmat c3 c5)))))))))))))) := by
  have U : ∀ (f : ℕ → Bool) (c : Bool) {u w : ℕ}, u < w → Function.update f w c u = f u := fun f c u w hu => Function.update_of_ne (by omega) _ _
  simp only [phiT]
  refine congrArg _ (Finset.sum_congr rfl fun c1 _ => congrArg _ (congrArg _ ?_))
  rw [U _ _ (show v2 < V + 1 by omega), U _ _ (show V < V + 1 by omega)]
  refine congrArg _ (Finset.sum_congr rfl fun c2 _ => congrArg _ (congrArg _ ?_))
  rw [U _ _ (show v3 < V + 1 + 1 by omega), U _ _ (show v3 < V + 1 by omega), U _ _ (show V < V + 1 + 1 by omega), U _ _ (show V < V + 1 by omega)]
  refine congrArg _ (Finset.sum_congr rfl fun c3 _ => congrArg _ (congrArg _ ?_))
  rw [U _ _ (show v4 < V + 1 + 1 + 1 by omega), U _ _ (show v4 < V + 1 + 1 by omega), U _ _ (show v4 < V + 1 by omega),
    U _ _ (show V < V + 1 + 1 + 1 by omega), U _ _ (show V < V + 1 + 1 by omega), U _ _ (show V < V + 1 by omega)]
  refine congrArg _ (Finset.sum_congr rfl fun c4 _ => congrArg _ (congrArg _ ?_))
  rw [U _ _ (show v5 < V + 1 + 1 + 1 + 1 by omega), U _ _ (show v5 < V + 1 + 1 + 1 by omega), U _ _ (show v5 < V + 1 + 1 by omega),
    U _ _ (show v5 < V + 1 by omega), U _ _ (show V < V + 1 + 1 + 1 + 1 by omega), U _ _ (show V < V + 1 + 1 + 1 by omega),
    U _ _ (show V < V + 1 + 1 by omega), U _ _ (show V < V + 1 by omega)]
  refine congrArg _ (Finset.sum_congr rfl fun c5 _ => congrArg _ (congrArg _ ?_))
  simp only [List.map_cons, List.map_nil, List.prod_cons, List.prod_nil, mul_one]
  have w5 : ∀ f : ℕ → Bool, Function.update f (V + 1 + 1 + 1 + 1 + 1) c5 (V + 5) = c5 := fun f => Function.update_self _ _ _
  have w4 : ∀ f : ℕ → Bool, Function.update (Function.update f (V + 1 + 1 + 1 + 1) c4) (V + 1 + 1 + 1 + 1 + 1) c5 (V + 4) = c4 := fun f => by
    rw [U _ _ (by omega)]; exact Function.update_self _ _ _
  have w3 : ∀ f : ℕ → Bool, Function.update (Function.update (Function.update f (V + 1 + 1 + 1) c3) (V + 1 + 1 + 1 + 1) c4) (V + 1 + 1 + 1 + 1 + 1) c5 (V + 3) = c3 :=
    fun f => by rw [U _ _ (by omega), U _ _ (by omega)]; exact Function.update_self _ _ _
  have w2 : ∀ f : ℕ → Bool, Function.update (Function.update (Function.update (Function.update f (V + 1 + 1) c2) (V + 1 + 1 + 1) c3)
      (V + 1 + 1 + 1 + 1) c4) (V + 1 + 1 + 1 + 1 + 1) c5 (V + 2) = c2 :=
    fun f => by rw [U _ _ (by omega), U _ _ (by omega), U _ _ (by omega)]; exact Function.update_self _ _ _
  have w1 : ∀ f : ℕ → Bool, Function.update (Function.update (Function.update (Function.update (Function.update f (V + 1) c1) (V + 1 + 1) c2)
      (V + 1 + 1 + 1) c3) (V + 1 + 1 + 1 + 1) c4) (V + 1 + 1 + 1 + 1 + 1) c5 (V + 1) = c1 :=
    fun f => by rw [U _ _ (by omega), U _ _ (by omega), U _ _ (by omega), U _ _ (by omega)]; exact Function.update_self _ _ _
  rw [w1, w2, w3, w4, w5]

theorem phi1_term {g : Graph} (h : g.WF) {v1 v2 v3 v4 v5 v6 : ℕ} (hn : [v1, v2, v3, v4, v5, v6].Nodup)
    (hv : ∀ v ∈ [v1, v2, v3, v4, v5, v6], v ∈ g.verts ∧ g.ty v = .Z) :
    ∃ g', replacePhi1 g [v1, v2, v3, v4, v5, v6] = some g' ∧
      Term g g' [v1, v2, v3, v4, v5, v6] (fun z => phiF (z v1) (z v2) (z v3) (z v4) (z v5) (z v6)) := by
  have lt : ∀ v ∈ [v1, v2, v3, v4, v5, v6], v < g.vindex := fun v hm => h.toInv.lt v (hv v hm).1
  obtain ⟨x, r1, i1, m1, t1, t1w, p1, ⟨k6, hk6⟩, ⟨kw, hkw⟩, D1⟩ := phi_start h (hv v6 (by simp))
  have hn5 : [v1, v2, v3, v4, v5].Nodup ∧ v6 ∉ [v1, v2, v3, v4, v5] := by
    have := (List.nodup_append.mp (show ([v1, v2, v3, v4, v5] ++ [v6]).Nodup from hn))
    exact ⟨this.1, fun hh => this.2.2 v6 hh v6 (by simp) rfl⟩
  have hm5 : ∀ v ∈ [v1, v2, v3, v4, v5], v ∈ [v1, v2, v3, v4, v5, v6] := fun v hh => by
    show v ∈ [v1, v2, v3, v4, v5] ++ [v6]
    exact List.mem_append_left _ hh
  have hm6 : ∀ v ∈ [v1, v2, v3, v4, v5, v6], v ∈ [v1, v2, v3, v4, v5] ∨ v = v6 := fun v hh => by
    have : v ∈ [v1, v2, v3, v4, v5] ++ [v6] := hh
    simpa only [List.mem_append, List.mem_singleton] using this
  obtain ⟨y, r2, m2, t2, n2, o2, c2, b2, a2, D2⟩ := phi_loop g.vindex [v1, v2, v3, v4, v5] (g := x) [] D1.wf ((m1 _).mpr (Or.inl rfl)) t1w hn5.1
    (fun v hm => by
      have := lt v (hm5 v hm)
      exact ⟨(m1 v).mpr (Or.inr (hv v (hm5 v hm)).1), by rw [t1 v (by omega)]; exact (hv v (hm5 v hm)).2, by omega⟩)
  rw [i1] at r2 m2 t2 n2 o2 a2 D2
  simp only [List.length_cons, List.length_nil] at m2 n2
  have l1 := lt v1 (by simp)
  have l2 := lt v2 (by simp)
  have l3 := lt v3 (by simp)
  have l4 := lt v4 (by simp)
  have l5 := lt v5 (by simp)
  have l6 := lt v6 (by simp)
  have hnw : ∀ u, g.vindex < u → u ∉ [v1, v2, v3, v4, v5] := fun u hu hh => by
    have := lt u (hm5 u hh); omega
  have key : ∀ i j : ℕ, 1 ≤ i → i < j → j ≤ 5 → g.vindex + i ∈ y.verts ∧ g.vindex + j ∈ y.verts ∧ y.ty (g.vindex + i) = .Z ∧
      y.ty (g.vindex + j) = .Z ∧ y.adj (g.vindex + i) (g.vindex + j) = none ∧ g.vindex + i < g.vindex + j := by
    intro i j h1 h2 h3
    exact ⟨(m2 _).mpr (Or.inr ⟨by omega, by omega⟩), (m2 _).mpr (Or.inr ⟨by omega, by omega⟩), (n2 _ (by omega) (by omega)).1,
      (n2 _ (by omega) (by omega)).1, a2 _ _ (by omega) (by omega) (hnw _ (by omega)), by omega⟩
  obtain ⟨w, q1, S, P, E⟩ := ch_pairs (e := .had) (by decide)
    [(g.vindex + 1, g.vindex + 3), (g.vindex + 1, g.vindex + 4), (g.vindex + 2, g.vindex + 4), (g.vindex + 2, g.vindex + 5),
      (g.vindex + 3, g.vindex + 5)] D2.wf (fun p hp => by
      simp only [List.mem_cons, List.not_mem_nil, or_false] at hp
      rcases hp with rfl | rfl | rfl | rfl | rfl
      · exact key 1 3 (by omega) (by omega) (by omega)
      · exact key 1 4 (by omega) (by omega) (by omega)
      · exact key 2 4 (by omega) (by omega) (by omega)
      · exact key 2 5 (by omega) (by omega) (by omega)
      · exact key 3 5 (by omega) (by omega) (by omega)) (by simp)
  have hge : ∀ u, g.vindex ≤ u → u ∉ g.verts := fun u hu hm => by have := h.toInv.lt u hm; omega
  have mw : ∀ u, u ∈ w.verts ↔ u = g.vindex ∨ u ∈ g.verts ∨ (g.vindex + 1 ≤ u ∧ u < g.vindex + 1 + 5) := fun u => by
    rw [S.verts, m2, m1]; tauto
  have phs : Phs g w [v1, v2, v3, v4, v5, v6] := by
    refine ⟨fun u hu => (mw u).mpr (Or.inr (Or.inl hu)), fun u hu => ?_, fun u hu hnn => ?_, fun u hu hnn => ?_, fun u hu => ?_, fun u hu hnn => ?_⟩
    · have := h.toInv.lt u hu
      rw [S.ty, t2 u (by omega), t1 u (by omega)]
    · rw [S.ty]
      rcases (mw u).mp hu with rfl | hu | ⟨h1, h2⟩
      · rw [t2 _ (by omega), t1w]
      · exact absurd hu hnn
      · exact (n2 u h1 h2).1
    · have := h.toInv.lt u hu
      rw [P, o2 u (by omega) (fun hh => hnn (hm5 u hh)), p1 u (by omega) (fun hh => hnn (by rw [hh]; simp))]
    · have := lt u hu
      rcases hm6 u hu with hu' | rfl
      · obtain ⟨k, hk⟩ := c2 u hu'
        exact ⟨k, by rw [P, hk, p1 u (by omega) (fun hh => hn5.2 (hh ▸ hu'))]⟩
      · exact ⟨k6, by rw [P, o2 u (by omega) hn5.2, hk6]⟩
    · rw [P]
      rcases (mw u).mp hu with rfl | hu | ⟨h1, h2⟩
      · exact ⟨kw, by rw [o2 _ (by omega) (fun hh => by have := lt _ (hm5 _ hh); omega), hkw]⟩
      · exact absurd hu hnn
      · exact ⟨0, by rw [(n2 u h1 h2).2]; norm_num⟩
  refine ⟨w, ?_, .of ((D1.trans D2).trans E) phs fun z => ?_⟩
  · unfold replacePhi1
    show ((((((addFloat g cPHI).addPower 9).addScalarPhase (3/2)).addVertex .Z 1).addToPhase v6 (-1/4)).addEdge v6 g.vindex .simple).bind _ = _
    rw [r1]
    show ([v1, v2, v3, v4, v5].foldlM (phiStep g.vindex) (x, [])).bind _ = _
    rw [r2]
    exact q1
  · unfold phiF
    refine congrArg _ (congrArg _ (congrArg _ (Finset.sum_congr rfl fun c6 _ => congrArg _ (congrArg _ (congrArg _ ?_)))))
    simp only [mul_one]
    have := phiT_eval l1 l2 l3 l4 l5 (Function.update z g.vindex c6)
    refine Eq.trans this ?_
    have U : ∀ {u : ℕ}, u < g.vindex → Function.update z g.vindex c6 u = z u := fun hu => Function.update_of_ne (by omega) _ _
    rw [U l1, U l2, U l3, U l4, U l5, Function.update_self]

end Magic
end PyZX
