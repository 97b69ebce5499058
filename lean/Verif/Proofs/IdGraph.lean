import Verif.Model.Identities
import Verif.Proofs.ToGraph
import Verif.Props.ToGraph

/-!
# Lemmas on `identity` and `spider` of `generate.py`
-/

namespace PyZX
namespace Generate

open Graph ToGraph

/-- A boundary vertex at the end of a plain edge passes its value on. -/
theorem contr_boundary (α : Bool → ℂ) (c : Bool) : contr .simple α (legT .boundary c) = α c := by
  unfold contr legT
  cases c <;> simp [dmat, edgeMat]

theorem wtT_boundary (q : ℚ) (c : Bool) : wtT .boundary q 1 c = 1 := by unfold wtT; cases c <;> simp

/-! ### `identity` -/

/-- The state of the loop of `identity` after `k` wires. -/
structure IdSpec (k : ℕ) (s : Graph × List ℕ × List ℕ) : Prop where
  inv : s.1.Inv
  vindex : s.1.vindex = 2 * k
  verts : ∀ v, v ∈ s.1.verts ↔ v < 2 * k
  ty : ∀ v ∈ s.1.verts, s.1.ty v = .boundary
  wH : ∀ x, s.1.wH s.1.verts x = ∏ i ∈ Finset.range k, dmat (x (2 * i)) (x (2 * i + 1))
  ins : s.2.1 = (List.range k).map fun i => 2 * i
  outs : s.2.2 = (List.range k).map fun i => 2 * i + 1

theorem identityStep_spec {k : ℕ} {s : Graph × List ℕ × List ℕ} (h : IdSpec k s) (i : ℕ) : ∃ s', identityStep s i = some s' ∧ IdSpec (k + 1) s' := by
  obtain ⟨g, ins, outs⟩ := s
  have hg : g.Inv := h.inv
  have hv : g.vindex = 2 * k := h.vindex
  obtain ⟨e1, e2, e3, e4, e5, e6, e7, e8, e9, e10⟩ := addVertex_fields g .boundary 0
  set g1 := g.addVertex .boundary 0 with hg1
  have i1 : g1.Inv := hg.addVertex .boundary 0
  obtain ⟨f1, f2, f3, f4, f5, f6, f7, f8, f9, f10⟩ := addVertex_fields g1 .boundary 0
  set g2 := g1.addVertex .boundary 0 with hg2
  have i2 : g2.Inv := i1.addVertex .boundary 0
  have m0 : g.vindex ∈ g2.verts := by rw [f1, e1]; simp
  have m1 : g1.vindex ∈ g2.verts := by rw [f1]; simp
  have hne : g.vindex ≠ g1.vindex := by rw [e6]; omega
  have hadj : g2.adj g.vindex g1.vindex = none := by rw [hg2, i1.addVertex_adj]; exact i1.adj_vindex (Or.inr rfl)
  have t2 : ∀ v ∈ g2.verts, g2.ty v = .boundary := by
    intro v hm
    rw [f1, e1, Finset.mem_insert, Finset.mem_insert] at hm
    rw [f3, e3]
    by_cases h1 : v = g1.vindex
    · rw [h1, Function.update_self]
    · rw [Function.update_of_ne h1]
      by_cases h0 : v = g.vindex
      · rw [h0, Function.update_self]
      · rw [Function.update_of_ne h0]
        exact h.ty v ((hm.resolve_left h1).resolve_left h0)
  have he := addEdge_fresh m0 m1 hadj .simple
  set g3 : Graph := { g2.setAdj g.vindex g1.vindex (some .simple) with nedges := g2.nedges + 1 } with hg3
  refine ⟨(g3, ins ++ [g.vindex], outs ++ [g1.vindex]), ?_, ?_⟩
  · show (g2.addEdge g.vindex g1.vindex .simple).map _ = _
    rw [he]
    rfl
  · refine ⟨i2.addEdge he hne, ?_, ?_, t2, ?_, ?_, ?_⟩
    · show g2.vindex = _
      rw [f6, e6, hv]; omega
    · intro v
      show v ∈ g2.verts ↔ _
      rw [f1, e1, Finset.mem_insert, Finset.mem_insert, e6, hv]
      have := h.verts v
      simp only at this
      rw [this]
      omega
    · intro x
      have hw := wH_setAdj i2 m0 m1 hne hadj .simple (g2.nedges + 1) x
      refine hw.trans ?_
      rw [t2 _ m0, t2 _ m1, contr_boundary, hg2, wH_addVertex i1, wtT_boundary, one_mul, hg1, wH_addVertex hg, wtT_boundary, one_mul]
      have hw0 : g.wH g.verts x = _ := h.wH x
      rw [hw0, Finset.prod_range_succ, mul_comm, ← hg1, e6, hv]
      rfl
    · show ins ++ [g.vindex] = _
      rw [show ins = _ from h.ins, hv, List.range_succ, List.map_append]
      rfl
    · show outs ++ [g1.vindex] = _
      rw [show outs = _ from h.outs, e6, hv, List.range_succ, List.map_append]
      rfl

theorem identityLoop_spec (n : ℕ) : ∃ s, (List.range n).foldlM identityStep (Graph.empty, [], []) = some s ∧ IdSpec n s := by
  induction n with
  | zero =>
    exact ⟨_, rfl, empty_inv, rfl, fun v => by simp [Graph.empty], fun v hv => by simp [Graph.empty] at hv, fun x => by simp [empty_wH], rfl, rfl⟩
  | succ n ih =>
    obtain ⟨s, h1, h2⟩ := ih
    obtain ⟨s', h3, h4⟩ := identityStep_spec h2 n
    refine ⟨s', ?_, h4⟩
    rw [List.range_succ, List.foldlM_append, h1]
    show (identityStep s n).bind _ = _
    rw [h3]
    rfl

theorem idxOf_map_range {f : ℕ → ℕ} (hf : Function.Injective f) {n i : ℕ} (hi : i < n) : ((List.range n).map f).idxOf (f i) = i := by
  have hn : ((List.range n).map f).Nodup := List.nodup_range.map hf
  have := hn.idxOf_getElem i (by simpa using hi)
  simpa using this

/-- The map of `identity`. -/
theorem identity_spec (n : ℕ) : ∃ g, identity n = some g ∧ Props.Shape g n n ∧ g.verts.card = 2 * n ∧ ∀ x y, g.mat x y = basisState n x y := by
  obtain ⟨s, h1, h⟩ := identityLoop_spec n
  set gf : Graph := { s.1 with inputs := s.2.1, outputs := s.2.2 } with hgf
  have hev : Function.Injective fun i : ℕ => 2 * i := fun a b hab => by simpa using hab
  have hod : Function.Injective fun i : ℕ => 2 * i + 1 := fun a b hab => by simpa using hab
  have inm : ∀ v, v ∈ s.2.1 ↔ ∃ i < n, 2 * i = v := fun v => by rw [h.ins]; simp
  have outm : ∀ v, v ∈ s.2.2 ↔ ∃ i < n, 2 * i + 1 = v := fun v => by rw [h.outs]; simp
  have gi : gf.Inv := { h.inv with
    inp := fun v hv => by obtain ⟨i, hi, rfl⟩ := (inm v).mp hv; exact (h.verts _).mpr (by omega)
    out := fun v hv => by obtain ⟨i, hi, rfl⟩ := (outm v).mp hv; exact (h.verts _).mpr (by omega) }
  have hno : gf.NoW := fun v hv => by rw [show gf.ty v = .boundary from h.ty v hv]; decide
  have hdis : ∀ i, 2 * i + 1 ∉ s.2.1 := fun i hm => by obtain ⟨j, -, hj⟩ := (inm _).mp hm; omega
  refine ⟨gf, by unfold identity; rw [h1]; rfl, ⟨gi, ⟨?_, ?_, ?_, ?_⟩, ?_, ?_, ?_⟩, ?_, ?_⟩
  · show s.2.1.Nodup
    rw [h.ins]; exact List.nodup_range.map hev
  · show s.2.2.Nodup
    rw [h.outs]; exact List.nodup_range.map hod
  · intro v hv hv'
    obtain ⟨j, -, rfl⟩ := (outm v).mp hv'
    exact hdis j hv
  · intro v hv _
    have hlt := (h.verts v).mp hv
    rcases Nat.even_or_odd' v with ⟨i, hi | hi⟩
    · exact Or.inl ((inm v).mpr ⟨i, by omega, hi.symm⟩)
    · exact Or.inr ((outm v).mpr ⟨i, by omega, hi.symm⟩)
  · intro v hv
    rcases List.mem_append.mp hv with hv | hv
    · exact h.ty v (gi.inp v hv)
    · exact h.ty v (gi.out v hv)
  · show s.2.1.length = n
    rw [h.ins]; simp
  · show s.2.2.length = n
    rw [h.outs]; simp
  · show s.1.verts.card = 2 * n
    have : s.1.verts = Finset.range (2 * n) := by ext v; rw [h.verts, Finset.mem_range]
    rw [this, Finset.card_range]
  · intro x y
    have hint : gf.interior = ∅ := by
      unfold Graph.interior
      rw [Finset.filter_eq_empty_iff]
      intro v hv hh
      exact hh (h.ty v hv)
    unfold Graph.mat
    rw [sem_eq_wH gi hno, hint, psum_empty]
    have hw : gf.wH gf.verts (gf.bval x y) = _ := h.wH (gf.bval x y)
    rw [hw]
    unfold basisState
    rw [← prod_dmat_range]
    refine Finset.prod_congr rfl fun i hi => ?_
    have hi' := Finset.mem_range.mp hi
    have b1 : gf.bval x y (2 * i) = x i := by
      unfold Graph.bval
      rw [if_pos ((inm _).mpr ⟨i, hi', rfl⟩), show gf.inputs = _ from h.ins, idxOf_map_range hev hi']
    have b2 : gf.bval x y (2 * i + 1) = y i := by
      unfold Graph.bval
      rw [if_neg (hdis i), show gf.outputs = _ from h.outs, idxOf_map_range hod hi']
    rw [b1, b2]

/-! ### `spider` -/

theorem spiderBoundary_eq (g : Graph) (k : ℕ) : spiderBoundary g k = ((addInputs k g []).1, (addInputs k g []).2.2) := by
  induction k with
  | zero => rfl
  | succ k ih =>
    have e1 : spiderBoundary g (k + 1) = ((spiderBoundary g k).1.addVertex .boundary 0, (spiderBoundary g k).2 ++ [(spiderBoundary g k).1.vindex]) := by
      unfold spiderBoundary; rw [List.range_succ, List.foldl_append]; rfl
    have e2 : addInputs (k + 1) g [] = ((addInputs k g []).1.addVertex .boundary 0, (addInputs k g []).2.1.setPrev k (addInputs k g []).1.vindex,
        (addInputs k g []).2.2 ++ [(addInputs k g []).1.vindex]) := by
      unfold addInputs; rw [List.range_succ, List.foldl_append]; rfl
    rw [e1, e2, ih]

theorem addInputs_adj {g : Graph} (hg : g.Inv) (hn : g.NoW) (k : ℕ) : (addInputs k g []).1.adj = g.adj := by
  induction k with
  | zero => rfl
  | succ k ih =>
    have e2 : (addInputs (k + 1) g []).1 = (addInputs k g []).1.addVertex .boundary 0 := by
      unfold addInputs; rw [List.range_succ, List.foldl_append]; rfl
    rw [e2, (addInputs_spec hg hn [] k).inv.addVertex_adj, ih]

/-- What the loops that join the boundary to the spider do. -/
theorem starLoop {v : ℕ} (L : List ℕ) : ∀ {g : Graph}, g.Inv → L.Nodup → v ∈ g.verts → v ∉ L → (∀ w ∈ L, w ∈ g.verts ∧ g.ty w = .boundary ∧ g.adj v w = none) →
    ∃ g', L.foldlM (fun g w => g.addEdge v w .simple) g = some g' ∧ g'.Inv ∧ g'.verts = g.verts ∧ g'.ty = g.ty ∧ g'.inputs = g.inputs ∧ g'.outputs = g.outputs ∧
      (∀ w ∉ L, w ≠ v → g'.adj v w = g.adj v w) ∧
      ∀ x, g'.wH g'.verts x = (∏ w ∈ L.toFinset, legT (g.ty v) (x v) (x w)) * g.wH g.verts x := by
  induction L with
  | nil => exact fun {g} hg _ _ _ _ => ⟨g, rfl, hg, rfl, rfl, rfl, rfl, fun _ _ _ => rfl, fun x => by simp⟩
  | cons a L ih =>
    intro g hg hnd hv hvL hL
    obtain ⟨n1, n2⟩ := List.nodup_cons.mp hnd
    obtain ⟨a1, a2, a3⟩ := hL a (by simp)
    have hva : v ≠ a := fun h => hvL (by simp [h])
    have he := addEdge_fresh hv a1 a3 .simple
    set g1 : Graph := { g.setAdj v a (some .simple) with nedges := g.nedges + 1 } with hg1
    have i1 : g1.Inv := hg.addEdge he hva
    have hadj : ∀ w, w ≠ a → w ≠ v → g1.adj v w = g.adj v w := by
      intro w h1 h2
      show (g.setAdj v a (some .simple)).adj v w = _
      unfold Graph.setAdj
      simp only
      split_ifs with hh
      · omega
      · rfl
    obtain ⟨g', b1, b2, b3, b4, b5, b6, b7, b8⟩ := ih (g := g1) i1 n2 hv (fun h => hvL (by simp [h])) fun w hw => by
      obtain ⟨c1, c2, c3⟩ := hL w (by simp [hw])
      have hwa : w ≠ a := fun h => n1 (h ▸ hw)
      have hwv : w ≠ v := fun h => hvL (by rw [← h]; simp [hw])
      exact ⟨c1, c2, by rw [hadj w hwa hwv]; exact c3⟩
    refine ⟨g', ?_, b2, b3, b4, b5, b6, ?_, ?_⟩
    · rw [List.foldlM_cons, he]
      exact b1
    · intro w hw hwv
      rw [b7 w (fun h => hw (by simp [h])) hwv, hadj w (fun h => hw (by simp [h])) hwv]
    · intro x
      have hw := wH_setAdj hg hv a1 hva a3 .simple (g.nedges + 1) x
      rw [b8, List.toFinset_cons, Finset.prod_insert (by simpa using n1)]
      have hw' : g1.wH g1.verts x = _ := hw
      rw [hw', a2, contr_boundary]
      show (∏ w ∈ L.toFinset, legT (g.ty v) (x v) (x w)) * _ = _
      ring

/-- The map of `spider` as a sum over the two values of the spider. -/
theorem spider_spec {t : VType} (ht : t = .Z ∨ t = .X ∨ t = .hbox) (n m : ℕ) (p : ℚ) : ∃ g, spider t n m p = some g ∧ Props.Shape g n m ∧
    g.verts.card = 1 + n + m ∧ ∀ x y, g.mat x y = ∑ c : Bool, wtT t (mod2 p) 1 c *
      ((∏ i ∈ Finset.range n, legT t c (x i)) * ∏ i ∈ Finset.range m, legT t c (y i)) := by
  have htb : t ≠ .boundary := by rintro rfl; simp at ht
  have hE := empty_inv
  obtain ⟨e1, e2, e3, e4, e5, e6, e7, e8, e9, e10⟩ := addVertex_fields Graph.empty t p
  set g0 := Graph.empty.addVertex t p with hg0
  have i0 : g0.Inv := hE.addVertex t p
  have v0 : g0.vindex = 1 := e6
  have m0 : ∀ v, v ∈ g0.verts ↔ v = 0 := fun v => by rw [e1]; simp [Graph.empty]
  have t0 : g0.ty 0 = t := by rw [e3]; simp [Graph.empty]
  have w0 : ∀ x, g0.wH g0.verts x = wtT t (mod2 p) 1 (x 0) := fun x => by rw [hg0, wH_addVertex hE, empty_wH, mul_one]; rfl
  have noW0 : g0.NoW := fun v hv => by
    rw [(m0 v).mp hv, t0]
    rcases ht with rfl | rfl | rfl <;> decide
  have adj0 : ∀ a b, g0.adj a b = none := fun a b => by rw [hg0, hE.addVertex_adj]; rfl
  have I1 := addInputs_spec i0 noW0 [] n
  have A1 := addInputs_adj i0 noW0 n
  have S1 := spiderBoundary_eq g0 n
  set r1 := addInputs n g0 [] with hr1
  have I2 := addInputs_spec I1.inv I1.noW [] m
  have A2 := addInputs_adj I1.inv I1.noW m
  have S2 := spiderBoundary_eq r1.1 m
  set r2 := addInputs m r1.1 [] with hr2
  have hin : r1.2.2 = (List.range n).map (1 + ·) := by rw [I1.ins, v0]; rfl
  have v1 : r1.1.vindex = 1 + n := by rw [I1.vindex, v0]
  have hout : r2.2.2 = (List.range m).map (1 + n + ·) := by rw [I2.ins, v1]; rfl
  have m2 : ∀ v, v ∈ r2.1.verts ↔ v < 1 + n + m := by
    intro v
    rw [I2.verts, I1.verts, m0, v1, v0]
    omega
  have t2 : ∀ v, v < 1 + n + m → r2.1.ty v = if v = 0 then t else .boundary := by
    intro v hv
    rw [I2.ty v ((m2 v).mpr hv)]
    by_cases h : v < r1.1.vindex
    · rw [if_pos h, I1.ty v ((I1.verts v).mpr (by rw [m0, v0]; omega)), v0]
      by_cases hz : v = 0
      · subst hz; rw [if_pos (by omega), if_pos rfl, t0]
      · rw [if_neg (by omega), if_neg hz]
    · rw [if_neg h, if_neg (by omega)]
  have inm : ∀ v, v ∈ r1.2.2 ↔ 1 ≤ v ∧ v < 1 + n := fun v => by
    rw [hin, List.mem_map]
    exact ⟨fun ⟨i, hi, he⟩ => by have := List.mem_range.mp hi; omega, fun ⟨h1, h2⟩ => ⟨v - 1, by simp; omega, by omega⟩⟩
  have outm : ∀ v, v ∈ r2.2.2 ↔ 1 + n ≤ v ∧ v < 1 + n + m := fun v => by
    rw [hout, List.mem_map]
    exact ⟨fun ⟨i, hi, he⟩ => by have := List.mem_range.mp hi; omega, fun ⟨h1, h2⟩ => ⟨v - (1 + n), by simp; omega, by omega⟩⟩
  have ndi : r1.2.2.Nodup := by rw [hin]; exact List.nodup_range.map fun a b hab => by simpa using hab
  have ndo : r2.2.2.Nodup := by rw [hout]; exact List.nodup_range.map fun a b hab => by simpa using hab
  have adj2 : ∀ a b, r2.1.adj a b = none := fun a b => by rw [A2, A1]; exact adj0 a b
  obtain ⟨g3, c1, c2, c3, c4, c5, c6, c7, c8⟩ := starLoop (v := 0) r1.2.2 I2.inv ndi ((m2 0).mpr (by omega)) (fun h => by have := (inm 0).mp h; omega)
    fun w hw => by
      have := (inm w).mp hw
      exact ⟨(m2 w).mpr (by omega), by rw [t2 w (by omega), if_neg (by omega)], adj2 _ _⟩
  obtain ⟨g4, d1, d2, d3, d4, d5, d6, d7, d8⟩ := starLoop (v := 0) r2.2.2 c2 ndo (by rw [c3]; exact (m2 0).mpr (by omega))
    (fun h => by have := (outm 0).mp h; omega) fun w hw => by
      have := (outm w).mp hw
      refine ⟨by rw [c3]; exact (m2 w).mpr (by omega), by rw [c4, t2 w (by omega), if_neg (by omega)], ?_⟩
      rw [c7 w (fun h => by have := (inm w).mp h; omega) (by omega)]
      exact adj2 _ _
  have m4 : ∀ v, v ∈ g4.verts ↔ v < 1 + n + m := fun v => by rw [d3, c3, m2]
  have t4 : ∀ v, v < 1 + n + m → g4.ty v = if v = 0 then t else .boundary := fun v hv => by rw [d4, c4, t2 v hv]
  have tz : r2.1.ty 0 = t := by rw [t2 0 (by omega), if_pos rfl]
  set gf : Graph := { g4 with inputs := r1.2.2, outputs := r2.2.2 } with hgf
  have gi : gf.Inv := { d2 with
    inp := fun v hv => (m4 v).mpr (by have := (inm v).mp hv; omega)
    out := fun v hv => (m4 v).mpr (by have := (outm v).mp hv; omega) }
  have hno : gf.NoW := fun v hv => by
    rw [show gf.ty v = _ from t4 v ((m4 v).mp hv)]
    split_ifs
    · rcases ht with rfl | rfl | rfl <;> decide
    · decide
  have wf : ∀ x, gf.wH gf.verts x = wtT t (mod2 p) 1 (x 0) * ((∏ w ∈ r1.2.2.toFinset, legT t (x 0) (x w)) * ∏ w ∈ r2.2.2.toFinset, legT t (x 0) (x w)) := by
    intro x
    have : gf.wH gf.verts x = g4.wH g4.verts x := rfl
    rw [this, d8, c8, c4, tz, I2.wH, I1.wH, w0]
    ring
  refine ⟨gf, ?_, ⟨gi, ⟨ndi, ndo, ?_, ?_⟩, ?_, ?_, ?_⟩, ?_, ?_⟩
  · show (((spiderBoundary g0 n).2.foldlM (fun (g : Graph) w => g.addEdge 0 w .simple) (spiderBoundary (spiderBoundary g0 n).1 m).1).bind fun g =>
      ((spiderBoundary (spiderBoundary g0 n).1 m).2.foldlM (fun (g : Graph) w => g.addEdge 0 w .simple) g).bind fun g =>
        some { g with inputs := (spiderBoundary g0 n).2, outputs := (spiderBoundary (spiderBoundary g0 n).1 m).2 }) = some gf
    rw [S1]
    simp only
    rw [S2]
    simp only
    rw [c1]
    show ((r2.2.2.foldlM (fun (g : Graph) w => g.addEdge 0 w .simple) g3).bind _) = _
    rw [d1]
    rfl
  · intro v h1 h2
    have := (inm v).mp h1
    have := (outm v).mp h2
    omega
  · intro v hv hb
    have hlt := (m4 v).mp hv
    rw [show gf.ty v = _ from t4 v hlt] at hb
    have hz : v ≠ 0 := fun h => by rw [if_pos h] at hb; exact htb hb
    by_cases h : v < 1 + n
    · exact Or.inl ((inm v).mpr (by omega))
    · exact Or.inr ((outm v).mpr (by omega))
  · intro v hv
    have hlt : 1 ≤ v ∧ v < 1 + n + m := by
      rcases List.mem_append.mp hv with hv | hv
      · have := (inm v).mp hv; omega
      · have := (outm v).mp hv; omega
    rw [show gf.ty v = _ from t4 v hlt.2, if_neg (by omega)]
  · show r1.2.2.length = n
    rw [hin]; simp
  · show r2.2.2.length = m
    rw [hout]; simp
  · show g4.verts.card = _
    have : g4.verts = Finset.range (1 + n + m) := by ext v; rw [m4, Finset.mem_range]
    rw [this, Finset.card_range]
  · intro x y
    have hint : gf.interior = insert 0 ∅ := by
      ext v
      unfold Graph.interior
      rw [Finset.mem_filter]
      simp only [Finset.mem_insert, Finset.notMem_empty, or_false]
      constructor
      · rintro ⟨h1, h2⟩
        rw [show gf.ty v = _ from t4 v ((m4 v).mp h1)] at h2
        by_contra hz
        rw [if_neg hz] at h2
        exact h2 rfl
      · rintro rfl
        refine ⟨(m4 0).mpr (by omega), ?_⟩
        rw [show gf.ty 0 = _ from t4 0 (by omega), if_pos rfl]
        exact htb
    have key : ∀ c, gf.wH gf.verts (Function.update (gf.bval x y) 0 c) = wtT t (mod2 p) 1 c *
        ((∏ i ∈ Finset.range n, legT t c (x i)) * ∏ i ∈ Finset.range m, legT t c (y i)) := by
      intro c
      rw [wf, Function.update_self]
      have f1 : r1.2.2.toFinset = (Finset.range n).image (1 + ·) := by
        ext v; rw [List.mem_toFinset, inm]; simp only [Finset.mem_image, Finset.mem_range]
        exact ⟨fun ⟨h1, h2⟩ => ⟨v - 1, by omega, by omega⟩, fun ⟨i, hi, he⟩ => by omega⟩
      have f2 : r2.2.2.toFinset = (Finset.range m).image (1 + n + ·) := by
        ext v; rw [List.mem_toFinset, outm]; simp only [Finset.mem_image, Finset.mem_range]
        exact ⟨fun ⟨h1, h2⟩ => ⟨v - (1 + n), by omega, by omega⟩, fun ⟨i, hi, he⟩ => by omega⟩
      rw [f1, f2, Finset.prod_image (fun a _ b _ hab => by simpa using hab), Finset.prod_image (fun a _ b _ hab => by simpa using hab)]
      congr 2
      · refine Finset.prod_congr rfl fun i hi => ?_
        have hi' := Finset.mem_range.mp hi
        rw [Function.update_of_ne (by omega)]
        unfold Graph.bval
        rw [if_pos ((inm _).mpr ⟨by omega, by omega⟩), show gf.inputs = _ from hin, idxOf_map_range (fun a b hab => by simpa using hab) hi']
      · refine Finset.prod_congr rfl fun i hi => ?_
        have hi' := Finset.mem_range.mp hi
        rw [Function.update_of_ne (by omega)]
        unfold Graph.bval
        rw [if_neg (fun hh => by have := (inm _).mp hh; omega), show gf.outputs = _ from hout, idxOf_map_range (fun a b hab => by simpa using hab) hi']
    unfold Graph.mat
    rw [sem_eq_wH gi hno, hint, psum_insert (by simp), psum_empty, key, key, Fintype.sum_bool]
    ring

end Generate
end PyZX
