import Verif.Proofs.Generate

/-!
# Lemmas on `cnots`

`cnots` first collects the types of the vertices and the edges and then makes the graph. Its graph is that of a program that adds every
vertex together with its edges, as `cliffordT` does.
-/

namespace PyZX
namespace Generate

open Graph ToGraph

/-- The graph of a plan, before the inputs, outputs and the scalar are set. -/
noncomputable def Plan.build (P : Plan) : Option Graph := (P.ty.foldl (fun g t => g.addVertex t 0) Graph.empty).addEdges P.es .simple

theorem addEdges_cons (g : Graph) (p : ℕ × ℕ) (es : List (ℕ × ℕ)) (e : EType) :
    g.addEdges (p :: es) e = (g.addEdge0 p.1 p.2 e).bind fun g => g.addEdges es e := by
  unfold addEdges
  rw [List.foldlM_cons]
  rfl

theorem addEdges_append (es fs : List (ℕ × ℕ)) (e : EType) : ∀ g : Graph,
    g.addEdges (es ++ fs) e = (g.addEdges es e).bind fun g => g.addEdges fs e := by
  intro g
  unfold addEdges
  rw [List.foldlM_append]
  rfl

theorem addVertex_zero (g : Graph) (t : VType) : g.addVertex t 0 = (g.addVertex0).setType g.vindex t := by
  unfold addVertex
  simp

/-- Edges between old vertices can be added before or after a new vertex. -/
theorem addEdges_addVertex (t : VType) (e : EType) (es : List (ℕ × ℕ)) : ∀ g : Graph,
    (∀ p ∈ es, (p.1 ∈ g.verts ∧ p.2 ∈ g.verts) ∧ p.1 ≠ g.vindex ∧ p.2 ≠ g.vindex) →
    (g.addVertex t 0).addEdges es e = (g.addEdges es e).map fun g => g.addVertex t 0 := by
  induction es with
  | nil => exact fun g _ => rfl
  | cons p r ih =>
    intro g h
    obtain ⟨⟨h1, h2⟩, h3, h4⟩ := h p (by simp)
    rw [addEdges_cons, addEdges_cons]
    have e1 : g.addEdge0 p.1 p.2 e = some { g.setAdj p.1 p.2 (some e) with nedges := g.nedges + 1 } := if_neg (by simp [h1, h2])
    have e2 : (g.addVertex t 0).addEdge0 p.1 p.2 e =
        some (({ g.setAdj p.1 p.2 (some e) with nedges := g.nedges + 1 } : Graph).addVertex t 0) := by
      unfold addEdge0
      rw [addVertex_zero, if_neg (by simp [Graph.setType, addVertex0, h1, h2]), addVertex_zero]
      simp only [Graph.setType, addVertex0, setAdj, Option.some.injEq, Graph.mk.injEq, true_and, and_true]
      funext a c
      show (if a = p.1 ∧ c = p.2 ∨ a = p.2 ∧ c = p.1 then some e else if a = g.vindex ∨ c = g.vindex then none else g.adj a c) =
        (if a = g.vindex ∨ c = g.vindex then none else if a = p.1 ∧ c = p.2 ∨ a = p.2 ∧ c = p.1 then some e else g.adj a c)
      split_ifs with x y
      · exfalso; omega
      · rfl
      · rfl
      · rfl
    rw [e1, e2]
    exact ih _ fun q hq => h q (by simp [hq])

/-- The plan and the program that adds the edges at once agree. -/
structure Rel (P : Plan) (s : St) (k : ℕ) (g0 : Graph) : Prop where
  build : P.build = some g0
  graph : s.1 = g0.addPower k
  vindex : g0.vindex = P.ty.length
  verts : g0.verts = Finset.range P.ty.length
  es : ∀ p ∈ P.es, p.1 < P.ty.length ∧ p.2 < P.ty.length
  q : ∀ l ∈ s.2.labels, s.2.prev l = P.q l ∧ P.q l < P.ty.length

theorem foldl_verts (ts : List VType) : ((ts.foldl (fun g t => g.addVertex t 0) Graph.empty).vindex = ts.length) ∧
    (ts.foldl (fun g t => g.addVertex t 0) Graph.empty).verts = Finset.range ts.length := by
  induction ts using List.reverseRecOn with
  | nil => exact ⟨rfl, rfl⟩
  | append_singleton ts t ih =>
    rw [List.foldl_append]
    obtain ⟨e1, e2, e3, e4, e5, e6, e7, e8, e9, e10⟩ := addVertex_fields (ts.foldl (fun g t => g.addVertex t 0) Graph.empty) t 0
    constructor
    · show (Graph.addVertex _ t 0).vindex = _
      rw [e6, ih.1]; simp
    · show (Graph.addVertex _ t 0).verts = _
      rw [e1, ih.1, ih.2, List.length_append, List.length_singleton, Finset.range_add_one]

/-- A new vertex with an edge to an old one, without moving the wires. -/
def Plan.leaf (P : Plan) (t : VType) (u : ℕ) : Plan := ⟨P.q, P.ty ++ [t], P.es ++ [(u, P.ty.length)]⟩

theorem build_leaf {P : Plan} {g0 : Graph} (hb : P.build = some g0) (hv : g0.vindex = P.ty.length) (hes : ∀ p ∈ P.es, p.1 < P.ty.length ∧ p.2 < P.ty.length)
    (hver : g0.verts = Finset.range P.ty.length) {t : VType} {u : ℕ} (hu : u < P.ty.length) :
    ∃ g1, (P.leaf t u).build = some g1 ∧ (g0.addVertex t 0).addEdge u g0.vindex .simple = some g1 ∧ (∀ k : ℕ,
      ((g0.addPower k).addVertex t 0).addEdge u g0.vindex .simple = some (g1.addPower k)) ∧ g1.vindex = P.ty.length + 1 ∧
      g1.verts = Finset.range (P.ty.length + 1) ∧ ∀ a c, c = g0.vindex → a ≠ u → g1.adj a c = none := by
  obtain ⟨e1, e2, e3, e4, e5, e6, e7, e8, e9, e10⟩ := addVertex_fields g0 t 0
  have hu' : u ∈ g0.verts := by rw [hver]; exact Finset.mem_range.mpr hu
  have hadj : ∀ a, (g0.addVertex t 0).adj a g0.vindex = none := fun a => by
    rw [addVertex_zero]; exact if_pos (Or.inr rfl)
  have m1 : u ∈ (g0.addVertex t 0).verts := by rw [e1]; exact Finset.mem_insert_of_mem hu'
  have m2 : g0.vindex ∈ (g0.addVertex t 0).verts := by rw [e1]; exact Finset.mem_insert_self _ _
  refine ⟨_, ?_, addEdge_fresh m1 m2 (hadj u) .simple, fun k => ?_, by rw [← hv]; exact e6, ?_, ?_⟩
  · unfold Plan.build Plan.leaf
    simp only
    rw [List.foldl_append, addEdges_append]
    have := foldl_verts P.ty
    show ((Graph.addVertex _ t 0).addEdges P.es .simple).bind _ = _
    rw [addEdges_addVertex t .simple P.es _ fun p hp => ?_]
    · have hb' : (P.ty.foldl (fun g t => g.addVertex t 0) Graph.empty).addEdges P.es .simple = some g0 := hb
      rw [hb']
      show (g0.addVertex t 0).addEdges [(u, P.ty.length)] .simple = _
      rw [addEdges_cons, ← hv]
      show ((g0.addVertex t 0).addEdge0 u g0.vindex .simple).bind _ = _
      unfold addEdge0
      rw [if_neg (by simp [m1, m2])]
      rfl
    · rw [this.1, this.2]
      have := hes p hp
      simp only [Finset.mem_range]
      omega
  · have h2 : (g0.addPower k).addVertex t 0 = (g0.addVertex t 0).addPower k := by
      rw [addVertex_zero, addVertex_zero]; rfl
    rw [h2, addEdge_fresh (g := (g0.addVertex t 0).addPower k) m1 m2 (hadj u)]
    rfl
  · show (g0.addVertex t 0).verts = _
    rw [e1, hv, hver, Finset.range_add_one]
  · rintro a c rfl ha
    show (if (a = u ∧ g0.vindex = g0.vindex) ∨ (a = g0.vindex ∧ g0.vindex = u) then some EType.simple else (g0.addVertex t 0).adj a g0.vindex) = none
    rw [if_neg, hadj]
    rintro (h | h)
    · exact ha h.1
    · omega

theorem leaf_es {P : Plan} (hes : ∀ p ∈ P.es, p.1 < P.ty.length ∧ p.2 < P.ty.length) (t : VType) {u : ℕ} (hu : u < P.ty.length) :
    ∀ p ∈ (P.leaf t u).es, p.1 < (P.leaf t u).ty.length ∧ p.2 < (P.leaf t u).ty.length := by
  intro p hp
  have hl : (P.leaf t u).ty.length = P.ty.length + 1 := by simp [Plan.leaf]
  rw [hl]
  rcases List.mem_append.mp hp with h | h
  · have := hes p h; omega
  · rw [List.mem_singleton] at h
    subst h
    exact ⟨by omega, by simp⟩

theorem Rel.node {P : Plan} {s : St} {k : ℕ} {g0 : Graph} (h : Rel P s k g0) (t : VType) {l : ℕ} (hl : l ∈ s.2.labels) :
    ∃ s' g1, addNode s t l 0 .simple = some s' ∧ Rel (P.node t l) s' k g1 ∧ s'.2.labels = s.2.labels ∧
      ∀ a, a ≠ P.q l → g1.adj a g0.vindex = none := by
  obtain ⟨q1, q2⟩ := h.q l hl
  obtain ⟨g1, b1, b2, b3, b4, b5, b6⟩ := build_leaf h.build h.vindex h.es h.verts (t := t) q2
  have hlab : (s.2.setPrev l s.1.vindex).labels = s.2.labels := Finset.insert_eq_of_mem hl
  have hvi : s.1.vindex = g0.vindex := by rw [h.graph]; rfl
  have hlen : (P.node t l).ty.length = P.ty.length + 1 := by simp [Plan.node]
  refine ⟨(g1.addPower k, s.2.setPrev l s.1.vindex), g1, ?_, ⟨b1, rfl, by rw [hlen, b4], by rw [hlen, b5], leaf_es h.es t q2, fun m hm => ?_⟩,
    hlab, fun a ha => b6 a _ rfl ha⟩
  · unfold addNode Mapper.prevVertex
    rw [if_pos hl]
    show ((s.1.addVertex t 0).addEdge (s.2.prev l) s.1.vindex .simple).bind _ = _
    rw [h.graph, q1]
    show (((g0.addPower k).addVertex t 0).addEdge (P.q l) g0.vindex .simple).bind _ = _
    rw [b3]
    rfl
  · have hm' : m ∈ s.2.labels := by rw [← hlab]; exact hm
    rw [hlen]
    show Function.update s.2.prev l s.1.vindex m = Function.update P.q l P.ty.length m ∧ Function.update P.q l P.ty.length m < _
    by_cases hml : m = l
    · subst hml
      rw [Function.update_self, Function.update_self, hvi, h.vindex]
      exact ⟨rfl, by omega⟩
    · rw [Function.update_of_ne hml, Function.update_of_ne hml]
      obtain ⟨a1, a2⟩ := h.q m hm'
      exact ⟨a1, by omega⟩

theorem Rel.row {k : ℕ} (ls : List ℕ) : ∀ {P : Plan} {s : St} {g0 : Graph}, Rel P s k g0 → (∀ l ∈ ls, l ∈ s.2.labels) →
    ∃ s' g1, ls.foldlM (fun s i => addNode s .Z i 0 .simple) s = some s' ∧
      Rel (ls.foldl (fun P i => P.node .Z i) P) s' k g1 ∧ s'.2.labels = s.2.labels := by
  induction ls with
  | nil => exact fun h _ => ⟨_, _, rfl, h, rfl⟩
  | cons i r ih =>
    intro P s g0 h hl
    obtain ⟨s1, g1, a1, a2, a3, -⟩ := h.node .Z (hl i (by simp))
    obtain ⟨s2, g2, c1, c2, c3⟩ := ih a2 fun l hh => by rw [a3]; exact hl l (by simp [hh])
    refine ⟨s2, g2, ?_, c2, c3.trans a3⟩
    rw [List.foldlM_cons]
    show (addNode s .Z i 0 .simple).bind _ = _
    rw [a1]
    exact c1

/-- One CNOT. -/
theorem Rel.cnot {P : Plan} {s : St} {k : ℕ} {g0 : Graph} (h : Rel P s k g0) {n : ℕ} (hl : s.2.labels = Finset.range n) (hn : 2 ≤ n) (d : ℕ × ℕ) :
    ∃ P' s' g1, Plan.cnot n P d = some P' ∧ addPair s .Z .X (tgt n (d.1 % n) d.2) (d.1 % n) .simple = some s' ∧ Rel P' s' (k + 1) g1 ∧
      s'.2.labels = s.2.labels := by
  have hc := Nat.mod_lt d.1 (show n > 0 by omega)
  obtain ⟨t1, t2⟩ := tgt_spec hn hc d.2
  set c := d.1 % n
  set t := tgt n c d.2 with ht
  have hcl : c ∈ s.2.labels := by rw [hl]; exact Finset.mem_range.mpr hc
  have htl : t ∈ s.2.labels := by rw [hl]; exact Finset.mem_range.mpr t1
  obtain ⟨s1, g1, a1, a2, a3, -⟩ := h.node .Z hcl
  obtain ⟨s2, g2, c1, c2, c3, c4⟩ := a2.node .X (l := t) (by rw [a3]; exact htl)
  have hq : (P.node .Z c).q t = P.q t := Function.update_of_ne t2 _ _
  have hl1 : (P.node .Z c).ty.length = P.ty.length + 1 := by simp [Plan.node]
  have hl2 : ((P.node .Z c).node .X t).ty.length = P.ty.length + 2 := by simp [Plan.node]
  have v0 : s.1.vindex = P.ty.length := by rw [h.graph]; exact h.vindex
  have v1 : s1.1.vindex = P.ty.length + 1 := by rw [a2.graph, ← hl1]; exact a2.vindex
  have hfr : g2.adj P.ty.length (P.ty.length + 1) = none := by
    have := c4 P.ty.length (by rw [hq]; have := (h.q t htl).2; omega)
    rwa [a2.vindex, hl1] at this
  have m1 : P.ty.length ∈ g2.verts := by rw [c2.verts, hl2]; simp
  have m2 : P.ty.length + 1 ∈ g2.verts := by rw [c2.verts, hl2]; simp
  have hr : randrange n d.1 = some c := if_neg (by omega)
  have hr1 : randrange (n - 1) d.2 = some (d.2 % (n - 1)) := if_neg (by omega)
  set g3 : Graph := { g2.setAdj P.ty.length (P.ty.length + 1) (some .simple) with nedges := g2.nedges + 1 } with hg3
  refine ⟨⟨((P.node .Z c).node .X t).q, ((P.node .Z c).node .X t).ty, ((P.node .Z c).node .X t).es ++ [(P.ty.length, P.ty.length + 1)]⟩,
    (g3.addPower (k + 1), s2.2), g3, ?_, ?_, ⟨?_, rfl, c2.vindex, c2.verts, ?_, c2.q⟩, c3.trans a3⟩
  · unfold Plan.cnot
    rw [hr]
    show (randrange (n - 1) d.2).bind _ = _
    rw [hr1]
    show some _ = some _
    rw [Option.some.injEq]
    show Plan.mk (Function.update (Function.update P.q c P.ty.length) t (P.ty.length + 1)) (P.ty ++ [.Z, .X])
      (P.es ++ [(P.q c, P.ty.length), (P.q t, P.ty.length + 1), (P.ty.length, P.ty.length + 1)]) = _
    rw [← hq]
    simp [Plan.node]
  · unfold addPair
    rw [a1]
    show (addNode s1 .X t 0 .simple).bind _ = _
    rw [c1]
    show (s2.1.addEdge s.1.vindex s1.1.vindex .simple).bind _ = _
    rw [v0, v1, c2.graph, addEdge_fresh (g := g2.addPower k) m1 m2 hfr]
    show some (_ : St) = some _
    rw [Option.some.injEq, Prod.mk.injEq]
    refine ⟨?_, rfl⟩
    simp [hg3, Graph.addPower, Scalar.addPower, Graph.setAdj, add_assoc]
  · have hb := c2.build
    unfold Plan.build at hb ⊢
    simp only
    rw [addEdges_append, hb]
    show g2.addEdges [(P.ty.length, P.ty.length + 1)] .simple = _
    rw [addEdges_cons]
    show (g2.addEdge0 P.ty.length (P.ty.length + 1) .simple).bind _ = _
    unfold addEdge0
    rw [if_neg (by simp [m1, m2])]
    rfl
  · intro p hp
    rcases List.mem_append.mp hp with hp | hp
    · exact c2.es p hp
    · rw [List.mem_singleton] at hp
      subst hp
      show P.ty.length < ((P.node .Z c).node .X t).ty.length ∧ P.ty.length + 1 < ((P.node .Z c).node .X t).ty.length
      omega

/-- All CNOTs. -/
theorem Rel.cnots {n : ℕ} (hn : 2 ≤ n) (ds : List (ℕ × ℕ)) : ∀ {P : Plan} {s : St} {k : ℕ} {g0 : Graph}, Rel P s k g0 →
    s.2.labels = Finset.range n → ∃ P' s' g1, ds.foldlM (Plan.cnot n) P = some P' ∧
      ds.foldlM (fun s d => addPair s .Z .X (tgt n (d.1 % n) d.2) (d.1 % n) .simple) s = some s' ∧ Rel P' s' (k + ds.length) g1 ∧
      s'.2.labels = Finset.range n := by
  induction ds with
  | nil => exact fun h hl => ⟨_, _, _, rfl, rfl, h, hl⟩
  | cons d r ih =>
    intro P s k g0 h hl
    obtain ⟨P1, s1, g1, a1, a2, a3, a4⟩ := h.cnot hl hn d
    obtain ⟨P2, s2, g2, b1, b2, b3, b4⟩ := ih a3 (a4.trans hl)
    refine ⟨P2, s2, g2, ?_, ?_, ?_, b4⟩
    · rw [List.foldlM_cons, a1]; exact b1
    · rw [List.foldlM_cons, a2]; exact b2
    · rw [List.length_cons, show k + (r.length + 1) = k + 1 + r.length by omega]; exact b3

/-- The outputs. -/
theorem Rel.outs {P : Plan} {s : St} {k : ℕ} {g0 : Graph} (h : Rel P s k g0) (m : ℕ) (hl : ∀ i < m, i ∈ s.2.labels) :
    ∃ g1, (P.outs m).build = some g1 ∧ g1.vindex = P.ty.length + m ∧ g1.verts = Finset.range (P.ty.length + m) ∧
      (∀ p ∈ (P.outs m).es, p.1 < P.ty.length + m ∧ p.2 < P.ty.length + m) ∧ addOutputs s.2 (List.range m) (s.1, []) = some (g1.addPower k, (List.range m).map (P.ty.length + ·)) := by
  induction m with
  | zero =>
    refine ⟨g0, ?_, h.vindex, h.verts, ?_, ?_⟩
    · have := h.build
      simpa [Plan.build, Plan.outs] using this
    · have := h.es
      simpa [Plan.outs] using this
    · show some (s.1, []) = _
      rw [h.graph]
      rfl
  | succ m ih =>
    obtain ⟨g1, a1, a2, a3, a4, a5⟩ := ih fun i hi => hl i (by omega)
    have hlen : (P.outs m).ty.length = P.ty.length + m := by simp [Plan.outs]
    obtain ⟨q1, q2⟩ := h.q m (hl m (by omega))
    obtain ⟨g2, b1, b2, b3, b4, b5, -⟩ := build_leaf (P := P.outs m) a1 (by rw [hlen, a2]) (by rw [hlen]; exact a4) (by rw [hlen, a3])
      (t := .boundary) (u := P.q m) (by rw [hlen]; omega)
    have hP : P.outs (m + 1) = (P.outs m).leaf .boundary (P.q m) := by
      simp [Plan.outs, Plan.leaf, List.range_succ, List.replicate_succ']
    refine ⟨g2, by rw [hP]; exact b1, by rw [b4, hlen]; omega, by rw [b5, hlen]; rfl, ?_, ?_⟩
    · have := leaf_es (P := P.outs m) (by rw [hlen]; exact a4) .boundary (u := P.q m) (by rw [hlen]; omega)
      rw [← hP] at this
      intro p hp
      have := this p hp
      have hl2 : (P.outs (m + 1)).ty.length = P.ty.length + (m + 1) := by simp [Plan.outs]
      omega
    · unfold addOutputs at a5 ⊢
      set os := (List.range m).map (P.ty.length + ·) with hos
      have hos' : (List.range (m + 1)).map (P.ty.length + ·) = os ++ [g1.vindex] := by rw [List.range_succ, List.map_append, a2]; rfl
      rw [hos', List.range_succ, List.foldlM_append, a5]
      show ((s.2.prevVertex m).bind fun u => (((g1.addPower k).addVertex .boundary 0).addEdge u (g1.addPower k).vindex .simple).bind fun g =>
        some (g, os ++ [(g1.addPower k).vindex])).bind _ = _
      unfold Mapper.prevVertex
      rw [if_pos (hl m (by omega)), q1]
      show ((((g1.addPower k).addVertex .boundary 0).addEdge (P.q m) g1.vindex .simple).bind fun g =>
        some (g, os ++ [g1.vindex])).bind _ = _
      rw [b3]
      rfl

theorem addInputs_graph (n : ℕ) (g : Graph) (ins : List ℕ) :
    (addInputs n g ins).1 = (List.replicate n VType.boundary).foldl (fun g t => g.addVertex t 0) g := by
  induction n with
  | zero => rfl
  | succ n ih =>
    unfold addInputs at ih ⊢
    rw [List.range_succ, List.replicate_succ', List.foldl_append, List.foldl_append, ← ih]
    rfl

/-- The start. -/
theorem Rel.init (n : ℕ) : Rel (Plan.init n) ((addInputs n Graph.empty []).1, (addInputs n Graph.empty []).2.1) 0
    (addInputs n Graph.empty []).1 := by
  have I1 := addInputs_spec empty_inv (fun v hv => by simp [Graph.empty] at hv) [] n
  have hg := addInputs_graph n Graph.empty []
  have hv := foldl_verts (List.replicate n VType.boundary)
  rw [← hg] at hv
  refine ⟨?_, ?_, hv.1, hv.2, fun p hp => by simp [Plan.init] at hp, fun l hl => ?_⟩
  · show some _ = _
    rw [hg]
    rfl
  · simp [Graph.addPower, Scalar.addPower]
  · have hl' : l < n := by
      have : l ∈ (addInputs n Graph.empty []).2.1.labels := hl
      rw [I1.labels] at this
      exact Finset.mem_range.mp this
    refine ⟨?_, by simpa [Plan.init] using hl'⟩
    show (addInputs n Graph.empty []).2.1.prev l = _
    rw [I1.prev l hl']
    exact Nat.zero_add l

/-- The CNOT of two draws. -/
def cnotGate (n : ℕ) (d : ℕ × ℕ) : Gate := .cnot (d.1 % n) (tgt n (d.1 % n) d.2)

theorem pairs_acts {n N : ℕ} (hn : 2 ≤ n) (ds : List (ℕ × ℕ)) : ∀ {s : St}, Good s N → s.2.labels = Finset.range n →
    Acts s N (ds.foldlM (fun s d => addPair s .Z .X (tgt n (d.1 % n) d.2) (d.1 % n) .simple) s) (semGates (ds.map (cnotGate n))) := by
  induction ds with
  | nil => exact fun h _ => ⟨_, rfl, h, rfl, fun b => rfl⟩
  | cons d r ih =>
    intro s h hl
    have hc := Nat.mod_lt d.1 (show n > 0 by omega)
    obtain ⟨t1, t2⟩ := tgt_spec hn hc d.2
    have := (cnot_acts' h (c := d.1 % n) (t := tgt n (d.1 % n) d.2) (by rw [hl]; exact Finset.mem_range.mpr hc)
      (by rw [hl]; exact Finset.mem_range.mpr t1) (Ne.symm t2)).bind
      (f := fun s' => r.foldlM (fun s d => addPair s .Z .X (tgt n (d.1 % n) d.2) (d.1 % n) .simple) s')
      fun s' g' l' => ih g' (l'.trans hl)
    rw [List.foldlM_cons]
    exact this

theorem sem_bnd {g : Graph} {b c : ℕ → Bool} (h : ∀ v ∈ g.verts, g.ty v = .boundary → b v = c v) : g.sem b = g.sem c := by
  unfold Graph.sem
  congr 1
  refine psum_congr fun y _ => ?_
  congr 1
  refine Finset.prod_congr rfl fun v hv => ?_
  unfold nodeTensor
  cases ht : g.ty v <;> simp only
  rw [h v hv ht]

/-- Reversing the list of outputs. -/
theorem mat_reverse {g : Graph} (hio : g.IO) {n V : ℕ} (ho : g.outputs = (List.range n).map (V + ·)) (x y : ℕ → Bool) :
    ({ g with outputs := (List.range n).map fun i => V + n - i - 1 } : Graph).mat x y = g.mat x fun l => y (n - 1 - l) := by
  unfold Graph.mat
  have hs : ∀ b, ({ g with outputs := (List.range n).map fun i => V + n - i - 1 } : Graph).sem b = g.sem b := fun b => rfl
  rw [hs]
  refine sem_bnd fun v hv hb => ?_
  unfold Graph.bval
  show (if v ∈ g.inputs then x (g.inputs.idxOf v) else y (((List.range n).map fun i => V + n - i - 1).idxOf v)) = _
  by_cases hin : v ∈ g.inputs
  · rw [if_pos hin, if_pos hin]
  · rw [if_neg hin, if_neg hin]
    have hout : v ∈ g.outputs := (hio.all v hv hb).resolve_left hin
    rw [ho] at hout ⊢
    obtain ⟨i, hi', rfl⟩ := List.mem_map.mp hout
    have hin' := List.mem_range.mp hi'
    rw [idxOf_map_add V n i hin']
    have e : ((List.range n).map fun i => V + n - i - 1).idxOf (V + i) = n - 1 - i := by
      have hnd : ((List.range n).map fun i => V + n - i - 1).Nodup := by
        refine (List.nodup_map_iff_inj_on List.nodup_range).mpr fun a ha c hc hac => ?_
        have := List.mem_range.mp ha
        have := List.mem_range.mp hc
        omega
      have hlt : n - 1 - i < ((List.range n).map fun i => V + n - i - 1).length := by simp; omega
      have := hnd.idxOf_getElem (n - 1 - i) hlt
      rw [← this]
      congr 1
      simp
      omega
    rw [e]

theorem cnots_spec {n : ℕ} (hn : 2 ≤ n) (ds : List (ℕ × ℕ)) : ∃ g g0, cnots n ds = some g ∧
    Result Props.ascending n 0 (Finset.range n) (semGates (ds.map (cnotGate n))) g0 ∧
    g = { g0 with outputs := g0.outputs.reverse } ∧
    ∀ x y, g.mat x y = semGates (ds.map (cnotGate n)) (basisState n x) fun l => y (n - 1 - l) := by
  obtain ⟨gI, h1, h2⟩ := build_spec0 n (fun s => (Generate.row n s).bind fun s =>
      (ds.foldlM (fun s d => addPair s .Z .X (tgt n (d.1 % n) d.2) (d.1 % n) .simple) s).bind fun s => Generate.row n s)
    (semGates (ds.map (cnotGate n))) fun s N h hl => by
      have r1 := row_acts (List.range n) h fun l hh => by rw [hl]; simpa using hh
      exact r1.bind fun s1 g1 l1 => (pairs_acts hn ds g1 (l1.trans hl)).bind fun s2 g2 l2 =>
        row_acts (List.range n) g2 fun l hh => by rw [l2, l1, hl]; simpa using hh
  have R0 := Rel.init n
  have I1 := addInputs_spec empty_inv (fun v hv => by simp [Graph.empty] at hv) [] n
  obtain ⟨s1, g1, a1, a2, a3⟩ := R0.row (List.range n) fun l hh => by
    show l ∈ (addInputs n Graph.empty []).2.1.labels
    rw [I1.labels]; simpa using hh
  have a3' : s1.2.labels = Finset.range n := a3.trans I1.labels
  obtain ⟨P2, s2, g2, b1, b2, b3, b4⟩ := a2.cnots hn ds a3'
  obtain ⟨s3, g3, c1, c2, c3⟩ := b3.row (List.range n) fun l hh => by rw [b4]; simpa using hh
  have c3' : s3.2.labels = Finset.range n := c3.trans b4
  obtain ⟨g4, d1, d2, d3, -, d5⟩ := c2.outs n fun i hi => by rw [c3']; exact Finset.mem_range.mpr hi
  set P3 := (List.range n).foldl (fun P i => P.node .Z i) P2 with hP3
  have hI : gI = ({ g4.addPower (0 + ds.length : ℕ) with
      inputs := (addInputs n Graph.empty []).2.2
      outputs := (List.range n).map (P3.ty.length + ·) } : Graph) := by
    unfold Generate.row at h1
    rw [a1] at h1
    simp only [Option.bind_some] at h1
    rw [b2] at h1
    simp only [Option.bind_some] at h1
    rw [c1] at h1
    simp only [Option.bind_some] at h1
    rw [d5] at h1
    exact (Option.some.inj h1).symm
  have hos : gI.outputs = (List.range n).map (P3.ty.length + ·) := by rw [hI]
  have hlen : (P3.outs n).ty.length = P3.ty.length + n := by simp [Plan.outs]
  have hc : cnots n ds = some { gI with outputs := (List.range n).map fun i => P3.ty.length + n - i - 1 } := by
    unfold cnots Plan.row
    rw [b1]
    show ((P3.outs n).build).bind _ = _
    rw [d1]
    show some (_ : Graph) = some _
    rw [Option.some.injEq, hI, hlen, I1.ins]
    simp [Graph.addPower, Graph.empty]
  refine ⟨_, gI, hc, h2, ?_, fun x y => ?_⟩
  · have : ((List.range n).map fun i => P3.ty.length + n - i - 1) = gI.outputs.reverse := by
      rw [hos]
      refine List.ext_getElem (by simp) fun i h1 h2 => ?_
      simp at h1 ⊢
      omega
    rw [this]
  · rw [mat_reverse h2.io hos, result_mat h2]

end Generate
end PyZX
