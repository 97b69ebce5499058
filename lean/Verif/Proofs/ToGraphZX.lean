import Verif.Proofs.ToGraph
import Verif.Spec.FullReduce
import Verif.Props.ToGraph

/-!
# The diagrams of circuits are ZX-diagrams in the sense of the simplifier
-/

namespace PyZX
namespace ToGraph

open Graph Simplify

/-- The part of the claim about the diagram under construction: the input wires are open exactly when a label ends at them. -/
structure ZI (s : St) : Prop where
  inv : s.1.Inv
  prev : ∀ l ∈ s.2.labels, s.2.prev l ∈ s.1.verts
  typ : ∀ v ∈ s.1.verts, s.1.ty v = .boundary ∨ s.1.ty v = .Z ∨ s.1.ty v = .X
  red : ∀ v ∈ s.1.verts, Reduced (s.1.phase v)
  bph : ∀ v ∈ s.1.verts, s.1.ty v = .boundary → s.1.phase v = 0
  wio : ∀ u v, s.1.adj u v ≠ some .wio
  bd : s.1.BDeg
  op : ∀ b ∈ s.1.verts, s.1.ty b = .boundary → (∃ u, s.1.adj b u ≠ none) ∨ ∃ l ∈ s.2.labels, s.2.prev l = b
  cl : ∀ l ∈ s.2.labels, s.1.ty (s.2.prev l) = .boundary → ∀ u, s.1.adj (s.2.prev l) u = none
  inj : ∀ l ∈ s.2.labels, ∀ l' ∈ s.2.labels, s.2.prev l = s.2.prev l' → l = l'

theorem mod2_reduced (p : ℚ) : Reduced (mod2 p) := ⟨mod2_nonneg p, mod2_lt p⟩

/-- What `add_edge` leaves alone. -/
theorem addEdge_frame {g g' : Graph} {a b : ℕ} {e : EType} (h : g.addEdge a b e = some g') :
    g'.verts = g.verts ∧ g'.ty = g.ty ∧ g'.vindex = g.vindex ∧
    (∀ x y, ¬ (x = a ∧ y = b) → ¬ (x = b ∧ y = a) → g'.adj x y = g.adj x y) ∧
    (∀ v, g'.phase v = g.phase v ∨ v = a ∧ ∃ p, g'.phase v = mod2 p) ∧
    ((∀ x y, g.adj x y ≠ some .wio) → e ≠ .wio → ∀ x y, g'.adj x y ≠ some .wio) := by
  have key : ∀ (f : Option EType), f ≠ some .wio → (∀ x y, g.adj x y ≠ some .wio) → ∀ x y, (g.setAdj a b f).adj x y ≠ some .wio := by
    intro f hf hw x y
    unfold setAdj
    simp only
    by_cases c : (x = a ∧ y = b) ∨ (x = b ∧ y = a)
    · rw [if_pos c]; exact hf
    · rw [if_neg c]; exact hw x y
  unfold addEdge at h
  by_cases c1 : a ∉ g.verts
  · rw [if_pos c1] at h; simp at h
  rw [if_neg c1] at h
  cases hadj : g.adj a b with
  | none =>
    rw [hadj] at h
    simp only at h
    by_cases c2 : b ∉ g.verts
    · rw [if_pos c2] at h; simp at h
    rw [if_neg c2, Option.some.injEq] at h
    subst h
    exact ⟨rfl, rfl, rfl, fun x y h1 h2 => setAdj_adj_other g _ h1 h2, fun v => Or.inl rfl, fun hw he => key _ (by simpa using he) hw⟩
  | some e1 =>
    rw [hadj] at h
    simp only at h
    by_cases c2 : (g.ty a).zxLike ∧ (g.ty b).zxLike
    swap
    · rw [if_neg c2] at h; simp at h
    rw [if_pos c2] at h
    generalize hfu : (if (g.ty a).zLike = (g.ty b).zLike then EType.simple else EType.had) = fu at h
    generalize hho : (if (g.ty a).zLike = (g.ty b).zLike then EType.had else EType.simple) = ho at h
    have hfw : fu ≠ .wio := by rw [← hfu]; split <;> simp
    by_cases c3 : e = fu ∧ e1 = fu
    · rw [if_pos c3, Option.some.injEq] at h
      subst h
      exact ⟨rfl, rfl, rfl, fun x y _ _ => rfl, fun v => Or.inl rfl, fun hw _ => hw⟩
    rw [if_neg c3] at h
    by_cases c4 : (e = fu ∧ e1 = ho) ∨ (e = ho ∧ e1 = fu)
    · rw [if_pos c4, Option.some.injEq] at h
      by_cases c5 : g.ty a = .zbox
      · rw [if_pos c5] at h
        subst h
        exact ⟨rfl, rfl, rfl, fun x y h1 h2 => setAdj_adj_other g _ h1 h2, fun v => Or.inl rfl, fun hw he => key _ (by simpa using hfw) hw⟩
      · rw [if_neg c5] at h
        subst h
        refine ⟨rfl, rfl, rfl, fun x y h1 h2 => setAdj_adj_other g _ h1 h2, fun v => ?_, fun hw he => key _ (by simpa using hfw) hw⟩
        by_cases hv : v = a
        · subst hv
          right
          refine ⟨rfl, g.phase v + 1, ?_⟩
          simp [addToPhase, setAdj]
        · left
          simp [addToPhase, setAdj, hv]
    rw [if_neg c4] at h
    by_cases c5 : e = ho ∧ e1 = ho
    · rw [if_pos c5] at h
      obtain ⟨g1, h1, rfl⟩ := Option.map_eq_some_iff.mp h
      unfold removeEdge at h1
      by_cases c6 : g.adj a b = none ∨ a = b
      · rw [if_pos c6] at h1; simp at h1
      · rw [if_neg c6, Option.some.injEq] at h1
        subst h1
        exact ⟨rfl, rfl, rfl, fun x y h1 h2 => setAdj_adj_other g _ h1 h2, fun v => Or.inl rfl, fun hw he => key _ (by simp) hw⟩
    · rw [if_neg c5] at h; simp at h


variable {g g' : Graph} {m : Mapper}

theorem ZI.vertex (h : ZI (g, m)) {t : VType} (ht : t = .Z ∨ t = .X) (p : ℚ) : ZI (g.addVertex t p, m) := by
  obtain ⟨e1, e2, e3, e4, -⟩ := addVertex_fields g t p
  have ha := h.inv.addVertex_adj t p
  have hne : ∀ v ∈ g.verts, v ≠ g.vindex := fun v hv e => h.inv.notMem_vindex (e ▸ hv)
  have hb : ∀ v ∈ insert g.vindex g.verts, Function.update g.ty g.vindex t v = .boundary → v ∈ g.verts ∧ g.ty v = .boundary := by
    intro v hv hvb
    by_cases c : v = g.vindex
    · subst c
      rw [Function.update_self] at hvb
      rcases ht with rfl | rfl <;> simp at hvb
    · rw [Function.update_of_ne c] at hvb
      exact ⟨(Finset.mem_insert.mp hv).resolve_left c, hvb⟩
  refine ⟨h.inv.addVertex t p, fun l hl => ?_, fun v hv => ?_, fun v hv => ?_, fun v hv hvb => ?_, fun u v => ?_, fun b hb' hbt u w h1 h2 => ?_,
    fun b hb' hbt => ?_, fun l hl hlt u => ?_, h.inj⟩
  · show _ ∈ (g.addVertex t p).verts
    rw [e1]; exact Finset.mem_insert_of_mem (h.prev l hl)
  · show (g.addVertex t p).ty v = _ ∨ (g.addVertex t p).ty v = _ ∨ (g.addVertex t p).ty v = _
    rw [e3]
    change v ∈ (g.addVertex t p).verts at hv
    rw [e1] at hv
    by_cases c : v = g.vindex
    · subst c
      rw [Function.update_self]
      exact Or.inr ht
    · rw [Function.update_of_ne c]
      exact h.typ v ((Finset.mem_insert.mp hv).resolve_left c)
  · show Reduced ((g.addVertex t p).phase v)
    rw [e4]
    change v ∈ (g.addVertex t p).verts at hv
    rw [e1] at hv
    by_cases c : v = g.vindex
    · subst c
      rw [Function.update_self]
      exact mod2_reduced p
    · rw [Function.update_of_ne c]
      exact h.red v ((Finset.mem_insert.mp hv).resolve_left c)
  · change v ∈ (g.addVertex t p).verts at hv
    change (g.addVertex t p).ty v = _ at hvb
    show (g.addVertex t p).phase v = 0
    rw [e1] at hv
    rw [e3] at hvb
    obtain ⟨q1, q2⟩ := hb v hv hvb
    rw [e4, Function.update_of_ne (hne v q1)]
    exact h.bph v q1 q2
  · show (g.addVertex t p).adj u v ≠ _
    rw [ha]; exact h.wio u v
  · change b ∈ (g.addVertex t p).verts at hb'
    change (g.addVertex t p).ty b = _ at hbt
    rw [e1] at hb'
    rw [e3] at hbt
    rw [ha] at h1 h2
    obtain ⟨q1, q2⟩ := hb b hb' hbt
    exact h.bd b q1 q2 u w h1 h2
  · change b ∈ (g.addVertex t p).verts at hb'
    change (g.addVertex t p).ty b = _ at hbt
    rw [e1] at hb'
    rw [e3] at hbt
    obtain ⟨q1, q2⟩ := hb b hb' hbt
    show (∃ u, (g.addVertex t p).adj b u ≠ none) ∨ _
    rw [ha]
    exact h.op b q1 q2
  · change (g.addVertex t p).ty (m.prev l) = _ at hlt
    show (g.addVertex t p).adj _ u = none
    rw [ha]
    rw [e3, Function.update_of_ne (hne _ (h.prev l hl))] at hlt
    exact h.cl l hl hlt u

/-- A new edge between two spiders. -/
theorem ZI.edge (h : ZI (g, m)) {a b : ℕ} {e : EType} (he : g.addEdge a b e = some g') (hab : a ≠ b) (ha : g.ty a ≠ .boundary)
    (hb : g.ty b ≠ .boundary) (hw : e ≠ .wio) : ZI (g', m) := by
  obtain ⟨f1, f2, f3, f4, f5, f6⟩ := addEdge_frame he
  have hk : ∀ x, g.ty x = .boundary → ∀ y, g'.adj x y = g.adj x y := by
    intro x hx y
    refine f4 x y ?_ ?_
    · rintro ⟨rfl, -⟩; exact ha hx
    · rintro ⟨rfl, -⟩; exact hb hx
  refine ⟨h.inv.addEdge he hab, fun l hl => ?_, fun v hv => ?_, fun v hv => ?_, fun v hv hvb => ?_, f6 h.wio hw, fun c hc hct u w h1 h2 => ?_,
    fun c hc hct => ?_, fun l hl hlt u => ?_, h.inj⟩
  · show _ ∈ g'.verts
    rw [f1]; exact h.prev l hl
  · show g'.ty v = _ ∨ g'.ty v = _ ∨ g'.ty v = _
    rw [f2]; exact h.typ v (f1 ▸ hv)
  · show Reduced (g'.phase v)
    rcases f5 v with e1 | ⟨-, p, e1⟩
    · rw [e1]; exact h.red v (f1 ▸ hv)
    · rw [e1]; exact mod2_reduced p
  · show g'.phase v = 0
    change g'.ty v = _ at hvb
    rw [f2] at hvb
    rcases f5 v with e1 | ⟨rfl, p, e1⟩
    · rw [e1]; exact h.bph v (f1 ▸ hv) hvb
    · exact absurd hvb ha
  · change g'.ty c = _ at hct
    rw [f2] at hct
    rw [hk c hct] at h1 h2
    exact h.bd c (f1 ▸ hc) hct u w h1 h2
  · change g'.ty c = _ at hct
    rw [f2] at hct
    show (∃ u, g'.adj c u ≠ none) ∨ _
    simp only [hk c hct]
    exact h.op c (f1 ▸ hc) hct
  · change g'.ty (m.prev l) = _ at hlt
    rw [f2] at hlt
    show g'.adj _ u = none
    rw [hk _ hlt]
    exact h.cl l hl hlt u

theorem ZI.phase (h : ZI (g, m)) {v : ℕ} (hv : g.ty v ≠ .boundary) (p : ℚ) : ZI (g.setPhase v p, m) := by
  refine ⟨h.inv.congr rfl rfl rfl rfl rfl rfl, h.prev, h.typ, fun u hu => ?_, fun u hu hub => ?_, h.wio, h.bd, h.op, h.cl, h.inj⟩
  · show Reduced (Function.update g.phase v (mod2 p) u)
    by_cases c : u = v
    · subst c
      rw [Function.update_self]
      exact mod2_reduced p
    · rw [Function.update_of_ne c]; exact h.red u hu
  · show Function.update g.phase v (mod2 p) u = 0
    by_cases c : u = v
    · subst c; exact absurd hub hv
    · rw [Function.update_of_ne c]; exact h.bph u hu hub

theorem ZI.power (h : ZI (g, m)) (k : ℤ) : ZI (g.addPower k, m) :=
  ⟨h.inv.congr rfl rfl rfl rfl rfl rfl, h.prev, h.typ, h.red, h.bph, h.wio, h.bd, h.op, h.cl, h.inj⟩

/-- A label moves to another spider. -/
theorem ZI.move (h : ZI (g, m)) {l v : ℕ} (hl : l ∈ m.labels) (hlt : g.ty (m.prev l) ≠ .boundary) (hv : v ∈ g.verts) (hvt : g.ty v ≠ .boundary)
    (hf : ∀ l' ∈ m.labels, m.prev l' ≠ v) : ZI (g, m.setPrev l v) := by
  have hL : (m.setPrev l v).labels = m.labels := Finset.insert_eq_of_mem hl
  have hP : (m.setPrev l v).prev = Function.update m.prev l v := rfl
  refine ⟨h.inv, fun k hk => ?_, h.typ, h.red, h.bph, h.wio, h.bd, fun b hb hbt => ?_, fun k hk hkt u => ?_, fun k hk k' hk' e => ?_⟩
  · show (m.setPrev l v).prev k ∈ g.verts
    change k ∈ (m.setPrev l v).labels at hk
    rw [hL] at hk
    rw [hP]
    by_cases c : k = l
    · subst c; rw [Function.update_self]; exact hv
    · rw [Function.update_of_ne c]; exact h.prev k hk
  · rcases h.op b hb hbt with q | ⟨k, hk, e⟩
    · exact Or.inl q
    · right
      refine ⟨k, by show k ∈ (m.setPrev l v).labels; rw [hL]; exact hk, ?_⟩
      show (m.setPrev l v).prev k = b
      rw [hP, Function.update_of_ne]
      · exact e
      · rintro rfl
        exact hlt (by change m.prev k = b at e; rw [e]; exact hbt)
  · change k ∈ (m.setPrev l v).labels at hk
    change g.ty ((m.setPrev l v).prev k) = _ at hkt
    show g.adj ((m.setPrev l v).prev k) u = none
    rw [hL] at hk
    rw [hP] at hkt ⊢
    by_cases c : k = l
    · subst c; rw [Function.update_self] at hkt; exact absurd hkt hvt
    · rw [Function.update_of_ne c] at hkt ⊢; exact h.cl k hk hkt u
  · change k ∈ (m.setPrev l v).labels at hk
    change k' ∈ (m.setPrev l v).labels at hk'
    change (m.setPrev l v).prev k = (m.setPrev l v).prev k' at e
    rw [hL] at hk hk'
    rw [hP] at e
    by_cases c : k = l
    · by_cases c' : k' = l
      · rw [c, c']
      · subst c; rw [Function.update_self, Function.update_of_ne c'] at e
        exact absurd e.symm (hf k' hk')
    · by_cases c' : k' = l
      · subst c'; rw [Function.update_self, Function.update_of_ne c] at e
        exact absurd e (hf k hk)
      · rw [Function.update_of_ne c, Function.update_of_ne c'] at e
        exact h.inj k hk k' hk' e

/-- The wire of a label is continued to another spider. -/
theorem ZI.wire (h : ZI (g, m)) {l v : ℕ} {e : EType} (hl : l ∈ m.labels) (hv : v ∈ g.verts) (hvt : g.ty v ≠ .boundary)
    (hf : ∀ l' ∈ m.labels, m.prev l' ≠ v) (he : g.addEdge (m.prev l) v e = some g') (hw : e ≠ .wio) : ZI (g', m.setPrev l v) := by
  by_cases hlt : g.ty (m.prev l) = .boundary
  swap
  · obtain ⟨f1, f2, -⟩ := addEdge_frame he
    exact (h.edge he (hf l hl) hlt hvt hw).move hl (by rw [f2]; exact hlt) (by rw [f1]; exact hv) (by rw [f2]; exact hvt) hf
  have hL : (m.setPrev l v).labels = m.labels := Finset.insert_eq_of_mem hl
  have hP : (m.setPrev l v).prev = Function.update m.prev l v := rfl
  obtain ⟨f1, f2, f3, f4, f5, f6⟩ := addEdge_frame he
  have hn := h.cl l hl hlt
  have hnew : g'.adj (m.prev l) v = some e := by
    have := addEdge_fresh (h.prev l hl) hv (hn v) e
    rw [he, Option.some.injEq] at this
    rw [this]
    exact setAdj_adj_self g _ _ _
  have hk : ∀ x, g.ty x = .boundary → x ≠ m.prev l → ∀ y, g'.adj x y = g.adj x y := by
    intro x hx hxl y
    refine f4 x y (fun q => hxl q.1) ?_
    rintro ⟨rfl, -⟩; exact hvt hx
  refine ⟨h.inv.addEdge he (hf l hl), fun k hk => ?_, fun v hv => ?_, fun x hx => ?_, fun x hx hxb => ?_, f6 h.wio hw,
    fun c hc hct u w h1 h2 => ?_, fun c hc hct => ?_, fun k hkl hkt u => ?_, fun k hkl k' hk' e => ?_⟩
  · show (m.setPrev l v).prev k ∈ g'.verts
    change k ∈ (m.setPrev l v).labels at hk
    rw [hL] at hk
    rw [hP, f1]
    by_cases c : k = l
    · subst c; rw [Function.update_self]; exact hv
    · rw [Function.update_of_ne c]; exact h.prev k hk
  · show g'.ty v = _ ∨ g'.ty v = _ ∨ g'.ty v = _
    rw [f2]; exact h.typ v (f1 ▸ hv)
  · show Reduced (g'.phase x)
    rcases f5 x with e1 | ⟨-, p, e1⟩
    · rw [e1]; exact h.red x (f1 ▸ hx)
    · rw [e1]; exact mod2_reduced p
  · have e0 := addEdge_fresh (h.prev l hl) hv (hn v) e
    rw [he, Option.some.injEq] at e0
    show g'.phase x = 0
    change g'.ty x = _ at hxb
    rw [f2] at hxb
    rw [e0]
    exact h.bph x (f1 ▸ hx) hxb
  · change g'.ty c = _ at hct
    rw [f2] at hct
    by_cases q : c = m.prev l
    · subst q
      have : ∀ y, g'.adj (m.prev l) y ≠ none → y = v := by
        intro y hy
        by_contra hyv
        rw [f4 _ _ (fun q => hyv q.2) (fun q => hf l hl q.1)] at hy
        exact hy (hn y)
      rw [this u h1, this w h2]
    · change g'.adj c u ≠ none at h1
      change g'.adj c w ≠ none at h2
      rw [hk c hct q] at h1 h2
      exact h.bd c (f1 ▸ hc) hct u w h1 h2
  · change g'.ty c = _ at hct
    rw [f2] at hct
    show (∃ u, g'.adj c u ≠ none) ∨ ∃ k ∈ (m.setPrev l v).labels, (m.setPrev l v).prev k = c
    by_cases q : c = m.prev l
    · left; exact ⟨v, by rw [q, hnew]; simp⟩
    · simp only [hk c hct q]
      rcases h.op c (f1 ▸ hc) hct with q1 | ⟨k, hk, e1⟩
      · exact Or.inl q1
      · right
        refine ⟨k, by rw [hL]; exact hk, ?_⟩
        rw [hP, Function.update_of_ne]
        · exact e1
        · rintro rfl; exact q e1.symm
  · change k ∈ (m.setPrev l v).labels at hkl
    change g'.ty ((m.setPrev l v).prev k) = _ at hkt
    show g'.adj ((m.setPrev l v).prev k) u = none
    rw [hL] at hkl
    rw [f2] at hkt
    rw [hP] at hkt ⊢
    by_cases c : k = l
    · subst c; rw [Function.update_self] at hkt; exact absurd hkt hvt
    · rw [Function.update_of_ne c] at hkt ⊢
      rw [hk _ hkt fun q => c (h.inj k hkl l hl q)]
      exact h.cl k hkl hkt u
  · change k ∈ (m.setPrev l v).labels at hkl
    change k' ∈ (m.setPrev l v).labels at hk'
    change (m.setPrev l v).prev k = (m.setPrev l v).prev k' at e
    rw [hL] at hkl hk'
    rw [hP] at e
    by_cases c : k = l
    · by_cases c' : k' = l
      · rw [c, c']
      · subst c; rw [Function.update_self, Function.update_of_ne c'] at e
        exact absurd e.symm (hf k' hk')
    · by_cases c' : k' = l
      · subst c'; rw [Function.update_self, Function.update_of_ne c] at e
        exact absurd e (hf k hkl)
      · rw [Function.update_of_ne c, Function.update_of_ne c'] at e
        exact h.inj k hkl k' hk' e

theorem ZI.fresh (h : ZI (g, m)) : ∀ l ∈ m.labels, m.prev l ≠ g.vindex := fun l hl e => h.inv.notMem_vindex (e ▸ h.prev l hl)

theorem bind_some {α β : Type} {r : Option α} {f : α → Option β} {b : β} (h : r.bind f = some b) : ∃ a, r = some a ∧ f a = some b := by
  cases r with
  | none => simp at h
  | some a => exact ⟨a, rfl, h⟩

/-- One new node. -/
theorem ZI.node {s s' : St} (h : ZI s) {t : VType} (ht : t = .Z ∨ t = .X) {l : ℕ} {p : ℚ} {e : EType} (he : e ≠ .wio)
    (hs : addNode s t l p e = some s') :
    ZI s' ∧ s'.2.labels = s.2.labels ∧ s'.1.vindex = s.1.vindex + 1 ∧ s'.1.ty = Function.update s.1.ty s.1.vindex t ∧
      s'.1.verts = insert s.1.vindex s.1.verts ∧ s'.2.prev = Function.update s.2.prev l s.1.vindex ∧ l ∈ s.2.labels := by
  obtain ⟨g, m⟩ := s
  unfold addNode Mapper.prevVertex at hs
  by_cases hl : l ∈ m.labels
  swap
  · rw [if_neg hl] at hs; simp at hs
  rw [if_pos hl] at hs
  obtain ⟨g1, hg1, hs⟩ := bind_some (r := (g.addVertex t p).addEdge (m.prev l) g.vindex e) hs
  simp only [Option.pure_def, Option.some.injEq] at hs
  subst hs
  obtain ⟨e1, e2, e3, e4, e5, e6, -⟩ := addVertex_fields g t p
  obtain ⟨f1, f2, f3, -⟩ := addEdge_frame hg1
  refine ⟨(h.vertex ht p).wire hl ?_ ?_ (h.fresh) hg1 he, Finset.insert_eq_of_mem hl, by rw [← e6]; exact f3, by rw [← e3]; exact f2,
    by rw [← e1]; exact f1, rfl, hl⟩
  · rw [e1]; exact Finset.mem_insert_self _ _
  · rw [e3, Function.update_self]
    rcases ht with rfl | rfl <;> simp

theorem ZI.pair {s s' : St} (h : ZI s) {tt tc : VType} (ht : tt = .Z ∨ tt = .X) (hc : tc = .Z ∨ tc = .X) {c t : ℕ} {e : EType} (he : e ≠ .wio)
    (hs : addPair s tt tc c t e = some s') : ZI s' ∧ s'.2.labels = s.2.labels := by
  unfold addPair at hs
  obtain ⟨s1, h1, hs⟩ := bind_some hs
  obtain ⟨s2, h2, hs⟩ := bind_some hs
  obtain ⟨g3, h3, hs⟩ := bind_some hs
  simp only [Option.pure_def, Option.some.injEq] at hs
  subst hs
  obtain ⟨z1, l1, v1, t1, w1, -⟩ := h.node ht (by simp) h1
  obtain ⟨z2, l2, v2, t2, w2, -⟩ := z1.node hc (by simp) h2
  refine ⟨(ZI.edge (m := s2.2) z2 h3 (by omega) ?_ ?_ he).power 1, l2.trans l1⟩
  · rw [t2, t1, Function.update_of_ne (by omega), Function.update_self]
    rcases ht with rfl | rfl <;> simp
  · rw [t2, Function.update_self]
    rcases hc with rfl | rfl <;> simp

theorem ZI.fsim {s s' : St} (h : ZI s) {c t : ℕ} (hct : c ≠ t) {phi : ℚ} (hs : addFSim s c t phi = some s') : ZI s' ∧ s'.2.labels = s.2.labels := by
  unfold addFSim at hs
  simp only at hs
  obtain ⟨s1, h1, hs⟩ := bind_some hs
  obtain ⟨s2, h2, hs⟩ := bind_some hs
  obtain ⟨g3, h3, hs⟩ := bind_some hs
  obtain ⟨g4, h4, hs⟩ := bind_some hs
  obtain ⟨g5, h5, hs⟩ := bind_some hs
  obtain ⟨g6, h6, hs⟩ := bind_some hs
  obtain ⟨g7, h7, hs⟩ := bind_some hs
  simp only [Option.pure_def, Option.some.injEq] at hs
  subst hs
  obtain ⟨z1, l1, v1, t1, w1, p1, m1⟩ := h.node (Or.inl rfl) (by simp) h1
  obtain ⟨z2, l2, v2, t2, w2, p2, m2⟩ := z1.node (Or.inl rfl) (by simp) h2
  have hc2 : c ∈ s2.2.labels := by rw [l2, l1]; exact m1
  have ht2 : t ∈ s2.2.labels := by rw [l2]; exact m2
  have pc : s2.2.prev c = s.1.vindex := by rw [p2, p1, Function.update_of_ne hct, Function.update_self]
  have pt : s2.2.prev t = s1.1.vindex := by rw [p2, Function.update_self]
  obtain ⟨a1, -, a3, -, -, a6, -⟩ := addVertex_fields s2.1 .Z 0
  obtain ⟨b1, -, b3, -, -, b6, -⟩ := addVertex_fields (s2.1.addVertex .Z 0) .Z 0
  obtain ⟨f1, f2, f3, -⟩ := addEdge_frame h3
  obtain ⟨k1, k2, k3, -⟩ := addEdge_frame h4
  have z3 : ZI ((s2.1.addVertex .Z 0).addVertex .Z 0, s2.2) := (ZI.vertex (m := s2.2) z2 (Or.inl rfl) 0).vertex (Or.inl rfl) 0
  have tt : ∀ v, v < s2.1.vindex + 2 → s.1.vindex ≤ v → ((s2.1.addVertex .Z 0).addVertex .Z 0).ty v = .Z := by
    intro v q1 q2
    rw [b3, a3, t2, t1, a6]
    simp only [Function.update_apply]
    split_ifs <;> first | rfl | omega
  have z4 := z3.edge h3 (by omega) (by rw [tt _ (by omega) (by omega)]; simp) (by rw [tt _ (by omega) (by omega)]; simp) (by simp)
  have z5 := z4.edge h4 (by omega) (by rw [f2, tt _ (by omega) (by omega)]; simp) (by rw [f2, tt _ (by omega) (by omega)]; simp) (by simp)
  have hlt : ∀ l ∈ s2.2.labels, s2.2.prev l < s2.1.vindex := fun l hl => z2.inv.lt _ (z2.prev l hl)
  have z6 := z5.move hc2 (v := s2.1.vindex) (by rw [k2, f2, pc, tt _ (by omega) (by omega)]; simp) (by rw [k1, f1, b1, a1]; simp)
    (by rw [k2, f2, tt _ (by omega) (by omega)]; simp) fun l hl e => by have := hlt l hl; omega
  have ht6 : t ∈ (s2.2.setPrev c s2.1.vindex).labels := Finset.mem_insert_of_mem ht2
  have z7 := z6.move ht6 (v := s2.1.vindex + 1) (by
      show g4.ty (Function.update s2.2.prev c s2.1.vindex t) ≠ _
      rw [Function.update_of_ne hct.symm, k2, f2, pt, tt _ (by omega) (by omega)]; simp) (by rw [k1, f1, b1, a6]; simp)
    (by rw [k2, f2, tt _ (by omega) (by omega)]; simp) fun l hl e => by
      change Function.update s2.2.prev c s2.1.vindex l = _ at e
      by_cases q : l = c
      · subst q; rw [Function.update_self] at e; omega
      · rw [Function.update_of_ne q] at e
        have := hlt l ((Finset.mem_insert.mp hl).resolve_left q)
        omega
  have z8 := (z7.vertex (t := .Z) (Or.inl rfl) 0).vertex (t := .Z) (Or.inl rfl) 0
  have hv4 : g4.vindex = s2.1.vindex + 2 := by rw [k3, f3, b6, a6]
  obtain ⟨q1, -, q3, -, -, q6, -⟩ := addVertex_fields g4 .Z 0
  obtain ⟨r1, -, r3, -, -, r6, -⟩ := addVertex_fields (g4.addVertex .Z 0) .Z 0
  have t8 : ∀ v, v < s2.1.vindex + 4 → s.1.vindex ≤ v → ((g4.addVertex .Z 0).addVertex .Z 0).ty v = .Z := by
    intro v c1 c2
    rw [r3, q3, q6, hv4]
    simp only [Function.update_apply]
    by_cases e1 : v = s2.1.vindex + 2 + 1
    · rw [if_pos e1]
    · rw [if_neg e1]
      by_cases e2 : v = s2.1.vindex + 2
      · rw [if_pos e2]
      · rw [if_neg e2, k2, f2, tt v (by omega) c2]
  rw [a6] at h5 h6 ⊢
  rw [q6, hv4] at h5 h7
  rw [hv4] at h6
  have z9 := z8.phase (v := s2.1.vindex) (by rw [t8 _ (by omega) (by omega)]; simp) (-1/2 * phi)
  have z10 := z9.phase (v := s2.1.vindex + 1) (by show ((g4.addVertex .Z 0).addVertex .Z 0).ty _ ≠ _; rw [t8 _ (by omega) (by omega)]; simp)
    (-1/2 * phi)
  have z11 := z10.phase (v := s2.1.vindex + 2 + 1) (by show ((g4.addVertex .Z 0).addVertex .Z 0).ty _ ≠ _; rw [t8 _ (by omega) (by omega)]; simp)
    (1/2 * phi - 1/2)
  have z12 := z11.edge h5 (by omega) (by show ((g4.addVertex .Z 0).addVertex .Z 0).ty _ ≠ _; rw [t8 _ (by omega) (by omega)]; simp)
    (by show ((g4.addVertex .Z 0).addVertex .Z 0).ty _ ≠ _; rw [t8 _ (by omega) (by omega)]; simp) (by simp)
  obtain ⟨-, u2, -⟩ := addEdge_frame h5
  have z13 := z12.edge h6 (by omega) (by rw [u2]; show ((g4.addVertex .Z 0).addVertex .Z 0).ty _ ≠ _; rw [t8 _ (by omega) (by omega)]; simp)
    (by rw [u2]; show ((g4.addVertex .Z 0).addVertex .Z 0).ty _ ≠ _; rw [t8 _ (by omega) (by omega)]; simp) (by simp)
  obtain ⟨-, w2', -⟩ := addEdge_frame h6
  have z14 := z13.edge h7 (by omega) (by rw [w2', u2]; show ((g4.addVertex .Z 0).addVertex .Z 0).ty _ ≠ _; rw [t8 _ (by omega) (by omega)]; simp)
    (by rw [w2', u2]; show ((g4.addVertex .Z 0).addVertex .Z 0).ty _ ≠ _; rw [t8 _ (by omega) (by omega)]; simp) (by simp)
  refine ⟨z14.power 1, ?_⟩
  show insert t (insert c s2.2.labels) = _
  rw [Finset.insert_eq_of_mem hc2, Finset.insert_eq_of_mem ht2, l2, l1]

/-- A new input. -/
theorem ZI.input (h : ZI (g, m)) {l : ℕ} (hl : l ∉ m.labels) : ZI (g.addVertex .boundary 0, m.setPrev l g.vindex) := by
  obtain ⟨e1, e2, e3, e4, -⟩ := addVertex_fields g .boundary 0
  have ha := h.inv.addVertex_adj .boundary 0
  have hnv := h.inv.notMem_vindex
  have hmem : ∀ v ∈ (g.addVertex .boundary 0).verts, v ≠ g.vindex → v ∈ g.verts := by
    intro v hv c
    rw [e1] at hv
    exact (Finset.mem_insert.mp hv).resolve_left c
  have hP : ∀ k ∈ (m.setPrev l g.vindex).labels, (k = l ∧ (m.setPrev l g.vindex).prev k = g.vindex) ∨
      (k ≠ l ∧ k ∈ m.labels ∧ (m.setPrev l g.vindex).prev k = m.prev k) := by
    intro k hk
    by_cases c : k = l
    · subst c; exact Or.inl ⟨rfl, Function.update_self _ _ _⟩
    · exact Or.inr ⟨c, (Finset.mem_insert.mp hk).resolve_left c, Function.update_of_ne c _ _⟩
  refine ⟨h.inv.addVertex .boundary 0, fun k hk => ?_, fun v hv => ?_, fun v hv => ?_, fun v hv hvb => ?_, fun u v => ?_, fun b hb hbt u w h1 h2 => ?_,
    fun b hb hbt => ?_, fun k hk hkt u => ?_, fun k hk k' hk' e => ?_⟩
  · show (m.setPrev l g.vindex).prev k ∈ (g.addVertex .boundary 0).verts
    rw [e1]
    rcases hP k hk with ⟨-, q⟩ | ⟨-, q1, q⟩
    · rw [q]; exact Finset.mem_insert_self _ _
    · rw [q]; exact Finset.mem_insert_of_mem (h.prev k q1)
  · show (g.addVertex .boundary 0).ty v = _ ∨ (g.addVertex .boundary 0).ty v = _ ∨ (g.addVertex .boundary 0).ty v = _
    rw [e3]
    by_cases c : v = g.vindex
    · subst c; rw [Function.update_self]; simp
    · rw [Function.update_of_ne c]; exact h.typ v (hmem v hv c)
  · show Reduced ((g.addVertex .boundary 0).phase v)
    rw [e4]
    by_cases c : v = g.vindex
    · subst c; rw [Function.update_self]; exact mod2_reduced 0
    · rw [Function.update_of_ne c]; exact h.red v (hmem v hv c)
  · show (g.addVertex .boundary 0).phase v = 0
    change (g.addVertex .boundary 0).ty v = _ at hvb
    rw [e3] at hvb
    rw [e4]
    by_cases c : v = g.vindex
    · subst c; rw [Function.update_self]; exact mod2_zero
    · rw [Function.update_of_ne c] at hvb ⊢; exact h.bph v (hmem v hv c) hvb
  · show (g.addVertex .boundary 0).adj u v ≠ _
    rw [ha]; exact h.wio u v
  · change (g.addVertex .boundary 0).ty b = _ at hbt
    rw [e3] at hbt
    rw [ha] at h1 h2
    by_cases c : b = g.vindex
    · subst c; exact absurd (h.inv.adj_vindex (Or.inl rfl)) h1
    · rw [Function.update_of_ne c] at hbt; exact h.bd b (hmem b hb c) hbt u w h1 h2
  · change (g.addVertex .boundary 0).ty b = _ at hbt
    rw [e3] at hbt
    show (∃ u, (g.addVertex .boundary 0).adj b u ≠ none) ∨ _
    rw [ha]
    by_cases c : b = g.vindex
    · exact Or.inr ⟨l, Finset.mem_insert_self _ _, by rw [c]; exact Function.update_self _ _ _⟩
    · rw [Function.update_of_ne c] at hbt
      rcases h.op b (hmem b hb c) hbt with q | ⟨k, q1, q2⟩
      · exact Or.inl q
      · refine Or.inr ⟨k, Finset.mem_insert_of_mem q1, ?_⟩
        show Function.update m.prev l g.vindex k = b
        rw [Function.update_of_ne (by rintro rfl; exact hl q1)]
        exact q2
  · change (g.addVertex .boundary 0).ty ((m.setPrev l g.vindex).prev k) = _ at hkt
    show (g.addVertex .boundary 0).adj ((m.setPrev l g.vindex).prev k) u = none
    rw [ha]
    rcases hP k hk with ⟨-, q⟩ | ⟨-, q1, q⟩
    · rw [q]; exact h.inv.adj_vindex (Or.inl rfl)
    · rw [q, e3, Function.update_of_ne (h.fresh k q1)] at hkt
      rw [q]
      exact h.cl k q1 hkt u
  · change (m.setPrev l g.vindex).prev k = (m.setPrev l g.vindex).prev k' at e
    rcases hP k hk with ⟨q0, q⟩ | ⟨q0, q1, q⟩ <;> rcases hP k' hk' with ⟨r0, r⟩ | ⟨r0, r1, r⟩
    · rw [q0, r0]
    · rw [q, r] at e; exact absurd e.symm (h.fresh k' r1)
    · rw [q, r] at e; exact absurd e (h.fresh k q1)
    · rw [q, r] at e; exact h.inj k q1 k' r1 e

/-- A new output. -/
theorem ZI.output (h : ZI (g, m)) {l : ℕ} (hl : l ∈ m.labels)
    (he : (g.addVertex .boundary 0).addEdge (m.prev l) g.vindex .simple = some g') : ZI (g', m.removeLabel l) := by
  obtain ⟨e1, e2, e3, e4, -⟩ := addVertex_fields g .boundary 0
  have ha := h.inv.addVertex_adj .boundary 0
  have hnv := h.inv.notMem_vindex
  have hpv := h.fresh l hl
  have hp1 : m.prev l ∈ (g.addVertex .boundary 0).verts := by rw [e1]; exact Finset.mem_insert_of_mem (h.prev l hl)
  have hv1 : g.vindex ∈ (g.addVertex .boundary 0).verts := by rw [e1]; exact Finset.mem_insert_self _ _
  have hadj0 : (g.addVertex .boundary 0).adj (m.prev l) g.vindex = none := by
    rw [ha]; exact h.inv.adj_vindex (Or.inr rfl)
  have hi := (h.inv.addVertex .boundary 0).addEdge he hpv
  have he' := he
  rw [addEdge_fresh hp1 hv1 hadj0, Option.some.injEq] at he'
  have f1 : g'.verts = insert g.vindex g.verts := by rw [← he', ← e1]; rfl
  have f2 : g'.ty = Function.update g.ty g.vindex .boundary := by rw [← he', ← e3]; rfl
  have f3 : g'.phase = Function.update g.phase g.vindex (mod2 0) := by rw [← he', ← e4]; rfl
  have f4 : ∀ x y, g'.adj x y = if (x = m.prev l ∧ y = g.vindex) ∨ (x = g.vindex ∧ y = m.prev l) then some .simple else g.adj x y := by
    intro x y
    rw [← he', ← ha]; rfl
  have hnone : ∀ y, g.adj g.vindex y = none := fun y => h.inv.adj_vindex (Or.inl rfl)
  have hmem : ∀ v ∈ g'.verts, v ≠ g.vindex → v ∈ g.verts := by
    intro v hv c
    rw [f1] at hv
    exact (Finset.mem_insert.mp hv).resolve_left c
  have hsub : ∀ k ∈ (m.removeLabel l).labels, k ≠ l ∧ k ∈ m.labels := fun k hk => Finset.mem_erase.mp hk
  refine ⟨hi, fun k hk => ?_, fun v hv => ?_, fun v hv => ?_, fun v hv hvb => ?_, fun u v => ?_, fun b hb hbt u w h1 h2 => ?_,
    fun b hb hbt => ?_, fun k hk hkt u => ?_, fun k hk k' hk' e => h.inj k (hsub k hk).2 k' (hsub k' hk').2 e⟩
  · show m.prev k ∈ g'.verts
    rw [f1]; exact Finset.mem_insert_of_mem (h.prev k (hsub k hk).2)
  · show g'.ty v = _ ∨ g'.ty v = _ ∨ g'.ty v = _
    rw [f2]
    by_cases c : v = g.vindex
    · subst c; rw [Function.update_self]; simp
    · rw [Function.update_of_ne c]; exact h.typ v (hmem v hv c)
  · show Reduced (g'.phase v)
    rw [f3]
    by_cases c : v = g.vindex
    · subst c; rw [Function.update_self]; exact mod2_reduced 0
    · rw [Function.update_of_ne c]; exact h.red v (hmem v hv c)
  · show g'.phase v = 0
    change g'.ty v = _ at hvb
    rw [f2] at hvb
    rw [f3]
    by_cases c : v = g.vindex
    · subst c; rw [Function.update_self]; exact mod2_zero
    · rw [Function.update_of_ne c] at hvb ⊢; exact h.bph v (hmem v hv c) hvb
  · show g'.adj u v ≠ _
    rw [f4]
    by_cases c : (u = m.prev l ∧ v = g.vindex) ∨ (u = g.vindex ∧ v = m.prev l)
    · rw [if_pos c]; simp
    · rw [if_neg c]; exact h.wio u v
  · change g'.ty b = _ at hbt
    change g'.adj b u ≠ none at h1
    change g'.adj b w ≠ none at h2
    rw [f2] at hbt
    rw [f4] at h1 h2
    have aux : ∀ u, (if (b = m.prev l ∧ u = g.vindex) ∨ (b = g.vindex ∧ u = m.prev l) then some EType.simple else g.adj b u) ≠ none →
        (b = m.prev l ∧ u = g.vindex) ∨ (b = g.vindex ∧ u = m.prev l) ∨ g.adj b u ≠ none := by
      intro u hu
      by_cases c : (b = m.prev l ∧ u = g.vindex) ∨ (b = g.vindex ∧ u = m.prev l)
      · rcases c with c | c
        · exact Or.inl c
        · exact Or.inr (Or.inl c)
      · rw [if_neg c] at hu; exact Or.inr (Or.inr hu)
    have hcl : b = m.prev l → ∀ u, g.adj b u = none := by
      rintro rfl u
      rw [Function.update_of_ne hpv] at hbt
      exact h.cl l hl hbt u
    by_cases c : b = g.vindex
    · have hx : ∀ u, ((b = m.prev l ∧ u = g.vindex) ∨ (b = g.vindex ∧ u = m.prev l) ∨ g.adj b u ≠ none) → u = m.prev l := by
        rintro u (q | q | q)
        · exact absurd (q.1.symm.trans c) hpv
        · exact q.2
        · exact absurd (by rw [c]; exact hnone u) q
      exact (hx u (aux u h1)).trans (hx w (aux w h2)).symm
    · by_cases c2 : b = m.prev l
      · have hx : ∀ u, ((b = m.prev l ∧ u = g.vindex) ∨ (b = g.vindex ∧ u = m.prev l) ∨ g.adj b u ≠ none) → u = g.vindex := by
          rintro u (q | q | q)
          · exact q.2
          · exact absurd q.1 c
          · exact absurd (hcl c2 u) q
        exact (hx u (aux u h1)).trans (hx w (aux w h2)).symm
      · rw [Function.update_of_ne c] at hbt
        have hx : ∀ u, ((b = m.prev l ∧ u = g.vindex) ∨ (b = g.vindex ∧ u = m.prev l) ∨ g.adj b u ≠ none) → g.adj b u ≠ none := by
          rintro u (q | q | q)
          · exact absurd q.1 c2
          · exact absurd q.1 c
          · exact q
        exact h.bd b (hmem b hb c) hbt u w (hx u (aux u h1)) (hx w (aux w h2))
  · change g'.ty b = _ at hbt
    rw [f2] at hbt
    show (∃ u, g'.adj b u ≠ none) ∨ ∃ k ∈ (m.removeLabel l).labels, m.prev k = b
    by_cases c : b = g.vindex
    · exact Or.inl ⟨m.prev l, by rw [f4, if_pos (Or.inr ⟨c, rfl⟩)]; simp⟩
    · rw [Function.update_of_ne c] at hbt
      rcases h.op b (hmem b hb c) hbt with ⟨u, q⟩ | ⟨k, q1, q2⟩
      · refine Or.inl ⟨u, ?_⟩
        rw [f4]
        by_cases c3 : (b = m.prev l ∧ u = g.vindex) ∨ (b = g.vindex ∧ u = m.prev l)
        · rw [if_pos c3]; simp
        · rw [if_neg c3]; exact q
      · change m.prev k = b at q2
        by_cases c4 : k = l
        · refine Or.inl ⟨g.vindex, ?_⟩
          rw [f4, if_pos (Or.inl ⟨by rw [← q2, c4], rfl⟩)]; simp
        · exact Or.inr ⟨k, Finset.mem_erase.mpr ⟨c4, q1⟩, q2⟩
  · obtain ⟨k1, k2⟩ := hsub k hk
    change g'.ty (m.prev k) = _ at hkt
    show g'.adj (m.prev k) u = none
    rw [f2, Function.update_of_ne (h.fresh k k2)] at hkt
    rw [f4, if_neg]
    · exact h.cl k k2 hkt u
    · rintro (⟨q, -⟩ | ⟨q, -⟩)
      · exact k1 (h.inj k k2 l hl q)
      · exact h.fresh k k2 q

theorem ZI.direct {s s' : St} (h : ZI s) {a : Gate} (hb : Props.IsBasic a) (hn : a.qubits.Nodup) (hs : direct s a = some s') :
    ZI s' ∧ s'.2.labels = s.2.labels := by
  cases a <;> first
    | exact absurd hb id
    | exact ⟨(h.node (by simp) (by simp) hs).1, (h.node (by simp) (by simp) hs).2.1⟩
    | exact h.pair (by simp) (by simp) (by simp) hs
    | exact h.fsim (by simpa [Gate.qubits] using hn) hs

theorem ZI.ops : ∀ (gs : List Gate) {s s' : St}, ZI s → (∀ a ∈ gs, Props.IsBasic a ∧ a.qubits.Nodup) →
    (gs.map Op.gate).foldlM step s = some s' → ZI s' ∧ s'.2.labels = s.2.labels
  | [], s, s', h, _, hs => by
    simp only [List.map_nil, List.foldlM_nil, Option.pure_def, Option.some.injEq] at hs
    subst hs
    exact ⟨h, rfl⟩
  | a :: gs, s, s', h, hgs, hs => by
    rw [List.map_cons, List.foldlM_cons] at hs
    obtain ⟨s1, h1, hs⟩ := bind_some hs
    obtain ⟨b1, b2⟩ := hgs a (by simp)
    have hd : isDirect a = true := by cases a <;> first | rfl | exact absurd b1 id
    have h1' : ToGraph.direct s a = some s1 := by
      change gateToGraph s a = some s1 at h1
      unfold gateToGraph at h1
      rwa [if_pos hd] at h1
    obtain ⟨z1, l1⟩ := h.direct b1 b2 h1'
    obtain ⟨z2, l2⟩ := ZI.ops gs z1 (fun a ha => hgs a (by simp [ha])) hs
    exact ⟨z2, l2.trans l1⟩

theorem ZI.inputs (k : ℕ) : ZI ((addInputs k Graph.empty []).1, (addInputs k Graph.empty []).2.1) := by
  induction k with
  | zero =>
    have hv : ∀ v ∈ Graph.empty.verts, False := fun v hv => by simp [Graph.empty] at hv
    have hl : ∀ v ∈ Mapper.new.labels, False := fun v hv => by simp [Mapper.new] at hv
    exact ⟨empty_inv, fun l q => (hl l q).elim, fun v q => (hv v q).elim, fun v q => (hv v q).elim, fun v q => (hv v q).elim,
      fun u v => by simp [addInputs, Graph.empty], fun b q => (hv b q).elim, fun b q => (hv b q).elim, fun l q => (hl l q).elim,
      fun l q => (hl l q).elim⟩
  | succ k ih =>
    have hr' : addInputs (k + 1) Graph.empty [] = ((addInputs k Graph.empty []).1.addVertex .boundary 0,
        (addInputs k Graph.empty []).2.1.setPrev k (addInputs k Graph.empty []).1.vindex,
        (addInputs k Graph.empty []).2.2 ++ [(addInputs k Graph.empty []).1.vindex]) := by
      unfold addInputs; rw [List.range_succ, List.foldl_append]; rfl
    rw [hr']
    refine ih.input ?_
    rw [(addInputs_spec empty_inv (fun v hv => by simp [Graph.empty] at hv) [] k).labels]
    simp

theorem ZI.outs {m₀ : Mapper} : ∀ (ls : List ℕ) {g : Graph} {m : Mapper} {os : List ℕ} {r : Graph × List ℕ}, ZI (g, m) → m.prev = m₀.prev →
    ls.Nodup → (∀ l ∈ ls, l ∈ m.labels) → addOutputs m₀ ls (g, os) = some r → ZI (r.1, ⟨m.labels \ ls.toFinset, m.prev⟩)
  | [], g, m, os, r, h, _, _, _, hs => by
    unfold addOutputs at hs
    simp only [List.foldlM_nil, Option.pure_def, Option.some.injEq] at hs
    subst hs
    simpa using h
  | l :: ls, g, m, os, r, h, hp, hnd, hls, hs => by
    unfold addOutputs at hs
    rw [List.foldlM_cons] at hs
    obtain ⟨r1, h1, hs⟩ := bind_some hs
    obtain ⟨u, hu, h1⟩ := bind_some h1
    obtain ⟨g1, hg1, h1⟩ := bind_some h1
    simp only [Option.pure_def, Option.some.injEq] at h1
    subst h1
    have hu' : u = m.prev l := by
      unfold Mapper.prevVertex at hu
      by_cases c : l ∈ m₀.labels
      · rw [if_pos c, Option.some.injEq] at hu; rw [hp, hu]
      · rw [if_neg c] at hu; simp at hu
    subst hu'
    have z1 := h.output (hls l (by simp)) hg1
    obtain ⟨n1, n2⟩ := List.nodup_cons.mp hnd
    have := ZI.outs ls (m := m.removeLabel l) z1 hp n2 (fun k hk => Finset.mem_erase.mpr ⟨fun c => n1 (c ▸ hk), hls k (by simp [hk])⟩) hs
    have e : (m.removeLabel l).labels \ ls.toFinset = m.labels \ (l :: ls).toFinset := by
      ext k
      simp only [Mapper.removeLabel, Finset.mem_sdiff, Finset.mem_erase, List.mem_toFinset, List.mem_cons, not_or]
      tauto
    rw [e] at this
    exact this

/-- The diagram of a circuit of basic gates is a ZX-diagram with phases in `[0, 2)` and plain boundaries. -/
theorem ofCircuit_zx {ord : Finset ℕ → List ℕ} (ho : LabelOrder ord) {c : Circuit} (hb : c.bits = 0)
    (hv : ∀ a ∈ c.gates, Props.IsBasic a ∧ a.qubits.Nodup) (hq : ∀ a ∈ c.gates, ∀ q ∈ a.qubits, q < c.qubits) {g : Graph}
    (hg : ofCircuit ord c = some g) : g.ZX Reduced ∧ g.PlainBnd ∧ g.IO ∧ g.inputs = List.range c.qubits ∧ g.outputs.length = c.qubits := by
  have hL := Props.labelsAfter_gates (L := Finset.range c.qubits) (gs := c.gates) (fun a ha => ⟨Props.basic_qubits (hv a ha).1, (hv a ha).2⟩)
    fun a ha q hqq => Finset.mem_range.mpr (hq a ha q hqq)
  obtain ⟨g1, h1, R⟩ := circuitToGraph_spec ho c.qubits c.bits (c.gates.map Op.gate) hL
  have hg' := hg
  unfold ofCircuit at hg'
  rw [h1, Option.some.injEq] at hg'
  subst hg'
  unfold ofCircuit circuitToGraph at hg
  rw [hb] at hg
  obtain ⟨s, hs, hg⟩ := bind_some (r := (c.gates.map Op.gate).foldlM step ((addInputs c.qubits Graph.empty []).1, (addInputs c.qubits Graph.empty []).2.1)) hg
  obtain ⟨zs, ls⟩ := (ZI.inputs c.qubits).ops c.gates hv hs
  obtain ⟨r, hr, hg⟩ := bind_some hg
  obtain ⟨r', hr', hg⟩ := bind_some hg
  have hz := ZI.outs (m₀ := s.2) (m := s.2) (ord s.2.labels) zs rfl (ho _).1 (fun l hl => ho.mem.mp hl) hr
  rw [(ho _).2, Finset.sdiff_self] at hz
  have hord : ord (∅ : Finset ℕ) = [] := by
    have := (ho ∅).2
    simpa using this
  have hrr : r'.1 = r.1 := by
    have e : Mapper.new.labels = ∅ := rfl
    rw [e, hord] at hr'
    unfold addOutputs at hr'
    simp only [List.foldlM_nil, Option.pure_def, Option.some.injEq] at hr'
    rw [← hr']
  simp only [Option.pure_def, Option.some.injEq] at hg
  have k1 : g1.verts = r.1.verts := by rw [← hg, ← hrr]
  have k2 : g1.ty = r.1.ty := by rw [← hg, ← hrr]
  have k3 : g1.phase = r.1.phase := by rw [← hg, ← hrr]
  have k4 : g1.adj = r.1.adj := by rw [← hg, ← hrr]
  have hnl : ∀ l : ℕ, l ∉ (∅ : Finset ℕ) := by simp
  refine ⟨⟨⟨R.inv, ?_, ?_, ?_⟩, ?_, ?_, ?_, ?_⟩, ⟨?_, ?_⟩, R.io, ?_, ?_⟩
  · rw [k4]; exact hz.wio
  · rw [k1, k2]
    intro v hv
    rcases hz.typ v hv with q | q | q
    · exact Or.inl q
    · exact Or.inr (Or.inl q)
    · exact Or.inr (Or.inr (Or.inl q))
  · intro v hv
    exact R.bnd v (List.mem_append.mpr hv)
  · unfold BDeg
    rw [k1, k2, k4]; exact hz.bd
  · rw [k1, k2, k4]
    intro b hb hbt
    rcases hz.op b hb hbt with q | ⟨l, q, -⟩
    · exact q
    · exact absurd q (hnl l)
  · rw [k1, k2]; exact hz.typ
  · rw [k1, k3]; exact hz.red
  · rw [k1, k2, k3]; exact hz.bph
  · exact R.io.all
  · rw [R.inputs, hb, Nat.add_zero]
  · obtain ⟨V, -, e⟩ := R.outputs
    rw [e, hb, Nat.add_zero, List.length_map, List.length_range, Finset.card_range]

/-- The diagram that `to_graph` builds for a circuit of valid gates is a ZX-diagram with phases in `[0, 2)` and plain boundaries. -/
theorem toGraph_zx {ord : Finset ℕ → List ℕ} (ho : LabelOrder ord) {c : Circuit} (hb : c.bits = 0) (hv : ∀ a ∈ c.gates, a.Valid)
    (hq : ∀ a ∈ c.gates, ∀ q ∈ a.qubits, q < c.qubits) {g : Graph} (hg : toGraph ord false c = some g) :
    g.ZX Reduced ∧ g.PlainBnd ∧ g.IO ∧ g.inputs = List.range c.qubits ∧ g.outputs.length = c.qubits := by
  have hbas : ∀ a ∈ c.toBasicGates.gates, (Props.IsBasic a ∧ a.qubits.Nodup) ∧ ∀ q ∈ a.qubits, q < c.qubits := by
    intro a ha
    obtain ⟨a0, ha0, haa⟩ := List.mem_flatMap.mp ha
    obtain ⟨b1, b2, b3⟩ := Props.toBasic_basic (hv a0 ha0) a haa
    exact ⟨⟨b1, b3⟩, fun q hqq => hq a0 ha0 q (b2 hqq)⟩
  exact ofCircuit_zx ho (c := c.toBasicGates) hb (fun a ha => (hbas a ha).1) (fun a ha => (hbas a ha).2) hg

end ToGraph
end PyZX
