import Verif.Model.Compose
import Verif.Spec.Matrix
import Verif.Sem.Total
import Verif.Proofs.Isolated
import Verif.Proofs.StrongComp

/-!
# Pasting a renamed copy of a graph into another graph
-/

namespace PyZX
namespace Graph

open Finset

/-- A graph with all phases multiplied by a number. -/
noncomputable def scaled (o : Graph) (m : ℚ) : Graph := { o with phase := fun v => m * o.phase v }

/-- A graph without edges. -/
def noEdges (o : Graph) : Graph := { o with adj := fun _ _ => none }

/-- `g'` is `g` together with a copy of the part `V` of `o`, renamed by `ρ`. -/
structure Pasted (g o : Graph) (m : ℚ) (V : Finset ℕ) (ρ : ℕ → ℕ) (g' : Graph) : Prop where
  inj : Function.Injective ρ
  fresh : ∀ v, ρ v ∉ g.verts
  verts : g'.verts = g.verts ∪ V.image ρ
  tyOld : ∀ u ∈ g.verts, g'.ty u = g.ty u
  phaseOld : ∀ u ∈ g.verts, g'.phase u = g.phase u
  labelOld : ∀ u ∈ g.verts, g'.label u = g.label u
  adjOld : ∀ u ∈ g.verts, ∀ v ∈ g.verts, g'.adj u v = g.adj u v
  tyNew : ∀ v ∈ V, g'.ty (ρ v) = o.ty v
  phaseNew : ∀ v ∈ V, g'.phase (ρ v) = mod2 (m * o.phase v)
  labelNew : ∀ v ∈ V, g'.label (ρ v) = o.label v
  adjNew : ∀ u ∈ V, ∀ v ∈ V, g'.adj (ρ u) (ρ v) = o.adj u v
  cross : ∀ u ∈ g.verts, ∀ v ∈ V, g'.adj u (ρ v) = none
  scalar : g'.scalar = g.scalar
  wf : g'.WF

/-- The loop that copies vertices. -/
theorem copyVertices_spec {o : Graph} (ho : o.WF) (m : ℚ) (vs : List ℕ) : ∀ (g : Graph) (t : ℕ → Option ℕ), g.WF → vs.Nodup →
    (∀ v ∈ vs, v ∈ o.verts) → ∃ ρ, Pasted g o.noEdges m vs.toFinset ρ (vs.foldl (copyVertex o m) (g, t)).1 ∧ (∀ v ∈ vs, ρ v = g.vindex + vs.idxOf v) ∧
      (vs.foldl (copyVertex o m) (g, t)).1.inputs = g.inputs ∧ (vs.foldl (copyVertex o m) (g, t)).1.outputs = g.outputs ∧
      (∀ v ∈ vs, (vs.foldl (copyVertex o m) (g, t)).2 v = some (ρ v)) ∧
      (∀ v, v ∉ vs → (vs.foldl (copyVertex o m) (g, t)).2 v = t v) := by
  induction vs with
  | nil =>
    intro g t hg _ _
    refine ⟨fun v => g.vindex + v, ⟨fun a b h => by simpa using h, fun v hv => ?_, by simp, fun _ _ => rfl, fun _ _ => rfl, fun _ _ => rfl,
      fun _ _ _ _ => rfl, by simp, by simp, by simp, by simp, by simp, rfl, hg⟩, by simp, rfl, rfl, by simp, fun v _ => rfl⟩
    have := hg.lt _ hv
    omega
  | cons v vs ih =>
    intro g t hg hn hv
    rw [List.nodup_cons] at hn
    obtain ⟨f1, f2, f3, f4, f5, f6, f7, f8, f9, f10⟩ := addVertex_fields g (o.ty v) (m * o.phase v)
    set g1 : Graph := (g.addVertex (o.ty v) (m * o.phase v)).setLabel g.vindex (o.label v) with hg1
    have hw0 := hg.addVertex (ho.types v (hv v (by simp))) (m * o.phase v)
    have hw1 : g1.WF := hw0.congr (hw0.toInv.congr rfl rfl rfl rfl rfl rfl) rfl rfl rfl rfl rfl
    have v1 : g1.verts = insert g.vindex g.verts := f1
    have a1 : g1.adj = g.adj := hg.addVertex_adj _ _
    have t1 : g1.ty = Function.update g.ty g.vindex (o.ty v) := f3
    have p1 : g1.phase = Function.update g.phase g.vindex (mod2 (m * o.phase v)) := f4
    have l1 : ∀ u, u ≠ g.vindex → g1.label u = g.label u := by
      intro u hu
      show Function.update (g.addVertex (o.ty v) (m * o.phase v)).label g.vindex (o.label v) u = _
      rw [Function.update_of_ne hu, f5, Function.update_of_ne hu]
    have l1' : g1.label g.vindex = o.label v := Function.update_self ..
    have i1 : g1.vindex = g.vindex + 1 := f6
    obtain ⟨ρ, P, hge, hi1, ho1, ht1, ht2⟩ := ih g1 (Function.update t v (some g.vindex)) hw1 hn.2 (fun w hw => hv w (by simp [hw]))
    rw [List.foldl_cons]
    have hstep : copyVertex o m (g, t) v = (g1, Function.update t v (some g.vindex)) := rfl
    rw [hstep]
    have hne : ∀ u ∈ g.verts, u ≠ g.vindex := fun u hu h => by have := hg.lt u hu; omega
    have hmem : ∀ u ∈ g.verts, u ∈ g1.verts := fun u hu => by rw [v1]; exact mem_insert_of_mem hu
    have hiv : g.vindex ∈ g1.verts := by rw [v1]; exact mem_insert_self _ _
    have hρ : ∀ u, ρ u ≠ g.vindex := fun u h => P.fresh u (h ▸ hiv)
    have hupd : ∀ u ∈ vs, Function.update ρ v g.vindex u = ρ u := fun u hu =>
      Function.update_of_ne (fun (h : u = v) => hn.1 (by rwa [h] at hu)) _ _
    have hin : ∀ u, u ∈ (v :: vs).toFinset → u = v ∨ u ∈ vs := fun u hu => by simpa using hu
    refine ⟨Function.update ρ v g.vindex, ⟨?_, ?_, ?_, ?_, ?_, ?_, ?_, ?_, ?_, ?_, ?_, ?_, P.scalar.trans f8, P.wf⟩, ?_, hi1.trans f9, ho1.trans f10, ?_, ?_⟩
    · intro a b h
      by_cases ca : a = v <;> by_cases cb : b = v
      · rw [ca, cb]
      · rw [ca, Function.update_self, Function.update_of_ne cb] at h; exact absurd h.symm (hρ b)
      · rw [cb, Function.update_self, Function.update_of_ne ca] at h; exact absurd h (hρ a)
      · rw [Function.update_of_ne ca, Function.update_of_ne cb] at h; exact P.inj h
    · intro u hu
      by_cases ca : u = v
      · rw [ca, Function.update_self] at hu; exact hg.toInv.notMem_vindex hu
      · rw [Function.update_of_ne ca] at hu; exact P.fresh u (hmem _ hu)
    · rw [P.verts, v1]
      ext w
      simp only [mem_union, mem_insert, mem_image, List.mem_toFinset, List.mem_cons]
      constructor
      · rintro ((rfl | h) | ⟨u, hu, rfl⟩)
        · right; exact ⟨v, Or.inl rfl, Function.update_self ..⟩
        · left; exact h
        · right; exact ⟨u, Or.inr hu, hupd u hu⟩
      · rintro (h | ⟨u, rfl | hu, rfl⟩)
        · left; right; exact h
        · left; left; exact Function.update_self ..
        · right; exact ⟨u, hu, (hupd u hu).symm⟩
    · intro u hu; rw [P.tyOld u (hmem u hu), t1, Function.update_of_ne (hne u hu)]
    · intro u hu; rw [P.phaseOld u (hmem u hu), p1, Function.update_of_ne (hne u hu)]
    · intro u hu; rw [P.labelOld u (hmem u hu), l1 u (hne u hu)]
    · intro u hu w hw; rw [P.adjOld u (hmem u hu) w (hmem w hw), a1]
    · intro u hu
      rcases hin u hu with rfl | hu
      · rw [Function.update_self, P.tyOld _ hiv, t1, Function.update_self]; rfl
      · rw [hupd u hu, P.tyNew u (by simpa using hu)]
    · intro u hu
      rcases hin u hu with rfl | hu
      · rw [Function.update_self, P.phaseOld _ hiv, p1, Function.update_self]; rfl
      · rw [hupd u hu, P.phaseNew u (by simpa using hu)]
    · intro u hu
      rcases hin u hu with rfl | hu
      · rw [Function.update_self, P.labelOld _ hiv, l1']; rfl
      · rw [hupd u hu, P.labelNew u (by simpa using hu)]
    · intro u hu w hw
      show _ = none
      have hself : ∀ b, g.adj g.vindex b = none := fun b => hg.toInv.adj_vindex (Or.inl rfl)
      rcases hin u hu with rfl | hu' <;> rcases hin w hw with rfl | hw'
      · rw [Function.update_self, P.adjOld _ hiv _ hiv, a1]; exact hself _
      · rw [Function.update_self, hupd w hw']; exact P.cross _ hiv w (by simpa using hw')
      · rw [Function.update_self, hupd u hu', P.wf.symm]; exact P.cross _ hiv u (by simpa using hu')
      · rw [hupd u hu', hupd w hw', P.adjNew u (by simpa using hu') w (by simpa using hw')]; rfl
    · intro u hu w hw
      rcases hin w hw with rfl | hw
      · rw [Function.update_self, P.adjOld _ (hmem u hu) _ hiv, a1]; exact hg.toInv.adj_vindex (Or.inr rfl)
      · rw [hupd w hw]; exact P.cross u (hmem u hu) w (by simpa using hw)
    · intro u hu
      rcases List.mem_cons.mp hu with rfl | hu
      · rw [Function.update_self, List.idxOf_cons_self]; rfl
      · rw [hupd u hu, hge u hu, i1, List.idxOf_cons_ne _ (fun (h : v = u) => hn.1 (by rwa [h])), Nat.add_assoc, Nat.add_comm 1]
    · intro u hu
      rcases List.mem_cons.mp hu with rfl | hu
      · rw [Function.update_self, ht2 _ hn.1, Function.update_self]
      · rw [hupd u hu]; exact ht1 u hu
    · intro u hu
      rw [List.mem_cons, not_or] at hu
      rw [ht2 u hu.2, Function.update_of_ne hu.1]

/-- Adding an edge where there is none. -/
theorem addEdge_fresh {g : Graph} {s t : ℕ} (hs : s ∈ g.verts) (ht : t ∈ g.verts) (h : g.adj s t = none) (e : EType) :
    g.addEdge s t e = some { g.setAdj s t (some e) with nedges := g.nedges + 1 } := by
  unfold addEdge
  rw [if_neg (by simpa using hs), h]
  simp only
  rw [if_neg (by simpa using ht)]

/-- The loop that copies edges. -/
theorem copyEdges_spec {o : Graph} (ho : o.WF) {ρ : ℕ → ℕ} (hρ : Function.Injective ρ) (es : List (ℕ × ℕ)) {vt : ℕ → Option ℕ}
    (hvt : ∀ p ∈ es, vt p.1 = some (ρ p.1) ∧ vt p.2 = some (ρ p.2)) (hes : es.Nodup) (hlt : ∀ p ∈ es, p.1 < p.2 ∧ o.adj p.1 p.2 ≠ none) :
    ∀ h : Graph, h.WF → (∀ p ∈ es, ρ p.1 ∈ h.verts ∧ ρ p.2 ∈ h.verts ∧ h.adj (ρ p.1) (ρ p.2) = none) →
    ∃ h', copyEdges h o vt es = some h' ∧ h'.WF ∧ SameFrame h h' ∧ h'.phase = h.phase ∧ h'.label = h.label ∧ h'.scalar = h.scalar ∧
      (∀ p ∈ es, h'.adj (ρ p.1) (ρ p.2) = o.adj p.1 p.2) ∧
      (∀ a b, (∀ p ∈ es, ¬ SamePair (a, b) (ρ p.1, ρ p.2)) → h'.adj a b = h.adj a b) := by
  induction es with
  | nil => intro h hw _; exact ⟨h, rfl, hw, SameFrame.refl h, rfl, rfl, rfl, by simp, fun _ _ _ => rfl⟩
  | cons p es ih =>
    intro h hw hh
    rw [List.nodup_cons] at hes
    obtain ⟨k1, k2, k3⟩ := hh p (by simp)
    obtain ⟨l1, l2⟩ := hlt p (by simp)
    obtain ⟨e, he⟩ := Option.ne_none_iff_exists'.mp l2
    have hne : ρ p.1 ≠ ρ p.2 := fun h' => by have := hρ h'; omega
    have hadd := addEdge_fresh k1 k2 k3 e
    set h1 : Graph := { h.setAdj (ρ p.1) (ρ p.2) (some e) with nedges := h.nedges + 1 } with hh1
    have hw1 : h1.WF := hw.addEdge hadd hne (ho.edge he).2.2.2.2
    have hnp : ∀ q ∈ es, ¬ SamePair (ρ q.1, ρ q.2) (ρ p.1, ρ p.2) := by
      intro q hq hs
      rcases hs with ⟨e1, e2⟩ | ⟨e1, e2⟩
      · exact hes.1 (by rwa [show q = p from Prod.ext (hρ e1) (hρ e2)] at hq)
      · have i1 := hρ e1
        have i2 := hρ e2
        have := (hlt q (by simp [hq])).1
        omega
    obtain ⟨h', g1, g2, g3, g4, g5, g6, g7, g8⟩ := ih (fun q hq => hvt q (by simp [hq])) hes.2 (fun q hq => hlt q (by simp [hq])) h1 hw1 (by
      intro q hq
      obtain ⟨m1, m2, m3⟩ := hh q (by simp [hq])
      refine ⟨m1, m2, ?_⟩
      have hn := hnp q hq
      show (h.setAdj (ρ p.1) (ρ p.2) (some e)).adj _ _ = _
      rw [setAdj_adj_other h _ (fun c => hn (Or.inl c)) (fun c => hn (Or.inr c))]
      exact m3)
    refine ⟨h', ?_, g2, SameFrame.trans (g' := h1) ⟨rfl, rfl, rfl, rfl, rfl⟩ g3, g4, g5, g6, ?_, ?_⟩
    · unfold copyEdges at g1 ⊢
      rw [List.foldlM_cons]
      have : copyEdge o vt h p = some h1 := by
        unfold copyEdge
        rw [(hvt p (by simp)).1, (hvt p (by simp)).2, he]
        exact hadd
      rw [this]
      exact g1
    · intro q hq
      rcases List.mem_cons.mp hq with rfl | hq
      · rw [g8 _ _ (fun r hr hs => hnp r hr hs.symm), he]
        exact setAdj_adj_self h _ _ _
      · exact g7 q hq
    · intro a b hab
      rw [g8 a b fun r hr => hab r (by simp [hr])]
      have hn := hab p (by simp)
      exact setAdj_adj_other h _ (fun c => hn (Or.inl c)) (fun c => hn (Or.inr c))

/-- The second loop completes the copy. -/
theorem Pasted.edges {g o h : Graph} (ho : o.WF) {m : ℚ} {vs : List ℕ} {es : List (ℕ × ℕ)} {ρ : ℕ → ℕ} {vt : ℕ → Option ℕ}
    (P : Pasted g o.noEdges m vs.toFinset ρ h) (ht1 : ∀ v ∈ vs, vt v = some (ρ v)) (hes : es.Nodup)
    (he : ∀ p, p ∈ es ↔ p.1 < p.2 ∧ p.1 ∈ vs ∧ p.2 ∈ vs ∧ o.adj p.1 p.2 ≠ none) :
    ∃ g', copyEdges h o vt es = some g' ∧ Pasted g o m vs.toFinset ρ g' ∧ g'.inputs = h.inputs ∧ g'.outputs = h.outputs := by
  obtain ⟨g', e1, e2, e3, e4, e5, e6, e7, e8⟩ := copyEdges_spec ho P.inj es (vt := vt)
    (fun p hp => ⟨ht1 _ ((he p).mp hp).2.1, ht1 _ ((he p).mp hp).2.2.1⟩) hes (fun p hp => ⟨((he p).mp hp).1, ((he p).mp hp).2.2.2⟩) _ P.wf (by
      intro p hp
      obtain ⟨-, h1, h2, -⟩ := (he p).mp hp
      have m1 : p.1 ∈ vs.toFinset := by simpa using h1
      have m2 : p.2 ∈ vs.toFinset := by simpa using h2
      refine ⟨?_, ?_, ?_⟩
      · rw [P.verts]; exact mem_union_right _ (mem_image_of_mem _ m1)
      · rw [P.verts]; exact mem_union_right _ (mem_image_of_mem _ m2)
      · rw [P.adjNew _ m1 _ m2]; rfl)
  refine ⟨g', e1, ⟨P.inj, P.fresh, e3.verts.trans P.verts, ?_, ?_, ?_, ?_, ?_, ?_, ?_, ?_, ?_, e6.trans P.scalar, e2⟩, e3.inputs, e3.outputs⟩
  · intro u hu; rw [e3.ty]; exact P.tyOld u hu
  · intro u hu; rw [e4]; exact P.phaseOld u hu
  · intro u hu; rw [e5]; exact P.labelOld u hu
  · intro u hu v hv
    rw [e8, P.adjOld u hu v hv]
    rintro p - (⟨c, -⟩ | ⟨c, -⟩)
    · exact P.fresh p.1 ((show u = ρ p.1 from c) ▸ hu)
    · exact P.fresh p.2 ((show u = ρ p.2 from c) ▸ hu)
  · intro v hv; rw [e3.ty]; exact P.tyNew v hv
  · intro v hv; rw [e4]; exact P.phaseNew v hv
  · intro v hv; rw [e5]; exact P.labelNew v hv
  · intro u hu v hv
    have hu' : u ∈ vs := by simpa using hu
    have hv' : v ∈ vs := by simpa using hv
    by_cases c : ∃ p ∈ es, SamePair (ρ u, ρ v) (ρ p.1, ρ p.2)
    · obtain ⟨p, hp, ⟨c1, c2⟩ | ⟨c1, c2⟩⟩ := c
      · rw [P.inj c1, P.inj c2]; exact e7 p hp
      · rw [P.inj c1, P.inj c2, e2.symm, ho.symm]; exact e7 p hp
    · push Not at c
      rw [e8 _ _ c, P.adjNew u hu v hv]
      show none = _
      by_contra hne
      rcases lt_trichotomy u v with h | h | h
      · exact c (u, v) ((he _).mpr ⟨h, hu', hv', fun h' => hne h'.symm⟩) (Or.inl ⟨rfl, rfl⟩)
      · rw [h] at hne; exact hne (ho.loopless v).symm
      · exact c (v, u) ((he _).mpr ⟨h, hv', hu', fun h' => hne (by rw [ho.symm]; exact h'.symm)⟩) (Or.inr ⟨rfl, rfl⟩)
  · intro u hu v hv
    rw [e8, P.cross u hu v hv]
    rintro p - (⟨c, -⟩ | ⟨c, -⟩)
    · exact P.fresh p.1 ((show u = ρ p.1 from c) ▸ hu)
    · exact P.fresh p.2 ((show u = ρ p.2 from c) ▸ hu)

theorem Pasted.setIO {g o h : Graph} {m : ℚ} {V : Finset ℕ} {ρ : ℕ → ℕ} (P : Pasted g o m V ρ h) {i j : List ℕ}
    (hw : ({ h with inputs := i, outputs := j } : Graph).WF) : Pasted g o m V ρ { h with inputs := i, outputs := j } :=
  ⟨P.inj, P.fresh, P.verts, P.tyOld, P.phaseOld, P.labelOld, P.adjOld, P.tyNew, P.phaseNew, P.labelNew, P.adjNew, P.cross, P.scalar, hw⟩

/-- Inputs and outputs may be any boundary vertices. -/
theorem WF.setIO {h : Graph} (hw : h.WF) {i j : List ℕ} (hi : ∀ v ∈ i, v ∈ h.verts ∧ h.ty v = .boundary)
    (hj : ∀ v ∈ j, v ∈ h.verts ∧ h.ty v = .boundary) : ({ h with inputs := i, outputs := j } : Graph).WF where
  symm := hw.symm
  mem := hw.mem
  lt := hw.lt
  inp v hv := (hi v hv).1
  out v hv := (hj v hv).1
  loopless := hw.loopless
  count := hw.count
  noWio := hw.noWio
  types := hw.types
  io v hv := hv.elim (fun h => (hi v h).2) (fun h => (hj v h).2)

/-! ### Weights -/

theorem coreW_insert {g : Graph} (hg : ∀ u v, g.adj u v = g.adj v u) {S : Finset ℕ} {v : ℕ} (hv : v ∉ S) (x : ℕ → Bool) :
    g.coreW (insert v S) x = g.vwt v (x v) * (∏ w ∈ S, g.edgeK x v w) * g.coreW S x := by
  unfold coreW
  rw [prod_insert hv, pairProd_insert hv (edgeK_comm hg x)]
  ring

theorem wOn_eq_coreW (g : Graph) (S : Finset ℕ) (x : ℕ → Bool) : g.wOn S x = g.scalar.toNumber * g.coreW S x := rfl

theorem Pasted.vval {g o g' : Graph} {m : ℚ} {V : Finset ℕ} {ρ : ℕ → ℕ} (P : Pasted g o m V ρ g') {v : ℕ} (hv : v ∈ V) :
    g'.vval (ρ v) = (o.scaled m).vval v := by
  unfold Graph.vval
  show _ = (match o.ty v with
    | .boundary => 1
    | .zbox => o.label v
    | _ => ph (m * o.phase v))
  rw [P.tyNew v hv, P.labelNew v hv, P.phaseNew v hv]
  cases o.ty v <;> simp [ph_mod2]

theorem Pasted.coreW {g o g' : Graph} {m : ℚ} {V : Finset ℕ} {ρ : ℕ → ℕ} (P : Pasted g o m V ρ g') (ho : o.WF) {S T : Finset ℕ}
    (hS : S ⊆ g.verts) (hT : T ⊆ V) (x : ℕ → Bool) :
    g'.coreW (S ∪ T.image ρ) x = g.coreW S x * (o.scaled m).coreW T (fun v => x (ρ v)) := by
  induction T using Finset.induction_on with
  | empty =>
    have e1 : ∀ v ∈ S, g'.vval v = g.vval v := fun v hv => by
      unfold Graph.vval; rw [P.tyOld v (hS hv), P.phaseOld v (hS hv), P.labelOld v (hS hv)]
    unfold Graph.coreW
    rw [image_empty, union_empty]
    simp only [prod_empty, pairProd_empty, mul_one]
    congr 1
    · exact prod_congr rfl fun v hv => by unfold vwt; rw [e1 v hv]
    · refine pairProd_congr fun a ha b hb _ => ?_
      unfold edgeK eff isX
      rw [P.adjOld a (hS ha) b (hS hb), P.tyOld a (hS ha), P.tyOld b (hS hb)]
  | insert v T hv ih =>
    have hvV : v ∈ V := hT (mem_insert_self _ _)
    have hTV : T ⊆ V := fun u hu => hT (mem_insert_of_mem hu)
    have hnm : ρ v ∉ S ∪ T.image ρ := by
      rw [mem_union, not_or]
      refine ⟨fun h => P.fresh v (hS h), fun h => ?_⟩
      obtain ⟨u, hu, e⟩ := mem_image.mp h
      exact hv (P.inj e ▸ hu)
    have hdis : Disjoint S (T.image ρ) := by
      rw [Finset.disjoint_left]
      intro u hu h
      obtain ⟨w, -, e⟩ := mem_image.mp h
      exact P.fresh w (e ▸ hS hu)
    rw [image_insert, union_insert, coreW_insert P.wf.symm hnm, ih hTV, coreW_insert (g := o.scaled m) ho.symm hv, prod_union hdis,
      prod_image (fun a _ b _ h => P.inj h)]
    have h1 : ∏ w ∈ S, g'.edgeK x (ρ v) w = 1 := prod_eq_one fun w hw => edgeK_none (by rw [P.wf.symm]; exact P.cross w (hS hw) v hvV)
    have h2 : ∀ w ∈ T, g'.edgeK x (ρ v) (ρ w) = (o.scaled m).edgeK (fun v => x (ρ v)) v w := by
      intro w hw
      unfold edgeK eff isX
      rw [P.adjNew v hvV w (hTV hw), P.tyNew v hvV, P.tyNew w (hTV hw)]
      rfl
    rw [h1, prod_congr rfl h2]
    unfold vwt
    rw [P.vval hvV]
    ring

/-- Summation over renamed variables. -/
theorem psum_image {ρ : ℕ → ℕ} (hρ : Function.Injective ρ) (J : Finset ℕ) (F : (ℕ → Bool) → ℂ) (b : ℕ → Bool) :
    psum (J.image ρ) (fun x => F fun v => x (ρ v)) b = psum J F fun v => b (ρ v) := by
  induction J using Finset.induction_on generalizing b with
  | empty => simp
  | insert v J hv ih =>
    have hnm : ρ v ∉ J.image ρ := fun h => by
      obtain ⟨u, hu, e⟩ := mem_image.mp h
      exact hv (hρ e ▸ hu)
    have hu : ∀ c, (fun w => Function.update b (ρ v) c (ρ w)) = Function.update (fun w => b (ρ w)) v c := by
      intro c
      funext w
      by_cases h : w = v
      · rw [h, Function.update_self, Function.update_self]
      · rw [Function.update_of_ne h, Function.update_of_ne (fun h' => h (hρ h'))]
    rw [image_insert, psum_insert_env hnm, psum_insert_env hv, ih, ih, hu, hu]

/-- The path sum only depends on the boundary values. -/
theorem amp_congr {g : Graph} {b c : ℕ → Bool} (h : ∀ v ∈ g.verts, g.ty v = .boundary → b v = c v) : g.amp b = g.amp c := by
  unfold amp
  have key : ∀ T, g.weight (setOn g.interior T b) = g.weight (setOn g.interior T c) := by
    intro T
    rw [weight_eq_wOn, weight_eq_wOn]
    refine wOn_congr_env fun v hv => ?_
    unfold setOn
    by_cases hi : v ∈ g.interior
    · rw [if_pos hi, if_pos hi]
    · rw [if_neg hi, if_neg hi]
      refine h v hv ?_
      by_contra hb
      exact hi (mem_filter.mpr ⟨hv, hb⟩)
  unfold psum
  exact sum_congr rfl fun T _ => key T

theorem sem_congr {g : Graph} (hg : g.WF) {b c : ℕ → Bool} (h : ∀ v ∈ g.verts, g.ty v = .boundary → b v = c v) : g.sem b = g.sem c := by
  rw [sem_eq_amp hg, sem_eq_amp hg, amp_congr h]

/-! ### Sums over two sets of variables -/

theorem psum_comm (I J : Finset ℕ) (F : (ℕ → Bool) → (ℕ → Bool) → ℂ) (b c : ℕ → Bool) :
    psum I (fun x => psum J (fun y => F x y) c) b = psum J (fun y => psum I (fun x => F x y) b) c := by
  unfold psum
  exact sum_comm

theorem psum_mul_psum (I J : Finset ℕ) (f g : (ℕ → Bool) → ℂ) (b c : ℕ → Bool) :
    psum I f b * psum J g c = psum I (fun x => psum J (fun y => f x * g y) c) b := by
  rw [← psum_mul_const]
  exact psum_congr fun x _ => (psum_const_mul _ _ _ _).symm

theorem psum_env {I S : Finset ℕ} {f : (ℕ → Bool) → ℂ} {b c : ℕ → Bool} (hf : ∀ x y, (∀ v ∈ S, x v = y v) → f x = f y)
    (h : ∀ v ∈ S, v ∉ I → b v = c v) : psum I f b = psum I f c := by
  unfold psum
  refine sum_congr rfl fun T _ => hf _ _ fun v hv => ?_
  unfold setOn
  by_cases hi : v ∈ I
  · rw [if_pos hi, if_pos hi]
  · rw [if_neg hi, if_neg hi, h v hv hi]

/-- A sum over old and renamed variables is a double sum. -/
theorem psum_paste {I J V : Finset ℕ} {ρ : ℕ → ℕ} (hρ : Function.Injective ρ) (hI : I ⊆ V) (hV : ∀ v, ρ v ∉ V)
    {F : (ℕ → Bool) → (ℕ → Bool) → ℂ} (hF : ∀ x y z, (∀ v ∈ V, x v = y v) → F x z = F y z) (b : ℕ → Bool) :
    psum (I ∪ J.image ρ) (fun x => F x fun v => x (ρ v)) b = psum I (fun x => psum J (fun y => F x y) fun v => b (ρ v)) b := by
  have hd : Disjoint I (J.image ρ) := by
    rw [Finset.disjoint_left]
    intro u hu h
    obtain ⟨w, -, e⟩ := mem_image.mp h
    exact hV w (e ▸ hI hu)
  rw [psum_union hd]
  refine psum_congr fun x hx => ?_
  have h1 : psum (J.image ρ) (fun y => F y fun v => y (ρ v)) x = psum (J.image ρ) (fun y => (fun w => F x w) fun v => y (ρ v)) x := by
    refine psum_congr fun y hy => hF _ _ _ fun v hv => hy v fun h => ?_
    obtain ⟨w, -, e⟩ := mem_image.mp h
    exact hV w (e ▸ hv)
  rw [h1, psum_image hρ]
  refine congrArg _ (funext fun v => hx _ fun h => hV v (hI h))

theorem coreW_congr_env {g : Graph} {S : Finset ℕ} {x y : ℕ → Bool} (h : ∀ v ∈ S, x v = y v) : g.coreW S x = g.coreW S y := by
  unfold coreW
  congr 1
  · exact prod_congr rfl fun v hv => by rw [h v hv]
  · exact pairProd_congr fun a ha b hb _ => edgeK_congr_env (h a ha) (h b hb)

/-- The path sum without the scalar. -/
noncomputable def coreAmp (g : Graph) (b : ℕ → Bool) : ℂ := psum g.interior (g.coreW g.verts) b

theorem amp_eq_coreAmp (g : Graph) (b : ℕ → Bool) : g.amp b = g.scalar.toNumber * g.coreAmp b := by
  unfold amp coreAmp
  rw [← psum_const_mul]
  rfl

theorem Pasted.interior {g o g' : Graph} {m : ℚ} {V : Finset ℕ} {ρ : ℕ → ℕ} (P : Pasted g o m V ρ g') :
    g'.interior = g.interior ∪ (V.filter fun v => o.ty v ≠ .boundary).image ρ := by
  ext w
  unfold Graph.interior
  rw [mem_filter, P.verts]
  simp only [mem_union, mem_filter, mem_image]
  constructor
  · rintro ⟨h | ⟨u, hu, rfl⟩, h2⟩
    · exact Or.inl ⟨h, by rwa [P.tyOld w h] at h2⟩
    · exact Or.inr ⟨u, ⟨hu, by rwa [P.tyNew u hu] at h2⟩, rfl⟩
  · rintro (⟨h, h2⟩ | ⟨u, ⟨hu, h2⟩, rfl⟩)
    · exact ⟨Or.inl h, by rwa [P.tyOld w h]⟩
    · exact ⟨Or.inr ⟨u, hu, rfl⟩, by rwa [P.tyNew u hu]⟩

theorem Pasted.coreAmp {g o g' : Graph} {m : ℚ} {ρ : ℕ → ℕ} (P : Pasted g o m o.verts ρ g') (ho : o.WF) (b : ℕ → Bool) :
    g'.coreAmp b = g.coreAmp b * (o.scaled m).coreAmp (fun v => b (ρ v)) := by
  unfold Graph.coreAmp
  have e1 : (o.scaled m).interior = o.verts.filter fun v => o.ty v ≠ .boundary := rfl
  have e2 : (o.scaled m).verts = o.verts := rfl
  rw [P.interior, e1, e2, psum_mul_psum, ← psum_paste (V := g.verts) (I := g.interior) P.inj (filter_subset _ _) P.fresh
    (F := fun x y => g.coreW g.verts x * (o.scaled m).coreW o.verts y) (fun x y z h => by rw [coreW_congr_env h])]
  exact psum_congr fun x _ => by rw [P.verts]; exact P.coreW ho (Subset.refl _) (Subset.refl _) x

theorem scaled_one (o : Graph) : o.scaled 1 = o := by
  unfold scaled
  simp only [one_mul]

/-! ### Copying -/

theorem empty_wf (s : Scalar) : ({ empty with scalar := s } : Graph).WF where
  symm _ _ := rfl
  mem _ _ h := absurd rfl h
  lt _ h := by simp [empty] at h
  inp _ h := by simp [empty] at h
  out _ h := by simp [empty] at h
  loopless _ := rfl
  count := by simp [empty]
  noWio _ _ h := by simp [empty] at h
  types _ h := by simp [empty] at h
  io _ h := by simp [empty] at h

theorem mapM_table {t : ℕ → Option ℕ} {ρ : ℕ → ℕ} {l : List ℕ} (h : ∀ v ∈ l, t v = some (ρ v)) : l.mapM t = some (l.map ρ) := by
  induction l with
  | nil => rfl
  | cons v l ih =>
    rw [List.mapM_cons, h v (by simp), ih fun w hw => h w (by simp [hw])]
    rfl

theorem copy_eq {g : Graph} (hg : g.WF) (a : Bool) {vs : List ℕ} {es : List (ℕ × ℕ)} (hvs : VertOrder g vs) (hes : EdgeOrder g es) :
    ∃ ρ g', g.copy a vs es = some g' ∧ Pasted { empty with scalar := g.scalar.copy a } g (if a then -1 else 1) g.verts ρ g' ∧
      g'.inputs = (if a then g.outputs else g.inputs).map ρ ∧ g'.outputs = (if a then g.inputs else g.outputs).map ρ ∧
      ∀ v ∈ vs, ρ v = vs.idxOf v := by
  have hlist : vs.toFinset = g.verts := by ext v; simp [hvs.2 v]
  obtain ⟨ρ, P, hidx, -, -, t1, -⟩ := copyVertices_spec hg (if a then -1 else 1) vs { empty with scalar := g.scalar.copy a } (fun _ => none)
    (empty_wf _) hvs.1 (fun v hv => (hvs.2 v).mp hv)
  unfold copy copyVertices
  set s := vs.foldl (copyVertex g (if a then -1 else 1)) ({ empty with scalar := g.scalar.copy a }, fun _ => none) with hs
  have hin : g.inputs.mapM s.2 = some (g.inputs.map ρ) := mapM_table fun v hv => t1 v ((hvs.2 v).mpr (hg.inp v hv))
  have hout : g.outputs.mapM s.2 = some (g.outputs.map ρ) := mapM_table fun v hv => t1 v ((hvs.2 v).mpr (hg.out v hv))
  have hb : ∀ l : List ℕ, (∀ v ∈ l, v ∈ g.inputs ∨ v ∈ g.outputs) → ∀ w ∈ l.map ρ, w ∈ s.1.verts ∧ s.1.ty w = .boundary := by
    intro l hl w hw
    obtain ⟨v, hv, rfl⟩ := List.mem_map.mp hw
    have hvg : v ∈ g.verts := (hl v hv).elim (hg.inp v) (hg.out v)
    have hvl : v ∈ vs.toFinset := by rw [hlist]; exact hvg
    refine ⟨?_, ?_⟩
    · rw [P.verts]; exact mem_union_right _ (mem_image_of_mem _ hvl)
    · rw [P.tyNew v hvl]; exact hg.io v (hl v hv)
  have hw := P.wf.setIO (i := (if a then g.outputs else g.inputs).map ρ) (j := (if a then g.inputs else g.outputs).map ρ)
    (hb _ fun v hv => by cases a <;> simp at hv <;> tauto) (hb _ fun v hv => by cases a <;> simp at hv <;> tauto)
  obtain ⟨g', e1, Q, q1, q2⟩ := (P.setIO hw).edges hg t1 hes.1 (fun p => by
      rw [hes.2 p]
      constructor
      · rintro ⟨h1, h2⟩
        exact ⟨h1, (hvs.2 _).mpr (hg.mem _ _ h2), (hvs.2 _).mpr (hg.mem _ _ (by rwa [hg.symm])), h2⟩
      · rintro ⟨h1, -, -, h2⟩; exact ⟨h1, h2⟩)
  refine ⟨ρ, g', ?_, hlist ▸ Q, q1, q2, fun v hv => by rw [hidx v hv]; simp [empty]⟩
  rw [← e1]
  simp only [hin, hout, Option.bind_eq_bind, Option.bind_some]
  cases a <;> rfl

/-- What a copy denotes. -/
theorem copy_sem {g g' : Graph} (hg : g.WF) {s : Scalar} {m : ℚ} {ρ : ℕ → ℕ} (P : Pasted { empty with scalar := s } g m g.verts ρ g')
    (b : ℕ → Bool) : g'.sem b = s.toNumber * (g.scaled m).coreAmp fun v => b (ρ v) := by
  rw [sem_eq_amp P.wf, amp_eq_coreAmp, P.coreAmp hg, P.scalar]
  have : ({ empty with scalar := s } : Graph).coreAmp b = 1 := by
    unfold Graph.coreAmp Graph.interior Graph.coreW
    simp [empty]
  rw [this, one_mul]

end Graph
end PyZX
