import Verif.Model.Diff
import Verif.Spec.Matrix
import Verif.Proofs.Paste

/-!
# Graph diffs
-/

namespace PyZX
namespace Diff

open Graph Finset

/-! ### Dictionaries -/

theorem lookup_dict {κ β : Type} [BEq κ] [LawfulBEq κ] [DecidableEq κ] (vs : List κ) (f : κ → Option β) (v : κ) : (dict vs f).lookup v = if v ∈ vs then f v else none := by
  induction vs with
  | nil => rfl
  | cons w vs ih =>
    have hd : dict (w :: vs) f = ((f w).map fun x => (w, x)).toList ++ dict vs f := by
      unfold dict
      rw [List.filterMap_cons]
      cases f w <;> rfl
    rw [hd]
    cases hf : f w with
    | none =>
      show (dict vs f).lookup v = _
      rw [ih]
      by_cases hv : v = w
      · subst hv
        by_cases h : v ∈ vs <;> simp [h, hf]
      · simp [hv]
    | some x =>
      show ((w, x) :: dict vs f).lookup v = _
      rw [List.lookup_cons]
      by_cases hv : v = w
      · subst hv; simp [hf]
      · have : (v == w) = false := by simpa using hv
        rw [this]
        simp [ih, hv]

theorem mem_dict {κ β : Type} {vs : List κ} {f : κ → Option β} {k : κ × β} : k ∈ dict vs f ↔ k.1 ∈ vs ∧ f k.1 = some k.2 := by
  unfold dict
  rw [List.mem_filterMap]
  constructor
  · rintro ⟨a, ha, h⟩
    obtain ⟨x, hx, rfl⟩ := Option.map_eq_some_iff.mp h
    exact ⟨ha, hx⟩
  · rintro ⟨h1, h2⟩
    exact ⟨k.1, h1, by rw [h2]; rfl⟩

theorem dict_keys_nodup {κ β : Type} {vs : List κ} (h : vs.Nodup) (f : κ → Option β) : ((dict vs f).map Prod.fst).Nodup := by
  have : (dict vs f).map Prod.fst = vs.filter fun v => (f v).isSome := by
    unfold dict
    rw [List.map_filterMap, ← List.filterMap_eq_filter]
    refine List.filterMap_congr fun v _ => ?_
    cases hf : f v <;> simp [Option.guard, hf]
  rw [this]
  exact h.filter _

/-- A loop that assigns the entries of a dictionary to another one, skipping the keys in `N`. -/
theorem foldl_update {β γ : Type} (l : List (ℕ × β)) (hl : (l.map Prod.fst).Nodup) (N : List ℕ) (t : β → γ) (h : ℕ → γ) (v : ℕ) :
    l.foldl (fun f e => if e.1 ∈ N then f else Function.update f e.1 (t e.2)) h v =
      if v ∈ N then h v else ((l.lookup v).map t).getD (h v) := by
  induction l generalizing h with
  | nil => by_cases hv : v ∈ N <;> simp [hv]
  | cons e l ih =>
    obtain ⟨w, x⟩ := e
    rw [List.map_cons, List.nodup_cons] at hl
    rw [List.foldl_cons, ih hl.2, List.lookup_cons]
    by_cases hv : v ∈ N
    · rw [if_pos hv, if_pos hv]
      by_cases hw : w ∈ N
      · rw [if_pos hw]
      · rw [if_neg hw, Function.update_of_ne fun (h : v = w) => hw (h ▸ hv)]
    · rw [if_neg hv, if_neg hv]
      by_cases e : v = w
      · subst e
        have : l.lookup v = none := by
          rw [List.lookup_eq_none_iff]
          intro p hp
          simp only [bne_iff_ne, ne_eq]
          exact fun e => hl.1 (List.mem_map.mpr ⟨p, hp, e.symm⟩)
        simp [this, hv]
      · have h1 : (v == w) = false := by simpa using e
        rw [h1]
        by_cases hw : w ∈ N
        · simp [hw]
        · simp [hw, Function.update_of_ne e]

theorem foldl_setType (l : List (ℕ × VType)) (N : List ℕ) (g : Graph) :
    l.foldl (fun g e => if e.1 ∈ N then g else g.setType e.1 e.2) g =
      { g with ty := l.foldl (fun f e => if e.1 ∈ N then f else Function.update f e.1 e.2) g.ty } := by
  induction l generalizing g with
  | nil => rfl
  | cons e l ih =>
    rw [List.foldl_cons, List.foldl_cons, ih]
    by_cases h : e.1 ∈ N
    · rw [if_pos h, if_pos h]
    · rw [if_neg h, if_neg h]; rfl

theorem foldl_setPhase (l : List (ℕ × ℚ)) (N : List ℕ) (g : Graph) :
    l.foldl (fun g e => if e.1 ∈ N then g else g.setPhase e.1 e.2) g =
      { g with phase := l.foldl (fun f e => if e.1 ∈ N then f else Function.update f e.1 (mod2 e.2)) g.phase } := by
  induction l generalizing g with
  | nil => rfl
  | cons e l ih =>
    rw [List.foldl_cons, List.foldl_cons, ih]
    by_cases h : e.1 ∈ N
    · rw [if_pos h, if_pos h]
    · rw [if_neg h, if_neg h]; rfl

theorem foldl_setLabel (l : List (ℕ × ℂ)) (N : List ℕ) (g : Graph) :
    l.foldl (fun g e => if e.1 ∈ N then g else g.setLabel e.1 e.2) g =
      { g with label := l.foldl (fun f e => if e.1 ∈ N then f else Function.update f e.1 e.2) g.label } := by
  induction l generalizing g with
  | nil => rfl
  | cons e l ih =>
    rw [List.foldl_cons, List.foldl_cons, ih]
    by_cases h : e.1 ∈ N
    · rw [if_pos h, if_pos h]
    · rw [if_neg h, if_neg h]; rfl

/-! ### The loops that raise -/

/-- Everything but the edges is unchanged. -/
structure SameData (g g' : Graph) : Prop where
  verts : g'.verts = g.verts
  ty : g'.ty = g.ty
  phase : g'.phase = g.phase
  label : g'.label = g.label
  scalar : g'.scalar = g.scalar
  inputs : g'.inputs = g.inputs
  outputs : g'.outputs = g.outputs

theorem SameData.trans {a b c : Graph} (h : SameData a b) (k : SameData b c) : SameData a c :=
  ⟨k.verts.trans h.verts, k.ty.trans h.ty, k.phase.trans h.phase, k.label.trans h.label, k.scalar.trans h.scalar, k.inputs.trans h.inputs,
    k.outputs.trans h.outputs⟩

theorem removeEdges_full (es : List (ℕ × ℕ)) : ∀ {g : Graph}, g.Inv → es.Nodup → (∀ e ∈ es, e.1 < e.2 ∧ g.adj e.1 e.2 ≠ none) →
    ∃ g', g.removeEdges es = some g' ∧ g'.Inv ∧ SameData g g' ∧ ∀ a b, a < b → g'.adj a b = if (a, b) ∈ es then none else g.adj a b := by
  induction es with
  | nil => intro g hg _ _; exact ⟨g, rfl, hg, ⟨rfl, rfl, rfl, rfl, rfl, rfl, rfl⟩, fun a b _ => by simp⟩
  | cons e es ih =>
    intro g hg hn he
    obtain ⟨s, t⟩ := e
    obtain ⟨h1, h2⟩ := he (s, t) (by simp)
    dsimp only at h1 h2
    rw [List.nodup_cons] at hn
    have hr : g.removeEdge s t = some { g.setAdj s t none with nedges := g.nedges - 1 } := by
      unfold Graph.removeEdge
      rw [if_neg (by rintro (h | h); exact h2 h; omega)]
    have hi := hg.removeEdge hr
    have hadj : ∀ a b, a < b → (a, b) ≠ (s, t) → (g.setAdj s t none).adj a b = g.adj a b := by
      intro a b hab hne
      refine setAdj_adj_other g _ (fun h => hne (Prod.ext h.1 h.2)) (fun h => ?_)
      omega
    obtain ⟨g', e', hi', hd, ha⟩ := ih (g := { g.setAdj s t none with nedges := g.nedges - 1 }) hi hn.2 (fun e hes => by
      obtain ⟨k1, k2⟩ := he e (by simp [hes])
      refine ⟨k1, ?_⟩
      rw [show ({ g.setAdj s t none with nedges := g.nedges - 1 } : Graph).adj = (g.setAdj s t none).adj from rfl,
        hadj e.1 e.2 k1 fun h => hn.1 (h ▸ hes)]
      exact k2)
    refine ⟨g', ?_, hi', ⟨hd.verts, hd.ty, hd.phase, hd.label, hd.scalar, hd.inputs, hd.outputs⟩, fun a b hab => ?_⟩
    · unfold removeEdges at e' ⊢
      rw [List.foldlM_cons, hr]
      exact e'
    · rw [ha a b hab]
      by_cases hm : (a, b) = (s, t)
      · obtain ⟨rfl, rfl⟩ := Prod.mk.inj hm
        rw [if_neg hn.1, if_pos (by simp)]
        exact setAdj_adj_self ..
      · by_cases hm' : (a, b) ∈ es
        · rw [if_pos hm', if_pos (by simp [hm'])]
        · rw [if_neg hm', if_neg (by simp [hm, hm'])]
          exact hadj a b hab hm

theorem removeVertices_scalar {g g' : Graph} {vs : List ℕ} (h : g.removeVertices vs = some g') : g'.scalar = g.scalar := by
  unfold Graph.removeVertices at h
  obtain ⟨g1, h1, rfl⟩ := Option.map_eq_some_iff.mp h
  show g1.scalar = _
  clear h
  induction vs generalizing g with
  | nil => simp only [List.foldlM_nil, Option.pure_def, Option.some.injEq] at h1; rw [h1]
  | cons v vs ih =>
    simp only [List.foldlM_cons, Option.bind_eq_bind] at h1
    obtain ⟨g2, h2, h3⟩ := Option.bind_eq_some_iff.mp h1
    rw [ih h3]
    obtain ⟨-, rfl⟩ := removeVertex1_eq h2
    rfl

/-- The loop over the new vertices. -/
theorem addNew_fold (d : Diff) (l : List ℕ) : ∀ {p : PGraph}, p.g.Inv → l.Nodup → (∀ v ∈ l, v ∉ p.g.verts ∧ d.pos.lookup v ≠ none) →
    ∃ p', l.foldlM d.addNew p = some p' ∧ p'.g.Inv ∧ p'.g.verts = p.g.verts ∪ l.toFinset ∧ p'.g.adj = p.g.adj ∧ p'.g.scalar = p.g.scalar ∧
      p'.g.inputs = p.g.inputs ∧ p'.g.outputs = p.g.outputs ∧
      (∀ v, p'.g.ty v = if v ∈ l then (d.types.lookup v).getD .Z else p.g.ty v) ∧
      (∀ v, p'.g.phase v = if v ∈ l then ((d.phases.lookup v).map mod2).getD 0 else p.g.phase v) ∧
      (∀ v, p'.g.label v = if v ∈ l then (d.labels.lookup v).getD 1 else p.g.label v) ∧
      (∀ v, p'.pos v = if v ∈ l then (d.pos.lookup v).getD (-1, -1) else p.pos v) := by
  induction l with
  | nil =>
    intro p hp _ _
    exact ⟨p, rfl, hp, by simp, rfl, rfl, rfl, rfl, by simp, by simp, by simp, by simp⟩
  | cons v l ih =>
    intro p hp hn hv
    rw [List.nodup_cons] at hn
    obtain ⟨h1, h2⟩ := hv v (by simp)
    obtain ⟨x, hx⟩ := Option.ne_none_iff_exists'.mp h2
    have hadd : ∃ g0, p.g.addVertexIndexed v = some g0 := by
      unfold Graph.addVertexIndexed; rw [if_neg h1]; exact ⟨_, rfl⟩
    obtain ⟨g0, hg0⟩ := hadd
    have hinv := hp.addVertexIndexed hg0
    have hfields : g0.verts = insert v p.g.verts ∧ g0.adj = p.g.adj ∧ g0.scalar = p.g.scalar ∧ g0.inputs = p.g.inputs ∧ g0.outputs = p.g.outputs ∧
        g0.ty = Function.update p.g.ty v .boundary ∧ g0.phase = Function.update p.g.phase v 0 ∧ g0.label = Function.update p.g.label v 1 := by
      unfold Graph.addVertexIndexed at hg0
      rw [if_neg h1] at hg0
      have := Option.some.inj hg0
      subst this
      refine ⟨rfl, ?_, rfl, rfl, rfl, rfl, rfl, rfl⟩
      funext a b
      show (if a = v ∨ b = v then none else p.g.adj a b) = _
      by_cases h : a = v ∨ b = v
      · rw [if_pos h]
        symm
        by_contra hne
        rcases h with h | h
        · exact h1 (h ▸ hp.mem a b hne)
        · exact h1 (h ▸ hp.mem' hne)
      · rw [if_neg h]
    obtain ⟨f1, f2, f3, f4, f5, f6, f7, f8⟩ := hfields
    set g3 : Graph := { g0 with
      ty := Function.update p.g.ty v ((d.types.lookup v).getD .Z)
      phase := Function.update p.g.phase v (((d.phases.lookup v).map mod2).getD 0)
      label := Function.update p.g.label v ((d.labels.lookup v).getD 1) } with hg3
    have hstep : d.addNew p v = some ⟨g3, Function.update p.pos v x⟩ := by
      unfold addNew
      rw [hg0, hx]
      simp only [Option.bind_eq_bind, Option.bind_some, Option.pure_def]
      cases hph : d.phases.lookup v <;> cases hla : d.labels.lookup v <;>
        simp [hg3, hph, hla, PGraph.setPos, setType, setPhase, setLabel, f6, f7, f8]
    have hinv3 : g3.Inv := hinv.congr rfl rfl rfl rfl rfl rfl
    obtain ⟨p', e, i1, i2, i3, i4, i5, i6, i7, i8, i9, i10⟩ := ih (p := ⟨g3, Function.update p.pos v x⟩) hinv3 hn.2 (fun w hw => by
      obtain ⟨k1, k2⟩ := hv w (by simp [hw])
      refine ⟨?_, k2⟩
      show w ∉ g0.verts
      rw [f1, mem_insert, not_or]
      exact ⟨fun h => hn.1 (h ▸ hw), k1⟩)
    refine ⟨p', ?_, i1, ?_, i3.trans f2, i4.trans f3, i5.trans f4, i6.trans f5, fun w => ?_, fun w => ?_, fun w => ?_, fun w => ?_⟩
    · rw [List.foldlM_cons, hstep]; exact e
    · rw [i2, show g3.verts = g0.verts from rfl, f1]
      ext w
      simp only [mem_union, mem_insert, List.mem_toFinset, List.mem_cons]
      tauto
    · rw [i7]
      by_cases hw : w ∈ l
      · rw [if_pos hw, if_pos (by simp [hw])]
      · rw [if_neg hw]
        by_cases hwv : w = v
        · rw [if_pos (by simp [hwv]), hwv]; exact Function.update_self ..
        · rw [if_neg (by simp [hwv, hw])]; exact Function.update_of_ne hwv ..
    · rw [i8]
      by_cases hw : w ∈ l
      · rw [if_pos hw, if_pos (by simp [hw])]
      · rw [if_neg hw]
        by_cases hwv : w = v
        · rw [if_pos (by simp [hwv]), hwv]; exact Function.update_self ..
        · rw [if_neg (by simp [hwv, hw])]; exact Function.update_of_ne hwv ..
    · rw [i9]
      by_cases hw : w ∈ l
      · rw [if_pos hw, if_pos (by simp [hw])]
      · rw [if_neg hw]
        by_cases hwv : w = v
        · rw [if_pos (by simp [hwv]), hwv]; exact Function.update_self ..
        · rw [if_neg (by simp [hwv, hw])]; exact Function.update_of_ne hwv ..
    · rw [i10]
      by_cases hw : w ∈ l
      · rw [if_pos hw, if_pos (by simp [hw])]
      · rw [if_neg hw]
        by_cases hwv : w = v
        · rw [if_pos (by simp [hwv]), hwv, hx]; exact Function.update_self ..
        · rw [if_neg (by simp [hwv, hw])]; exact Function.update_of_ne hwv ..

/-- The loop over the new edges. -/
theorem addEdges_fold (l : List ((ℕ × ℕ) × EType)) : ∀ {g : Graph}, g.Inv → (l.map Prod.fst).Nodup →
    (∀ e ∈ l, e.1.1 < e.1.2 ∧ e.1.1 ∈ g.verts ∧ e.1.2 ∈ g.verts ∧ g.adj e.1.1 e.1.2 = none) →
    ∃ g', l.foldlM (fun g e => g.addEdge e.1.1 e.1.2 e.2) g = some g' ∧ g'.Inv ∧ SameData g g' ∧
      ∀ a b, a < b → g'.adj a b = (l.lookup (a, b)).or (g.adj a b) := by
  induction l with
  | nil => intro g hg _ _; exact ⟨g, rfl, hg, ⟨rfl, rfl, rfl, rfl, rfl, rfl, rfl⟩, fun a b _ => by simp⟩
  | cons e l ih =>
    intro g hg hn he
    obtain ⟨⟨s, t⟩, ty⟩ := e
    obtain ⟨h1, h2, h3, h4⟩ := he ((s, t), ty) (by simp)
    dsimp only at h1 h2 h3 h4
    rw [List.map_cons, List.nodup_cons] at hn
    have hr := addEdge_fresh h2 h3 h4 ty
    have hi := hg.addEdge hr (by omega)
    have hadj : ∀ a b, a < b → (a, b) ≠ (s, t) → (g.setAdj s t (some ty)).adj a b = g.adj a b := by
      intro a b hab hne
      refine setAdj_adj_other g _ (fun h => hne (Prod.ext h.1 h.2)) (fun h => ?_)
      omega
    obtain ⟨g', e', hi', hd, ha⟩ := ih (g := { g.setAdj s t (some ty) with nedges := g.nedges + 1 }) hi hn.2 (fun e hes => by
      obtain ⟨k1, k2, k3, k4⟩ := he e (by simp [hes])
      refine ⟨k1, k2, k3, ?_⟩
      rw [show ({ g.setAdj s t (some ty) with nedges := g.nedges + 1 } : Graph).adj = (g.setAdj s t (some ty)).adj from rfl,
        hadj e.1.1 e.1.2 k1 fun h => hn.1 (List.mem_map.mpr ⟨e, hes, h⟩)]
      exact k4)
    refine ⟨g', ?_, hi', ⟨hd.verts, hd.ty, hd.phase, hd.label, hd.scalar, hd.inputs, hd.outputs⟩, fun a b hab => ?_⟩
    · rw [List.foldlM_cons]
      show ((g.addEdge s t ty).bind _) = _
      rw [hr]
      exact e'
    · rw [ha a b hab, List.lookup_cons]
      by_cases hm : (a, b) = (s, t)
      · obtain ⟨rfl, rfl⟩ := Prod.mk.inj hm
        have : l.lookup (a, b) = none := by
          rw [List.lookup_eq_none_iff]
          intro p hp
          simp only [bne_iff_ne, ne_eq]
          exact fun e => hn.1 (List.mem_map.mpr ⟨p, hp, e.symm⟩)
        simp [this]
        exact setAdj_adj_self ..
      · have : ((a, b) == (s, t)) = false := by simpa using hm
        rw [this]
        congr 1
        exact hadj a b hab hm

/-- The loop over the changed edge types. -/
theorem setEdgeType_fold (l : List ((ℕ × ℕ) × EType)) : ∀ {p : PGraph}, p.g.Inv → (l.map Prod.fst).Nodup →
    (∀ e ∈ l, e.1.1 < e.1.2 ∧ p.g.adj e.1.1 e.1.2 ≠ none) →
    ∃ p', l.foldlM (fun p e => p.setEdgeType e.1 e.2) p = some p' ∧ p'.g.Inv ∧ p'.pos = p.pos ∧ SameData p.g p'.g ∧
      ∀ a b, a < b → p'.g.adj a b = (l.lookup (a, b)).or (p.g.adj a b) := by
  induction l with
  | nil => intro p hg _ _; exact ⟨p, rfl, hg, rfl, ⟨rfl, rfl, rfl, rfl, rfl, rfl, rfl⟩, fun a b _ => by simp⟩
  | cons e l ih =>
    intro p hg hn he
    obtain ⟨⟨s, t⟩, ty⟩ := e
    obtain ⟨h1, h2⟩ := he ((s, t), ty) (by simp)
    dsimp only at h1 h2
    rw [List.map_cons, List.nodup_cons] at hn
    have hs := hg.mem s t h2
    have ht := hg.mem' h2
    have hi : (p.g.setAdj s t (some ty)).Inv := by
      refine (hg.setAdj hs ht (by omega) (some ty) 0 ?_).congr rfl rfl rfl ?_ rfl rfl
      · rw [if_pos (by simp), if_pos (Option.isSome_iff_ne_none.mpr h2), add_zero]
      · exact (add_zero _).symm
    have hadj : ∀ a b, a < b → (a, b) ≠ (s, t) → (p.g.setAdj s t (some ty)).adj a b = p.g.adj a b := by
      intro a b hab hne
      refine setAdj_adj_other p.g _ (fun h => hne (Prod.ext h.1 h.2)) (fun h => ?_)
      omega
    obtain ⟨p', e', hi', hpos, hd, ha⟩ := ih (p := { p with g := p.g.setAdj s t (some ty) }) hi hn.2 (fun e hes => by
      obtain ⟨k1, k2⟩ := he e (by simp [hes])
      refine ⟨k1, ?_⟩
      dsimp only
      rw [hadj e.1.1 e.1.2 k1 fun h => hn.1 (List.mem_map.mpr ⟨e, hes, h⟩)]
      exact k2)
    refine ⟨p', ?_, hi', hpos, ⟨hd.verts, hd.ty, hd.phase, hd.label, hd.scalar, hd.inputs, hd.outputs⟩, fun a b hab => ?_⟩
    · rw [List.foldlM_cons]
      show ((p.setEdgeType (s, t) ty).bind _) = _
      have : p.setEdgeType (s, t) ty = some { p with g := p.g.setAdj s t (some ty) } := by
        unfold PGraph.setEdgeType
        rw [if_neg (by rintro (h | h); exact h hs; exact h ht)]
      rw [this]
      exact e'
    · rw [ha a b hab, List.lookup_cons]
      by_cases hm : (a, b) = (s, t)
      · obtain ⟨rfl, rfl⟩ := Prod.mk.inj hm
        have : l.lookup (a, b) = none := by
          rw [List.lookup_eq_none_iff]
          intro p hp
          simp only [bne_iff_ne, ne_eq]
          exact fun e => hn.1 (List.mem_map.mpr ⟨p, hp, e.symm⟩)
        simp [this]
        exact setAdj_adj_self ..
      · have : ((a, b) == (s, t)) = false := by simpa using hm
        rw [this]
        congr 1
        exact hadj a b hab hm

end Diff
end PyZX
