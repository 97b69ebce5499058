import Verif.Proofs.Diff
import Verif.Props.ComposeEx
import Mathlib.Tactic.IntervalCases

/-!
# C36: graph diffs
-/

namespace PyZX
namespace Props

open Graph Finset Diff

/-- **C36.** For any two graphs, applying their difference to the first one succeeds. The result has exactly the vertices, types, phases, positions, edges and
edge types of the second one. The data of a vertex (the label of a Z-box) is that of the second graph for a vertex of both graphs, the default for a new
vertex; the scalar is that of the first graph, and the inputs (outputs) are those inputs (outputs) of the first graph that are vertices of the second. -/
theorem diff_spec {p1 p2 : PGraph} (h1 : p1.g.Inv) (h2 : p2.g.Inv) (hph : ∀ v ∈ p2.g.verts, 0 ≤ p2.g.phase v ∧ p2.g.phase v < 2)
    {vs1 vs2 : List ℕ} {es1 es2 : List (ℕ × ℕ)} (hv1 : VertOrder p1.g vs1) (hv2 : VertOrder p2.g vs2) (he1 : EdgeOrder p1.g es1) (he2 : EdgeOrder p2.g es2) :
    ∃ p', (calculate p1 p2 vs1 vs2 es1 es2).apply p1 = some p' ∧ p'.g.Inv ∧ p'.g.verts = p2.g.verts ∧ p'.g.adj = p2.g.adj ∧
      (∀ v ∈ p2.g.verts, p'.g.ty v = p2.g.ty v ∧ p'.g.phase v = p2.g.phase v ∧ p'.pos v = p2.pos v ∧
        p'.g.label v = if v ∈ p1.g.verts then p2.g.label v else 1) ∧
      p'.g.scalar = p1.g.scalar ∧ p'.g.inputs = p1.g.inputs.filter (· ∈ p2.g.verts) ∧ p'.g.outputs = p1.g.outputs.filter (· ∈ p2.g.verts) := by
  have hred : ∀ v ∈ p2.g.verts, mod2 (p2.g.phase v) = p2.g.phase v := fun v hv => mod2_of_range (hph v hv).1 (hph v hv).2
  set d := calculate p1 p2 vs1 vs2 es1 es2 with hd
  -- removed edges
  obtain ⟨g1, e1, i1, d1, a1⟩ := removeEdges_full d.removedEdges (g := p1.g) h1 (he1.1.filter _) (fun e he => (he1.2 e).mp (List.mem_filter.mp he).1)
  -- removed vertices
  have hrv : ∀ v ∈ d.removedVerts, v ∈ g1.verts := fun v hv => by
    rw [d1.verts]; exact (hv1.2 v).mp (List.mem_filter.mp hv).1
  obtain ⟨g2, e2⟩ := removeVertices_isSome (vs := d.removedVerts) i1 (hv1.1.filter _) hrv
  obtain ⟨r2, -, i2, -⟩ := removeVertices_spec e2
  have i2 := i2 i1
  have hmr : ∀ v, v ∈ d.removedVerts.toFinset ↔ v ∈ p1.g.verts ∧ v ∉ p2.g.verts := by
    intro v
    rw [List.mem_toFinset]
    show v ∈ vs1.filter (· ∉ vs2) ↔ _
    rw [List.mem_filter, hv1.2, ← hv2.2 v]
    simp
  have hv2' : ∀ v, v ∈ g2.verts ↔ v ∈ p1.g.verts ∧ v ∈ p2.g.verts := by
    intro v
    rw [r2.verts, mem_sdiff, d1.verts, hmr]
    tauto
  have hmn : ∀ v, v ∈ d.newVerts ↔ v ∈ p2.g.verts ∧ v ∉ p1.g.verts := by
    intro v
    show v ∈ vs2.filter (· ∉ vs1) ↔ _
    rw [List.mem_filter, hv2.2, ← hv1.2 v]
    simp
  set p2' : PGraph := ⟨g2, fun v => if v ∈ d.removedVerts then (-1, -1) else p1.pos v⟩ with hp2'
  -- new vertices
  have hpos : ∀ v, d.pos.lookup v = if v ∈ vs2 then (if v ∈ vs1 then (if p1.pos v ≠ p2.pos v then some (p2.pos v) else none) else some (p2.pos v)) else none :=
    fun v => lookup_dict vs2 _ v
  have hty : ∀ v, d.types.lookup v = if v ∈ vs2 then (if v ∈ vs1 then (if p1.g.ty v ≠ p2.g.ty v then some (p2.g.ty v) else none)
      else if p2.g.ty v ≠ .Z then some (p2.g.ty v) else none) else none := fun v => lookup_dict vs2 _ v
  have hphs : ∀ v, d.phases.lookup v = if v ∈ vs2 then (if v ∈ vs1 then (if p1.g.phase v ≠ p2.g.phase v then some (p2.g.phase v) else none)
      else if p2.g.phase v ≠ 0 then some (p2.g.phase v) else none) else none := fun v => lookup_dict vs2 _ v
  have hlab : ∀ v, d.labels.lookup v = if v ∈ vs2 then (if v ∈ vs1 then (if p1.g.label v ≠ p2.g.label v then some (p2.g.label v) else none) else none)
      else none := fun v => lookup_dict vs2 _ v
  obtain ⟨p3, e3, i3, v3, a3, s3, in3, out3, t3, ph3, l3, po3⟩ := addNew_fold d d.newVerts (p := p2') i2 (hv2.1.filter _) (fun v hv => by
    obtain ⟨k1, k2⟩ := (hmn v).mp hv
    refine ⟨fun h => k2 ((hv2' v).mp h).1, ?_⟩
    rw [hpos, if_pos ((hv2.2 v).mpr k1), if_neg fun h => k2 ((hv1.2 v).mp h)]
    simp)
  have hv3 : p3.g.verts = p2.g.verts := by
    ext v
    rw [v3, mem_union, List.mem_toFinset, hmn]
    show v ∈ g2.verts ∨ _ ↔ _
    rw [hv2']
    tauto
  -- the edges after removal
  have hold : ∀ a b, a < b → p3.g.adj a b = if (a, b) ∈ es2 then p1.g.adj a b else none := by
    intro a b hab
    rw [a3]
    show g2.adj a b = _
    by_cases hm2 : (a, b) ∈ es2
    · obtain ⟨-, hne⟩ := (he2.2 (a, b)).mp hm2
      have ha := h2.mem a b hne
      have hb := h2.mem' hne
      rw [r2.adj a b (fun h => ((hmr a).mp h).2 ha) (fun h => ((hmr b).mp h).2 hb), a1 a b hab, if_pos hm2, if_neg]
      exact fun h => by simpa [hm2] using (List.mem_filter.mp h).2
    · rw [if_neg hm2]
      by_contra hne
      have ha := i2.mem a b hne
      have hb := i2.mem' hne
      rw [r2.adj a b (fun h => ((hmr a).mp h).2 ((hv2' a).mp ha).2) (fun h => ((hmr b).mp h).2 ((hv2' b).mp hb).2), a1 a b hab] at hne
      by_cases hr : (a, b) ∈ d.removedEdges
      · rw [if_pos hr] at hne; exact hne rfl
      · rw [if_neg hr] at hne
        exact hr (List.mem_filter.mpr ⟨(he1.2 (a, b)).mpr ⟨hab, hne⟩, by simpa using hm2⟩)
  have hnin : ∀ a b, a < b → (a, b) ∉ es1 → p1.g.adj a b = none := by
    intro a b hab hn
    by_contra hne
    exact hn ((he1.2 (a, b)).mpr ⟨hab, hne⟩)
  -- new edges
  have hne4 : d.newEdges.map Prod.fst = es2.filter (· ∉ es1) := by
    show ((es2.filter (· ∉ es1)).map fun e => (e, edgeType p2.g e)).map Prod.fst = _
    rw [List.map_map]
    exact List.map_id _
  have hlook4 : ∀ a b, d.newEdges.lookup (a, b) = if (a, b) ∈ es2 ∧ (a, b) ∉ es1 then some (edgeType p2.g (a, b)) else none := by
    intro a b
    have : d.newEdges = dict (es2.filter (· ∉ es1)) fun e => some (edgeType p2.g e) := by
      show (es2.filter (· ∉ es1)).map (fun e => (e, edgeType p2.g e)) = (es2.filter (· ∉ es1)).filterMap (some ∘ fun e => (e, edgeType p2.g e))
      rw [List.filterMap_eq_map]
    rw [this, lookup_dict]
    simp
  obtain ⟨g4, e4, i4, d4, a4⟩ := addEdges_fold d.newEdges (g := p3.g) i3 (by rw [hne4]; exact he2.1.filter _) (fun e he => by
    have hm : e.1 ∈ es2.filter (· ∉ es1) := hne4 ▸ List.mem_map_of_mem he
    obtain ⟨m1, m2⟩ := List.mem_filter.mp hm
    have m2 : e.1 ∉ es1 := by simpa using m2
    obtain ⟨k1, k2⟩ := (he2.2 e.1).mp m1
    refine ⟨k1, hv3 ▸ h2.mem _ _ k2, hv3 ▸ h2.mem' k2, ?_⟩
    rw [hold _ _ k1, if_pos m1]
    exact hnin _ _ k1 m2)
  -- the final loops
  set pos5 := d.pos.foldl (fun f e => if e.1 ∈ d.newVerts then f else Function.update f e.1 e.2) p3.pos with hpos5
  set g6 := d.types.foldl (fun g e => if e.1 ∈ d.newVerts then g else g.setType e.1 e.2) g4 with hg6
  set g7 := d.phases.foldl (fun g e => if e.1 ∈ d.newVerts then g else g.setPhase e.1 e.2) g6 with hg7
  set g8 := d.labels.foldl (fun g e => if e.1 ∈ d.newVerts then g else g.setLabel e.1 e.2) g7 with hg8
  rw [foldl_setType] at hg6
  rw [foldl_setPhase] at hg7
  rw [foldl_setLabel] at hg8
  have i8 : g8.Inv := by
    rw [hg8, hg7, hg6]
    exact i4.congr rfl rfl rfl rfl rfl rfl
  have a8 : g8.adj = g4.adj := by rw [hg8, hg7, hg6]
  have hcur : ∀ a b, a < b → g8.adj a b = if (a, b) ∈ es2 then (if (a, b) ∈ es1 then p1.g.adj a b else some (edgeType p2.g (a, b))) else none := by
    intro a b hab
    rw [a8, a4 a b hab, hlook4, hold a b hab]
    by_cases m2 : (a, b) ∈ es2
    · by_cases m1 : (a, b) ∈ es1
      · simp [m1, m2]
      · simp [m1, m2]
    · simp [m2]
  have hlook9 : ∀ e, d.etypes.lookup e = if e ∈ es2 then (if e ∈ es1 then (if edgeType p1.g e ≠ edgeType p2.g e then some (edgeType p2.g e) else none)
    else if edgeType p2.g e ≠ .had then some (edgeType p2.g e) else none) else none := fun e => lookup_dict es2 _ e
  obtain ⟨p9, e9, i9, po9, d9, a9⟩ := setEdgeType_fold d.etypes (p := ⟨g8, pos5⟩) i8 (dict_keys_nodup he2.1 _) (fun e he => by
    obtain ⟨m1, -⟩ := mem_dict.mp he
    obtain ⟨k1, k2⟩ := (he2.2 e.1).mp m1
    refine ⟨k1, ?_⟩
    show g8.adj e.1.1 e.1.2 ≠ none
    rw [hcur _ _ k1, if_pos m1]
    by_cases m : (e.1.1, e.1.2) ∈ es1
    · rw [if_pos m]; exact ((he1.2 _).mp m).2
    · rw [if_neg m]; simp)
  have hadj_lt : ∀ a b, a < b → p9.g.adj a b = p2.g.adj a b := by
    intro a b hab
    rw [a9 a b hab, hlook9]
    show Option.or _ (g8.adj a b) = _
    rw [hcur a b hab]
    by_cases m2 : (a, b) ∈ es2
    · obtain ⟨-, k2⟩ := (he2.2 (a, b)).mp m2
      obtain ⟨t2, ht2⟩ := Option.ne_none_iff_exists'.mp k2
      have ety2 : edgeType p2.g (a, b) = t2 := by unfold edgeType; rw [ht2]; rfl
      by_cases m1 : (a, b) ∈ es1
      · obtain ⟨-, k1⟩ := (he1.2 (a, b)).mp m1
        obtain ⟨t1, ht1⟩ := Option.ne_none_iff_exists'.mp k1
        have ety1 : edgeType p1.g (a, b) = t1 := by unfold edgeType; rw [ht1]; rfl
        have ht1' : p1.g.adj a b = some t1 := ht1
        have ht2' : p2.g.adj a b = some t2 := ht2
        rw [if_pos m2, if_pos m1, if_pos m2, if_pos m1, ety1, ety2, ht1', ht2']
        by_cases h : t1 = t2 <;> simp [h]
      · have ht2' : p2.g.adj a b = some t2 := ht2
        rw [if_pos m2, if_neg m1, if_pos m2, if_neg m1, ety2, ht2']
        by_cases h : t2 = .had <;> simp [h]
    · rw [if_neg m2, if_neg m2]
      symm
      by_contra hne
      exact m2 ((he2.2 (a, b)).mpr ⟨hab, hne⟩)
  refine ⟨p9, ?_, i9, ?_, ?_, fun v hv => ?_, ?_, ?_, ?_⟩
  · unfold apply
    rw [e1]
    simp only [Option.bind_eq_bind, Option.bind_some]
    have : (PGraph.mk g1 p1.pos).removeVertices d.removedVerts = some p2' := by
      unfold PGraph.removeVertices
      show (g1.removeVertices d.removedVerts).map _ = _
      rw [e2]
      rfl
    rw [this]
    simp only [Option.bind_some]
    rw [e3]
    simp only [Option.bind_some]
    rw [e4]
    exact e9
  · rw [d9.verts]
    show g8.verts = _
    rw [hg8, hg7, hg6]
    exact d4.verts.trans hv3
  · funext a b
    rcases lt_trichotomy a b with h | h | h
    · exact hadj_lt a b h
    · rw [h, i9.loopless, h2.loopless]
    · rw [i9.symm, h2.symm]; exact hadj_lt b a h
  · have hvs2 := (hv2.2 v).mpr hv
    have hnew : v ∈ d.newVerts ↔ v ∉ p1.g.verts := by rw [hmn]; exact ⟨fun h => h.2, fun h => ⟨hv, h⟩⟩
    have hg2ty : g2.ty v = p1.g.ty v := by rw [r2.ty, d1.ty]
    have hg2ph : g2.phase v = p1.g.phase v := by rw [r2.phase, d1.phase]
    have hg2la : g2.label v = p1.g.label v := by rw [r2.label, d1.label]
    have hrem : v ∉ d.removedVerts := fun h => ((hmr v).mp (List.mem_toFinset.mpr h)).2 hv
    have e6 : g8.ty = d.types.foldl (fun f e => if e.1 ∈ d.newVerts then f else Function.update f e.1 e.2) g4.ty := by rw [hg8, hg7, hg6]
    have e7 : g8.phase = d.phases.foldl (fun f e => if e.1 ∈ d.newVerts then f else Function.update f e.1 (mod2 e.2)) g4.phase := by rw [hg8, hg7, hg6]
    have e8 : g8.label = d.labels.foldl (fun f e => if e.1 ∈ d.newVerts then f else Function.update f e.1 e.2) g4.label := by rw [hg8, hg7, hg6]
    refine ⟨?_, ?_, ?_, ?_⟩
    · rw [d9.ty]
      show g8.ty v = _
      rw [e6]
      refine (foldl_update d.types (dict_keys_nodup hv2.1 _) d.newVerts id g4.ty v).trans ?_
      rw [d4.ty, t3, hty, if_pos hvs2]
      by_cases hn : v ∈ d.newVerts
      · rw [if_pos hn, if_pos hn, if_neg fun h => hnew.mp hn ((hv1.2 v).mp h)]
        by_cases hz : p2.g.ty v = .Z <;> simp [hz]
      · have hv1' : v ∈ p1.g.verts := by by_contra h; exact hn (hnew.mpr h)
        rw [if_neg hn, if_neg hn, if_pos ((hv1.2 v).mpr hv1')]
        show Option.getD _ (g2.ty v) = _
        rw [hg2ty]
        by_cases hz : p1.g.ty v = p2.g.ty v <;> simp [hz]
    · rw [d9.phase]
      show g8.phase v = _
      rw [e7]
      refine (foldl_update d.phases (dict_keys_nodup hv2.1 _) d.newVerts mod2 g4.phase v).trans ?_
      rw [d4.phase, ph3, hphs, if_pos hvs2]
      by_cases hn : v ∈ d.newVerts
      · rw [if_pos hn, if_pos hn, if_neg fun h => hnew.mp hn ((hv1.2 v).mp h)]
        by_cases hz : p2.g.phase v = 0
        · simp [hz]
        · simp [hz, hred v hv]
      · have hv1' : v ∈ p1.g.verts := by by_contra h; exact hn (hnew.mpr h)
        rw [if_neg hn, if_neg hn, if_pos ((hv1.2 v).mpr hv1')]
        show Option.getD _ (g2.phase v) = _
        rw [hg2ph]
        by_cases hz : p1.g.phase v = p2.g.phase v
        · simp [hz]
        · simp [hz, hred v hv]
    · rw [po9]
      show pos5 v = _
      rw [hpos5]
      refine (foldl_update d.pos (dict_keys_nodup hv2.1 _) d.newVerts id p3.pos v).trans ?_
      rw [po3, hpos, if_pos hvs2]
      by_cases hn : v ∈ d.newVerts
      · rw [if_pos hn, if_pos hn, if_neg fun h => hnew.mp hn ((hv1.2 v).mp h)]
        rfl
      · have hv1' : v ∈ p1.g.verts := by by_contra h; exact hn (hnew.mpr h)
        rw [if_neg hn, if_neg hn, if_pos ((hv1.2 v).mpr hv1')]
        show Option.getD _ (if v ∈ d.removedVerts then (-1, -1) else p1.pos v) = _
        rw [if_neg hrem]
        by_cases hz : p1.pos v = p2.pos v <;> simp [hz]
    · rw [d9.label]
      show g8.label v = _
      rw [e8]
      refine (foldl_update d.labels (dict_keys_nodup hv2.1 _) d.newVerts id g4.label v).trans ?_
      rw [d4.label, l3, hlab, if_pos hvs2]
      by_cases hn : v ∈ d.newVerts
      · rw [if_pos hn, if_pos hn, if_neg fun h => hnew.mp hn ((hv1.2 v).mp h), if_neg (hnew.mp hn)]
        rfl
      · have hv1' : v ∈ p1.g.verts := by by_contra h; exact hn (hnew.mpr h)
        rw [if_neg hn, if_neg hn, if_pos ((hv1.2 v).mpr hv1'), if_pos hv1']
        show Option.getD _ (g2.label v) = _
        rw [hg2la]
        by_cases hz : p1.g.label v = p2.g.label v <;> simp [hz]
  · rw [d9.scalar]
    show g8.scalar = _
    rw [hg8, hg7, hg6]
    show g4.scalar = _
    rw [d4.scalar, s3]
    show g2.scalar = _
    rw [removeVertices_scalar e2, d1.scalar]
  · rw [d9.inputs]
    show g8.inputs = _
    rw [hg8, hg7, hg6]
    show g4.inputs = _
    rw [d4.inputs, in3]
    show g2.inputs = _
    rw [r2.inputs, d1.inputs]
    refine List.filter_congr fun v hv => ?_
    have h1v := h1.inp v hv
    have : v ∉ d.removedVerts.toFinset ↔ v ∈ p2.g.verts := by rw [hmr]; tauto
    exact decide_eq_decide.mpr this
  · rw [d9.outputs]
    show g8.outputs = _
    rw [hg8, hg7, hg6]
    show g4.outputs = _
    rw [d4.outputs, out3]
    show g2.outputs = _
    rw [r2.outputs, d1.outputs]
    refine List.filter_congr fun v hv => ?_
    have h1v := h1.out v hv
    have : v ∉ d.removedVerts.toFinset ↔ v ∈ p2.g.verts := by rw [hmr]; tauto
    exact decide_eq_decide.mpr this

/-- **C36, meaning.** If the two graphs have the same scalar and no Z-box is new, the patched graph denotes the tensor of the second graph. -/
theorem diff_sem {p1 p2 : PGraph} (h1 : p1.g.Inv) (h2 : p2.g.WF) (hph : ∀ v ∈ p2.g.verts, 0 ≤ p2.g.phase v ∧ p2.g.phase v < 2)
    {vs1 vs2 : List ℕ} {es1 es2 : List (ℕ × ℕ)} (hv1 : VertOrder p1.g vs1) (hv2 : VertOrder p2.g vs2) (he1 : EdgeOrder p1.g es1) (he2 : EdgeOrder p2.g es2)
    (hin : p1.g.inputs.filter (· ∈ p2.g.verts) = p2.g.inputs) (hout : p1.g.outputs.filter (· ∈ p2.g.verts) = p2.g.outputs)
    (hs : p1.g.scalar = p2.g.scalar) (hz : ∀ v ∈ p2.g.verts, v ∉ p1.g.verts → p2.g.ty v ≠ .zbox) :
    ∃ p', (calculate p1 p2 vs1 vs2 es1 es2).apply p1 = some p' ∧ Preserves p2.g p'.g := by
  obtain ⟨p', e, hi, hv, ha, hd, hsc, hi', ho'⟩ := diff_spec h1 h2.toInv hph hv1 hv2 he1 he2
  have hwf : p'.g.WF :=
    { hi with
      noWio := by rw [ha]; exact h2.noWio
      types := by
        intro v hm
        rw [hv] at hm
        rw [(hd v hm).1]
        exact h2.types v hm
      io := by
        intro v hm
        rw [hi', ho', hin, hout] at hm
        have hmv : v ∈ p2.g.verts := hm.elim (h2.inp v) (h2.out v)
        rw [(hd v hmv).1]
        exact h2.io v hm }
  refine ⟨p', e, hwf, hi'.trans hin, ho'.trans hout, fun v => ?_, fun b => ?_⟩
  · rw [hv]
    exact ⟨fun h => ⟨h.1, (hd v h.1).1 ▸ h.2⟩, fun h => ⟨h.1, ((hd v h.1).1).trans h.2⟩⟩
  · rw [sem_eq_amp hwf, sem_eq_amp h2]
    refine amp_of_removed (R := ∅) (by simp) (by rw [hv, sdiff_empty]) (fun v hm => ?_) (fun x => ?_) b
    · rw [hv] at hm; rw [(hd v hm).1]
    · rw [psum_empty, weight_eq_wOn, weight_eq_wOn, hv]
      refine (wOn_congr (by rw [hsc, hs]) (fun v hm => ?_) (fun u hu w hw _ => ?_)).symm
      · unfold vval
        obtain ⟨k1, k2, -, k4⟩ := hd v hm
        rw [k1, k2]
        by_cases hm1 : v ∈ p1.g.verts
        · rw [k4, if_pos hm1]
        · have := hz v hm hm1
          cases ht : p2.g.ty v <;> simp_all
      · unfold edgeK eff isX
        rw [ha, (hd u hu).1, (hd w hw).1]

/-- A second diagram on overlapping vertices: types, phases, edges and edge types differ from `exZ1`. -/
noncomputable def exZ2 : Graph := mkG [.boundary, .X, .boundary, .Z] [0, 1 / 2, 0, 1 / 4] [(0, 1, .had), (1, 3, .simple), (2, 3, .had)] [0] [2]

theorem exZ2_adj (u v : ℕ) : exZ2.adj u v ≠ none ↔
    (u = 0 ∧ v = 1) ∨ (u = 1 ∧ v = 0) ∨ (u = 1 ∧ v = 3) ∨ (u = 3 ∧ v = 1) ∨ (u = 2 ∧ v = 3) ∨ (u = 3 ∧ v = 2) := by
  simp [exZ2, mkG]
  omega

/-- The hypotheses of `diff_sem` (hence of `diff_spec`) hold for two diagrams that differ in everything a difference records. -/
example : exZ1.Inv ∧ exZ2.WF ∧ (∀ v ∈ exZ2.verts, 0 ≤ exZ2.phase v ∧ exZ2.phase v < 2) ∧ VertOrder exZ1 [0, 1, 2] ∧ VertOrder exZ2 [3, 1, 2, 0] ∧
    EdgeOrder exZ1 [(0, 1), (1, 2)] ∧ EdgeOrder exZ2 [(2, 3), (0, 1), (1, 3)] ∧ exZ1.inputs.filter (· ∈ exZ2.verts) = exZ2.inputs ∧
    exZ1.outputs.filter (· ∈ exZ2.verts) = exZ2.outputs ∧ exZ1.scalar = exZ2.scalar ∧ (∀ v ∈ exZ2.verts, v ∉ exZ1.verts → exZ2.ty v ≠ .zbox) := by
  have hw : exZ1.WF := mkG_wf (by decide)
  refine ⟨hw.toInv, mkG_wf (by decide), ?_, exZ1_verts, ⟨by decide, fun v => ?_⟩, exZ1_edges, ⟨by decide, fun p => ?_⟩, by decide, by decide, rfl, by decide⟩
  · intro v hv
    have : v < 4 := mem_range.mp hv
    interval_cases v <;> simp [exZ2, mkG] <;> norm_num
  · simp [exZ2, mkG]
    omega
  · rw [exZ2_adj]
    obtain ⟨a, b⟩ := p
    simp
    omega

/-- **New Z-boxes lose their label.** The difference of the empty graph and a graph with one Z-box of parameter `i` applied to the empty graph gives a
Z-box with parameter 1, although the second graph has another one. -/
theorem diff_label_lost (pos1 pos2 : ℕ → ℚ × ℚ) : ∃ p', (calculate ⟨Graph.empty, pos1⟩ ⟨exBoxI, pos2⟩ [] [0] [] []).apply ⟨Graph.empty, pos1⟩ = some p' ∧
    p'.g.verts = exBoxI.verts ∧ p'.g.ty 0 = .zbox ∧ p'.g.label 0 = 1 ∧ exBoxI.label 0 = Complex.I := by
  have h0 : (0 : ℕ) ∈ exBoxI.verts := by decide
  have hmem : ∀ v, v ∈ exBoxI.verts ↔ v = 0 := fun v => by
    have : exBoxI.verts = {0} := by decide
    rw [this, mem_singleton]
  obtain ⟨p', e, -, hv, -, hd, -⟩ := diff_spec (p1 := ⟨Graph.empty, pos1⟩) (p2 := ⟨exBoxI, pos2⟩) (vs1 := []) (vs2 := [0]) (es1 := []) (es2 := [])
    (empty_wf Scalar.new).toInv exBoxI_wf.toInv (fun v hv => by rw [(hmem v).mp hv]; exact ⟨le_refl _, by show (0 : ℚ) < 2; norm_num⟩)
    ⟨by simp, fun v => by simp [Graph.empty]⟩ ⟨by simp, fun v => by rw [hmem v]; simp⟩ ⟨by simp, fun p => by simp [Graph.empty]⟩
    ⟨by simp, fun p => by simp [exBoxI, mkG]⟩
  refine ⟨p', e, hv, (hd 0 h0).1, ?_, rfl⟩
  rw [(hd 0 h0).2.2.2, if_neg (by simp [Graph.empty])]

end Props
end PyZX
