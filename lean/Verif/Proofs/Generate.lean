import Verif.Model.Generate
import Verif.Proofs.ToGraph
import Verif.Props.ToGraph
import Verif.Props.Circuit

/-!
# Lemmas on the generators
-/

namespace PyZX
namespace Generate

open Graph ToGraph

/-- `circuitToGraph_spec` for an arbitrary main loop. -/
theorem build_spec {ord : Finset ℕ → List ℕ} (ho : LabelOrder ord) (n b : ℕ) (run : St → Option St) (U : QState → QState) {L : Finset ℕ}
    (hrun : ∀ s N, Good s N → s.2.labels = Finset.range n → ∃ s', run s = some s' ∧ Good s' N ∧ s'.2.labels = L ∧
      ∀ b, state s' b = U (state s b)) :
    ∃ g, (∃ s, run ((addInputs b (addInputs n Graph.empty []).1 (addInputs n Graph.empty []).2.2).1, (addInputs n Graph.empty []).2.1) = some s ∧
        s.2.labels = L) ∧ ((run ((addInputs b (addInputs n Graph.empty []).1 (addInputs n Graph.empty []).2.2).1, (addInputs n Graph.empty []).2.1)).bind fun s =>
        (addOutputs s.2 (ord s.2.labels) (s.1, [])).bind fun p =>
        (addOutputs (addInputs b (addInputs n Graph.empty []).1 (addInputs n Graph.empty []).2.2).2.1
          (ord (addInputs b (addInputs n Graph.empty []).1 (addInputs n Graph.empty []).2.2).2.1.labels) (p.1, p.2)).bind fun q =>
        some { q.1 with inputs := (addInputs b (addInputs n Graph.empty []).1 (addInputs n Graph.empty []).2.2).2.2, outputs := q.2 }) =
      some g ∧ Result ord n b L U g := by
  have I1 := addInputs_spec empty_inv (fun v hv => by simp [Graph.empty] at hv) [] n
  set r1 := addInputs n Graph.empty [] with hr1
  have I2 := addInputs_spec I1.inv I1.noW r1.2.2 b
  set r2 := addInputs b r1.1 r1.2.2 with hr2
  have v0 : Graph.empty.vindex = 0 := rfl
  have v1 : r1.1.vindex = n := by rw [I1.vindex, v0]; omega
  have v2 : r2.1.vindex = n + b := by rw [I2.vindex, v1]
  have m2 : ∀ v, v ∈ r2.1.verts ↔ v < n + b := by
    intro v
    rw [I2.verts, I1.verts, v1, v0]
    simp only [show Graph.empty.verts = ∅ from rfl, Finset.notMem_empty, false_or]
    omega
  have t2 : ∀ v ∈ r2.1.verts, r2.1.ty v = .boundary := by
    intro v hv
    rw [I2.ty v hv]
    by_cases h : v < r1.1.vindex
    · rw [if_pos h, I1.ty v ((I1.verts v).mpr (Or.inr ⟨by omega, by omega⟩)), if_neg (by omega)]
    · rw [if_neg h]
  have w2 : ∀ x, r2.1.wH r2.1.verts x = 1 := fun x => by rw [I2.wH, I1.wH, empty_wH]
  have G0 : Good (r2.1, r1.2.1) (n + b) := by
    refine ⟨⟨I2.inv, I2.noW, by rw [I2.inputs, I1.inputs]; rfl, by rw [I2.outputs, I1.outputs]; rfl, ?_, ?_⟩, ?_⟩
    · exact fun v hv => ⟨fun _ => (m2 v).mp hv, fun _ => t2 v hv⟩
    · exact fun v hv => (m2 v).mpr hv
    · intro q hq
      have hq' : q < n := by
        have : q ∈ r1.2.1.labels := hq
        rw [I1.labels] at this; simpa using this
      show r1.2.1.prev q ∈ r2.1.verts
      rw [m2, I1.prev q hq']; omega
  obtain ⟨s, hs, gs, ls, ss⟩ := hrun _ _ G0 I1.labels
  have hle := gs.le
  have hpm : ∀ l ∈ ord L, l ∈ s.2.labels ∧ s.2.prev l ∈ s.1.verts := by
    intro l hl
    have : l ∈ s.2.labels := by rw [ls]; exact ho.mem.mp hl
    exact ⟨this, gs.prev l this⟩
  obtain ⟨r3, hr3, O1⟩ := addOutputs_spec s.2 (ord L) [] gs.inv gs.noW (ho L).1 hpm
  have cpm : ∀ l ∈ ord (Finset.range b), l ∈ r2.2.1.labels ∧ r2.2.1.prev l ∈ r3.1.verts := by
    intro l hl
    have hlb : l < b := by simpa using ho.mem.mp hl
    refine ⟨by rw [I2.labels]; simpa using hlb, ?_⟩
    rw [I2.prev l hlb, v1, O1.verts]
    exact Or.inl (gs.mem _ (by omega))
  obtain ⟨r4, hr4, O2⟩ := addOutputs_spec r2.2.1 (ord (Finset.range b)) r3.2 O1.inv O1.noW (ho _).1 cpm
  have lenL := ho.len L
  have lenb : (ord (Finset.range b)).length = b := by rw [ho.len, Finset.card_range]
  have v3 : r3.1.vindex = s.1.vindex + L.card := by rw [O1.vindex, lenL]
  set V := s.1.vindex with hV
  have hins : r2.2.2 = List.range (n + b) := by
    rw [I2.ins, I1.ins, v1, v0, List.range_add]
    simp
  have houts : r4.2 = (List.range (L.card + b)).map (V + ·) := by
    rw [O2.outs, O1.outs, lenL, lenb, v3, List.range_add, List.map_append, List.map_map, List.nil_append]
    refine congrArg₂ (· ++ ·) rfl (List.map_congr_left fun i _ => ?_)
    show V + L.card + i = V + (L.card + i)
    omega
  have m4 : ∀ v, v ∈ r4.1.verts ↔ v ∈ s.1.verts ∨ (V ≤ v ∧ v < V + L.card + b) := by
    intro v
    rw [O2.verts, O1.verts, lenL, lenb, v3, or_assoc]
    constructor
    · rintro (h | h | h)
      · exact Or.inl h
      · right; omega
      · right; omega
    · rintro (h | h)
      · exact Or.inl h
      · right
        by_cases hh : v < V + L.card
        · left; omega
        · right; omega
  have t4 : ∀ v ∈ r4.1.verts, r4.1.ty v = if v < V then s.1.ty v else .boundary := by
    intro v hv
    rw [O2.ty v hv]
    by_cases h : v < V
    · have hm : v ∈ s.1.verts := ((m4 v).mp hv).resolve_right (by omega)
      rw [if_pos (by omega), O1.ty v ((O1.verts v).mpr (Or.inl hm))]
    · rw [if_neg h]
      by_cases h2 : v < r3.1.vindex
      · rw [if_pos h2, O1.ty v ((O1.verts v).mpr (Or.inr ⟨by omega, by rw [lenL]; omega⟩)), if_neg h]
      · rw [if_neg h2]
  have int4 : r4.1.interior = s.1.interior := by
    ext v
    unfold Graph.interior
    rw [Finset.mem_filter, Finset.mem_filter]
    constructor
    · rintro ⟨h1, h2⟩
      rw [t4 v h1] at h2
      by_cases h : v < V
      · rw [if_pos h] at h2
        exact ⟨((m4 v).mp h1).resolve_right (by omega), h2⟩
      · rw [if_neg h] at h2; exact absurd rfl h2
    · rintro ⟨h1, h2⟩
      have h3 := (m4 v).mpr (Or.inl h1)
      refine ⟨h3, ?_⟩
      rw [t4 v h3, if_pos (gs.inv.lt v h1)]
      exact h2
  have w4 : ∀ x, r4.1.wH r4.1.verts x = s.1.wH s.1.verts x *
      (∏ l ∈ L, legT (s.1.ty (s.2.prev l)) (x (s.2.prev l)) (x (V + (ord L).idxOf l))) *
      ∏ i ∈ Finset.range b, dmat (x (n + i)) (x (V + L.card + (ord (Finset.range b)).idxOf i)) := by
    intro x
    rw [O2.wH, O1.wH, (ho L).2, (ho _).2, v3]
    congr 1
    refine Finset.prod_congr rfl fun i hi => ?_
    have hib := Finset.mem_range.mp hi
    rw [I2.prev i hib, v1]
    have hm : n + i ∈ s.1.verts := gs.mem _ (by omega)
    rw [O1.ty _ ((O1.verts _).mpr (Or.inl hm)), if_pos (gs.inv.lt _ hm), (gs.bnd _ hm).mpr (by omega)]
    rfl
  set gf : Graph := { r4.1 with inputs := r2.2.2, outputs := r4.2 } with hgf
  have inm : ∀ v ∈ r2.2.2, v < n + b := fun v hv => by rw [hins] at hv; simpa using hv
  have outm : ∀ v ∈ r4.2, V ≤ v ∧ v < V + L.card + b := by
    intro v hv
    rw [houts] at hv
    obtain ⟨i, hi, rfl⟩ := List.mem_map.mp hv
    have := List.mem_range.mp hi
    omega
  have gi : gf.Inv := { O2.inv with
    inp := fun v hv => (m4 v).mpr (Or.inl (gs.mem v (inm v hv)))
    out := fun v hv => (m4 v).mpr (Or.inr (outm v hv)) }
  refine ⟨gf, ⟨s, hs, ls⟩, ?_, gi, O2.noW, hins, ⟨V, hle, houts⟩, ⟨?_, ?_, ?_, ?_⟩, ?_, ?_⟩
  · rw [hs]
    show ((addOutputs s.2 (ord s.2.labels) (s.1, [])).bind fun p =>
      (addOutputs r2.2.1 (ord r2.2.1.labels) (p.1, p.2)).bind fun q => some { q.1 with inputs := r2.2.2, outputs := q.2 }) = some gf
    rw [ls, hr3]
    show ((addOutputs r2.2.1 (ord r2.2.1.labels) (r3.1, r3.2)).bind fun q => some { q.1 with inputs := r2.2.2, outputs := q.2 }) = some gf
    rw [I2.labels, hr4]
    rfl
  · show r2.2.2.Nodup
    rw [hins]; exact List.nodup_range
  · show r4.2.Nodup
    rw [houts]; exact List.nodup_range.map (fun a c hac => by simpa using hac)
  · intro v h1 h2
    have := inm v h1
    have := outm v h2
    omega
  · intro v hv hb
    have hb' : r4.1.ty v = .boundary := hb
    rw [t4 v hv] at hb'
    by_cases h : v < V
    · left
      rw [if_pos h] at hb'
      have hm : v ∈ s.1.verts := ((m4 v).mp hv).resolve_right (by omega)
      show v ∈ r2.2.2
      rw [hins]
      simpa using (gs.bnd v hm).mp hb'
    · right
      have := ((m4 v).mp hv).resolve_left (fun hm => h (gs.inv.lt v hm))
      show v ∈ r4.2
      rw [houts]
      exact List.mem_map.mpr ⟨v - V, by simp; omega, by omega⟩
  · intro v hv
    show r4.1.ty v = _
    rcases List.mem_append.mp hv with h | h
    · have h1 := inm v h
      have hm := gs.mem v h1
      rw [t4 v ((m4 v).mpr (Or.inl hm)), if_pos (gs.inv.lt v hm)]
      exact (gs.bnd v hm).mpr h1
    · have h1 := outm v h
      rw [t4 v ((m4 v).mpr (Or.inr h1)), if_neg (by omega)]
  · intro x y o hoo
    have bin : ∀ v < n + b, gf.bval x y v = x v := by
      intro v hv
      unfold Graph.bval
      show (if v ∈ r2.2.2 then x (r2.2.2.idxOf v) else _) = _
      rw [hins, if_pos (by simpa using hv), idxOf_range hv]
    have bout : ∀ i < L.card + b, gf.bval x y (V + i) = y i := by
      intro i hi
      unfold Graph.bval
      show (if V + i ∈ r2.2.2 then _ else y (r4.2.idxOf (V + i))) = _
      rw [if_neg (fun hh => by have := inm _ hh; omega), houts, idxOf_map_add V _ i hi]
    have nint : ∀ v, v < n + b ∨ V ≤ v → v ∉ s.1.interior := by
      intro v hv hm
      obtain ⟨h1, h2⟩ := Finset.mem_filter.mp hm
      rcases hv with hv | hv
      · exact h2 ((gs.bnd v h1).mpr hv)
      · have := gs.inv.lt v h1; omega
    have idL : ∀ l ∈ L, (ord L).idxOf l < L.card := fun l hl => by
      rw [← lenL]; exact List.idxOf_lt_length_of_mem (ho.mem.mpr hl)
    have idb : ∀ i ∈ Finset.range b, (ord (Finset.range b)).idxOf i < b := fun i hi => by
      have := List.idxOf_lt_length_of_mem (ho.mem.mpr hi)
      rwa [lenb] at this
    unfold Graph.mat
    rw [sem_eq_wH gi O2.noW]
    show psum r4.1.interior (fun z => r4.1.wH r4.1.verts z) (gf.bval x y) = _
    rw [int4]
    have e1 : psum s.1.interior (fun z => r4.1.wH r4.1.verts z) (gf.bval x y) =
        psum s.1.interior (fun z => (s.1.wH s.1.verts z * legs s o z) *
          ∏ i ∈ Finset.range b, dmat (x (n + i)) (y (L.card + (ord (Finset.range b)).idxOf i))) (gf.bval x y) := by
      refine psum_congr fun z hz => ?_
      rw [w4]
      refine congrArg₂ (· * ·) (congrArg₂ (· * ·) rfl ?_) ?_
      · unfold legs lg
        rw [ls]
        refine Finset.prod_congr rfl fun l hl => ?_
        rw [hz (V + (ord L).idxOf l) (nint _ (Or.inr (by omega))), bout _ (by have := idL l hl; omega), hoo l hl]
      · refine Finset.prod_congr rfl fun i hi => ?_
        have := Finset.mem_range.mp hi
        rw [hz _ (nint (n + i) (Or.inl (by omega))), bin _ (by omega), Nat.add_assoc,
          hz (V + (L.card + (ord (Finset.range b)).idxOf i)) (nint _ (Or.inr (by omega))), bout _ (by have := idb i hi; omega)]
    rw [e1, psum_mul_const]
    congr 1
    have e2 : psum s.1.interior (fun z => s.1.wH s.1.verts z * legs s o z) (gf.bval x y) = state s (gf.bval x y) o := rfl
    rw [e2, ss]
    have e3 : state (r2.1, r1.2.1) (gf.bval x y) = basisState n x := by
      funext p
      unfold state opn basisState
      show psum r2.1.interior (fun z => r2.1.wH r2.1.verts z * legs (r2.1, r1.2.1) p z) (gf.bval x y) = _
      have hi : r2.1.interior = ∅ := Finset.filter_eq_empty_iff.mpr fun v hv => by simpa using t2 v hv
      rw [hi, psum_empty, w2, one_mul, ← prod_dmat_range]
      unfold legs
      show ∏ q ∈ r1.2.1.labels, _ = _
      rw [I1.labels]
      refine Finset.prod_congr rfl fun q hq => ?_
      have hqn := Finset.mem_range.mp hq
      unfold lg
      show legT (r2.1.ty (r1.2.1.prev q)) (gf.bval x y (r1.2.1.prev q)) (p q) = _
      rw [I1.prev q hqn, v0, Nat.zero_add, t2 q ((m2 q).mpr (by omega)), bin q (by omega)]
      rfl
    rw [e3]


/-- The same without classical bits, with the outputs in order. -/
theorem build_spec0 (n : ℕ) (run : St → Option St) (U : QState → QState)
    (hrun : ∀ s N, Good s N → s.2.labels = Finset.range n → Acts s N (run s) U) :
    ∃ g, ((run ((addInputs n Graph.empty []).1, (addInputs n Graph.empty []).2.1)).bind fun s =>
        (addOutputs s.2 (List.range n) (s.1, [])).bind fun p =>
        some { p.1 with inputs := (addInputs n Graph.empty []).2.2, outputs := p.2 }) = some g ∧
      Result Props.ascending n 0 (Finset.range n) U g := by
  obtain ⟨g, ⟨s, h1, h2⟩, h3, h4⟩ := build_spec Props.ascending_ok n 0 run U (L := Finset.range n) fun s N h hl => by
    obtain ⟨s', q1, q2, q3, q4⟩ := hrun s N h hl
    exact ⟨s', q1, q2, q3.trans hl, q4⟩
  refine ⟨g, ?_, h4⟩
  have h1' : run ((addInputs n Graph.empty []).1, (addInputs n Graph.empty []).2.1) = some s := h1
  rw [h1] at h3
  rw [h1', ← h3]
  simp only [Option.bind_some, h2, Props.ascending_range]
  congr 1
  funext p
  have : Props.ascending (∅ : Finset ℕ) = [] := by simpa using Props.ascending_range 0
  show _ = (addOutputs Mapper.new (Props.ascending ∅) (p.1, p.2)).bind _
  rw [this]
  rfl

/-- The matrix of the result. -/
theorem result_mat {n : ℕ} {U : QState → QState} {g : Graph} (h : Result Props.ascending n 0 (Finset.range n) U g) (x y : ℕ → Bool) :
    g.mat x y = U (basisState n x) y := by
  have := h.mat x y y fun l hl => by rw [Props.ascending_range, idxOf_range (Finset.mem_range.mp hl)]
  simpa using this

/-! ### One iteration -/

theorem addNode_eq {s : St} {N : ℕ} (h : Good s N) {l : ℕ} (hl : l ∈ s.2.labels) (t : VType) (p : ℚ) (e : EType) :
    addNode s t l p e = some ({ (s.1.addVertex t p).setAdj (s.2.prev l) s.1.vindex (some e) with nedges := (s.1.addVertex t p).nedges + 1 },
      s.2.setPrev l s.1.vindex) := by
  obtain ⟨e1, e2, e3, e4, e5, e6, e7, e8, e9, e10⟩ := addVertex_fields s.1 t p
  have hu := h.prev l hl
  unfold addNode Mapper.prevVertex
  rw [if_pos hl]
  show ((s.1.addVertex t p).addEdge (s.2.prev l) s.1.vindex e).bind (fun g => some (g, s.2.setPrev l s.1.vindex)) = _
  rw [addEdge_fresh (by rw [e1]; exact Finset.mem_insert_of_mem hu) (by rw [e1]; exact Finset.mem_insert_self _ _)
    (by rw [h.inv.addVertex_adj]; exact h.inv.adj_vindex (Or.inr rfl))]
  rfl

/-- Changing the type and the phase of the vertex that was just added. -/
theorem retype {s s1 : St} {N : ℕ} (h : Good s N) {l : ℕ} (hl : l ∈ s.2.labels) (t : VType) {p : ℚ} (hp : p ≠ 0) {e : EType}
    (h1 : addNode s .Z l 0 e = some s1) :
    addNode s t l p e = some ((s1.1.setType s.1.vindex t).setPhase s.1.vindex p, s1.2) := by
  rw [addNode_eq h hl, Option.some.injEq] at h1
  rw [addNode_eq h hl, ← h1]
  unfold Graph.addVertex
  rw [if_neg hp, if_pos rfl]
  simp only [Graph.setType, Graph.setPhase, Graph.setAdj, Graph.addVertex0, Function.update_idem]

theorem rephase {s s1 : St} {N : ℕ} (h : Good s N) {l : ℕ} (hl : l ∈ s.2.labels) {p : ℚ} (hp : p ≠ 0) {e : EType}
    (h1 : addNode s .Z l 0 e = some s1) :
    addNode s .Z l p e = some (s1.1.setPhase s.1.vindex p, s1.2) := by
  rw [addNode_eq h hl, Option.some.injEq] at h1
  rw [addNode_eq h hl, ← h1]
  unfold Graph.addVertex
  rw [if_neg hp, if_pos rfl]
  simp only [Graph.setType, Graph.setPhase, Graph.setAdj, Graph.addVertex0]

theorem pairMat_swap (a' c' a c : Bool) : pairMat .Z .X .simple a' c' a c = pairMat .X .Z .simple c' a' c a := by
  unfold pairMat
  rw [Finset.sum_comm]
  refine congrArg _ (Finset.sum_congr rfl fun i _ => Finset.sum_congr rfl fun j _ => ?_)
  rw [contr_simple', contr_simple']
  ring

/-- A CNOT whose control is drawn first. -/
theorem cnot_acts' {s : St} {N : ℕ} (h : Good s N) {c t : ℕ} (hc : c ∈ s.2.labels) (ht : t ∈ s.2.labels) (hct : c ≠ t) :
    Acts s N (addPair s .Z .X t c .simple) (ctrl (mat2 0 1 1 0) c t) := by
  obtain ⟨s', h1, h2, h3, h4⟩ := addPair_spec h (tt := .Z) (tc := .X) (Or.inl rfl) (Or.inr rfl) ht hc (Ne.symm hct) .simple
  obtain ⟨s'', k1, k2, k3, k4⟩ := addPair_spec h (tt := .X) (tc := .Z) (Or.inr rfl) (Or.inl rfl) hc ht hct .simple
  obtain ⟨s3, m1, m2, m3, m4⟩ := cnot_acts h hc ht hct
  rw [k1, Option.some.injEq] at m1
  subst m1
  refine ⟨s', h1, h2, h3, fun b => ?_⟩
  rw [← m4 b]
  funext o
  rw [h4, k4, Finset.sum_comm]
  refine Finset.sum_congr rfl fun i _ => Finset.sum_congr rfl fun j _ => ?_
  rw [pairMat_swap, Function.update_comm hct]

/-- The target of a CNOT, drawn among the other qubits. -/
def tgt (n q0 d : ℕ) : ℕ := if d % (n - 1) ≥ q0 then d % (n - 1) + 1 else d % (n - 1)

theorem tgt_spec {n q0 : ℕ} (hn : 2 ≤ n) (hq : q0 < n) (d : ℕ) : tgt n q0 d < n ∧ tgt n q0 d ≠ q0 := by
  have := Nat.mod_lt d (show n - 1 > 0 by omega)
  unfold tgt
  split <;> omega

/-- The gates of a draw. -/
def Draw.gates (P : Probs) (n : ℕ) (d : Draw) : List Gate :=
  match kind P d.p with
  | .cnot => [.cnot (d.q0 % n) (tgt n (d.q0 % n) d.q1)]
  | .hsh => [.had (d.q0 % n), .mkS (d.q0 % n), .had (d.q0 % n)]
  | .s => [.mkS (d.q0 % n)]
  | .meas => []
  | .t => [.mkT (d.q0 % n)]

theorem iter_acts {P : Probs} {n : ℕ} {s : St} {N : ℕ} (h : Good s N) (hl : s.2.labels = Finset.range n) (hn : 0 < n) {d : Draw}
    (hc : kind P d.p = .cnot → 2 ≤ n) (hm : kind P d.p ≠ .meas) : Acts s N (iter P n s d) (semGates (d.gates P n)) := by
  have hq : d.q0 % n ∈ s.2.labels := by rw [hl]; exact Finset.mem_range.mpr (Nat.mod_lt _ hn)
  have hr : randrange n d.q0 = some (d.q0 % n) := if_neg (by omega)
  obtain ⟨s1, h1, n1⟩ := addNode_spec h (t := .Z) (by decide) (by decide) (by decide) hq 0 .simple
  unfold iter
  rw [hr]
  show Acts s N ((addNode s .Z (d.q0 % n) 0 .simple).bind _) _
  rw [h1]
  unfold Draw.gates
  cases hk : kind P d.p with
  | cnot =>
    have hn2 := hc hk
    obtain ⟨t1, t2⟩ := tgt_spec hn2 (Nat.mod_lt d.q0 hn) d.q1
    have ht : tgt n (d.q0 % n) d.q1 ∈ s.2.labels := by rw [hl]; exact Finset.mem_range.mpr t1
    have := cnot_acts' h hq ht (Ne.symm t2)
    unfold addPair at this
    rw [h1] at this
    have hr1 : randrange (n - 1) d.q1 = some (d.q1 % (n - 1)) := if_neg (by omega)
    simp only [Option.bind_some, hr1]
    exact this
  | hsh =>
    have := xrot_acts h hq (1/2)
    rw [retype h hq .X (by norm_num) h1] at this
    simp only [Option.bind_some]
    have e : semGates [Gate.had (d.q0 % n), .mkS (d.q0 % n), .had (d.q0 % n)] = on1 (matX (1/2)) (d.q0 % n) := by
      funext ψ
      show on1 matH _ (on1 (matZ (1/2 * (if false then -1 else 1))) _ (on1 matH _ ψ)) = _
      rw [on1_mul, on1_mul, ← Props.matH_conj]
      simp [mul_assoc]
    rw [e]
    exact this
  | s =>
    have := zrot_acts h hq (1/2)
    rw [rephase h hq (by norm_num) h1] at this
    simp only [Option.bind_some]
    have e : semGates [Gate.mkS (d.q0 % n)] = on1 (matZ (1/2)) (d.q0 % n) := by
      funext ψ
      show on1 (matZ (1/2 * (if false then -1 else 1))) _ ψ = _
      simp
    rw [e]
    exact this
  | t =>
    have := zrot_acts h hq (1/4)
    rw [rephase h hq (by norm_num) h1] at this
    simp only [Option.bind_some]
    have e : semGates [Gate.mkT (d.q0 % n)] = on1 (matZ (1/4)) (d.q0 % n) := by
      funext ψ
      show on1 (matZ (1/4 * (if false then -1 else 1))) _ ψ = _
      simp
    rw [e]
    exact this
  | meas => exact absurd hk hm

theorem iters_acts {P : Probs} {n : ℕ} {N : ℕ} (hn : 0 < n) (ds : List Draw) : ∀ {s : St}, Good s N → s.2.labels = Finset.range n →
    (∀ d ∈ ds, (kind P d.p = .cnot → 2 ≤ n) ∧ kind P d.p ≠ .meas) →
    Acts s N (ds.foldlM (iter P n) s) (semGates (ds.flatMap (·.gates P n))) := by
  induction ds with
  | nil => exact fun h _ _ => ⟨_, rfl, h, rfl, fun b => rfl⟩
  | cons d r ih =>
    intro s h hl hd
    rw [List.foldlM_cons]
    have := (iter_acts h hl hn (hd d (by simp)).1 (hd d (by simp)).2).bind (f := fun s' => r.foldlM (iter P n) s')
      fun s' g' l' => ih g' (l'.trans hl) fun e he => hd e (by simp [he])
    rw [List.flatMap_cons]
    have e : semGates (d.gates P n ++ r.flatMap (·.gates P n)) = fun ψ => semGates (r.flatMap (·.gates P n)) (semGates (d.gates P n) ψ) := by
      funext ψ
      unfold semGates
      rw [List.foldl_append]
    rw [e]
    exact this

theorem matZ_zero : matZ 0 = 1 := by
  ext a b
  cases a <;> cases b <;> simp [matZ, mat2, ph]

theorem row_acts {N : ℕ} : ∀ (ls : List ℕ) {s : St}, Good s N → (∀ l ∈ ls, l ∈ s.2.labels) →
    Acts s N (ls.foldlM (fun s i => addNode s .Z i 0 .simple) s) id := by
  intro ls
  induction ls with
  | nil => exact fun h _ => ⟨_, rfl, h, rfl, fun b => rfl⟩
  | cons i r ih =>
    intro s h hl
    rw [List.foldlM_cons]
    have := (zrot_acts h (hl i (by simp)) 0).bind (f := fun s' => r.foldlM (fun s i => addNode s .Z i 0 .simple) s')
      fun s' g' l' => ih g' fun l hh => by rw [l']; exact hl l (by simp [hh])
    rw [matZ_zero] at this
    obtain ⟨s', q1, q2, q3, q4⟩ := this
    exact ⟨s', q1, q2, q3, fun b => by rw [q4]; exact on1_one _ _⟩

end Generate
end PyZX
