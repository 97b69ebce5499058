import Verif.Proofs.RouteTree
import Verif.Proofs.LinalgApp

/-!
# `rec_steiner_gauss` reduces to the identity if consecutive qubits are coupled
-/

namespace PyZX
namespace Routing
open Mat2

variable {A : Arch} {o : Order}

/-- The vertex of a qubit. -/
def vtx (A : Arch) (q : ℕ) : ℕ := A.qmap.getD q 0

theorem getElem?_vtx {q : ℕ} (h : q < A.qmap.length) : A.qmap[q]? = some (vtx A q) := by
  unfold vtx
  rw [List.getD_eq_getElem?_getD, List.getElem?_eq_getElem h]; rfl

theorem vertex_eq {q : ℕ} (h : q < A.qmap.length) : A.vertex q = some (vtx A q) := getElem?_vtx h

theorem qubit_vtx (hA : A.OK) {q : ℕ} (h : q < A.qmap.length) : A.qubit (vtx A q) = q := hA.qubit_of (getElem?_vtx h)

theorem mapM_vertex {l : List ℕ} (h : ∀ q ∈ l, q < A.qmap.length) : l.mapM A.vertex = some (l.map (vtx A)) := by
  induction l with
  | nil => rfl
  | cons q l ih =>
    rw [List.mapM_cons, vertex_eq (h q (by simp)), ih fun x hx => h x (by simp [hx])]
    rfl

theorem Coupled.lt {a b : ℕ} (h : Coupled A a b) : a < A.qmap.length ∧ b < A.qmap.length := by
  obtain ⟨u, v, h1, h2, -⟩ := h
  constructor
  · by_contra hc
    rw [List.getElem?_eq_none (by omega)] at h1; simp at h1
  · by_contra hc
    rw [List.getElem?_eq_none (by omega)] at h2; simp at h2

theorem Coupled.vtx {a b : ℕ} (h : Coupled A a b) : vtx A b ∈ nbrsOf A.adj (vtx A a) := by
  obtain ⟨ha, hb⟩ := h.lt
  obtain ⟨u, v, h1, h2, h3⟩ := h
  rw [getElem?_vtx ha] at h1
  rw [getElem?_vtx hb] at h2
  rw [Option.some.inj h1, Option.some.inj h2]; exact h3

/-! ### The tree of qubits -/

/-- What the two phases of `rec_steiner_tree` yield. -/
structure QTree (root : ℕ) (nodes usable rec : List ℕ) (upper : Bool) (l1 l2 : List (ℕ × ℕ)) : Prop where
  mem : ∀ e, e ∈ l1 ↔ e ∈ l2
  inj : ∀ e ∈ l1, ∀ f ∈ l1, e.2 = f.2 → e = f
  nodup : l2.Nodup
  notRoot : ∀ e ∈ l1, e.2 ≠ root
  closed : ∀ e ∈ l1, e.1 = root ∨ ∃ f ∈ l1, f.2 = e.1
  irrefl : ∀ e ∈ l1, e.1 ≠ e.2
  down : l1.Pairwise (fun e e' => e'.2 ≠ e.1)
  up : l2.Pairwise (fun e e' => e'.1 ≠ e.2)
  leaf : ∀ e ∈ l1, (∀ f ∈ l1, f.1 ≠ e.2) → e.2 ∈ nodes
  has : ∀ q ∈ nodes, q = root ∨ ∃ e ∈ l1, e.2 = q
  inside : ∀ e ∈ l1, e.1 ∈ usable ∧ e.2 ∈ usable
  dir : ∀ e ∈ l1, upper = true ∨ (e.1 ∈ rec ∧ e.2 ∈ rec) ∨ e.2 < e.1

theorem recTree_spec (hA : A.OK) (ho : o.OK) {start : ℕ} {ts us rec : List ℕ} {upper : Bool} (hu : ∀ q ∈ us, q < A.qmap.length)
    (hr : ∀ q ∈ rec, q < A.qmap.length) (hs : start ∈ us) (hts : ∀ q ∈ ts, q ∈ us)
    (hwalk : ∀ t ∈ ts, ∃ p, Walk (Allowed A (us.map (vtx A)) upper (rec.map (vtx A))) p (vtx A start) (vtx A t)) :
    ∃ l1 l2, recTree A o start ts us rec upper = some (l1, l2) ∧ QTree start ts us rec upper l1 l2 := by
  unfold recTree
  rw [if_pos hts, vertex_eq (hu _ hs), mapM_vertex hu, mapM_vertex fun q hq => hu q (hts q hq), mapM_vertex hr]
  simp only
  obtain ⟨d, hd, hw, hex⟩ := floyd_spec hA (us.map (vtx A)) upper (rec.map (vtx A))
  rw [hd]
  simp only
  set R := Allowed A (us.map (vtx A)) upper (rec.map (vtx A)) with hR
  have hinit : PrimOK R (us.map (vtx A)) (vtx A start) (fun _ => False) ([vtx A start], [], []) := by
    refine ⟨Tree.nil _, by simp, by simp, by simp, ?_, by simp⟩
    intro x hx
    simp only [List.mem_singleton, List.not_mem_nil, or_false] at hx
    subst hx
    exact List.mem_map_of_mem hs
  obtain ⟨⟨vs, pnts, es⟩, ht, hok⟩ := recPrim_spec (fun a b h => h.2.1) hw hex hinit (n := (ts.map (vtx A)).length) (nodes := ts.map (vtx A)) le_rfl
    (fun x hx => by
      obtain ⟨t, ht, rfl⟩ := List.mem_map.mp hx
      exact ⟨List.mem_map_of_mem (hts t ht), hwalk t ht⟩)
  rw [ht]
  simp only
  simp only [false_or] at hok
  have hperm : (o.e es.dedup).Perm es := by
    have := ho.2 es.dedup
    rwa [hok.tree.nodup.dedup] at this ⊢
  have htree := hok.tree.perm hperm
  have hmem : ∀ e, e ∈ o.e es.dedup ↔ e ∈ es := fun e => hperm.mem_iff
  obtain ⟨l1, e1, n1, m1, p1⟩ := recDown_spec htree (fuel := (o.e es.dedup).length + 1) (F := [vtx A start]) (S := []) (fun _ => False) (by simp) (by simp) (by simp) (by simp)
    (by simp)
  obtain ⟨l2, e2, n2, m2, p2⟩ := recUp_spec htree (vs := vs) (pnts := pnts) (fun x hx => (hok.verts x).mpr (.inr (by
      rw [← (hperm.map Prod.snd).mem_iff]; exact hx))) (fuel := (o.e es.dedup).length + 1) htree.nodup (fun _ h => h) (by omega)
  rw [e1, e2]
  simp only [List.not_mem_nil, not_false_eq_true, and_true] at m1
  -- the vertices of the edges
  have hv : ∀ e ∈ es, (∃ a ∈ us, vtx A a = e.1) ∧ ∃ b ∈ us, vtx A b = e.2 := by
    intro e he
    obtain ⟨h1, h2, -⟩ := hok.edges e he
    obtain ⟨a, ha, ha'⟩ := List.mem_map.mp h1
    obtain ⟨b, hb, hb'⟩ := List.mem_map.mp h2
    exact ⟨⟨a, ha, ha'⟩, b, hb, hb'⟩
  have hq1 : ∀ e ∈ es, vtx A (A.qubit e.1) = e.1 := by
    intro e he
    obtain ⟨a, ha, ha'⟩ := (hv e he).1
    rw [← ha', qubit_vtx hA (hu a ha)]
  have hq2 : ∀ e ∈ es, vtx A (A.qubit e.2) = e.2 := by
    intro e he
    obtain ⟨a, ha, ha'⟩ := (hv e he).2
    rw [← ha', qubit_vtx hA (hu a ha)]
  have m1' : ∀ e, e ∈ l1 ↔ e ∈ es := fun e => (m1 e).trans (hmem e)
  have m2' : ∀ e, e ∈ l2 ↔ e ∈ es := fun e => (m2 e).trans (hmem e)
  set φ := fun e : ℕ × ℕ => (A.qubit e.1, A.qubit e.2) with hφ
  have hφinj : ∀ e ∈ es, ∀ f ∈ es, φ e = φ f → e = f := by
    intro e he f hf h
    simp only [hφ, Prod.mk.injEq] at h
    exact Prod.ext (by rw [← hq1 e he, ← hq1 f hf, h.1]) (by rw [← hq2 e he, ← hq2 f hf, h.2])
  have hl1 : ∀ e, e ∈ l1.map φ ↔ ∃ x ∈ es, φ x = e := by
    intro e; rw [List.mem_map]; constructor
    · rintro ⟨x, hx, h⟩; exact ⟨x, (m1' x).mp hx, h⟩
    · rintro ⟨x, hx, h⟩; exact ⟨x, (m1' x).mpr hx, h⟩
  have hl2 : ∀ e, e ∈ l2.map φ ↔ ∃ x ∈ es, φ x = e := by
    intro e; rw [List.mem_map]; constructor
    · rintro ⟨x, hx, h⟩; exact ⟨x, (m2' x).mp hx, h⟩
    · rintro ⟨x, hx, h⟩; exact ⟨x, (m2' x).mpr hx, h⟩
  refine ⟨_, _, rfl, ?_⟩
  constructor
  · intro e; rw [hl1, hl2]
  · intro e he f hf h
    obtain ⟨x, hx, rfl⟩ := (hl1 e).mp he
    obtain ⟨y, hy, rfl⟩ := (hl1 f).mp hf
    have : x.2 = y.2 := by rw [← hq2 x hx, ← hq2 y hy]; exact congrArg _ h
    rw [hok.tree.uniq hx hy this]
  · refine (List.nodup_map_iff_inj_on n2).mpr ?_
    intro x hx y hy h
    exact hφinj x ((m2' x).mp hx) y ((m2' y).mp hy) h
  · intro e he h
    obtain ⟨x, hx, rfl⟩ := (hl1 e).mp he
    have : x.2 = vtx A start := by rw [← hq2 x hx, ← h]
    exact hok.tree.notRoot (this ▸ List.mem_map_of_mem hx)
  · intro e he
    obtain ⟨x, hx, rfl⟩ := (hl1 e).mp he
    rcases hok.tree.closed x hx with h | h
    · exact .inl (by simp only [hφ]; rw [h, qubit_vtx hA (hu _ hs)])
    · obtain ⟨y, hy, hyx⟩ := List.mem_map.mp h
      exact .inr ⟨φ y, (hl1 _).mpr ⟨y, hy, rfl⟩, by simp only [hφ]; rw [hyx]⟩
  · intro e he h
    obtain ⟨x, hx, rfl⟩ := (hl1 e).mp he
    have hxx : x.1 = x.2 := by rw [← hq1 x hx, ← hq2 x hx]; exact congrArg _ h
    have hn := (hok.edges x hx).2.2.1
    rw [hxx] at hn
    exact hA.irrefl _ hn
  · rw [List.pairwise_map]
    refine p1.imp_of_mem ?_
    intro x y hx hy hne h
    have hx := (m1' x).mp hx
    have hy := (m1' y).mp hy
    exact hne (by rw [← hq2 y hy, ← hq1 x hx]; exact congrArg _ h)
  · rw [List.pairwise_map]
    refine p2.imp_of_mem ?_
    intro x y hx hy hne h
    have hx := (m2' x).mp hx
    have hy := (m2' y).mp hy
    exact hne (by rw [← hq1 y hy, ← hq2 x hx]; exact congrArg _ h)
  · intro e he hleaf
    obtain ⟨x, hx, rfl⟩ := (hl1 e).mp he
    have := hok.leaf x.2 (List.mem_map_of_mem hx) (fun h => by
      obtain ⟨y, hy, hyx⟩ := List.mem_map.mp h
      exact hleaf (φ y) ((hl1 _).mpr ⟨y, hy, rfl⟩) (by simp only [hφ]; rw [hyx]))
    obtain ⟨t, ht, htx⟩ := List.mem_map.mp this
    have hh : (φ x).2 = t := by simp only [hφ]; rw [← htx, qubit_vtx hA (hu _ (hts t ht))]
    rw [hh]; exact ht
  · intro q hq
    rcases (hok.verts _).mp (hok.has _ (List.mem_map_of_mem hq)) with h | h
    · left
      rw [← qubit_vtx hA (hu _ (hts q hq)), h, qubit_vtx hA (hu _ hs)]
    · obtain ⟨y, hy, hyx⟩ := List.mem_map.mp h
      exact .inr ⟨φ y, (hl1 _).mpr ⟨y, hy, rfl⟩, by simp only [hφ]; rw [hyx, qubit_vtx hA (hu _ (hts q hq))]⟩
  · intro e he
    obtain ⟨x, hx, rfl⟩ := (hl1 e).mp he
    obtain ⟨⟨a, ha, ha'⟩, b, hb, hb'⟩ := hv x hx
    simp only [hφ]
    rw [← ha', ← hb', qubit_vtx hA (hu _ ha), qubit_vtx hA (hu _ hb)]
    exact ⟨ha, hb⟩
  · intro e he
    obtain ⟨x, hx, rfl⟩ := (hl1 e).mp he
    obtain ⟨-, -, -, h | ⟨h1, h2⟩ | h⟩ := hok.edges x hx
    · exact .inl h
    · obtain ⟨a, ha, ha'⟩ := List.mem_map.mp h1
      obtain ⟨b, hb, hb'⟩ := List.mem_map.mp h2
      simp only [hφ]
      rw [← ha', ← hb', qubit_vtx hA (hr _ ha), qubit_vtx hA (hr _ hb)]
      exact .inr (.inl ⟨ha, hb⟩)
    · exact .inr (.inr h)

/-! ### The column -/

/-- The additions on a column. -/
def colRun (L : List (ℕ × ℕ)) (c : List Bool) : List Bool := L.foldl (fun c e => colOp e.1 e.2 c) c

theorem getD_colOp {a b : ℕ} {c : List Bool} (hb : b < c.length) (i : ℕ) :
    (colOp a b c).getD i false = if i = b then xor (c.getD b false) (c.getD a false) else c.getD i false := by
  unfold colOp
  simp only [List.getD_eq_getElem?_getD, List.getElem?_set]
  by_cases h : b = i
  · subst h; simp [hb]
  · have h' : i ≠ b := fun e => h e.symm
    rw [if_neg h, if_neg h']

theorem length_colOp (a b : ℕ) (c : List Bool) : (colOp a b c).length = c.length := by simp [colOp]

theorem length_colRun (L : List (ℕ × ℕ)) (c : List Bool) : (colRun L c).length = c.length := by
  induction L generalizing c with
  | nil => rfl
  | cons e L ih => exact (ih _).trans (length_colOp _ _ _)

theorem colRun_snoc (L : List (ℕ × ℕ)) (e : ℕ × ℕ) (c : List Bool) : colRun (L ++ [e]) c = colOp e.1 e.2 (colRun L c) := by
  simp [colRun, List.foldl_append]

theorem fill_spec {c0 : List Bool} (l : List (ℕ × ℕ)) (t : List Bool × List (ℕ × ℕ)) (ht : t.1 = colRun t.2 c0) (hl : ∀ e ∈ l, e.2 < c0.length)
    (hr : ∀ l1 e l2, l = l1 ++ e :: l2 → t.1.getD e.1 false = true ∨ ∃ f ∈ l1, f.2 = e.1) :
    (l.foldl colFill t).1 = colRun (l.foldl colFill t).2 c0 ∧
      ∀ i, (l.foldl colFill t).1.getD i false = (t.1.getD i false || decide (i ∈ l.map Prod.snd)) := by
  induction l generalizing t with
  | nil => exact ⟨ht, by simp⟩
  | cons e l ih =>
    rw [List.foldl_cons]
    have h1 : t.1.getD e.1 false = true := (hr [] e l rfl).resolve_right (by simp)
    have hlen : t.1.length = c0.length := by rw [ht, length_colRun]
    have hstep : (colFill t e).1 = colRun (colFill t e).2 c0 ∧ ∀ i, (colFill t e).1.getD i false = (t.1.getD i false || decide (i = e.2)) := by
      unfold colFill
      by_cases h : t.1.getD e.2 false = true
      · rw [if_pos h]
        refine ⟨ht, fun i => ?_⟩
        by_cases hi : i = e.2
        · subst hi; rw [h]; rfl
        · simp [hi]
      · rw [if_neg h]
        refine ⟨by rw [colRun_snoc, ht], fun i => ?_⟩
        rw [getD_colOp (by rw [hlen]; exact hl e (by simp)), h1]
        rw [Bool.not_eq_true] at h
        by_cases hi : i = e.2
        · subst hi; rw [h]; simp
        · simp [hi]
    obtain ⟨i1, i2⟩ := ih (colFill t e) hstep.1 (fun e he => hl e (by simp [he])) (by
      intro l1 f l2 hf
      rw [hstep.2]
      rcases hr (e :: l1) f l2 (by rw [hf]; rfl) with h | ⟨g, hg, hgf⟩
      · left; rw [h]; rfl
      · rcases List.mem_cons.mp hg with rfl | hg
        · left; simp [hgf]
        · exact .inr ⟨g, hg, hgf⟩)
    refine ⟨i1, fun i => ?_⟩
    rw [i2, hstep.2]
    simp only [List.map_cons, List.mem_cons, Bool.or_assoc, Bool.decide_or]

theorem zero_spec {c0 : List Bool} (r : List (ℕ × ℕ)) (t : List Bool × List (ℕ × ℕ)) (ht : t.1 = colRun t.2 c0) (hl : ∀ e ∈ r, e.1 < c0.length)
    (hm : ∀ i, c0.getD i false = true → t.1.getD i false = true)
    (hr : ∀ l1 e l2, r = l1 ++ e :: l2 → t.1.getD e.2 false = true ∨ ∃ f ∈ l1, f.1 = e.2) :
    ((r.filter fun e => !(c0.getD e.1 false)).foldl colZero t).1 = colRun ((r.filter fun e => !(c0.getD e.1 false)).foldl colZero t).2 c0 ∧
      ∀ i, ((r.filter fun e => !(c0.getD e.1 false)).foldl colZero t).1.getD i false = (t.1.getD i false || decide (i ∈ r.map Prod.fst)) := by
  induction r generalizing t with
  | nil => exact ⟨ht, by simp⟩
  | cons e r ih =>
    have h2 : t.1.getD e.2 false = true := (hr [] e r rfl).resolve_right (by simp)
    have hlen : t.1.length = c0.length := by rw [ht, length_colRun]
    obtain ⟨t', ht', hs1, hs2⟩ : ∃ t', ((e :: r).filter fun e => !(c0.getD e.1 false)).foldl colZero t = (r.filter fun e => !(c0.getD e.1 false)).foldl colZero t' ∧
        t'.1 = colRun t'.2 c0 ∧ ∀ i, t'.1.getD i false = (t.1.getD i false || decide (i = e.1)) := by
      by_cases h : c0.getD e.1 false = true
      · refine ⟨t, by rw [List.filter_cons_of_neg (by simp only [h]; simp)], ht, fun i => ?_⟩
        by_cases hi : i = e.1
        · subst hi; rw [hm _ h]; rfl
        · simp [hi]
      · rw [Bool.not_eq_true] at h
        refine ⟨colZero t e, by rw [List.filter_cons_of_pos (by simp only [h]; simp)]; rfl, ?_⟩
        unfold colZero
        by_cases h' : t.1.getD e.1 false = true
        · rw [if_pos h']
          refine ⟨ht, fun i => ?_⟩
          by_cases hi : i = e.1
          · subst hi; rw [h']; rfl
          · simp [hi]
        · rw [if_neg h']
          refine ⟨by rw [colRun_snoc, ht], fun i => ?_⟩
          rw [getD_colOp (by rw [hlen]; exact hl e (by simp)), h2]
          rw [Bool.not_eq_true] at h'
          by_cases hi : i = e.1
          · subst hi; rw [h']; simp
          · simp [hi]
    rw [ht']
    obtain ⟨i1, i2⟩ := ih t' hs1 (fun e he => hl e (by simp [he])) (fun i hi => by rw [hs2, hm i hi]; rfl) (by
      intro l1 f l2 hf
      rw [hs2]
      rcases hr (e :: l1) f l2 (by rw [hf]; rfl) with h | ⟨g, hg, hgf⟩
      · left; rw [h]; rfl
      · rcases List.mem_cons.mp hg with rfl | hg
        · left; simp [hgf]
        · exact .inr ⟨g, hg, hgf⟩)
    refine ⟨i1, fun i => ?_⟩
    rw [i2, hs2]
    simp only [List.map_cons, List.mem_cons, Bool.or_assoc, Bool.decide_or]

theorem up_spec (l : List (ℕ × ℕ)) (c : List Bool) (hl : ∀ e ∈ l, e.2 < c.length) (h1 : ∀ e ∈ l, c.getD e.1 false = true ∧ c.getD e.2 false = true)
    (hp : l.Pairwise (fun e e' => e'.1 ≠ e.2)) (hn : l.Pairwise (fun e e' => e'.2 ≠ e.2)) (i : ℕ) :
    (colRun l c).getD i false = (c.getD i false && decide (i ∉ l.map Prod.snd)) := by
  induction l generalizing c with
  | nil => simp [colRun]
  | cons e l ih =>
    rw [List.pairwise_cons] at hp hn
    have he := h1 e (by simp)
    have hg := getD_colOp (a := e.1) (c := c) (hl e (by simp))
    have : colRun (e :: l) c = colRun l (colOp e.1 e.2 c) := rfl
    rw [this, ih _ (fun f hf => by rw [length_colOp]; exact hl f (by simp [hf])) ?_ hp.2 hn.2, hg]
    · rw [he.1, he.2]
      by_cases hi : i = e.2
      · subst hi; simp
      · rw [if_neg hi]
        simp only [List.map_cons, List.mem_cons, hi, false_or]
    · intro f hf
      rw [hg, hg, if_neg (hp.1 f hf), if_neg (hn.1 f hf)]
      exact h1 f (by simp [hf])

theorem pairwise_ready {l : List (ℕ × ℕ)} {Q : ℕ × ℕ → ℕ × ℕ → Prop} (h : l.Pairwise Q) {l1 l2 : List (ℕ × ℕ)} {e f : ℕ × ℕ} (hl : l = l1 ++ e :: l2) (hf : f ∈ l)
    (hQ : ¬ Q e f) (hne : f ≠ e) : f ∈ l1 := by
  subst hl
  rw [List.pairwise_append, List.pairwise_cons] at h
  rcases List.mem_append.mp hf with hf | hf
  · exact hf
  · rcases List.mem_cons.mp hf with hf | hf
    · exact absurd hf hne
    · exact absurd (h.2.1.1 f hf) hQ

/-- The additions make the column the one of the root. -/
theorem reduceColumn_spec (hA : A.OK) (ho : o.OK) {col : List Bool} {root : ℕ} {nodes us rec : List ℕ} {upper : Bool} (hlen : col.length = A.qmap.length)
    (hu : ∀ q ∈ us, q < A.qmap.length) (hr : ∀ q ∈ rec, q < A.qmap.length) (hs : root ∈ us)
    (hnodes : ∀ q, q ∈ nodes ↔ q ∈ us ∧ (q = root ∨ col.getD q false = true))
    (hwalk : ∀ t ∈ nodes, ∃ p, Walk (Allowed A (us.map (vtx A)) upper (rec.map (vtx A))) p (vtx A root) (vtx A t))
    (hone : if upper = true then ∃ q ∈ us, col.getD q false = true else col.getD root false = true) :
    ∃ L, reduceColumn A o col root nodes us rec upper = some L ∧
      (∀ e ∈ L, e.1 ∈ us ∧ e.2 ∈ us ∧ e.1 ≠ e.2 ∧ (upper = true ∨ (e.1 ∈ rec ∧ e.2 ∈ rec) ∨ e.2 < e.1)) ∧
      ∀ i, (colRun L col).getD i false = if i = root then true else if i ∈ us then false else col.getD i false := by
  obtain ⟨l1, l2, ht, T⟩ := recTree_spec hA ho hu hr hs (fun q hq => ((hnodes q).mp hq).1) hwalk
  have hrng : inRange col.length (l1 ++ l2) = true := by
    rw [inRange_iff]
    intro e he
    have he' : e ∈ l1 := by
      rcases List.mem_append.mp he with h | h
      · exact h
      · exact (T.mem e).mpr h
    have := T.inside e he'
    rw [hlen]
    exact ⟨hu _ this.1, hu _ this.2⟩
  -- after the second phase
  have hfin : ∀ c1 : List Bool, c1.length = col.length → (c1.getD root false = true) → (∀ e ∈ l1, c1.getD e.1 false = true ∧ c1.getD e.2 false = true) →
      (∀ i, (∀ e ∈ l1, e.1 ≠ i ∧ e.2 ≠ i) → i ≠ root → c1.getD i false = col.getD i false) →
      ∀ i, (colRun l2 c1).getD i false = if i = root then true else if i ∈ us then false else col.getD i false := by
    intro c1 hc1 hroot hall hout i
    rw [up_spec l2 c1 (fun e he => by
        rw [hc1, hlen]; exact hu _ (T.inside e ((T.mem e).mpr he)).2) (fun e he => hall e ((T.mem e).mpr he)) T.up ?_]
    · by_cases hi : i = root
      · subst hi
        rw [if_pos rfl, hroot]
        simp only [Bool.true_and, decide_eq_true_eq]
        intro h
        obtain ⟨e, he, h⟩ := List.mem_map.mp h
        exact T.notRoot e ((T.mem e).mpr he) h
      · rw [if_neg hi]
        by_cases hit : i ∈ l2.map Prod.snd
        · obtain ⟨e, he, rfl⟩ := List.mem_map.mp hit
          rw [if_pos (T.inside e ((T.mem e).mpr he)).2]
          simp only [hit, not_true_eq_false, decide_false, Bool.and_false]
        · have hno : ∀ e ∈ l1, e.1 ≠ i ∧ e.2 ≠ i := by
            intro e he
            have h2 : ∀ f ∈ l1, f.2 ≠ i := fun f hf h => hit (List.mem_map.mpr ⟨f, (T.mem f).mp hf, h⟩)
            refine ⟨fun h => ?_, h2 e he⟩
            rcases T.closed e he with h' | ⟨f, hf, h'⟩
            · exact hi (h.symm.trans h')
            · exact h2 f hf (h'.trans h)
          rw [hout i hno hi]
          simp only [hit, not_false_eq_true, decide_true, Bool.and_true]
          by_cases hius : i ∈ us
          · rw [if_pos hius]
            by_contra hc
            rw [Bool.not_eq_false] at hc
            rcases T.has i ((hnodes i).mpr ⟨hius, .inr hc⟩) with h | ⟨e, he, h⟩
            · exact hi h
            · exact (hno e he).2 h
          · rw [if_neg hius]
    · rw [List.pairwise_iff_forall_sublist]
      intro a b hab h
      have ha : a ∈ l2 := hab.subset (by simp)
      have hb : b ∈ l2 := hab.subset (by simp)
      have := T.inj b ((T.mem b).mpr hb) a ((T.mem a).mpr ha) h
      subst this
      have := hab.nodup T.nodup
      simp at this
  unfold reduceColumn
  rw [ht]
  simp only [hrng, if_true]
  by_cases hup : upper = true
  · subst hup
    simp only [if_true] at hone ⊢
    have hready : ∀ r1 e r2, l1.reverse = r1 ++ e :: r2 → (col, ([] : List (ℕ × ℕ))).1.getD e.2 false = true ∨ ∃ f ∈ r1, f.1 = e.2 := by
      intro r1 e r2 he
      have hel : e ∈ l1 := by rw [← List.mem_reverse, he]; simp
      by_cases hex : ∃ f ∈ l1, f.1 = e.2
      · obtain ⟨f, hf, hfe⟩ := hex
        have hp : l1.reverse.Pairwise (fun e e' => e.2 ≠ e'.1) := by rw [List.pairwise_reverse]; exact T.down
        refine .inr ⟨f, pairwise_ready hp he (by rw [List.mem_reverse]; exact hf) (fun h => h hfe.symm) ?_, hfe⟩
        rintro rfl
        exact T.irrefl f hf hfe
      · push Not at hex
        rcases ((hnodes _).mp (T.leaf e hel hex)).2 with h | h
        · exact absurd h (T.notRoot e hel)
        · exact .inl h
    obtain ⟨z1, z2⟩ := zero_spec (c0 := col) l1.reverse (col, []) rfl (fun e he => by
        rw [hlen]; exact hu _ (T.inside e (by simpa using he)).1) (fun _ h => h) hready
    rw [List.filter_reverse] at z1 z2
    set Z := (l1.filter fun e => !(col.getD e.1 false)).reverse.foldl colZero (col, []) with hZ
    refine ⟨_, rfl, ?_, ?_⟩
    · intro e he
      rcases List.mem_append.mp he with he | he
      · have := colZero_fold (l1.filter fun e => !(col.getD e.1 false)).reverse (col, []) (fun e => e.1 ∈ us ∧ e.2 ∈ us ∧ e.1 ≠ e.2) (by simp) (fun x hx => by
          rw [List.mem_reverse] at hx
          have hx := (List.mem_filter.mp hx).1
          have := T.inside x hx
          exact ⟨this.2, this.1, (T.irrefl x hx).symm⟩) e he
        exact ⟨this.1, this.2.1, this.2.2, .inl trivial⟩
      · have := T.inside e ((T.mem e).mpr he)
        exact ⟨this.1, this.2, T.irrefl e ((T.mem e).mpr he), .inl trivial⟩
    · have happ : colRun (Z.2 ++ l2) col = colRun l2 Z.1 := by rw [z1]; simp [colRun, List.foldl_append]
      rw [happ]
      refine hfin Z.1 (by rw [z1, length_colRun]) ?_ ?_ ?_
      · rw [z2]
        by_cases hc : col.getD root false = true
        · rw [hc]; rfl
        · obtain ⟨q, hq, hcq⟩ := hone
          have hqr : q ≠ root := by rintro rfl; exact hc hcq
          obtain ⟨e, he, -⟩ := (T.has q ((hnodes q).mpr ⟨hq, .inr hcq⟩)).resolve_left hqr
          cases hl1 : l1 with
          | nil => rw [hl1] at he; simp at he
          | cons f l =>
            have hf : f ∈ l1 := by rw [hl1]; simp
            have hfr : f.1 = root := by
              rcases T.closed f hf with h | ⟨g, hg, hgf⟩
              · exact h
              · have := pairwise_ready T.down (l1 := []) (l2 := l) hl1 hg (fun h => h hgf) (by
                  rintro rfl; exact T.irrefl g hg hgf.symm)
                simp at this
            simp [hfr]
      · intro e he
        rw [z2, z2]
        refine ⟨by simp [List.mem_map_of_mem (f := Prod.fst) he], ?_⟩
        by_cases hex : ∃ f ∈ l1, f.1 = e.2
        · obtain ⟨f, hf, hfe⟩ := hex
          have : e.2 ∈ l1.reverse.map Prod.fst := List.mem_map.mpr ⟨f, by simpa using hf, hfe⟩
          simp only [this, decide_true, Bool.or_true]
        · push Not at hex
          rcases ((hnodes _).mp (T.leaf e he hex)).2 with h | h
          · exact absurd h (T.notRoot e he)
          · simp only [h, Bool.true_or]
      · intro i hi hir
        rw [z2]
        have : i ∉ l1.reverse.map Prod.fst := by
          intro h
          obtain ⟨e, he, h⟩ := List.mem_map.mp h
          exact (hi e (by simpa using he)).1 h
        simp only [this, decide_false, Bool.or_false]
  · rw [Bool.not_eq_true] at hup
    subst hup
    simp only [Bool.false_eq_true, if_false] at hone ⊢
    obtain ⟨z1, z2⟩ := fill_spec (c0 := col) l1 (col, []) rfl (fun e he => by
        rw [hlen]; exact hu _ (T.inside e he).2) (by
      intro r1 e r2 he
      have hel : e ∈ l1 := by rw [he]; simp
      rcases T.closed e hel with h | ⟨f, hf, hfe⟩
      · left; rw [h]; exact hone
      · refine .inr ⟨f, pairwise_ready T.down he hf (fun h => h hfe) ?_, hfe⟩
        rintro rfl
        exact T.irrefl f hf hfe.symm)
    set Z := l1.foldl colFill (col, []) with hZ
    refine ⟨_, rfl, ?_, ?_⟩
    · intro e he
      have key : ∀ x ∈ l1, x.1 ∈ us ∧ x.2 ∈ us ∧ x.1 ≠ x.2 ∧ ((x.1 ∈ rec ∧ x.2 ∈ rec) ∨ x.2 < x.1) := by
        intro x hx
        have := T.inside x hx
        exact ⟨this.1, this.2, T.irrefl x hx, (T.dir x hx).resolve_left (by simp)⟩
      rcases List.mem_append.mp he with he | he
      · have := colFill_fold l1 (col, []) (fun x => x.1 ∈ us ∧ x.2 ∈ us ∧ x.1 ≠ x.2 ∧ ((x.1 ∈ rec ∧ x.2 ∈ rec) ∨ x.2 < x.1)) (by simp) key e he
        exact ⟨this.1, this.2.1, this.2.2.1, .inr this.2.2.2⟩
      · have := key e ((T.mem e).mpr he)
        exact ⟨this.1, this.2.1, this.2.2.1, .inr this.2.2.2⟩
    · have happ : colRun (Z.2 ++ l2) col = colRun l2 Z.1 := by rw [z1]; simp [colRun, List.foldl_append]
      rw [happ]
      refine hfin Z.1 (by rw [z1, length_colRun]) (by rw [z2]; simp only [hone, Bool.true_or]) ?_ ?_
      · intro e he
        rw [z2, z2]
        refine ⟨?_, by simp [List.mem_map_of_mem (f := Prod.snd) he]⟩
        rcases T.closed e he with h | ⟨f, hf, hfe⟩
        · rw [h]; simp only [hone, Bool.true_or]
        · have : e.1 ∈ l1.map Prod.snd := List.mem_map.mpr ⟨f, hf, hfe⟩
          simp only [this, decide_true, Bool.or_true]
      · intro i hi hir
        rw [z2]
        have : i ∉ l1.map Prod.snd := by
          intro h
          obtain ⟨e, he, h⟩ := List.mem_map.mp h
          exact (hi e he).2 h
        simp only [this, decide_false, Bool.or_false]

/-! ### The matrix -/

theorem col_rows {n k c : ℕ} (L : List (ℕ × ℕ)) (hL : ∀ e ∈ L, e.1 < n ∧ e.2 < n) {m : Data} (hm : Rect n k m) {cl : List Bool} (hcl : cl.length = n)
    (h : ∀ i, get m i c = cl.getD i false) (i : ℕ) : get (L.foldl (fun d p => Mat2.rowAdd p.1 p.2 d) m) i c = (colRun L cl).getD i false := by
  induction L generalizing m cl with
  | nil => exact h i
  | cons e L ih =>
    have he := hL e (by simp)
    refine ih (fun f hf => hL f (by simp [hf])) (hm.rowAdd he.1 he.2) (by rw [length_colOp]; exact hcl) ?_
    intro j
    rw [get_rowAdd hm he.1 he.2, getD_colOp (by rw [hcl]; exact he.2), h, h, h]

section
variable {X Y : Type*} {ra : ℕ → ℕ → X → X} {ca : ℕ → ℕ → Y → Y}

theorem recReduce_spec (hA : A.OK) (ho : o.OK) {n k c : ℕ} (hn : A.qmap.length = n) {s : St X Y} (hm : Rect n k s.m) {nodes us rec : List ℕ} {upper : Bool}
    (hu : ∀ q ∈ us, q < n) (hr : ∀ q ∈ rec, q < n) (hs : c ∈ us) (hnodes : ∀ q, q ∈ nodes ↔ q ∈ us ∧ (q = c ∨ get s.m q c = true))
    (hwalk : ∀ t ∈ nodes, ∃ p, Walk (Allowed A (us.map (vtx A)) upper (rec.map (vtx A))) p (vtx A c) (vtx A t))
    (hone : if upper = true then ∃ q ∈ us, get s.m q c = true else get s.m c c = true) :
    ∃ s', recReduce ra ca A o c nodes us rec upper s = some s' ∧
      Run ra ca (fun a b => a ∈ us ∧ b ∈ us ∧ a ≠ b ∧ (upper = true ∨ (a ∈ rec ∧ b ∈ rec) ∨ b < a)) s s' ∧ Rect n k s'.m ∧
      ∀ i, get s'.m i c = if i = c then true else if i ∈ us then false else get s.m i c := by
  subst hn
  have hcol : ∀ i, (s.m.map fun row => row.getD c false).getD i false = get s.m i c := by
    intro i
    unfold Mat2.get
    simp only [List.getD_eq_getElem?_getD, List.getElem?_map]
    cases s.m[i]? <;> simp
  have hlen : (s.m.map fun row => row.getD c false).length = A.qmap.length := by rw [List.length_map]; exact hm.1
  obtain ⟨L, h1, h2, h3⟩ := reduceColumn_spec hA ho (upper := upper) hlen hu hr hs (fun q => by rw [hcol]; exact hnodes q) hwalk (by
    simp only [hcol]; exact hone)
  unfold recReduce
  rw [if_pos (fun q hq => ((hnodes q).mp hq).1), h1]
  simp only
  rw [if_pos (fun e he => ⟨.inl (h2 e he).1, .inl (h2 e he).2.1⟩)]
  have hrows := col_rows (c := c) L (fun e he => ⟨hu _ (h2 e he).1, hu _ (h2 e he).2.1⟩) hm hlen (fun i => (hcol i).symm)
  have haddm : (addAll ra ca L s).m = L.foldl (fun d p => Mat2.rowAdd p.1 p.2 d) s.m := runs_m L s
  refine ⟨_, rfl, addAll_run h2 s, ?_, ?_⟩
  · rw [haddm]
    clear h1 h3 hrows haddm hnodes hone hcol hlen
    generalize s.m = m at hm
    induction L generalizing m with
    | nil => exact hm
    | cons e L ih =>
      refine ih (fun f hf => h2 f (by simp [hf])) _ (hm.rowAdd (hu _ ?_) (hu _ ?_))
      · exact (h2 e (by simp)).1
      · exact (h2 e (by simp)).2.1
  · intro i
    rw [haddm, hrows, h3, hcol]

/-- The first `c` columns are upper triangular with ones on the diagonal. -/
def UT (n c : ℕ) (m : Data) : Prop := (∀ j < c, ∀ i < n, j < i → get m i j = false) ∧ ∀ j < c, get m j j = true

theorem UT.rowAdd {n k c a b : ℕ} {m : Data} (h : UT n c m) (hm : Rect n k m) (ha : a < n) (hb : b < n) (hca : c ≤ a) (hcb : c ≤ b) : UT n c (Mat2.rowAdd a b m) := by
  constructor
  · intro j hj i hi hji
    rw [get_rowAdd hm ha hb]
    split_ifs with e
    · rw [h.1 j hj b hb (by omega), h.1 j hj a ha (by omega)]; rfl
    · exact h.1 j hj i hi hji
  · intro j hj
    rw [get_rowAdd hm ha hb, if_neg (by omega)]
    exact h.2 j hj

/-- A left inverse. -/
def Inv (n : ℕ) (m : Data) : Prop := ∃ N : Matrix (Fin n) (Fin n) (ZMod 2), N * mat n n m = 1

theorem Inv.rowAdd {n a b : ℕ} {m : Data} (h : Inv n m) (hm : Rect n n m) (hv : Valid n a b) : Inv n (Mat2.rowAdd a b m) := by
  obtain ⟨N, hN⟩ := h
  refine ⟨N * ed n a b, ?_⟩
  rw [mat_rowAdd hm hv, Matrix.mul_assoc, ← Matrix.mul_assoc (ed n a b), ed_sq hv, Matrix.one_mul, hN]

/-- An invertible matrix whose first columns are triangular has a one on or below the diagonal in the next column. -/
theorem Inv.pivot {n c : ℕ} {m : Data} (h : Inv n m) (hu : UT n c m) (hc : c < n) : ∃ q, c ≤ q ∧ q < n ∧ get m q c = true := by
  by_contra hcon
  push Not at hcon
  obtain ⟨N, hN⟩ := h
  -- vectors supported on the first columns
  let ext : (Fin (c + 1) → ZMod 2) → (Fin n → ZMod 2) := fun v j => if hj : j.1 < c + 1 then v ⟨j.1, hj⟩ else 0
  let f : (Fin (c + 1) → ZMod 2) → (Fin c → ZMod 2) := fun v i => (mat n n m).mulVec (ext v) ⟨i.1, by omega⟩
  have hf : Function.Injective f := by
    intro v w hvw
    have hall : (mat n n m).mulVec (ext v) = (mat n n m).mulVec (ext w) := by
      funext i
      by_cases hi : i.1 < c
      · exact congrFun hvw ⟨i.1, hi⟩
      · have hz : ∀ u, (mat n n m).mulVec (ext u) i = 0 := by
          intro u
          unfold Matrix.mulVec dotProduct
          refine Finset.sum_eq_zero fun j _ => ?_
          by_cases hj : j.1 < c + 1
          · have : get m i j = false := by
              rcases Nat.lt_or_ge j.1 c with h1 | h1
              · exact hu.1 j h1 i i.2 (by omega)
              · have hjc : j.1 = c := by omega
                rw [hjc]
                have := hcon i (by omega) i.2
                simpa using this
            simp [mat, this, bit]
          · simp only [ext, hj, dif_neg, not_false_eq_true, mul_zero]
        rw [hz, hz]
    have hext : ext v = ext w := by
      have := congrArg N.mulVec hall
      rwa [Matrix.mulVec_mulVec, Matrix.mulVec_mulVec, hN, Matrix.one_mulVec, Matrix.one_mulVec] at this
    funext j
    have := congrFun hext ⟨j.1, by omega⟩
    simpa only [ext, j.2, dif_pos] using this
  have := Fintype.card_le_of_injective f hf
  simp only [Fintype.card_fun, ZMod.card, Fintype.card_fin] at this
  have h2 := Nat.pow_lt_pow_right (a := 2) (by omega) (show c < c + 1 by omega)
  omega

theorem Run.inv {n : ℕ} {P : ℕ → ℕ → Prop} {s s' : St X Y} (h : Run ra ca P s s') (hP : ∀ a b, P a b → Valid n a b) (hm : Rect n n s.m) (hi : Inv n s.m) :
    Inv n s'.m :=
  (h.induct (I := fun d => Rect n n d ∧ Inv n d) ⟨hm, hi⟩ fun _ _ _ hd hp =>
    ⟨hd.1.rowAdd (hP _ _ hp).1 (hP _ _ hp).2.1, hd.2.rowAdd hd.1 (hP _ _ hp)⟩).2

theorem recUpper_spec (hA : A.OK) (ho : o.OK) (hup : UpConnected A) {n : ℕ} (hn : A.qmap.length = n) (t : ℕ) {c : ℕ} (hc : c + t = n) {s : St X Y}
    (hm : Rect n n s.m) (hi : Inv n s.m) (hu : UT n c s.m) :
    ∃ s', recUpper ra ca A o (List.range' c t) s = some s' ∧ Rect n n s'.m ∧ UT n n s'.m := by
  induction t generalizing c s with
  | zero =>
    have : c = n := by omega
    subst this
    exact ⟨s, rfl, hm, hu⟩
  | succ t ih =>
    have hmem : ∀ q, q ∈ List.range' c (t + 1) ↔ c ≤ q ∧ q < n := by
      intro q; rw [List.mem_range'_1]; omega
    have hwalk : ∀ q, c ≤ q → q < n → ∃ p, Walk (Allowed A ((List.range' c (t + 1)).map (vtx A)) true ([].map (vtx A))) p (vtx A c) (vtx A q) := by
      intro q hcq hqn
      obtain ⟨p, hp⟩ := hup c q hcq (by rw [hn]; exact hqn)
      have key : ∀ {p x y}, Walk (fun a b => Coupled A a b ∧ c ≤ a ∧ c ≤ b) p x y →
          ∃ p', Walk (Allowed A ((List.range' c (t + 1)).map (vtx A)) true ([].map (vtx A))) p' (vtx A x) (vtx A y) := by
        intro p x y hw
        induction hw with
        | nil => exact ⟨[], Walk.nil _⟩
        | @cons x y z p hr hw ih =>
          obtain ⟨p', hp'⟩ := ih
          refine ⟨_ :: p', Walk.cons ?_ hp'⟩
          have hlt := hr.1.lt
          exact ⟨List.mem_map_of_mem ((hmem x).mpr ⟨hr.2.1, by omega⟩), List.mem_map_of_mem ((hmem y).mpr ⟨hr.2.2, by omega⟩), hr.1.vtx, .inl rfl⟩
      exact key hp
    obtain ⟨q0, hq0, hq0n, hone⟩ := hi.pivot hu (by omega)
    obtain ⟨s1, h1, hrun, hm1, hcol⟩ := recReduce_spec (ra := ra) (ca := ca) hA ho hn (c := c) hm (us := List.range' c (t + 1)) (rec := []) (upper := true)
      (nodes := (List.range' c (t + 1)).filter fun r => decide (c = r) || get s.m r c)
      (fun q hq => ((hmem q).mp hq).2) (by simp) ((hmem c).mpr ⟨le_rfl, by omega⟩) (fun q => by
        rw [List.mem_filter]
        simp only [Bool.or_eq_true, decide_eq_true_eq]
        rw [eq_comm (a := c)])
      (fun q hq => by
        have hq' := (hmem q).mp (List.mem_filter.mp hq).1
        exact hwalk q hq'.1 hq'.2) (by rw [if_pos rfl]; exact ⟨q0, (hmem q0).mpr ⟨hq0, hq0n⟩, hone⟩)
    have hu1 : UT n c s1.m := (hrun.induct (I := fun d => Rect n n d ∧ UT n c d) ⟨hm, hu⟩ (fun d a b hd hp => by
      have ha := (hmem a).mp hp.1
      have hb := (hmem b).mp hp.2.1
      exact ⟨hd.1.rowAdd ha.2 hb.2, hd.2.rowAdd hd.1 ha.2 hb.2 ha.1 hb.1⟩)).2
    have hr' := recReduce_run hA ho (r := n) hm.1 h1
    have hi1 : Inv n s1.m := Run.inv hr' (fun a b h => h.valid hA) hm hi
    have hu2 : UT n (c + 1) s1.m := by
      constructor
      · intro j hj i hin hji
        rcases Nat.lt_or_ge j c with h | h
        · exact hu1.1 j h i hin hji
        · have : j = c := by omega
          subst this
          rw [hcol, if_neg (by omega), if_pos ((hmem i).mpr ⟨by omega, hin⟩)]
      · intro j hj
        rcases Nat.lt_or_ge j c with h | h
        · exact hu1.2 j h
        · have : j = c := by omega
          subst this
          rw [hcol, if_pos rfl]
    obtain ⟨s2, h2, h3, h4⟩ := ih (c := c + 1) (by omega) hm1 hi1 hu2
    refine ⟨s2, ?_, h3, h4⟩
    rw [List.range'_succ] at h1 ⊢
    simp only [recUpper]
    rw [h1]
    exact h2

theorem Hamiltonian.upConnected (h : Hamiltonian A) : UpConnected A := by
  intro c i hci hi
  induction i, hci using Nat.le_induction with
  | base => exact ⟨[], Walk.nil _⟩
  | succ i hci ih =>
    obtain ⟨p, hp⟩ := ih (by omega)
    exact ⟨p ++ [(i, i + 1)], hp.append (Walk.cons ⟨h i hi, hci, by omega⟩ (Walk.nil _))⟩

theorem max_desc (c : ℕ) : ((List.range (c + 1)).reverse).max? = some c := by
  rw [List.max?_eq_some_iff]
  simp only [List.mem_reverse, List.mem_range]
  exact ⟨by omega, fun b hb => by omega⟩

theorem recFull_spec (hA : A.OK) (ho : o.OK) (hh : Hamiltonian A) {n : ℕ} (hn : A.qmap.length = n) (full : Bool) (fuel c : ℕ) (hc : c ≤ n) {s : St X Y}
    (hm : Rect n n s.m) (hu : UT n n s.m) (hd : ∀ j, c ≤ j → j < n → ∀ i < n, i ≠ j → get s.m i j = false) :
    ∃ s', recFull ra ca A o full fuel (List.range c).reverse s = some s' ∧ Rect n n s'.m ∧ ∀ i < n, ∀ j < n, get s'.m i j = decide (i = j) := by
  induction c generalizing s with
  | zero =>
    refine ⟨s, by simp [recFull, recLoop], hm, ?_⟩
    intro i hi j hj
    by_cases hij : i = j
    · subst hij; simp [hu.2 i hi]
    · simp [hij, hd j (by omega) hj i hi hij]
  | succ c ih =>
    have hmem : ∀ q, q ∈ (List.range (c + 1)).reverse ↔ q ≤ c := by intro q; simp only [List.mem_reverse, List.mem_range]; omega
    have hcn : c < A.qmap.length := by omega
    have hpath : shortestPath A c c = some [vtx A c] := by
      unfold shortestPath
      rw [vertex_eq hcn]
      simp [pathLoop]
    have hrev : (List.range (c + 1)).reverse = c :: (List.range c).reverse := by rw [List.range_succ]; simp
    have hrq : [vtx A c].map A.qubit = [c] := by simp [qubit_vtx hA hcn]
    -- the step for this column
    obtain ⟨s1, h1, hm1, hu1, hd1⟩ : ∃ s1, (if 1 < ((c :: (List.range c).reverse).filter fun r => decide (r = c) || get s.m r c).length then
          recReduce ra ca A o c ((c :: (List.range c).reverse).filter fun r => decide (r = c) || get s.m r c) (c :: (List.range c).reverse) [c] false s
        else some s) = some s1 ∧ Rect n n s1.m ∧ UT n n s1.m ∧ ∀ j, c ≤ j → j < n → ∀ i < n, i ≠ j → get s1.m i j = false := by
      rw [← hrev]
      split_ifs with hlen
      · have hwalk : ∀ t ≤ c, ∃ p, Walk (Allowed A (((List.range (c + 1)).reverse).map (vtx A)) false ([c].map (vtx A))) p (vtx A c) (vtx A (c - t)) := by
          intro t ht
          induction t with
          | zero => exact ⟨[], Walk.nil _⟩
          | succ t iht =>
            obtain ⟨p, hp⟩ := iht (by omega)
            have e : c - t = c - (t + 1) + 1 := by omega
            have hcp : Coupled A (c - t) (c - (t + 1)) := by rw [e]; exact (hh _ (by omega)).symm hA
            have hstep : Allowed A (((List.range (c + 1)).reverse).map (vtx A)) false ([c].map (vtx A)) (vtx A (c - t)) (vtx A (c - (t + 1))) := by
              refine ⟨List.mem_map_of_mem ((hmem _).mpr (by omega)), List.mem_map_of_mem ((hmem _).mpr (by omega)), hcp.vtx, .inr (.inr ?_)⟩
              rw [qubit_vtx hA (by omega), qubit_vtx hA (by omega)]
              omega
            exact ⟨_, hp.append (Walk.cons hstep (Walk.nil _))⟩
        obtain ⟨s1, h1, hrun, hm1, hcol⟩ := recReduce_spec (ra := ra) (ca := ca) hA ho hn (c := c) hm (us := (List.range (c + 1)).reverse) (rec := [c]) (upper := false)
          (nodes := ((List.range (c + 1)).reverse).filter fun r => decide (r = c) || get s.m r c)
          (fun q hq => by have := (hmem q).mp hq; omega) (by simp; omega) ((hmem c).mpr le_rfl) (fun q => by
            rw [List.mem_filter]
            simp only [Bool.or_eq_true, decide_eq_true_eq])
          (fun q hq => by
            have hq' := (hmem q).mp (List.mem_filter.mp hq).1
            have := hwalk (c - q) (by omega)
            rwa [show c - (c - q) = q by omega] at this) (by simpa using hu.2 c (by omega))
        refine ⟨s1, h1, hm1, ?_⟩
        have hinv := hrun.induct (I := fun d => Rect n n d ∧ UT n n d ∧ ∀ j, c < j → j < n → ∀ i < n, i ≠ j → get d i j = false)
          ⟨hm, hu, fun j hj hjn i hi hij => hd j (by omega) hjn i hi hij⟩ (fun d a b ⟨q1, q2, q3⟩ hp => by
            have ha := (hmem a).mp hp.1
            have hb := (hmem b).mp hp.2.1
            have hba : b < a := by
              rcases hp.2.2.2 with h | ⟨h, h'⟩ | h
              · simp at h
              · rw [List.mem_singleton] at h h'
                exact absurd (h.trans h'.symm) hp.2.2.1
              · exact h
            refine ⟨q1.rowAdd (by omega) (by omega), ⟨?_, ?_⟩, ?_⟩
            · intro j hj i hi hji
              rw [get_rowAdd q1 (by omega) (by omega)]
              split_ifs with e
              · rw [q2.1 j hj b (by omega) (by omega), q2.1 j hj a (by omega) (by omega)]; rfl
              · exact q2.1 j hj i hi hji
            · intro j hj
              rw [get_rowAdd q1 (by omega) (by omega)]
              split_ifs with e
              · subst e
                rw [q2.2 j hj, q2.1 j hj a (by omega) hba]; rfl
              · exact q2.2 j hj
            · intro j hj hjn i hi hij
              rw [get_rowAdd q1 (by omega) (by omega)]
              split_ifs with e
              · rw [q3 j hj hjn b (by omega) (by omega), q3 j hj hjn a (by omega) (by omega)]; rfl
              · exact q3 j hj hjn i hi hij)
        refine ⟨hinv.2.1, ?_⟩
        intro j hj hjn i hi hij
        rcases Nat.lt_or_ge c j with h | h
        · exact hinv.2.2 j h hjn i hi hij
        · have : j = c := by omega
          subst this
          rw [hcol, if_neg hij]
          split_ifs with hmi
          · rfl
          · exact hu.1 j hjn i hi (by rw [hmem] at hmi; omega)
      · refine ⟨s, rfl, hm, hu, ?_⟩
        intro j hj hjn i hi hij
        rcases Nat.lt_or_ge c j with h | h
        · exact hd j h hjn i hi hij
        · have : j = c := by omega
          subst this
          by_cases hij' : j < i
          · exact hu.1 j hjn i hi hij'
          · by_contra hcon
            rw [Bool.not_eq_false] at hcon
            apply hlen
            have h2 : [j, i].Sublist (((List.range (j + 1)).reverse).filter fun r => decide (r = j) || get s.m r j) := by
              rw [hrev, List.filter_cons_of_pos (by simp)]
              refine List.Sublist.cons_cons _ (List.singleton_sublist.mpr (List.mem_filter.mpr ⟨?_, by simp [hcon]⟩))
              simp; omega
            exact h2.length_le
    obtain ⟨s2, h2, h3, h4⟩ := ih (by omega) hm1 hu1 hd1
    refine ⟨s2, ?_, h3, h4⟩
    rw [hrev]
    simp only [recFull, recLoop]
    rw [← hrev, max_desc, Option.bind_some, hpath]
    simp only [hrq]
    rw [hrev, h1]
    simp only [Option.bind_some, List.length_singleton, lt_irrefl, if_false]
    exact h2

end

end Routing
end PyZX
