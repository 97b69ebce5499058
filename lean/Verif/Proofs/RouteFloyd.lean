import Verif.Spec.Routing

/-!
# The distances computed by `floyd_warshall` are exact

The loops run in the order source, intermediate, target, twice over all sources. After the first round the distances over walks whose
inner vertices come before the source are exact; after the second round all are.
-/

namespace PyZX
namespace Routing

/-! ### Edges and placement -/

theorem mem_nbrsOf_of_mem {adj : List (ℕ × List ℕ)} (hn : (adj.map Prod.fst).Nodup) {p : ℕ × List ℕ} (hp : p ∈ adj) : nbrsOf adj p.1 = p.2 := by
  unfold nbrsOf
  induction adj with
  | nil => simp at hp
  | cons a l ih =>
    obtain ⟨x, y⟩ := a
    simp only [List.map_cons, List.nodup_cons] at hn
    rcases List.mem_cons.mp hp with rfl | h
    · simp [List.lookup]
    · have hne : p.1 ≠ x := fun e => hn.1 (e ▸ List.mem_map_of_mem (f := Prod.fst) h)
      have : (p.1 == x) = false := by simpa using hne
      simp only [List.lookup, this]
      exact ih hn.2 h

theorem mem_keys_of_nbrs {adj : List (ℕ × List ℕ)} {v w : ℕ} (h : w ∈ nbrsOf adj v) : v ∈ adj.map Prod.fst ∧ ∃ l, (v, l) ∈ adj ∧ w ∈ l := by
  unfold nbrsOf at h
  induction adj with
  | nil => simp at h
  | cons a l ih =>
    obtain ⟨x, y⟩ := a
    by_cases e : v = x
    · subst e
      simp only [List.lookup, beq_self_eq_true, Option.getD_some] at h
      exact ⟨by simp, y, by simp, h⟩
    · have : (v == x) = false := by simpa using e
      simp only [List.lookup, this] at h
      obtain ⟨h1, l', h2, h3⟩ := ih h
      exact ⟨by simp [h1], l', by simp [h2], h3⟩

theorem GraphOK.mem_edges {adj : List (ℕ × List ℕ)} (h : GraphOK adj) {e : ℕ × ℕ} : e ∈ edgesOf adj ↔ e.2 ∈ nbrsOf adj e.1 ∧ e.1 < e.2 := by
  unfold edgesOf
  rw [List.mem_flatMap]
  constructor
  · rintro ⟨p, hp, he⟩
    rw [List.mem_map] at he
    obtain ⟨w, hw, rfl⟩ := he
    rw [List.mem_filter] at hw
    simp only [decide_eq_true_eq] at hw
    exact ⟨by rw [mem_nbrsOf_of_mem h.nodup hp]; exact hw.1, hw.2⟩
  · rintro ⟨h1, h2⟩
    obtain ⟨-, l, hl, hw⟩ := mem_keys_of_nbrs h1
    exact ⟨_, hl, List.mem_map.mpr ⟨e.2, List.mem_filter.mpr ⟨hw, by simpa using h2⟩, rfl⟩⟩

theorem lastIdx_getElem {l : List ℕ} (hn : l.Nodup) {q v : ℕ} (h : l[q]? = some v) : lastIdx l v = some q := by
  unfold lastIdx
  have hm : (v, q) ∈ l.zipIdx := by rw [List.mk_mem_zipIdx_iff_getElem?]; exact h
  have huniq : ∀ p ∈ l.zipIdx, p.1 = v → p = (v, q) := by
    rintro ⟨x, i⟩ hp rfl
    rw [List.mk_mem_zipIdx_iff_getElem?] at hp
    have hi : i < l.length := by
      by_contra hc
      rw [List.getElem?_eq_none (by omega)] at hp
      simp at hp
    have := (List.getElem?_inj hi hn).mp (hp.trans h.symm)
    simp [this]
  cases hf : l.zipIdx.reverse.find? fun p => p.1 == v with
  | none =>
    rw [List.find?_eq_none] at hf
    exact absurd (hf (v, q) (by simpa using hm)) (by simp)
  | some p =>
    have h1 := List.find?_some hf
    have h2 := List.mem_of_find?_eq_some hf
    rw [huniq p (by simpa using h2) (by simpa using h1)]
    rfl

theorem Arch.OK.qubit_of {A : Arch} (h : A.OK) {q v : ℕ} (hq : A.qmap[q]? = some v) : A.qubit v = q := by
  unfold Arch.qubit
  rw [lastIdx_getElem h.place hq]; rfl

theorem Arch.OK.vertex_qubit {A : Arch} (h : A.OK) {v : ℕ} (hv : v ∈ A.verts) : A.qmap[A.qubit v]? = some v := by
  obtain ⟨i, hi⟩ := List.getElem?_of_mem ((h.onto v).mpr hv)
  rw [h.qubit_of hi]; exact hi

theorem Arch.OK.qubit_inj {A : Arch} (h : A.OK) {v w : ℕ} (hv : v ∈ A.verts) (hw : w ∈ A.verts) (e : A.qubit v = A.qubit w) : v = w := by
  have h1 := h.vertex_qubit hv
  rw [e, h.vertex_qubit hw] at h1
  exact (Option.some.inj h1).symm

theorem Arch.OK.nbrs_verts {A : Arch} (h : A.OK) {v w : ℕ} (hw : w ∈ nbrsOf A.adj v) : v ∈ A.verts ∧ w ∈ A.verts :=
  ⟨(mem_keys_of_nbrs hw).1, (mem_keys_of_nbrs (h.sym _ _ hw)).1⟩

theorem Arch.OK.coupled {A : Arch} (h : A.OK) {v w : ℕ} (hw : w ∈ nbrsOf A.adj v) : Coupled A (A.qubit v) (A.qubit w) :=
  ⟨v, w, h.vertex_qubit (h.nbrs_verts hw).1, h.vertex_qubit (h.nbrs_verts hw).2, hw⟩

theorem Coupled.ne {A : Arch} (h : A.OK) {a b : ℕ} (hc : Coupled A a b) : a ≠ b := by
  rintro rfl
  obtain ⟨u, v, h1, h2, h3⟩ := hc
  rw [h1] at h2
  rw [Option.some.inj h2] at h3
  exact h.irrefl _ h3

theorem Coupled.symm {A : Arch} (h : A.OK) {a b : ℕ} (hc : Coupled A a b) : Coupled A b a := by
  obtain ⟨u, v, h1, h2, h3⟩ := hc
  exact ⟨v, u, h2, h1, h.sym _ _ h3⟩

/-! ### Walks -/

theorem Walk.append {R : ℕ → ℕ → Prop} {p q : List (ℕ × ℕ)} {a b c : ℕ} (h1 : Walk R p a b) (h2 : Walk R q b c) : Walk R (p ++ q) a c := by
  induction h1 with
  | nil => exact h2
  | cons h _ ih => exact Walk.cons h (ih h2)

theorem Walk.mono {R R' : ℕ → ℕ → Prop} (h : ∀ a b, R a b → R' a b) {p : List (ℕ × ℕ)} {a b : ℕ} (h1 : Walk R p a b) : Walk R' p a b := by
  induction h1 with
  | nil => exact Walk.nil _
  | cons h' _ ih => exact Walk.cons (h _ _ h') ih

theorem Walk.mem {R : ℕ → ℕ → Prop} {p : List (ℕ × ℕ)} {a b : ℕ} (h1 : Walk R p a b) {e : ℕ × ℕ} (he : e ∈ p) : R e.1 e.2 := by
  induction h1 with
  | nil => simp at he
  | cons h' _ ih =>
    rcases List.mem_cons.mp he with rfl | h
    · exact h'
    · exact ih h

/-- There is a walk of this length with inner vertices in the set. -/
inductive W (R : ℕ → ℕ → Prop) (S : ℕ → Prop) : ℕ → ℕ → ℕ → Prop
  | refl (a : ℕ) : W R S 0 a a
  | edge {a b : ℕ} : R a b → W R S 1 a b
  | step {n m a b c : ℕ} : W R S n a c → S c → W R S m c b → W R S (n + m) a b

theorem W.mono {R : ℕ → ℕ → Prop} {S T : ℕ → Prop} (h : ∀ x, S x → T x) {n a b : ℕ} (hw : W R S n a b) : W R T n a b := by
  induction hw with
  | refl a => exact W.refl a
  | edge e => exact W.edge e
  | step _ hc _ ih1 ih2 => exact W.step ih1 (h _ hc) ih2

theorem W.of_walk {R : ℕ → ℕ → Prop} {S : ℕ → Prop} (hS : ∀ a b, R a b → S b) {p : List (ℕ × ℕ)} {a b : ℕ} (h : Walk R p a b) : W R S p.length a b := by
  induction h with
  | nil => exact W.refl _
  | cons e _ ih =>
    rw [List.length_cons, Nat.add_comm]
    exact W.step (W.edge e) (hS _ _ e) ih

/-- Cut a walk at a vertex. -/
theorem W.split {R : ℕ → ℕ → Prop} {S : ℕ → Prop} {k n a b : ℕ} (h : W R (fun x => S x ∨ x = k) n a b) :
    W R S n a b ∨ ∃ n1 n2, n1 + n2 ≤ n ∧ W R S n1 a k ∧ W R S n2 k b := by
  induction h with
  | refl a => exact .inl (W.refl a)
  | edge e => exact .inl (W.edge e)
  | @step n m a b c h1 hc h2 ih1 ih2 =>
    rcases hc with hc | rfl
    · rcases ih1 with l1 | ⟨n1, n2, hn, l1, l2⟩
      · rcases ih2 with r1 | ⟨m1, m2, hm, r1, r2⟩
        · exact .inl (W.step l1 hc r1)
        · exact .inr ⟨n + m1, m2, by omega, W.step l1 hc r1, r2⟩
      · rcases ih2 with r1 | ⟨m1, m2, hm, r1, r2⟩
        · exact .inr ⟨n1, n2 + m, by omega, l1, W.step l2 hc r1⟩
        · exact .inr ⟨n1, m2, by omega, l1, r2⟩
    · have e1 : ∃ n', n' ≤ n ∧ W R S n' a c := by
        rcases ih1 with l1 | ⟨n1, n2, hn, l1, -⟩
        · exact ⟨n, le_rfl, l1⟩
        · exact ⟨n1, by omega, l1⟩
      have e2 : ∃ m', m' ≤ m ∧ W R S m' c b := by
        rcases ih2 with l1 | ⟨n1, n2, hn, -, l1⟩
        · exact ⟨m, le_rfl, l1⟩
        · exact ⟨n2, by omega, l1⟩
      obtain ⟨n', hn', w1⟩ := e1
      obtain ⟨m', hm', w2⟩ := e2
      exact .inr ⟨n', m', by omega, w1, w2⟩

theorem W.empty {R : ℕ → ℕ → Prop} {n a b : ℕ} (h : W R (fun _ => False) n a b) : (n = 0 ∧ a = b) ∨ (n = 1 ∧ R a b) := by
  cases h with
  | refl => exact .inl ⟨rfl, rfl⟩
  | edge e => exact .inr ⟨rfl, e⟩
  | step _ hc _ => exact hc.elim

/-! ### The dictionary -/

theorem Dist.get_put (d : Dist) (a b : ℕ) (v : ℕ × List (ℕ × ℕ)) (a' b' : ℕ) :
    (d.put a b v).get a' b' = if a' = a ∧ b' = b then some v else d.get a' b' := by
  unfold Dist.put Dist.get
  by_cases h : a' = a ∧ b' = b
  · obtain ⟨rfl, rfl⟩ := h
    simp [List.lookup]
  · have : ((a', b') == (a, b)) = false := by simpa using h
    simp only [List.lookup, this]
    rw [if_neg h]

/-- The entries are walks, and without direction they are symmetric. -/
structure DOK (R : ℕ → ℕ → Prop) (upper : Bool) (d : Dist) : Prop where
  walk : ∀ a b n p, d.get a b = some (n, p) → Walk R p a b ∧ p.length = n
  symm : upper = true → ∀ a b n p, d.get a b = some (n, p) → ∃ q, d.get b a = some (n, q)

/-- There is an entry of at most this length. -/
def Within (d : Dist) (a b n : ℕ) : Prop := ∃ m p, d.get a b = some (m, p) ∧ m ≤ n

/-- Nothing got worse. -/
def Better (d d' : Dist) : Prop := ∀ a b n, Within d a b n → Within d' a b n

theorem Better.refl (d : Dist) : Better d d := fun _ _ _ h => h
theorem Better.trans {d d' d'' : Dist} (h : Better d d') (h' : Better d' d'') : Better d d'' := fun a b n x => h' a b n (h a b n x)

theorem Better.put {d : Dist} {a b : ℕ} {v : ℕ × List (ℕ × ℕ)} (h : ∀ m p, d.get a b = some (m, p) → v.1 ≤ m) : Better d (d.put a b v) := by
  rintro a' b' n ⟨m, p, hm, hle⟩
  unfold Within
  rw [Dist.get_put]
  by_cases e : a' = a ∧ b' = b
  · obtain ⟨rfl, rfl⟩ := e
    exact ⟨v.1, v.2, by simp, (h m p hm).trans hle⟩
  · rw [if_neg e]; exact ⟨m, p, hm, hle⟩

theorem fwStep_spec {R : ℕ → ℕ → Prop} {upper : Bool} {d : Dist} (h : DOK R upper d) (v0 v1 v2 : ℕ) :
    ∃ d', fwStep upper v0 v1 v2 d = some d' ∧ DOK R upper d' ∧ Better d d' ∧
      ∀ n m, Within d v0 v1 n → Within d v1 v2 m → Within d' v0 v2 (n + m) := by
  unfold fwStep
  cases h1 : d.get v0 v1 with
  | none => exact ⟨d, by simp, h, Better.refl d, by rintro n m ⟨x, p, hx, -⟩; simp [h1] at hx⟩
  | some x =>
    obtain ⟨a, p⟩ := x
    cases h2 : d.get v1 v2 with
    | none => exact ⟨d, by simp, h, Better.refl d, by rintro n m - ⟨x, p, hx, -⟩; simp [h2] at hx⟩
    | some y =>
      obtain ⟨b, q⟩ := y
      simp only
      by_cases hc : worse (d.get v0 v2) (a + b) = true
      · rw [if_pos hc]
        have hlt : ∀ m r, d.get v0 v2 = some (m, r) → a + b < m := by
          intro m r hm
          rw [hm] at hc
          simpa [worse] using hc
        have hw1 := h.walk _ _ _ _ h1
        have hw2 := h.walk _ _ _ _ h2
        have hwd : ∀ a' b' n p', (d.put v0 v2 (a + b, p ++ q)).get a' b' = some (n, p') → Walk R p' a' b' ∧ p'.length = n := by
          intro a' b' n p' hg
          rw [Dist.get_put] at hg
          by_cases e : a' = v0 ∧ b' = v2
          · obtain ⟨rfl, rfl⟩ := e
            simp only [and_self, if_true, Option.some.injEq, Prod.mk.injEq] at hg
            obtain ⟨rfl, rfl⟩ := hg
            exact ⟨hw1.1.append hw2.1, by rw [List.length_append, hw1.2, hw2.2]⟩
          · rw [if_neg e] at hg; exact h.walk _ _ _ _ hg
        have hb1 : Better d (d.put v0 v2 (a + b, p ++ q)) := Better.put fun m r hm => (hlt m r hm).le
        have hnew : ∀ n m, Within d v0 v1 n → Within d v1 v2 m → Within (d.put v0 v2 (a + b, p ++ q)) v0 v2 (n + m) := by
          rintro n m ⟨x, px, hx, hxn⟩ ⟨y, py, hy, hym⟩
          rw [h1] at hx; rw [h2] at hy
          simp only [Option.some.injEq, Prod.mk.injEq] at hx hy
          refine ⟨a + b, p ++ q, by rw [Dist.get_put]; simp, ?_⟩
          omega
        cases upper with
        | false => exact ⟨_, rfl, ⟨hwd, by simp⟩, hb1, hnew⟩
        | true =>
          simp only [if_true]
          obtain ⟨p', h1'⟩ := h.symm rfl _ _ _ _ h1
          obtain ⟨q', h2'⟩ := h.symm rfl _ _ _ _ h2
          have w1' := h.walk _ _ _ _ h1'
          have w2' := h.walk _ _ _ _ h2'
          -- the new entry is none of those read
          have n1 : ¬ (v2 = v0 ∧ v1 = v2) := by
            rintro ⟨rfl, rfl⟩
            have := hlt _ _ h1; omega
          have n2 : ¬ (v1 = v0 ∧ v0 = v2) := by
            rintro ⟨rfl, rfl⟩
            have := hlt _ _ h1; omega
          rw [Dist.get_put, Dist.get_put, if_neg n1, if_neg n2, h1', h2']
          simp only
          have hb2 : Better (d.put v0 v2 (a + b, p ++ q)) ((d.put v0 v2 (a + b, p ++ q)).put v2 v0 (a + b, q' ++ p')) := by
            refine Better.put fun m r hm => ?_
            rw [Dist.get_put] at hm
            by_cases e : v2 = v0 ∧ v0 = v2
            · rw [if_pos e] at hm
              simp only [Option.some.injEq, Prod.mk.injEq] at hm
              exact hm.1.le
            · rw [if_neg e] at hm
              obtain ⟨r', hr'⟩ := h.symm rfl _ _ _ _ hm
              exact (hlt _ _ hr').le
          refine ⟨_, rfl, ⟨?_, ?_⟩, hb1.trans hb2, fun n m x y => hb2 _ _ _ (hnew n m x y)⟩
          · intro a' b' n r hg
            rw [Dist.get_put] at hg
            by_cases e : a' = v2 ∧ b' = v0
            · obtain ⟨rfl, rfl⟩ := e
              simp only [and_self, if_true, Option.some.injEq, Prod.mk.injEq] at hg
              obtain ⟨rfl, rfl⟩ := hg
              exact ⟨w2'.1.append w1'.1, by rw [List.length_append, w1'.2, w2'.2, Nat.add_comm]⟩
            · rw [if_neg e] at hg; exact hwd _ _ _ _ hg
          · intro _ a' b' n r hg
            rw [Dist.get_put, Dist.get_put] at hg ⊢
            by_cases e1 : a' = v2 ∧ b' = v0
            · rw [if_pos e1] at hg
              simp only [Option.some.injEq, Prod.mk.injEq] at hg
              obtain ⟨rfl, -⟩ := hg
              obtain ⟨rfl, rfl⟩ := e1
              by_cases e2 : b' = a' ∧ a' = b'
              · rw [if_pos e2]; exact ⟨_, rfl⟩
              · rw [if_neg e2]; simp
            · rw [if_neg e1] at hg
              by_cases e2 : a' = v0 ∧ b' = v2
              · rw [if_pos e2] at hg
                simp only [Option.some.injEq, Prod.mk.injEq] at hg
                obtain ⟨rfl, -⟩ := hg
                obtain ⟨rfl, rfl⟩ := e2
                rw [if_pos ⟨rfl, rfl⟩]; exact ⟨_, rfl⟩
              · rw [if_neg e2] at hg
                obtain ⟨q'', hq''⟩ := h.symm rfl _ _ _ _ hg
                by_cases e3 : b' = v2 ∧ a' = v0
                · exact absurd ⟨e3.2, e3.1⟩ e2
                · rw [if_neg e3]
                  by_cases e4 : b' = v0 ∧ a' = v2
                  · exact absurd ⟨e4.2, e4.1⟩ e1
                  · rw [if_neg e4]; exact ⟨q'', hq''⟩
      · rw [if_neg hc]
        refine ⟨d, rfl, h, Better.refl d, ?_⟩
        rintro n m ⟨x, px, hx, hxn⟩ ⟨y, py, hy, hym⟩
        rw [h1] at hx; rw [h2] at hy
        simp only [Option.some.injEq, Prod.mk.injEq] at hx hy
        cases h3 : d.get v0 v2 with
        | none => rw [h3] at hc; simp [worse] at hc
        | some z =>
          obtain ⟨c, r⟩ := z
          rw [h3] at hc
          simp only [worse, gt_iff_lt, decide_eq_true_eq, not_lt] at hc
          exact ⟨c, r, h3, by omega⟩

/-! ### The loops -/

/-- The loop over the targets. -/
theorem targets_spec {R : ℕ → ℕ → Prop} {upper : Bool} (v0 v1 : ℕ) (ts : List ℕ) {d : Dist} (h : DOK R upper d) :
    ∃ d', ts.foldlM (fun d v2 => fwStep upper v0 v1 v2 d) d = some d' ∧ DOK R upper d' ∧ Better d d' ∧
      ∀ v2 ∈ ts, ∀ n m, Within d v0 v1 n → Within d v1 v2 m → Within d' v0 v2 (n + m) := by
  induction ts generalizing d with
  | nil => exact ⟨d, rfl, h, Better.refl d, by simp⟩
  | cons t ts ih =>
    obtain ⟨d1, e1, k1, b1, w1⟩ := fwStep_spec h v0 v1 t
    obtain ⟨d2, e2, k2, b2, w2⟩ := ih k1
    refine ⟨d2, ?_, k2, b1.trans b2, ?_⟩
    · rw [List.foldlM_cons, e1]; exact e2
    · intro v2 hv n m x y
      rcases List.mem_cons.mp hv with rfl | hv
      · exact b2 _ _ _ (w1 n m x y)
      · exact w2 v2 hv n m (b1 _ _ _ x) (b1 _ _ _ y)

/-- The entries for walks with inner vertices in the list. -/
def Good (R : ℕ → ℕ → Prop) (vs : List ℕ) (d : Dist) (i : ℕ) (pre : List ℕ) : Prop :=
  ∀ j ∈ vs, ∀ n, W R (fun x => x ∈ pre) n i j → Within d i j n

theorem Good.better {R : ℕ → ℕ → Prop} {vs : List ℕ} {d d' : Dist} {i : ℕ} {pre : List ℕ} (h : Good R vs d i pre) (hb : Better d d') :
    Good R vs d' i pre := fun j hj n hw => hb _ _ _ (h j hj n hw)

/-- The loop over the intermediate vertices, for the part `ks` of the list for which the distances from the intermediate vertices are good. -/
theorem inner_spec {R : ℕ → ℕ → Prop} {upper : Bool} (vs : List ℕ) (i : ℕ) (ks : List ℕ) (pre : List ℕ) (hks : ∀ k ∈ ks, k ∈ vs) {d : Dist} (h : DOK R upper d)
    (hi : Good R vs d i pre) (hk : ∀ l k l', ks = l ++ k :: l' → Good R vs d k (pre ++ l)) :
    ∃ d', ks.foldlM (fun d v1 => vs.foldlM (fun d v2 => fwStep upper i v1 v2 d) d) d = some d' ∧ DOK R upper d' ∧ Better d d' ∧
      Good R vs d' i (pre ++ ks) := by
  induction ks generalizing pre d with
  | nil => exact ⟨d, rfl, h, Better.refl d, by simpa using hi⟩
  | cons k ks ih =>
    obtain ⟨d1, e1, k1, b1, w1⟩ := targets_spec i k vs h
    have hgk : Good R vs d k pre := by simpa using hk [] k ks rfl
    have hg1 : Good R vs d1 i (pre ++ [k]) := by
      intro j hj n hw
      have hw' : W R (fun x => x ∈ pre ∨ x = k) n i j := hw.mono fun x hx => by simpa using hx
      rcases hw'.split with hl | ⟨n1, n2, hn, hl, hr⟩
      · exact b1 _ _ _ (hi j hj n hl)
      · obtain ⟨m, p, hm, hle⟩ := w1 j hj n1 n2 (hi k (hks k (by simp)) n1 hl) (hgk j hj n2 hr)
        exact ⟨m, p, hm, hle.trans hn⟩
    obtain ⟨d2, e2, k2, b2, w2⟩ := ih (pre ++ [k]) (fun k hk => hks k (by simp [hk])) k1 hg1 (fun l k' l' hl => by
      have := (hk (k :: l) k' l' (by rw [hl]; rfl)).better b1
      simpa using this)
    refine ⟨d2, ?_, k2, b1.trans b2, by simpa using w2⟩
    rw [List.foldlM_cons, e1]; exact e2

/-- The loop over the intermediate vertices keeps what is known. -/
theorem inner_keep {R : ℕ → ℕ → Prop} {upper : Bool} (vs : List ℕ) (i : ℕ) (ks : List ℕ) {d : Dist} (h : DOK R upper d) :
    ∃ d', ks.foldlM (fun d v1 => vs.foldlM (fun d v2 => fwStep upper i v1 v2 d) d) d = some d' ∧ DOK R upper d' ∧ Better d d' := by
  induction ks generalizing d with
  | nil => exact ⟨d, rfl, h, Better.refl d⟩
  | cons k ks ih =>
    obtain ⟨d1, e1, k1, b1, -⟩ := targets_spec i k vs h
    obtain ⟨d2, e2, k2, b2⟩ := ih k1
    exact ⟨d2, by rw [List.foldlM_cons, e1]; exact e2, k2, b1.trans b2⟩

/-- The first round, after the sources `pre`: walks whose inner vertices come before the source. -/
theorem first_spec {R : ℕ → ℕ → Prop} {upper : Bool} (vs : List ℕ) (rest pre : List ℕ) (hv : vs = pre ++ rest) {d : Dist} (h : DOK R upper d)
    (hbase : ∀ i ∈ vs, Good R vs d i []) (hpre : ∀ l k l', pre = l ++ k :: l' → Good R vs d k l) :
    ∃ d', rest.foldlM (fun d v0 => vs.foldlM (fun d v1 => vs.foldlM (fun d v2 => fwStep upper v0 v1 v2 d) d) d) d = some d' ∧ DOK R upper d' ∧
      Better d d' ∧ ∀ l k l', vs = l ++ k :: l' → Good R vs d' k l := by
  induction rest generalizing pre d with
  | nil =>
    refine ⟨d, rfl, h, Better.refl d, ?_⟩
    simpa [hv] using hpre
  | cons i rest ih =>
    have hiv : i ∈ vs := by rw [hv]; simp
    obtain ⟨d1, e1, k1, b1, w1⟩ := inner_spec vs i pre [] (fun k hk => by rw [hv]; simp [hk]) h (hbase i hiv) (fun l k l' hl => by simpa using hpre l k l' hl)
    obtain ⟨d2, e2, k2, b2⟩ := inner_keep vs i (i :: rest) k1
    have e12 : vs.foldlM (fun d v1 => vs.foldlM (fun d v2 => fwStep upper i v1 v2 d) d) d = some d2 := by
      conv_lhs => arg 3; rw [hv]
      rw [List.foldlM_append, e1]
      exact e2
    obtain ⟨d3, e3, k3, b3, w3⟩ := ih (pre ++ [i]) (by rw [hv]; simp) k2 (fun j hj => (hbase j hj).better (b1.trans b2)) (fun l k l' hl => by
      rcases List.eq_nil_or_concat' l' with rfl | ⟨m, x, rfl⟩
      · have := List.append_inj' (s₁ := pre) (t₁ := [i]) (s₂ := l) (t₂ := [k]) hl rfl
        obtain ⟨rfl, hk⟩ := this
        obtain rfl := List.singleton_injective hk
        simpa using w1.better b2
      · have h' : pre ++ [i] = (l ++ k :: m) ++ [x] := by rw [hl]; simp
        obtain ⟨h1, -⟩ := List.append_inj' h' rfl
        exact (hpre l k m h1).better (b1.trans b2))
    refine ⟨d3, ?_, k3, (b1.trans b2).trans b3, w3⟩
    rw [List.foldlM_cons, e12]; exact e3

/-- The second round. -/
theorem second_spec {R : ℕ → ℕ → Prop} {upper : Bool} (vs : List ℕ) (rest : List ℕ) (hr : ∀ i ∈ rest, i ∈ vs) {d : Dist} (h : DOK R upper d)
    (hbase : ∀ i ∈ vs, Good R vs d i []) (hpre : ∀ l k l', vs = l ++ k :: l' → Good R vs d k l) :
    ∃ d', rest.foldlM (fun d v0 => vs.foldlM (fun d v1 => vs.foldlM (fun d v2 => fwStep upper v0 v1 v2 d) d) d) d = some d' ∧ DOK R upper d' ∧
      Better d d' ∧ ∀ i ∈ rest, Good R vs d' i vs := by
  induction rest generalizing d with
  | nil => exact ⟨d, rfl, h, Better.refl d, by simp⟩
  | cons i rest ih =>
    obtain ⟨d1, e1, k1, b1, w1⟩ := inner_spec vs i vs [] (fun k hk => hk) h (hbase i (hr i (by simp))) (fun l k l' hl => by simpa using hpre l k l' hl)
    obtain ⟨d2, e2, k2, b2, w2⟩ := ih (fun j hj => hr j (by simp [hj])) k1 (fun j hj => (hbase j hj).better b1) (fun l k l' hl => (hpre l k l' hl).better b1)
    refine ⟨d2, by rw [List.foldlM_cons, e1]; exact e2, k2, b1.trans b2, ?_⟩
    intro j hj
    rcases List.mem_cons.mp hj with rfl | hj
    · have : Good R vs d1 j vs := by simpa using w1
      exact this.better b2
    · exact w2 j hj

/-! ### The initial distances -/

/-- One step of the first loop of `fwInit`. -/
def initEdge (A : Arch) (vs : List ℕ) (upper : Bool) (rec : List ℕ) (d : Dist) (e : ℕ × ℕ) : Dist :=
  if e.1 ∈ vs ∧ e.2 ∈ vs then
    if upper = true ∨ (e.1 ∈ rec ∧ e.2 ∈ rec) then (d.put e.1 e.2 (1, [(e.1, e.2)])).put e.2 e.1 (1, [(e.2, e.1)])
    else if A.qubit e.1 > A.qubit e.2 then d.put e.1 e.2 (1, [(e.1, e.2)]) else d.put e.2 e.1 (1, [(e.2, e.1)])
  else d

theorem fwInit_eq (A : Arch) (vs : List ℕ) (upper : Bool) (rec : List ℕ) :
    fwInit A vs upper rec = vs.foldl (fun d v => d.put v v (0, [])) (A.edges.foldl (initEdge A vs upper rec) []) := rfl

/-- The state of the first loop: the entries are allowed steps. -/
structure IOK (R : ℕ → ℕ → Prop) (d : Dist) : Prop where
  one : ∀ a b x, d.get a b = some x → x = (1, [(a, b)]) ∧ R a b

theorem IOK.put {R : ℕ → ℕ → Prop} {d : Dist} (h : IOK R d) {a b : ℕ} (hr : R a b) : IOK R (d.put a b (1, [(a, b)])) := by
  constructor
  intro a' b' x hx
  rw [Dist.get_put] at hx
  by_cases e : a' = a ∧ b' = b
  · obtain ⟨rfl, rfl⟩ := e
    simp only [and_self, if_true, Option.some.injEq] at hx
    exact ⟨hx.symm, hr⟩
  · rw [if_neg e] at hx; exact h.one _ _ _ hx

theorem put_isSome {d : Dist} {a b a' b' : ℕ} {v : ℕ × List (ℕ × ℕ)} (h : (d.get a' b').isSome ∨ (a' = a ∧ b' = b)) : ((d.put a b v).get a' b').isSome := by
  rw [Dist.get_put]
  split_ifs with e
  · rfl
  · exact h.resolve_right e

theorem initEdge_keep (A : Arch) (vs : List ℕ) (upper : Bool) (rec : List ℕ) (d : Dist) (e : ℕ × ℕ) {a b : ℕ} (h : (d.get a b).isSome) :
    ((initEdge A vs upper rec d e).get a b).isSome := by
  unfold initEdge
  split_ifs
  · exact put_isSome (.inl (put_isSome (.inl h)))
  · exact put_isSome (.inl h)
  · exact put_isSome (.inl h)
  · exact h

theorem initEdge_spec {A : Arch} (hA : A.OK) (vs : List ℕ) (upper : Bool) (rec : List ℕ) {d : Dist} (h : IOK (Allowed A vs upper rec) d) {e : ℕ × ℕ}
    (he : e ∈ A.edges) :
    IOK (Allowed A vs upper rec) (initEdge A vs upper rec d e) ∧
    (Allowed A vs upper rec e.1 e.2 → ((initEdge A vs upper rec d e).get e.1 e.2).isSome) ∧
    (Allowed A vs upper rec e.2 e.1 → ((initEdge A vs upper rec d e).get e.2 e.1).isSome) := by
  obtain ⟨he1, he2⟩ := hA.toGraphOK.mem_edges.mp he
  have he1' := hA.sym _ _ he1
  have hv := hA.nbrs_verts he1
  have hq : A.qubit e.1 ≠ A.qubit e.2 := fun h => by
    have := hA.qubit_inj hv.1 hv.2 h
    omega
  unfold initEdge
  split_ifs with h1 h2 h3
  · refine ⟨(h.put ⟨h1.1, h1.2, he1, ?_⟩).put ⟨h1.2, h1.1, he1', ?_⟩, fun _ => put_isSome (.inl (put_isSome (.inr ⟨rfl, rfl⟩))),
      fun _ => put_isSome (.inr ⟨rfl, rfl⟩)⟩
    · rcases h2 with h2 | h2
      · exact .inl h2
      · exact .inr (.inl h2)
    · rcases h2 with h2 | h2
      · exact .inl h2
      · exact .inr (.inl h2.symm)
  · refine ⟨h.put ⟨h1.1, h1.2, he1, .inr (.inr h3)⟩, fun _ => put_isSome (.inr ⟨rfl, rfl⟩), ?_⟩
    rintro ⟨-, -, -, h4 | h4 | h4⟩
    · exact absurd (Or.inl h4) h2
    · exact absurd (Or.inr h4.symm) h2
    · omega
  · refine ⟨h.put ⟨h1.2, h1.1, he1', .inr (.inr (by omega))⟩, ?_, fun _ => put_isSome (.inr ⟨rfl, rfl⟩)⟩
    rintro ⟨-, -, -, h4 | h4 | h4⟩
    · exact absurd (Or.inl h4) h2
    · exact absurd (Or.inr h4) h2
    · omega
  · exact ⟨h, fun h' => absurd ⟨h'.1, h'.2.1⟩ h1, fun h' => absurd ⟨h'.2.1, h'.1⟩ h1⟩

theorem initEdges_spec {A : Arch} (hA : A.OK) (vs : List ℕ) (upper : Bool) (rec : List ℕ) (es : List (ℕ × ℕ)) (hes : ∀ e ∈ es, e ∈ A.edges) {d : Dist}
    (h : IOK (Allowed A vs upper rec) d) :
    IOK (Allowed A vs upper rec) (es.foldl (initEdge A vs upper rec) d) ∧
    (∀ a b, (d.get a b).isSome → ((es.foldl (initEdge A vs upper rec) d).get a b).isSome) ∧
    ∀ e ∈ es, (Allowed A vs upper rec e.1 e.2 → ((es.foldl (initEdge A vs upper rec) d).get e.1 e.2).isSome) ∧
      (Allowed A vs upper rec e.2 e.1 → ((es.foldl (initEdge A vs upper rec) d).get e.2 e.1).isSome) := by
  induction es generalizing d with
  | nil => exact ⟨h, fun _ _ h => h, by simp⟩
  | cons e es ih =>
    obtain ⟨h1, h2, h3⟩ := initEdge_spec hA vs upper rec h (hes e (by simp))
    obtain ⟨i1, i2, i3⟩ := ih (fun e he => hes e (by simp [he])) h1
    refine ⟨i1, fun a b hab => i2 a b (initEdge_keep A vs upper rec d e hab), ?_⟩
    intro x hx
    rcases List.mem_cons.mp hx with rfl | hx
    · exact ⟨fun hh => i2 _ _ (h2 hh), fun hh => i2 _ _ (h3 hh)⟩
    · exact i3 x hx

theorem selfs_get (vs : List ℕ) (d : Dist) (a b : ℕ) :
    (vs.foldl (fun d v => d.put v v (0, [])) d).get a b = if a = b ∧ a ∈ vs then some (0, []) else d.get a b := by
  induction vs generalizing d with
  | nil => simp
  | cons v vs ih =>
    rw [List.foldl_cons, ih, Dist.get_put]
    by_cases h1 : a = b ∧ a ∈ vs
    · rw [if_pos h1, if_pos ⟨h1.1, by simp [h1.2]⟩]
    · rw [if_neg h1]
      by_cases h2 : a = v ∧ b = v
      · rw [if_pos h2, if_pos ⟨h2.1.trans h2.2.symm, by simp [h2.1]⟩]
      · rw [if_neg h2, if_neg]
        rintro ⟨rfl, h3⟩
        rcases List.mem_cons.mp h3 with rfl | h3
        · exact h2 ⟨rfl, rfl⟩
        · exact h1 ⟨rfl, h3⟩

theorem fwInit_spec {A : Arch} (hA : A.OK) (vs : List ℕ) (upper : Bool) (rec : List ℕ) :
    DOK (Allowed A vs upper rec) upper (fwInit A vs upper rec) ∧ ∀ i ∈ vs, Good (Allowed A vs upper rec) vs (fwInit A vs upper rec) i [] := by
  obtain ⟨h1, -, h3⟩ := initEdges_spec hA vs upper rec A.edges (fun _ h => h) (d := []) ⟨by simp [Dist.get]⟩
  have hall : ∀ a b, Allowed A vs upper rec a b → ((A.edges.foldl (initEdge A vs upper rec) []).get a b).isSome := by
    intro a b hab
    have hn := hab.2.2.1
    rcases Nat.lt_trichotomy a b with hlt | rfl | hlt
    · exact (h3 (a, b) (hA.toGraphOK.mem_edges.mpr ⟨hn, hlt⟩)).1 hab
    · exact absurd hn (hA.irrefl _)
    · exact (h3 (b, a) (hA.toGraphOK.mem_edges.mpr ⟨hA.sym _ _ hn, hlt⟩)).2 hab
  rw [fwInit_eq]
  refine ⟨⟨?_, ?_⟩, ?_⟩
  · intro a b n p hg
    rw [selfs_get] at hg
    split_ifs at hg with e
    · simp only [Option.some.injEq, Prod.mk.injEq] at hg
      obtain ⟨rfl, rfl⟩ := hg
      obtain ⟨rfl, -⟩ := e
      exact ⟨Walk.nil _, rfl⟩
    · obtain ⟨hx, hr⟩ := h1.one _ _ _ hg
      simp only [Prod.mk.injEq] at hx
      obtain ⟨rfl, rfl⟩ := hx
      exact ⟨Walk.cons hr (Walk.nil _), rfl⟩
  · rintro rfl a b n p hg
    rw [selfs_get] at hg ⊢
    split_ifs at hg with e
    · obtain ⟨rfl, e⟩ := e
      exact ⟨p, by rw [if_pos ⟨rfl, e⟩]; exact hg⟩
    · obtain ⟨hx, hr⟩ := h1.one _ _ _ hg
      simp only [Prod.mk.injEq] at hx
      obtain ⟨rfl, rfl⟩ := hx
      have hne : ¬ (b = a ∧ b ∈ vs) := fun h => e ⟨h.1.symm, h.1 ▸ h.2⟩
      rw [if_neg hne]
      obtain ⟨x, hx⟩ := Option.isSome_iff_exists.mp (hall b a ⟨hr.2.1, hr.1, hA.sym _ _ hr.2.2.1, .inl rfl⟩)
      exact ⟨_, by rw [hx, (h1.one _ _ _ hx).1]⟩
  · intro i hi j hj n hw
    rcases W.empty (hw.mono fun x hx => by simp at hx) with ⟨rfl, rfl⟩ | ⟨rfl, hr⟩
    · exact ⟨0, [], by rw [selfs_get, if_pos ⟨rfl, hi⟩], le_rfl⟩
    · have hne : ¬ (i = j ∧ i ∈ vs) := by
        rintro ⟨rfl, -⟩
        exact hA.irrefl _ hr.2.2.1
      obtain ⟨x, hx⟩ := Option.isSome_iff_exists.mp (hall i j hr)
      exact ⟨1, _, by rw [selfs_get, if_neg hne, hx, (h1.one _ _ _ hx).1], le_rfl⟩

/-- `floyd_warshall` does not raise; it has an entry for a pair of the vertices iff there is a walk, and the entry is a shortest one. -/
theorem floyd_spec {A : Arch} (hA : A.OK) (vs : List ℕ) (upper : Bool) (rec : List ℕ) :
    ∃ d, floyd A vs upper rec = some d ∧
      (∀ a b x, d.get a b = some x → Walk (Allowed A vs upper rec) x.2 a b ∧ x.2.length = x.1) ∧
      ∀ a ∈ vs, ∀ b ∈ vs, ∀ q, Walk (Allowed A vs upper rec) q a b → ∃ x, d.get a b = some x ∧ x.1 ≤ q.length := by
  obtain ⟨h1, h2⟩ := fwInit_spec hA vs upper rec
  obtain ⟨d1, e1, k1, b1, w1⟩ := first_spec vs vs [] (by simp) h1 h2 (by simp)
  obtain ⟨d2, e2, k2, b2, w2⟩ := second_spec vs vs (fun _ h => h) k1 (fun i hi => (h2 i hi).better b1) w1
  refine ⟨d2, ?_, fun a b x hx => k2.walk a b x.1 x.2 hx, ?_⟩
  · unfold floyd
    rw [List.foldlM_append, e1]
    exact e2
  · intro a ha b hb q hq
    obtain ⟨m, p, hm, hle⟩ := w2 a ha b hb q.length (W.of_walk (fun _ _ h => h.2.1) hq)
    exact ⟨(m, p), hm, hle⟩

end Routing
end PyZX
