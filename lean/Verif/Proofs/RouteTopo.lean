import Verif.Model.Topology
import Verif.Proofs.RouteCut

/-!
# The coupling graphs of the constructors are well formed
-/

namespace PyZX
namespace Routing

theorem mem_insKey {l : List ℕ} {x y : ℕ} : y ∈ insKey l x ↔ y ∈ l ∨ y = x := by
  unfold insKey
  split
  · constructor
    · exact .inl
    · rintro (h | rfl)
      · exact h
      · assumption
  · simp

theorem keys_setNbr (s t : ℕ) (adj : List (ℕ × List ℕ)) : (setNbr s t adj).map Prod.fst = adj.map Prod.fst := by
  unfold setNbr
  rw [List.map_map]
  apply List.map_congr_left
  intro p _
  simp only [Function.comp]
  split <;> rfl

theorem mem_setNbr {s t : ℕ} {adj : List (ℕ × List ℕ)} (hs : s ∈ adj.map Prod.fst) {v w : ℕ} :
    w ∈ nbrsOf (setNbr s t adj) v ↔ w ∈ nbrsOf adj v ∨ (v = s ∧ w = t) := by
  induction adj with
  | nil => simp at hs
  | cons p adj ih =>
    obtain ⟨a, l⟩ := p
    unfold nbrsOf setNbr at *
    rw [List.map_cons]
    by_cases hva : v = a
    · subst hva
      by_cases hvs : v = s
      · subst hvs
        simp [mem_insKey]
      · simp [hvs]
    · have h1 : (v == a) = false := by simpa using hva
      by_cases has : a = s
      · subst has
        simp only [if_true, List.lookup_cons, h1]
        have : (a ∈ adj.map Prod.fst) ∨ a ∉ adj.map Prod.fst := Classical.em _
        rcases this with h | h
        · rw [ih h]
        · simp only [hva, false_and, or_false]
          have hmap : adj.map (fun p => if p.1 = a then (p.1, insKey p.2 t) else p) = adj := by
            conv_rhs => rw [← List.map_id adj]
            apply List.map_congr_left
            intro p hp
            rw [if_neg (fun hc => h (List.mem_map.mpr ⟨p, hp, hc⟩))]; rfl
          rw [hmap]
      · simp only [if_neg has, List.lookup_cons, h1]
        simp only [List.map_cons, List.mem_cons] at hs
        exact ih (hs.resolve_left (Ne.symm has))

theorem nbrs_empty (n v : ℕ) : nbrsOf ((List.range n).map fun v => (v, ([] : List ℕ))) v = [] := by
  unfold nbrsOf
  cases h : ((List.range n).map fun v => (v, ([] : List ℕ))).lookup v with
  | none => rfl
  | some l =>
    have hm := List.lookup_eq_some_iff.mp h
    obtain ⟨l1, l2, he, -⟩ := hm
    have : (v, l) ∈ (List.range n).map fun v => (v, ([] : List ℕ)) := by rw [he]; simp
    obtain ⟨x, -, hx⟩ := List.mem_map.mp this
    simp only [Prod.mk.injEq] at hx
    rw [← hx.2]; rfl

/-- Vertices and neighbours of the graph with the given edges. -/
theorem fromEdges_spec {n : ℕ} {es : List (ℕ × ℕ)} (hes : ∀ e ∈ es, e.1 < n ∧ e.2 < n) :
    (fromEdges n es).map Prod.fst = List.range n ∧ ∀ v w, w ∈ nbrsOf (fromEdges n es) v ↔ (v, w) ∈ es ∨ (w, v) ∈ es := by
  have key : ∀ (es : List (ℕ × ℕ)) (adj : List (ℕ × List ℕ)), (∀ e ∈ es, e.1 < n ∧ e.2 < n) → adj.map Prod.fst = List.range n →
      (es.foldl (fun adj e => setNbr e.2 e.1 (setNbr e.1 e.2 adj)) adj).map Prod.fst = List.range n ∧
      ∀ v w, w ∈ nbrsOf (es.foldl (fun adj e => setNbr e.2 e.1 (setNbr e.1 e.2 adj)) adj) v ↔ w ∈ nbrsOf adj v ∨ (v, w) ∈ es ∨ (w, v) ∈ es := by
    intro es
    induction es with
    | nil => intro adj _ h; exact ⟨h, by simp⟩
    | cons e es ih =>
      intro adj hes h
      obtain ⟨a, b⟩ := e
      have hab := hes (a, b) (by simp)
      have hk : (setNbr b a (setNbr a b adj)).map Prod.fst = List.range n := by rw [keys_setNbr, keys_setNbr, h]
      obtain ⟨h1, h2⟩ := ih (setNbr b a (setNbr a b adj)) (fun e he => hes e (by simp [he])) hk
      refine ⟨h1, fun v w => ?_⟩
      rw [List.foldl_cons, h2 v w, mem_setNbr (by rw [keys_setNbr, h]; simpa using hab.2), mem_setNbr (by rw [h]; simpa using hab.1)]
      simp only [List.mem_cons, Prod.mk.injEq]
      tauto
  have := key es ((List.range n).map fun v => (v, [])) hes (by rw [List.map_map]; exact List.map_id _)
  refine ⟨this.1, fun v w => ?_⟩
  unfold fromEdges
  rw [this.2 v w, nbrs_empty]
  simp

theorem fromEdges_ok {n : ℕ} {es : List (ℕ × ℕ)} (hes : ∀ e ∈ es, e.1 < n ∧ e.2 < n) (hne : ∀ e ∈ es, e.1 ≠ e.2) : GraphOK (fromEdges n es) := by
  obtain ⟨h1, h2⟩ := fromEdges_spec hes
  refine ⟨by rw [h1]; exact List.nodup_range, fun v w h => ?_, fun v h => ?_⟩
  · rw [h2] at h ⊢; exact h.symm
  · rw [h2] at h
    rcases h with h | h <;> exact hne _ h rfl

theorem mem_lineEdges {n : ℕ} {e : ℕ × ℕ} : e ∈ lineEdges (List.range n) ↔ e.2 = e.1 + 1 ∧ e.2 < n := by
  unfold lineEdges
  rw [List.mem_iff_getElem?]
  simp only [List.getElem?_zip_eq_some, List.getElem?_tail]
  obtain ⟨a, b⟩ := e
  constructor
  · rintro ⟨i, h1, h2⟩
    rw [List.getElem?_eq_some_iff] at h1 h2
    obtain ⟨h1, h1'⟩ := h1
    obtain ⟨h2, h2'⟩ := h2
    rw [List.length_range] at h2
    simp only [List.getElem_range] at *
    omega
  · rintro ⟨h1, h2⟩
    simp only at h1 h2
    subst h1
    exact ⟨a, List.getElem?_range (by omega), List.getElem?_range h2⟩

/-- A graph given by edges among which are those of the line. -/
theorem fromEdges_line {n : ℕ} {es : List (ℕ × ℕ)} (hes : ∀ e ∈ es, e.1 < n ∧ e.2 < n) (hl : ∀ v, v + 1 < n → (v, v + 1) ∈ es ∨ (v + 1, v) ∈ es) :
    (fromEdges n es).map Prod.fst = List.range n ∧ ∀ v, v + 1 < n → v ∈ nbrsOf (fromEdges n es) (v + 1) := by
  obtain ⟨h1, h2⟩ := fromEdges_spec hes
  refine ⟨h1, fun v hv => ?_⟩
  rw [h2]; exact (hl v hv).symm

theorem line_edges {n : ℕ} : (∀ e ∈ lineEdges (List.range n), (e.1 < n ∧ e.2 < n) ∧ e.1 ≠ e.2) ∧ ∀ v, v + 1 < n → (v, v + 1) ∈ lineEdges (List.range n) := by
  refine ⟨fun e he => ?_, fun v hv => ?_⟩
  · rw [mem_lineEdges] at he; omega
  · rw [mem_lineEdges]; exact ⟨rfl, hv⟩

theorem mem_segment {N a w x : ℕ} (h : x ∈ ((List.range N).drop a).take w) : a ≤ x ∧ x < a + w ∧ x < N := by
  obtain ⟨i, hi⟩ := List.mem_iff_getElem?.mp h
  rw [List.getElem?_take] at hi
  split at hi
  · rw [List.getElem?_drop, List.getElem?_eq_some_iff] at hi
    obtain ⟨h1, h2⟩ := hi
    rw [List.length_range] at h1
    simp only [List.getElem_range] at h2
    omega
  · simp at hi

theorem grid_edges {w h n : ℕ} : ∀ e ∈ gridEdges w h (List.range n), (e.1 < n ∧ e.2 < n) ∧ e.1 ≠ e.2 := by
  intro e he
  unfold gridEdges at he
  rcases List.mem_append.mp he with he | he
  · exact line_edges.1 e he
  · obtain ⟨p, hp, he⟩ := List.mem_flatMap.mp he
    obtain ⟨i, hi⟩ := List.mem_iff_getElem?.mp hp
    obtain ⟨h1, h2⟩ := List.getElem?_zip_eq_some.mp hi
    rw [List.getElem?_tail] at h2
    rw [List.getElem?_map, Option.map_eq_some_iff] at h1 h2
    obtain ⟨a, ha, h1⟩ := h1
    obtain ⟨b, hb, h2⟩ := h2
    obtain ⟨ha', rfl⟩ := List.getElem?_eq_some_iff.mp ha
    obtain ⟨hb', rfl⟩ := List.getElem?_eq_some_iff.mp hb
    simp only [List.getElem_range] at h1 h2
    have m1 : e.1 ∈ p.1 := List.mem_of_mem_dropLast (List.of_mem_zip (a := e.1) (b := e.2) he).1
    have m2 : e.2 ∈ p.2 := List.mem_of_mem_tail (List.mem_reverse.mp (List.of_mem_zip (a := e.1) (b := e.2) he).2)
    rw [← h1] at m1
    rw [← h2] at m2
    have k1 := mem_segment m1
    have k2 := mem_segment m2
    have hmul : (i + 1) * w = i * w + w := by ring
    omega

theorem full_edges {n : ℕ} : (∀ e ∈ ((List.range n).flatMap fun i => ((List.range n).filter fun j => decide (i ≠ j)).map fun j => (i, j)), (e.1 < n ∧ e.2 < n) ∧ e.1 ≠ e.2) ∧
    ∀ v, v + 1 < n → (v, v + 1) ∈ ((List.range n).flatMap fun i => ((List.range n).filter fun j => decide (i ≠ j)).map fun j => (i, j)) := by
  constructor
  · intro e he
    simp only [List.mem_flatMap, List.mem_map, List.mem_filter, List.mem_range, decide_eq_true_eq] at he
    obtain ⟨i, hi, j, ⟨hj, hij⟩, rfl⟩ := he
    exact ⟨⟨hi, hj⟩, hij⟩
  · intro v hv
    simp only [List.mem_flatMap, List.mem_map, List.mem_filter, List.mem_range, decide_eq_true_eq]
    exact ⟨v, by omega, v + 1, ⟨hv, by omega⟩, rfl⟩

end Routing
end PyZX
