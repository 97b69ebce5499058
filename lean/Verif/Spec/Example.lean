import Verif.Spec.Match

/-!
# Concrete diagrams for the examples beside the theorems
-/

namespace PyZX
namespace Graph

/-- The diagram with vertices `0, ..., n-1` of the given types and phases and the given edges. -/
noncomputable def mkG (ts : List VType) (ps : List ℚ) (es : List (ℕ × ℕ × EType)) (ins outs : List ℕ) : Graph :=
  { verts := Finset.range ts.length
    adj := fun u v => (es.find? fun e => decide ((e.1 = u ∧ e.2.1 = v) ∨ (e.1 = v ∧ e.2.1 = u))).map (·.2.2)
    vindex := ts.length
    nedges := es.length
    ty := fun v => ts.getD v .boundary
    phase := fun v => ps.getD v 0
    label := fun _ => 1
    scalar := Scalar.new
    inputs := ins
    outputs := outs }

/-- The number of connected pairs, in a form that evaluates. -/
def mkCount (n : ℕ) (es : List (ℕ × ℕ × EType)) : ℕ :=
  ((pairs (Finset.range n)).filter fun p =>
    (es.find? fun e => decide ((e.1 = p.1 ∧ e.2.1 = p.2) ∨ (e.1 = p.2 ∧ e.2.1 = p.1))).isSome).card

/-- Decidable check that `mkG` is well-formed. -/
def mkOK (ts : List VType) (es : List (ℕ × ℕ × EType)) (ins outs : List ℕ) : Prop :=
  (∀ e ∈ es, e.1 < ts.length ∧ e.2.1 < ts.length ∧ e.1 ≠ e.2.1 ∧ e.2.2 ≠ .wio) ∧
  (∀ v ∈ ins ++ outs, v < ts.length ∧ ts.getD v .boundary = .boundary) ∧
  (∀ t ∈ ts, t = .boundary ∨ t = .Z ∨ t = .X ∨ t = .zbox) ∧ mkCount ts.length es = es.length

instance (ts : List VType) (es : List (ℕ × ℕ × EType)) (ins outs : List ℕ) : Decidable (mkOK ts es ins outs) := by
  unfold mkOK; infer_instance

theorem mkG_wf {ts : List VType} {ps : List ℚ} {es : List (ℕ × ℕ × EType)} {ins outs : List ℕ}
    (h : mkOK ts es ins outs) : (mkG ts ps es ins outs).WF := by
  obtain ⟨h1, h2, h3, h4⟩ := h
  have key : ∀ u v e, (mkG ts ps es ins outs).adj u v = some e → u < ts.length ∧ u ≠ v ∧ e ≠ .wio := by
    intro u v e he
    simp only [mkG, Option.map_eq_some_iff] at he
    obtain ⟨a, ha, rfl⟩ := he
    have hm := List.mem_of_find?_eq_some ha
    have hp := List.find?_some ha
    simp only [decide_eq_true_eq] at hp
    obtain ⟨q1, q2, q3, q4⟩ := h1 a hm
    rcases hp with ⟨rfl, rfl⟩ | ⟨rfl, rfl⟩
    · exact ⟨q1, q3, q4⟩
    · exact ⟨q2, Ne.symm q3, q4⟩
  refine { symm := ?_, mem := ?_, lt := ?_, inp := ?_, out := ?_, loopless := ?_, count := ?_, noWio := ?_, types := ?_, io := ?_ }
  · intro u v
    simp only [mkG]
    congr 2
    funext e
    simp only [decide_eq_decide]
    tauto
  · intro u v hne
    obtain ⟨e, he⟩ := Option.ne_none_iff_exists'.mp hne
    exact Finset.mem_range.mpr (key u v e he).1
  · intro v hv; exact Finset.mem_range.mp hv
  · intro v hv; exact Finset.mem_range.mpr (h2 v (List.mem_append_left _ hv)).1
  · intro v hv; exact Finset.mem_range.mpr (h2 v (List.mem_append_right _ hv)).1
  · intro v
    by_contra hne
    obtain ⟨e, he⟩ := Option.ne_none_iff_exists'.mp hne
    exact (key v v e he).2.1 rfl
  · show (es.length : ℤ) = _
    rw [← h4]
    simp only [mkCount, pairSum, mkG, Option.isSome_map]
    rw [Finset.card_filter]
    push_cast
    rfl
  · intro u v hw; exact (key u v _ hw).2.2 rfl
  · intro v hv
    have hv : v < ts.length := Finset.mem_range.mp hv
    have : ts.getD v .boundary = ts[v] := by simp [List.getD, hv]
    show ts.getD v .boundary = _ ∨ ts.getD v .boundary = _ ∨ ts.getD v .boundary = _ ∨ ts.getD v .boundary = _
    rw [this]
    exact h3 _ (List.getElem_mem hv)
  · intro v hv
    exact (h2 v (List.mem_append.mpr hv)).2

/-- Adjacency of `mkG`, in a form that evaluates. -/
def mkAdj (es : List (ℕ × ℕ × EType)) (u v : ℕ) : Option EType :=
  (es.find? fun e => decide ((e.1 = u ∧ e.2.1 = v) ∨ (e.1 = v ∧ e.2.1 = u))).map (·.2.2)

/-- Decidable check that boundaries have at most one neighbour. -/
def mkBD (ts : List VType) (es : List (ℕ × ℕ × EType)) : Prop :=
  ∀ b ∈ Finset.range ts.length, ∀ u ∈ Finset.range ts.length, ∀ w ∈ Finset.range ts.length,
    ts.getD b .boundary = .boundary → mkAdj es b u ≠ none → mkAdj es b w ≠ none → u = w

instance (ts : List VType) (es : List (ℕ × ℕ × EType)) : Decidable (mkBD ts es) := by unfold mkBD; infer_instance

theorem mkG_bdeg {ts : List VType} {ps : List ℚ} {es : List (ℕ × ℕ × EType)} {ins outs : List ℕ}
    (hok : mkOK ts es ins outs) (h : mkBD ts es) : (mkG ts ps es ins outs).BDeg := by
  have hw := mkG_wf (ps := ps) hok
  intro b hb hbt u w hu hw'
  exact h b hb u (hw.mem u b (by rw [hw.symm]; exact hu)) w (hw.mem w b (by rw [hw.symm]; exact hw')) hbt hu hw'

/-- Decidable check that all edges between Z-spiders are Hadamard edges. -/
def mkZH (ts : List VType) (es : List (ℕ × ℕ × EType)) : Prop :=
  ∀ u ∈ Finset.range ts.length, ∀ v ∈ Finset.range ts.length, ts.getD u .boundary = .Z → ts.getD v .boundary = .Z → mkAdj es u v ≠ none →
    mkAdj es u v = some .had

instance (ts : List VType) (es : List (ℕ × ℕ × EType)) : Decidable (mkZH ts es) := by unfold mkZH; infer_instance

theorem mkG_zhad {ts : List VType} {ps : List ℚ} {es : List (ℕ × ℕ × EType)} {ins outs : List ℕ}
    (hok : mkOK ts es ins outs) (h : mkZH ts es) : (mkG ts ps es ins outs).ZHad := by
  have hw := mkG_wf (ps := ps) hok
  intro u v hu hv hne
  exact h u (hw.mem u v hne) v (hw.mem v u (by rw [hw.symm]; exact hne)) hu hv hne

/-- An order of the neighbours exists for every diagram: for instance the increasing one. -/
def incOrd (g : Graph) (v : ℕ) : List ℕ := (g.nbrs v).sort (· ≤ ·)

theorem incOrd_ok (g : Graph) : Rules.NbrOrder g g.incOrd := fun _ _ =>
  ⟨Finset.sort_nodup _ _, Finset.sort_toFinset _ _⟩

/-- An order of all finite sets exists. -/
def incSet (s : Finset ℕ) : List ℕ := s.sort (· ≤ ·)

theorem incSet_ok : Rules.SetOrder incSet := fun _ => ⟨Finset.sort_nodup _ _, Finset.sort_toFinset _ _⟩

end Graph
end PyZX
