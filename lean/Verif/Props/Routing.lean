import Verif.Proofs.RouteTopo

/-!
# C53-C56: routing of CNOT circuits on architectures

`o` is the unspecified iteration order of Python sets; the theorems hold for every one.
-/

namespace PyZX
namespace Props

open Matrix Mat2 Routing

section
variable {X Y : Type*} (ra : ℕ → ℕ → X → X) (ca : ℕ → ℕ → Y → Y)

/-- C53: `rec_steiner_gauss` only adds rows of coupled qubits, and shows exactly these additions to the observers. -/
theorem recGauss_coupled {A : Arch} (hA : A.OK) {o : Order} (ho : o.OK) {r c : ℕ} {s s' : St X Y} (hs : Rect r c s.m) (full : Bool) (fuel : ℕ)
    (h : recGauss ra ca A o full fuel s = some s') :
    ∃ L : List (ℕ × ℕ), (∀ p ∈ L, Coupled A p.1 p.2 ∧ p.1 < r ∧ p.2 < r) ∧
      s'.m = L.foldl (fun d p => Mat2.rowAdd p.1 p.2 d) s.m ∧ s'.x = L.foldl (fun x p => ra p.1 p.2 x) s.x ∧
      s'.y = L.foldl (fun y p => ca p.2 p.1 y) s.y := by
  obtain ⟨L, hL, rfl⟩ := (recStep_run hA ho fuel).1 A.order s s' hs h
  exact ⟨L, hL, runs_m L s, runs_x L s, runs_y L s⟩

/-- C53: `steiner_gauss` only adds rows of coupled qubits, and shows exactly these additions to the observers. -/
theorem steinerGauss_coupled {A : Arch} (hA : A.OK) (o : Order) {r c k : ℕ} {s s' : St X Y} (hs : Rect r c s.m) (full : Bool)
    (h : steinerGauss ra ca A o full s = some (s', k)) :
    ∃ L : List (ℕ × ℕ), (∀ p ∈ L, Coupled A p.1 p.2 ∧ p.1 < r ∧ p.2 < r) ∧
      s'.m = L.foldl (fun d p => Mat2.rowAdd p.1 p.2 d) s.m ∧ s'.x = L.foldl (fun x p => ra p.1 p.2 x) s.x ∧
      s'.y = L.foldl (fun y p => ca p.2 p.1 y) s.y := by
  obtain ⟨L, hL, hr⟩ := steinerGauss_run hA hs h
  simp only at hr
  subst hr
  exact ⟨L, hL, runs_m L s, runs_x L s, runs_y L s⟩

end

/-- What two trackers hold after row additions between coupled qubits. -/
theorem trackers_of_run {A : Arch} (hA : A.OK) {n : ℕ} {d : Data} (hd : Rect n n d) {L : List (ℕ × ℕ)}
    (hL : ∀ p ∈ L, Coupled A p.1 p.2 ∧ p.1 < n ∧ p.2 < n) {s' : St Tracker Tracker} (hm : s'.m = L.foldl (fun d p => Mat2.rowAdd p.1 p.2 d) d)
    (hx : s'.x = L.foldl (fun x p => Tracker.rowAdd p.1 p.2 x) (Tracker.new n)) (hy : s'.y = L.foldl (fun y p => Tracker.colAdd p.2 p.1 y) (Tracker.new n)) :
    (∀ g ∈ s'.x.gates ++ s'.y.gates, Coupled A g.1 g.2) ∧ s'.x.update n = s'.x ∧ s'.y.update n = s'.y ∧
      mat n n s'.x.mat * mat n n d = mat n n s'.m ∧ mat n n d = mat n n s'.y.mat * mat n n s'.m ∧
      (mat n n s'.m = 1 → ∀ v : Fin n → ZMod 2, circAct s'.y.gates v = mat n n d *ᵥ v ∧ circAct s'.x.gates (mat n n d *ᵥ v) = v) := by
  have hv : ∀ p ∈ L, Valid n p.1 p.2 := fun p hp => ⟨(hL p hp).2.1, (hL p hp).2.2, (hL p hp).1.ne hA⟩
  have hv' : ∀ p ∈ L.reverse, Valid n p.1 p.2 := fun p hp => hv p (by simpa using hp)
  rw [tracker_rows] at hx
  rw [tracker_cols] at hy
  simp only [Tracker.new, List.nil_append, List.append_nil] at hx hy
  obtain ⟨r1, r2⟩ := em_rows hv hd
  obtain ⟨x1, x2⟩ := em_rows hv (rect_ident n)
  obtain ⟨y1, y2⟩ := em_cols hv (rect_ident n)
  obtain ⟨z1, z2⟩ := em_rows hv' (rect_ident n)
  rw [mat_ident, Matrix.mul_one] at x2 z2
  rw [mat_ident, Matrix.one_mul] at y2
  rw [← hm] at r2
  have hxm : mat n n s'.x.mat = em n L := by rw [hx]; exact x2
  have hym : mat n n s'.y.mat = em n L.reverse := by rw [hy]; exact y2
  have hinv : mat n n d = em n L.reverse * mat n n s'.m := by rw [r2, ← Matrix.mul_assoc, em_reverse hv, Matrix.one_mul]
  refine ⟨?_, ?_, ?_, ?_, ?_, ?_⟩
  · intro g hg
    rw [hx, hy] at hg
    rcases List.mem_append.mp hg with hg | hg
    · exact (hL g hg).1
    · exact (hL g (by simpa using hg)).1
  · rw [hx]; rfl
  · rw [hy]
    simp only [Tracker.update, Tracker.mk.injEq, true_and]
    exact mat_inj z1 y1 (z2.trans y2.symm)
  · rw [hxm, r2]
  · rw [hym]; exact hinv
  · intro hone v
    have hgy : s'.y.gates = L.reverse := by rw [hy]
    have hgx : s'.x.gates = L := by rw [hx]
    rw [hone, Matrix.mul_one] at hinv
    constructor
    · rw [hgy, em_act hv', hinv]
    · rw [hgx, em_act hv, Matrix.mulVec_mulVec, ← r2, hone, Matrix.one_mulVec]

/-- C53: with a `CNOT_tracker` as each of the observers: all recorded CNOTs are between coupled qubits, the matrices of the trackers are
those of their CNOTs, `x` takes the initial matrix to the final one and `y` the final one to the initial one. If the final matrix is
the identity, the circuit `y` realises the initial matrix. -/
theorem recGauss_tracker {A : Arch} (hA : A.OK) {o : Order} (ho : o.OK) {n : ℕ} {d : Data} (hd : Rect n n d) (full : Bool) (fuel : ℕ)
    {s' : St Tracker Tracker} (h : recGauss Tracker.rowAdd Tracker.colAdd A o full fuel ⟨d, Tracker.new n, Tracker.new n⟩ = some s') :
    (∀ g ∈ s'.x.gates ++ s'.y.gates, Coupled A g.1 g.2) ∧ s'.x.update n = s'.x ∧ s'.y.update n = s'.y ∧
      mat n n s'.x.mat * mat n n d = mat n n s'.m ∧ mat n n d = mat n n s'.y.mat * mat n n s'.m ∧
      (mat n n s'.m = 1 → ∀ v : Fin n → ZMod 2, circAct s'.y.gates v = mat n n d *ᵥ v ∧ circAct s'.x.gates (mat n n d *ᵥ v) = v) := by
  obtain ⟨L, hL, h1, h2, h3⟩ := recGauss_coupled Tracker.rowAdd Tracker.colAdd hA ho hd full fuel h
  exact trackers_of_run hA hd hL h1 h2 h3

/-- C53: the same for `steiner_gauss`. -/
theorem steinerGauss_tracker {A : Arch} (hA : A.OK) (o : Order) {n k : ℕ} {d : Data} (hd : Rect n n d) (full : Bool)
    {s' : St Tracker Tracker} (h : steinerGauss Tracker.rowAdd Tracker.colAdd A o full ⟨d, Tracker.new n, Tracker.new n⟩ = some (s', k)) :
    (∀ g ∈ s'.x.gates ++ s'.y.gates, Coupled A g.1 g.2) ∧ s'.x.update n = s'.x ∧ s'.y.update n = s'.y ∧
      mat n n s'.x.mat * mat n n d = mat n n s'.m ∧ mat n n d = mat n n s'.y.mat * mat n n s'.m ∧
      (mat n n s'.m = 1 → ∀ v : Fin n → ZMod 2, circAct s'.y.gates v = mat n n d *ᵥ v ∧ circAct s'.x.gates (mat n n d *ᵥ v) = v) := by
  obtain ⟨L, hL, h1, h2, h3⟩ := steinerGauss_coupled Tracker.rowAdd Tracker.colAdd hA o hd full h
  exact trackers_of_run hA hd hL h1 h2 h3

/-- C54: `floyd_warshall` always returns; for two of the given vertices the dictionary has an entry iff the second can be reached
from the first by allowed steps, and the entry is a shortest such walk and its length. -/
theorem floyd_shortest {A : Arch} (hA : A.OK) (vs : List ℕ) (upper : Bool) (rec : List ℕ) :
    ∃ d, floyd A vs upper rec = some d ∧ ∀ a ∈ vs, ∀ b ∈ vs,
      ((d.get a b).isSome ↔ ∃ q, Walk (Allowed A vs upper rec) q a b) ∧ ∀ x, d.get a b = some x → Shortest (Allowed A vs upper rec) a b x := by
  obtain ⟨d, h1, h2, h3⟩ := floyd_spec hA vs upper rec
  refine ⟨d, h1, fun a ha b hb => ⟨⟨?_, ?_⟩, ?_⟩⟩
  · intro h
    obtain ⟨x, hx⟩ := Option.isSome_iff_exists.mp h
    exact ⟨x.2, (h2 a b x hx).1⟩
  · rintro ⟨q, hq⟩
    obtain ⟨x, hx, -⟩ := h3 a ha b hb q hq
    rw [hx]; rfl
  · intro x hx
    refine ⟨(h2 a b x hx).1, (h2 a b x hx).2, fun q hq => ?_⟩
    obtain ⟨y, hy, hle⟩ := h3 a ha b hb q hq
    rw [hx] at hy
    rw [Option.some.inj hy]; exact hle

section
variable {X Y : Type*} (ra : ℕ → ℕ → X → X) (ca : ℕ → ℕ → Y → Y)

theorem recStep_upper {A : Arch} (hA : A.OK) {o : Order} (ho : o.OK) (hup : UpConnected A) {n : ℕ} (hn : A.qmap.length = n) {l : List ℕ} (hl : l.Perm (List.range n))
    {s : St X Y} (hs : Rect n n s.m) (hi : Inv n s.m) :
    ∃ s', recUpper ra ca A o (l.insertionSort (· ≤ ·)) s = some s' ∧ Rect n n s'.m ∧ UT n n s'.m := by
  have hsort : l.insertionSort (· ≤ ·) = List.range' 0 n := by
    rw [← List.range_eq_range']
    refine List.Perm.eq_of_pairwise (le := (· ≤ ·)) (fun a b _ _ h1 h2 => le_antisymm h1 h2) (List.pairwise_insertionSort _ _) ?_
      ((List.perm_insertionSort _ _).trans hl)
    exact List.pairwise_lt_range.imp fun h => le_of_lt h
  rw [hsort]
  exact recUpper_spec hA ho hup hn n (by omega) hs hi ⟨by omega, by omega⟩

/-- C55: without `full_reduce`, `rec_steiner_gauss` brings every invertible matrix into upper triangular form, provided the qubits from
any one on are connected among themselves. -/
theorem recGauss_upper {A : Arch} (hA : A.OK) {o : Order} (ho : o.OK) (hup : UpConnected A) {n : ℕ} (hn : A.qmap.length = n) (hord : A.order.Perm (List.range n))
    {s : St X Y} (hs : Rect n n s.m) {N : Matrix (Fin n) (Fin n) (ZMod 2)} (hN : N * mat n n s.m = 1) (fuel : ℕ) :
    ∃ s', recGauss ra ca A o false (fuel + 1) s = some s' ∧ UpperTriangular (mat n n s'.m) := by
  obtain ⟨s', h1, h2, h3⟩ := recStep_upper ra ca hA ho hup hn hord hs ⟨N, hN⟩
  refine ⟨s', ?_, ?_, ?_⟩
  · unfold recGauss
    simp only [recStep, h1]
    rfl
  · intro i j hij
    simp [mat, h3.1 j j.2 i i.2 hij, bit]
  · intro i
    simp [mat, h3.2 i i.2, bit]

/-- C55: with `full_reduce`, `rec_steiner_gauss` reduces every invertible matrix to the identity, provided consecutive qubits are coupled
and the qubits are removed from the last to the first; `circle4_ok` below is an example.

Partial: for other architectures the result can be something else, see `recGauss_identity_counterexample`. -/
theorem recGauss_identity_partial {A : Arch} (hA : A.OK) {o : Order} (ho : o.OK) (hh : Hamiltonian A) {n : ℕ} (hn : A.qmap.length = n)
    (hord : A.order = (List.range n).reverse) {s : St X Y} (hs : Rect n n s.m) {N : Matrix (Fin n) (Fin n) (ZMod 2)} (hN : N * mat n n s.m = 1) (fuel : ℕ) :
    ∃ s', recGauss ra ca A o true (fuel + 1) s = some s' ∧ mat n n s'.m = 1 := by
  obtain ⟨s1, h1, h2, h3⟩ := recStep_upper ra ca hA ho hh.upConnected hn (l := A.order) (by rw [hord]; exact List.reverse_perm _) hs ⟨N, hN⟩
  obtain ⟨s2, g1, g2, g3⟩ := recFull_spec (ra := ra) (ca := ca) hA ho hh hn true fuel n le_rfl h2 h3 (fun j hj hjn => by omega)
  refine ⟨s2, ?_, ?_⟩
  · unfold recGauss
    simp only [recStep, h1, Option.bind_some, if_true]
    rw [hord]; exact g1
  · ext i j
    simp only [mat, g3 i i.2 j j.2, Matrix.one_apply, Fin.ext_iff]
    by_cases hij : (i : ℕ) = j <;> simp [hij, bit]

end

/-- C55: `rec_steiner_gauss` and two trackers: the circuit `y` realises the matrix, with CNOTs between coupled qubits only. -/
theorem recGauss_routes_partial {A : Arch} (hA : A.OK) {o : Order} (ho : o.OK) (hh : Hamiltonian A) {n : ℕ} (hn : A.qmap.length = n)
    (hord : A.order = (List.range n).reverse) {d : Data} (hd : Rect n n d) {N : Matrix (Fin n) (Fin n) (ZMod 2)} (hN : N * mat n n d = 1) (fuel : ℕ) :
    ∃ s', recGauss Tracker.rowAdd Tracker.colAdd A o true (fuel + 1) ⟨d, Tracker.new n, Tracker.new n⟩ = some s' ∧
      (∀ g ∈ s'.y.gates, Coupled A g.1 g.2) ∧ ∀ v : Fin n → ZMod 2, circAct s'.y.gates v = mat n n d *ᵥ v := by
  obtain ⟨s', h1, h2⟩ := recGauss_identity_partial Tracker.rowAdd Tracker.colAdd hA ho hh hn hord (s := ⟨d, Tracker.new n, Tracker.new n⟩) hd hN fuel
  have h3 := recGauss_tracker hA ho hd true (fuel + 1) h1
  exact ⟨s', h1, fun g hg => h3.1 g (List.mem_append_right _ hg), fun v => (h3.2.2.2.2.2 h2 v).1⟩

/-- C56: the default architecture of a non-empty connected coupling graph exists. Its placement is a bijection between the qubits and the
vertices, every final segment of the qubits is connected, and the order of removal lists every qubit once. -/
theorem build_default {adj : List (ℕ × List ℕ)} (hadj : GraphOK adj) (hc : Connected adj) (hne : adj ≠ []) :
    ∃ A, build adj none none = some A ∧ A.adj = adj ∧ A.OK ∧ UpConnected A ∧ A.order.Perm (List.range A.qmap.length) ∧ A.qmap.length = adj.length := by
  obtain ⟨A, h, -⟩ := build_defined hadj hc hne
  obtain ⟨h1, h2, h3, h4⟩ := build_spec hadj hc h
  refine ⟨A, h, h1, h2, h3, h4, ?_⟩
  subst h1
  have hp : A.qmap.Perm (A.adj.map Prod.fst) := (List.perm_ext_iff_of_nodup h2.place hadj.nodup).mpr h2.onto
  rw [hp.length_eq, List.length_map]

/-- C56: on any connected architecture with default placement, `rec_steiner_gauss` without `full_reduce` brings every invertible matrix into
upper triangular form. -/
theorem recGauss_default {X Y : Type*} (ra : ℕ → ℕ → X → X) (ca : ℕ → ℕ → Y → Y) {adj : List (ℕ × List ℕ)} (hadj : GraphOK adj) (hc : Connected adj)
    (hne : adj ≠ []) {o : Order} (ho : o.OK) {s : St X Y} (hs : Rect adj.length adj.length s.m)
    {N : Matrix (Fin adj.length) (Fin adj.length) (ZMod 2)} (hN : N * mat adj.length adj.length s.m = 1) (fuel : ℕ) :
    ∃ A s', build adj none none = some A ∧ recGauss ra ca A o false (fuel + 1) s = some s' ∧ UpperTriangular (mat adj.length adj.length s'.m) := by
  obtain ⟨A, h1, -, h2, h3, h4, h5⟩ := build_default hadj hc hne
  obtain ⟨s', h6, h7⟩ := recGauss_upper ra ca h2 ho h3 h5 (h5 ▸ h4) hs hN fuel
  exact ⟨A, s', h1, h6, h7⟩

/-- Routing works on a coupling graph with `n` vertices: its default architecture exists, and for every invertible matrix
`rec_steiner_gauss` returns a CNOT circuit that realises it and only acts along edges of the graph. -/
def Routes (adj : List (ℕ × List ℕ)) (n : ℕ) : Prop :=
  ∃ A, build adj none none = some A ∧ ∀ (o : Order) (fuel : ℕ) (d : Data) (N : Matrix (Fin n) (Fin n) (ZMod 2)), o.OK → Rect n n d → N * mat n n d = 1 →
    ∃ s', recGauss Tracker.rowAdd Tracker.colAdd A o true (fuel + 1) ⟨d, Tracker.new n, Tracker.new n⟩ = some s' ∧
      (∀ g ∈ s'.y.gates, g.2 ∈ nbrsOf adj g.1) ∧ ∀ v : Fin n → ZMod 2, circAct s'.y.gates v = mat n n d *ᵥ v

/-- C57: routing works on every coupling graph in which each vertex is adjacent to the next one. -/
theorem hamiltonian_routes {adj : List (ℕ × List ℕ)} (hadj : GraphOK adj) {n : ℕ} (hn : 0 < n) (hv : adj.map Prod.fst = List.range n)
    (hline : ∀ v, v + 1 < n → v ∈ nbrsOf adj (v + 1)) : Routes adj n := by
  obtain ⟨h1, h2, h3⟩ := build_line hadj hn hv hline
  refine ⟨_, h1, fun o fuel d N ho hd hN => ?_⟩
  obtain ⟨s', h4, h5, h6⟩ := recGauss_routes_partial h2 ho h3 (by simp) rfl hd hN fuel
  refine ⟨s', h4, fun g hg => ?_, h6⟩
  obtain ⟨u, v, hu, hv', huv⟩ := h5 g hg
  simp only at hu hv'
  rw [List.getElem?_eq_some_iff] at hu hv'
  obtain ⟨_, hu⟩ := hu
  obtain ⟨_, hv'⟩ := hv'
  simp only [List.getElem_range] at hu hv'
  rw [hu, hv']
  exact huv

/-- C57: routing works on `create_line_architecture(n)`. -/
theorem line_routes {n : ℕ} (hn : 0 < n) : Routes (lineGraph n) n := by
  have h := fromEdges_line (n := n) (fun e he => (line_edges.1 e he).1) (fun v hv => .inl (line_edges.2 v hv))
  exact hamiltonian_routes (fromEdges_ok (fun e he => (line_edges.1 e he).1) fun e he => (line_edges.1 e he).2) hn h.1 h.2

/-- C57: routing works on `create_circle_architecture(n)`. For one qubit the graph has a loop. -/
theorem circle_routes {n : ℕ} (hn : 1 < n) : Routes (circleGraph n) n := by
  have he : ∀ e ∈ lineEdges (List.range n) ++ [(n - 1, 0)], (e.1 < n ∧ e.2 < n) ∧ e.1 ≠ e.2 := by
    intro e he
    rcases List.mem_append.mp he with he | he
    · exact line_edges.1 e he
    · rw [List.mem_singleton] at he
      subst he
      simp only; omega
  have h := fromEdges_line (n := n) (fun e h => (he e h).1) (fun v hv => .inl (List.mem_append_left _ (line_edges.2 v hv)))
  exact hamiltonian_routes (fromEdges_ok (fun e h => (he e h).1) fun e h => (he e h).2) (by omega) h.1 h.2

/-- C57: routing works on `create_square_architecture(k * k)`. -/
theorem square_routes {k : ℕ} (hk : 0 < k) : Routes (squareGraph k) (k * k) := by
  have h := fromEdges_line (n := k * k) (fun e h => (grid_edges (w := k) (h := k) e h).1) (fun v hv => .inl (List.mem_append_left _ (line_edges.2 v hv)))
  exact hamiltonian_routes (fromEdges_ok (fun e h => (grid_edges e h).1) fun e h => (grid_edges e h).2) (Nat.mul_pos hk hk) h.1 h.2

/-- C57: routing works on `create_fully_connected_architecture(n)`. -/
theorem full_routes {n : ℕ} (hn : 0 < n) : Routes (fullGraph n) n := by
  have h := fromEdges_line (n := n) (fun e he => (full_edges.1 e he).1) (fun v hv => .inl (full_edges.2 v hv))
  exact hamiltonian_routes (fromEdges_ok (fun e he => (full_edges.1 e he).1) fun e he => (full_edges.1 e he).2) hn h.1 h.2

/-! ### Examples and counterexamples -/

/-- Sets in sorted order. -/
def sortedOrder : Order := ⟨fun l => l.insertionSort (· ≤ ·), id⟩

theorem sortedOrder_ok : sortedOrder.OK := ⟨fun l => List.perm_insertionSort _ l, fun _ => List.Perm.refl _⟩

/-- Observers that see nothing. -/
def blind : ℕ → ℕ → Unit → Unit := fun _ _ u => u

/-- A check for `GraphOK`. -/
theorem graphOK_of_check {adj : List (ℕ × List ℕ)} (h1 : (adj.map Prod.fst).Nodup) (h2 : ∀ p ∈ adj, ∀ w ∈ p.2, p.1 ∈ nbrsOf adj w)
    (h3 : ∀ p ∈ adj, p.1 ∉ p.2) : GraphOK adj := by
  have key : ∀ (l : List (ℕ × List ℕ)) v, nbrsOf l v = [] ∨ (v, nbrsOf l v) ∈ l := by
    intro l v
    induction l with
    | nil => exact Or.inl rfl
    | cons p t ih =>
      obtain ⟨a, b⟩ := p
      unfold nbrsOf at ih ⊢
      by_cases hv : v = a
      · subst hv
        rw [List.lookup_cons_self]
        exact Or.inr (List.mem_cons_self)
      · rw [List.lookup_cons, beq_false_of_ne hv]
        exact ih.imp_right (List.mem_cons_of_mem _)
  refine ⟨h1, fun v w hw => ?_, fun v hv => ?_⟩
  · rcases key adj v with h | h
    · rw [h] at hw; simp at hw
    · exact h2 _ h w hw
  · rcases key adj v with h | h
    · rw [h] at hv; simp at hv
    · exact h3 _ h hv

/-- The circle of four qubits, `create_circle_architecture(4)`. -/
def circle4 : List (ℕ × List ℕ) := [(0, [1, 3]), (1, [0, 2]), (2, [1, 3]), (3, [2, 0])]

/-- Its architecture with default placement and order. -/
def circle4Arch : Arch := ⟨circle4, [0, 1, 2, 3], [3, 2, 1, 0]⟩

theorem circle4_graph : GraphOK circle4 := graphOK_of_check (by decide) (by decide) (by decide)

/-- A check for `Connected`: every vertex but 0 has a smaller neighbour. -/
theorem connected_of_parent {adj : List (ℕ × List ℕ)} {n : ℕ} (h1 : adj.map Prod.fst = List.range n)
    (h2 : ∀ v ∈ List.range n, v = 0 ∨ ∃ u ∈ List.range v, u ∈ nbrsOf adj v ∧ v ∈ nbrsOf adj u) : Connected adj := by
  have key : ∀ v, v < n → (∃ p, Walk (fun a b => b ∈ nbrsOf adj a) p v 0) ∧ ∃ p, Walk (fun a b => b ∈ nbrsOf adj a) p 0 v := by
    intro v
    induction v using Nat.strong_induction_on with
    | _ v ih =>
      intro hv
      rcases h2 v (List.mem_range.mpr hv) with rfl | ⟨u, hu, h3, h4⟩
      · exact ⟨⟨[], Walk.nil 0⟩, [], Walk.nil 0⟩
      · rw [List.mem_range] at hu
        obtain ⟨⟨p, hp⟩, q, hq⟩ := ih u hu (by omega)
        exact ⟨⟨_, Walk.cons h3 hp⟩, _, hq.append (Walk.cons h4 (Walk.nil v))⟩
  intro u hu v hv
  rw [h1, List.mem_range] at hu hv
  obtain ⟨⟨p, hp⟩, -⟩ := key u hu
  obtain ⟨-, q, hq⟩ := key v hv
  exact ⟨_, hp.append hq⟩

theorem circle4_connected : Connected circle4 := connected_of_parent (n := 4) (by decide) (by decide)

theorem circle4_build : build circle4 none none = some circle4Arch := by decide +kernel

theorem circle4_ok : circle4Arch.OK := { circle4_graph with place := by decide, onto := fun v => Iff.rfl }

theorem circle4_hamiltonian : Hamiltonian circle4Arch := by
  intro q hq
  have : q + 1 < 4 := hq
  have : q < 3 := by omega
  interval_cases q <;> exact ⟨_, _, rfl, rfl, by decide⟩

/-- An invertible matrix. -/
def exMatrix : Data := [[true, true, false, true], [false, true, true, false], [true, true, true, true], [false, false, true, true]]

theorem exMatrix_rect : Rect 4 4 exMatrix := ⟨rfl, by decide⟩

/-- Its inverse. -/
def exInverse : Data := [[true, true, false, true], [true, true, true, false], [true, false, true, false], [true, false, true, true]]

theorem exMatrix_inv : mat 4 4 exInverse * mat 4 4 exMatrix = 1 := by decide +kernel

/-- C53: all hypotheses of `recGauss_tracker` and the last condition in its conclusion are met by a matrix that takes seven CNOTs. -/
example : ∃ s' : St Tracker Tracker, recGauss Tracker.rowAdd Tracker.colAdd circle4Arch sortedOrder true 5 ⟨exMatrix, Tracker.new 4, Tracker.new 4⟩ = some s' ∧
    mat 4 4 s'.m = 1 ∧ s'.y.gates.length = 7 ∧ ∀ v : Fin 4 → ZMod 2, circAct s'.y.gates v = mat 4 4 exMatrix *ᵥ v := by
  have h : ∃ s' : St Tracker Tracker, recGauss Tracker.rowAdd Tracker.colAdd circle4Arch sortedOrder true 5 ⟨exMatrix, Tracker.new 4, Tracker.new 4⟩ = some s' ∧
      mat 4 4 s'.m = 1 ∧ s'.y.gates.length = 7 := ⟨_, rfl, by decide +kernel, by decide +kernel⟩
  obtain ⟨s', h1, h2, h3⟩ := h
  exact ⟨s', h1, h2, h3, fun v => ((recGauss_tracker circle4_ok sortedOrder_ok exMatrix_rect true 5 h1).2.2.2.2.2 h2 v).1⟩

/-- C53: `steiner_gauss` returns on the same matrix, with five CNOTs. -/
example : (steinerGauss Tracker.rowAdd Tracker.colAdd circle4Arch sortedOrder true ⟨exMatrix, Tracker.new 4, Tracker.new 4⟩).map (fun s => s.1.y.gates) =
    some [(2, 3), (1, 2), (0, 1), (1, 2), (2, 1)] := by decide +kernel

/-- C54: the distance of two opposite qubits, and none upwards. -/
example : (floyd circle4Arch [0, 1, 2, 3] true []).map (fun d => d.get 0 2) = some (some (2, [(0, 1), (1, 2)])) ∧
    (floyd circle4Arch [0, 1, 2, 3] false []).map (fun d => d.get 0 2) = some none := by decide +kernel

/-- C55: the hypotheses of `recGauss_identity_partial` and `recGauss_routes_partial` are met. -/
example : ∃ s', recGauss Tracker.rowAdd Tracker.colAdd circle4Arch sortedOrder true 1 ⟨exMatrix, Tracker.new 4, Tracker.new 4⟩ = some s' ∧
    (∀ g ∈ s'.y.gates, Coupled circle4Arch g.1 g.2) ∧ ∀ v : Fin 4 → ZMod 2, circAct s'.y.gates v = mat 4 4 exMatrix *ᵥ v :=
  recGauss_routes_partial circle4_ok sortedOrder_ok circle4_hamiltonian rfl (by decide) exMatrix_rect exMatrix_inv 0

/-- The claim of C55: on every connected architecture with default placement, `rec_steiner_gauss` with `full_reduce` turns an invertible
matrix into the identity when it returns. -/
def ReducesToIdentity : Prop :=
  ∀ (adj : List (ℕ × List ℕ)) (A : Arch) (o : Order) (n fuel : ℕ) (d : Data) (N : Matrix (Fin n) (Fin n) (ZMod 2)) (s' : St Unit Unit),
    GraphOK adj → Connected adj → build adj none none = some A → A.qmap.length = n → o.OK → Rect n n d → N * mat n n d = 1 →
    recGauss blind blind A o true fuel ⟨d, (), ()⟩ = some s' → mat n n s'.m = 1

/-- An architecture with five qubits whose default placement is not a line. -/
def bent5 : List (ℕ × List ℕ) := [(0, [1, 2]), (1, [0, 4]), (2, [0, 3, 4]), (3, [2]), (4, [2, 1])]

/-- Its architecture. -/
def bent5Arch : Arch := ⟨bent5, [3, 1, 0, 2, 4], [4, 1, 2, 3, 0]⟩

/-- An invertible matrix. -/
def bentMatrix : Data :=
  [[true, false, false, false, false], [false, true, true, false, false], [false, true, false, false, false], [true, false, false, true, false], [false, true, false, true, true]]

/-- Its inverse. -/
def bentInverse : Data :=
  [[true, false, false, false, false], [false, false, true, false, false], [false, true, true, false, false], [true, false, false, true, false], [true, false, true, true, true]]

/-- C55 fails in general: `rec_steiner_gauss` returns with a matrix that is not the identity, without an error. -/
theorem recGauss_identity_counterexample : ¬ ReducesToIdentity := by
  intro h
  have hr : ∃ s', recGauss blind blind bent5Arch sortedOrder true 10 ⟨bentMatrix, (), ()⟩ = some s' ∧ mat 5 5 s'.m ≠ 1 := ⟨_, rfl, by decide +kernel⟩
  obtain ⟨s', h1, h2⟩ := hr
  exact h2 (h bent5 bent5Arch sortedOrder 5 10 bentMatrix (mat 5 5 bentInverse) s' (graphOK_of_check (by decide) (by decide) (by decide))
    (connected_of_parent (n := 5) (by decide) (by decide)) (by decide +kernel) rfl sortedOrder_ok ⟨rfl, by decide⟩ (by decide +kernel) h1)

/-- C55 fails for `steiner_gauss` with `full_reduce`: an upper triangular matrix on two coupled qubits is left as it is. -/
theorem steinerGauss_full_counterexample :
    ∃ (s' : St Unit Unit) (k : ℕ), steinerGauss blind blind ⟨[(0, [1]), (1, [0])], [0, 1], [1, 0]⟩ sortedOrder true ⟨[[true, true], [false, true]], (), ()⟩ = some (s', k) ∧
      mat 2 2 s'.m ≠ 1 ∧ mat 2 2 [[true, true], [false, true]] * mat 2 2 [[true, true], [false, true]] = 1 := ⟨_, _, rfl, by decide +kernel, by decide +kernel⟩

/-- C55 fails for `steiner_gauss` without `full_reduce`: the result of an invertible matrix on five qubits is not upper triangular. -/
theorem steinerGauss_upper_counterexample :
    ∃ (s' : St Unit Unit) (k : ℕ) (d : Data), steinerGauss blind blind
      ⟨[(0, [2, 1]), (1, [0, 3]), (2, [0, 3, 4]), (3, [1, 2]), (4, [2])], [0, 1, 2, 3, 4], [4, 3, 2, 1, 0]⟩ sortedOrder false ⟨d, (), ()⟩ = some (s', k) ∧
      ¬ UpperTriangular (mat 5 5 s'.m) ∧ mat 5 5 d * mat 5 5 d = 1 := by
  refine ⟨_, _, [[true, false, false, false, false], [false, true, false, false, false], [false, false, true, false, false], [true, false, false, true, false],
    [true, false, false, false, true]], rfl, ?_, by decide +kernel⟩
  intro h
  exact absurd (h.1 1 0 (by decide)) (by decide +kernel)

/-- C56: the hypotheses of `build_default` and `recGauss_default` are met by an architecture whose default placement is not the identity. -/
example : GraphOK bent5 ∧ Connected bent5 ∧ build bent5 none none = some bent5Arch ∧ Rect 5 5 bentMatrix ∧ mat 5 5 bentInverse * mat 5 5 bentMatrix = 1 :=
  ⟨graphOK_of_check (by decide) (by decide) (by decide), connected_of_parent (n := 5) (by decide) (by decide), by decide +kernel, ⟨rfl, by decide⟩, by decide +kernel⟩

example : UpConnected bent5Arch := by
  obtain ⟨A, h1, -, -, h3, -⟩ := build_default (adj := bent5) (graphOK_of_check (by decide) (by decide) (by decide))
    (connected_of_parent (n := 5) (by decide) (by decide)) (by decide)
  have h : build bent5 none none = some bent5Arch := by decide +kernel
  rw [h] at h1
  exact Option.some.inj h1 ▸ h3

/-- C57: the graphs of the constructors. -/
example : circleGraph 4 = circle4 ∧ lineGraph 3 = [(0, [1]), (1, [0, 2]), (2, [1])] ∧ fullGraph 3 = [(0, [1, 2]), (1, [0, 2]), (2, [0, 1])] ∧
    squareGraph 2 = [(0, [1, 3]), (1, [0, 2]), (2, [1, 3]), (3, [2, 0])] := by decide +kernel

end Props
end PyZX
