import Verif.Proofs.SimpClifford

/-!
# A potential for `clifford_simp` and `full_reduce`

The loops of `clifford_simp` and `full_reduce` contain passes that add vertices. This file defines a potential of a diagram of Z-spiders that
no pass increases, and the relation between diagrams that is used to show that it decreases in every iteration.
-/

namespace PyZX
namespace Graph

/-- The phase is a multiple of π/2. -/
def Cl (g : Graph) (v : ℕ) : Prop := ∃ k : ℤ, 2 * g.phase v = k

/-- The phase is a multiple of π. -/
def Pl (g : Graph) (v : ℕ) : Prop := ∃ k : ℤ, g.phase v = k

/-- The vertex is next to a boundary. -/
def Bd (g : Graph) (v : ℕ) : Prop := ∃ b, g.adj v b ≠ none ∧ g.ty b = .boundary

/-- `x` is a Z-spider whose only neighbour is `v`. -/
def Lf (g : Graph) (x v : ℕ) : Prop := g.ty x = .Z ∧ ∀ w, g.adj x w ≠ none ↔ w = v

/-- A Clifford spider inside of the diagram with a Clifford leaf. -/
def Ctr (g : Graph) (v : ℕ) : Prop := g.ty v = .Z ∧ g.Cl v ∧ ¬ g.Bd v ∧ ∃ x, g.Lf x v ∧ g.Cl x

/-- A spider inside of the diagram with phase ±π/2. -/
def Half (g : Graph) (v : ℕ) : Prop := g.ty v = .Z ∧ g.Cl v ∧ ¬ g.Pl v ∧ ¬ g.Bd v

/-- The weight of a spider with a phase that is no multiple of π/2. -/
class Heavy where
  N : ℕ
  le : 16 ≤ N

/-- The weight that gives the bound of the number of passes. -/
instance (priority := low) heavy16 : Heavy := ⟨16, le_rfl⟩

set_option linter.unusedSectionVars false

variable [Heavy]

open Classical in
/-- The weight of a vertex. -/
noncomputable def wt (g : Graph) (v : ℕ) : ℕ :=
  if g.ty v ≠ .Z then 1 else if ¬ g.Cl v then Heavy.N else if g.Bd v then 2
  else if ∃ x, g.Lf x v ∧ g.Cl x then 0 else if ∃ x, g.Lf x v then 1 else 4

/-- The potential of a diagram. -/
noncomputable def pot (g : Graph) : ℕ := ∑ v ∈ g.verts, g.wt v

/-- Spiders with Clifford leaves have phases 0 or π. -/
def JJ (g : Graph) : Prop := ∀ v ∈ g.verts, g.Ctr v → g.Pl v

/-- There is a spider inside of the diagram with phase ±π/2. -/
def WW (g : Graph) : Prop := ∃ v ∈ g.verts, g.Half v

/-- No vertex has weight 0. -/
def AllPos (g : Graph) : Prop := ∀ v ∈ g.verts, ¬ g.Ctr v

/-- All vertices are boundaries or Z-spiders. -/
def ZOnly (g : Graph) : Prop := ∀ v ∈ g.verts, g.ty v = .boundary ∨ g.ty v = .Z

/-- What a pass does to the potential. -/
def Rel (g g' : Graph) : Prop :=
  g'.pot < g.pot ∨ (g'.pot = g.pot ∧ (g.JJ → g'.JJ) ∧ (g.JJ → g.WW → g'.WW) ∧ (g.AllPos → g' = g))

theorem Rel.refl (g : Graph) : Rel g g := Or.inr ⟨rfl, id, fun _ => id, fun _ => rfl⟩

theorem Rel.le {g g' : Graph} (h : Rel g g') : g'.pot ≤ g.pot := by
  rcases h with h | h
  · exact h.le
  · exact h.1.le

theorem Rel.trans {a b c : Graph} (h : Rel a b) (h' : Rel b c) : Rel a c := by
  have h1 := h'.le
  rcases h with h | ⟨h2, h3, h4, h5⟩
  · exact Or.inl (by omega)
  · rcases h' with h' | ⟨k2, k3, k4, k5⟩
    · exact Or.inl (by omega)
    · refine Or.inr ⟨by omega, fun j => k3 (h3 j), fun j w => k4 (h3 j) (h4 j w), fun p => ?_⟩
      have e := h5 p
      subst e
      exact k5 p

/-! ### Weights -/

theorem Pl.cl {g : Graph} {v : ℕ} (h : g.Pl v) : g.Cl v := by
  obtain ⟨k, hk⟩ := h
  exact ⟨2 * k, by rw [hk]; push_cast; ring⟩

theorem wt_notZ {g : Graph} {v : ℕ} (h : g.ty v ≠ .Z) : g.wt v = 1 := by simp [wt, h]

theorem wt_notCl {g : Graph} {v : ℕ} (h : g.ty v = .Z) (h2 : ¬ g.Cl v) : g.wt v = Heavy.N := by simp [wt, h, h2]

theorem wt_bd {g : Graph} {v : ℕ} (h : g.ty v = .Z) (h2 : g.Cl v) (h3 : g.Bd v) : g.wt v = 2 := by simp [wt, h, h2, h3]

theorem wt_ctr {g : Graph} {v : ℕ} (h : g.Ctr v) : g.wt v = 0 := by
  obtain ⟨h1, h2, h3, h4⟩ := h
  unfold wt
  rw [if_neg (by simpa using h1), if_neg (by simpa using h2), if_neg h3, if_pos h4]

theorem wt_axel {g : Graph} {v : ℕ} (h1 : g.ty v = .Z) (h2 : g.Cl v) (h3 : ¬ g.Bd v) (h4 : ¬ ∃ x, g.Lf x v ∧ g.Cl x) (h5 : ∃ x, g.Lf x v) :
    g.wt v = 1 := by
  unfold wt
  rw [if_neg (by simpa using h1), if_neg (by simpa using h2), if_neg h3, if_neg h4, if_pos h5]

theorem wt_lone {g : Graph} {v : ℕ} (h1 : g.ty v = .Z) (h2 : g.Cl v) (h3 : ¬ g.Bd v) (h5 : ¬ ∃ x, g.Lf x v) : g.wt v = 4 := by
  unfold wt
  rw [if_neg (by simpa using h1), if_neg (by simpa using h2), if_neg h3, if_neg (fun ⟨x, hx, _⟩ => h5 ⟨x, hx⟩), if_neg h5]

/-- The four weights of a Clifford spider inside of the diagram, and the others. -/
theorem wt_cases (g : Graph) (v : ℕ) : (g.ty v ≠ .Z ∧ g.wt v = 1) ∨ (g.ty v = .Z ∧ ¬ g.Cl v ∧ g.wt v = Heavy.N) ∨
    (g.ty v = .Z ∧ g.Cl v ∧ g.Bd v ∧ g.wt v = 2) ∨ (g.Ctr v ∧ g.wt v = 0) ∨
    (g.ty v = .Z ∧ g.Cl v ∧ ¬ g.Bd v ∧ (¬ ∃ x, g.Lf x v ∧ g.Cl x) ∧ (∃ x, g.Lf x v) ∧ g.wt v = 1) ∨
    (g.ty v = .Z ∧ g.Cl v ∧ ¬ g.Bd v ∧ (¬ ∃ x, g.Lf x v) ∧ g.wt v = 4) := by
  by_cases h1 : g.ty v = .Z
  · by_cases h2 : g.Cl v
    · by_cases h3 : g.Bd v
      · exact Or.inr (Or.inr (Or.inl ⟨h1, h2, h3, wt_bd h1 h2 h3⟩))
      · by_cases h4 : ∃ x, g.Lf x v ∧ g.Cl x
        · exact Or.inr (Or.inr (Or.inr (Or.inl ⟨⟨h1, h2, h3, h4⟩, wt_ctr ⟨h1, h2, h3, h4⟩⟩)))
        · by_cases h5 : ∃ x, g.Lf x v
          · exact Or.inr (Or.inr (Or.inr (Or.inr (Or.inl ⟨h1, h2, h3, h4, h5, wt_axel h1 h2 h3 h4 h5⟩))))
          · exact Or.inr (Or.inr (Or.inr (Or.inr (Or.inr ⟨h1, h2, h3, h5, wt_lone h1 h2 h3 h5⟩))))
    · exact Or.inr (Or.inl ⟨h1, h2, wt_notCl h1 h2⟩)
  · exact Or.inl ⟨h1, wt_notZ h1⟩

theorem wt_zero {g : Graph} {v : ℕ} (h : g.wt v = 0) : g.Ctr v := by
  have hN := Heavy.le
  rcases wt_cases g v with h' | h' | h' | h' | h' | h'
  · omega
  · omega
  · omega
  · exact h'.1
  · omega
  · omega

theorem wt_le_N (g : Graph) (v : ℕ) : g.wt v ≤ Heavy.N := by
  have hN := Heavy.le
  rcases wt_cases g v with h' | h' | h' | h' | h' | h' <;> omega

theorem wt_le_4 {g : Graph} {v : ℕ} (h : g.Cl v) : g.wt v ≤ 4 := by
  rcases wt_cases g v with h' | h' | h' | h' | h' | h'
  · omega
  · exact absurd h h'.2.1
  · omega
  · omega
  · omega
  · omega

theorem wt_le_2 {g : Graph} {v : ℕ} (h : g.Cl v) (hb : g.Bd v) : g.wt v ≤ 2 := by
  rcases wt_cases g v with h' | h' | h' | h' | h' | h'
  · omega
  · exact absurd h h'.2.1
  · omega
  · omega
  · omega
  · exact absurd hb h'.2.2.1

theorem wt_le_1 {g : Graph} {v : ℕ} (h : g.Cl v) (hb : ¬ g.Bd v) (hl : ∃ x, g.Lf x v) : g.wt v ≤ 1 := by
  rcases wt_cases g v with h' | h' | h' | h' | h' | h'
  · omega
  · exact absurd h h'.2.1
  · exact absurd h'.2.2.1 hb
  · omega
  · omega
  · exact absurd hl h'.2.2.2.1

theorem wt_pos {g : Graph} {v : ℕ} (h : ¬ g.Ctr v) : 1 ≤ g.wt v := by
  by_contra hc
  exact h (wt_zero (by omega))

theorem wt_half_pos {g : Graph} (hj : g.JJ) {v : ℕ} (hv : v ∈ g.verts) (h : g.Half v) : 1 ≤ g.wt v :=
  wt_pos fun hc => h.2.2.1 (hj v hv hc)

/-- A vertex that keeps its type, the class of its phase, its boundaries and its leaves does not become heavier. -/
theorem wt_le {g g' : Graph} {v : ℕ} (ht : g'.ty v = g.ty v) (hc : g.Cl v → g'.Cl v) (hb : g.Bd v → g'.Bd v) (hb' : g'.Bd v → g.Bd v)
    (hl : ∀ x, g.Lf x v → g'.Lf x v ∧ (g.Cl x → g'.Cl x)) : g'.wt v ≤ g.wt v := by
  rcases wt_cases g v with h | h | h | h | h | h
  · rw [h.2, wt_notZ (by rw [ht]; exact h.1)]
  · rw [h.2.2]; exact wt_le_N _ _
  · rw [h.2.2.2]; exact wt_le_2 (hc h.2.1) (hb h.2.2.1)
  · obtain ⟨⟨h1, h2, h3, x, h4, h5⟩, h6⟩ := h
    rw [wt_ctr ⟨by rw [ht]; exact h1, hc h2, fun h => h3 (hb' h), x, (hl x h4).1, (hl x h4).2 h5⟩]
    omega
  · obtain ⟨h1, h2, h3, h4, ⟨x, h5⟩, h6⟩ := h
    rw [h6]
    exact wt_le_1 (hc h2) (fun h => h3 (hb' h)) ⟨x, (hl x h5).1⟩
  · rw [h.2.2.2.2]; exact wt_le_4 (hc h.2.1)

/-! ### Sums -/

theorem sum_fib {V V' : Finset ℕ} {w w' f f' : ℕ → ℕ} (h : ∀ i, ∑ v ∈ V'.filter (fun v => f' v = i), w' v ≤ ∑ u ∈ V.filter (fun u => f u = i), w u) :
    ∑ v ∈ V', w' v ≤ ∑ u ∈ V, w u ∧ (∑ v ∈ V', w' v = ∑ u ∈ V, w u →
      ∀ i, ∑ v ∈ V'.filter (fun v => f' v = i), w' v = ∑ u ∈ V.filter (fun u => f u = i), w u) := by
  set I := V.image f ∪ V'.image f' with hI
  have e1 : ∑ u ∈ V, w u = ∑ i ∈ I, ∑ u ∈ V.filter (fun u => f u = i), w u :=
    (Finset.sum_fiberwise_of_maps_to (fun u hu => Finset.mem_union_left _ (Finset.mem_image_of_mem f hu)) w).symm
  have e2 : ∑ v ∈ V', w' v = ∑ i ∈ I, ∑ v ∈ V'.filter (fun v => f' v = i), w' v :=
    (Finset.sum_fiberwise_of_maps_to (fun u hu => Finset.mem_union_right _ (Finset.mem_image_of_mem f' hu)) w').symm
  rw [e1, e2]
  refine ⟨Finset.sum_le_sum fun i _ => h i, fun heq i => ?_⟩
  by_cases hi : i ∈ I
  · exact (Finset.sum_eq_sum_iff_of_le fun i _ => h i).mp heq i hi
  · have h1 : V.filter (fun u => f u = i) = ∅ := Finset.filter_eq_empty_iff.mpr fun u hu e =>
      hi (Finset.mem_union_left _ (Finset.mem_image.mpr ⟨u, hu, e⟩))
    have h2 : V'.filter (fun u => f' u = i) = ∅ := Finset.filter_eq_empty_iff.mpr fun u hu e =>
      hi (Finset.mem_union_right _ (Finset.mem_image.mpr ⟨u, hu, e⟩))
    rw [h1, h2]; simp

/-- The sum of the weights of the vertices that are mapped to `i`. -/
noncomputable def fib (g : Graph) (f : ℕ → ℕ) (i : ℕ) : ℕ := ∑ u ∈ g.verts.filter (fun u => f u = i), g.wt u

theorem le_fib {g : Graph} {f : ℕ → ℕ} {i u : ℕ} (hu : u ∈ g.verts) (h : f u = i) : g.wt u ≤ g.fib f i :=
  Finset.single_le_sum (f := g.wt) (fun _ _ => Nat.zero_le _) (Finset.mem_filter.mpr ⟨hu, h⟩)

theorem le_fib2 {g : Graph} {f : ℕ → ℕ} {i u v : ℕ} (hu : u ∈ g.verts) (h : f u = i) (hv : v ∈ g.verts) (h' : f v = i) (hne : u ≠ v) :
    g.wt u + g.wt v ≤ g.fib f i := by
  have : ∑ x ∈ ({u, v} : Finset ℕ), g.wt x ≤ g.fib f i := by
    refine Finset.sum_le_sum_of_subset fun x hx => ?_
    simp only [Finset.mem_insert, Finset.mem_singleton] at hx
    rcases hx with rfl | rfl
    · exact Finset.mem_filter.mpr ⟨hu, h⟩
    · exact Finset.mem_filter.mpr ⟨hv, h'⟩
  rwa [Finset.sum_pair hne] at this

/-- If every vertex is at most as heavy as the vertices that are mapped to it, the potential does not increase. -/
theorem pot_le {g g' : Graph} (f : ℕ → ℕ) (h : ∀ v ∈ g'.verts, g'.wt v ≤ g.fib f v) :
    g'.pot ≤ g.pot ∧ (g'.pot = g.pot → (∀ v ∈ g'.verts, g'.wt v = g.fib f v) ∧ ∀ u ∈ g.verts, f u ∉ g'.verts → g.wt u = 0) := by
  have hs : ∀ i, ∑ v ∈ g'.verts.filter (fun v => id v = i), g'.wt v = if i ∈ g'.verts then g'.wt i else 0 := by
    intro i
    by_cases hi : i ∈ g'.verts
    · rw [if_pos hi, show g'.verts.filter (fun v => id v = i) = {i} from ?_, Finset.sum_singleton]
      ext v; simp only [id, Finset.mem_filter, Finset.mem_singleton]
      exact ⟨fun h => h.2, fun h => ⟨h ▸ hi, h⟩⟩
    · rw [if_neg hi, show g'.verts.filter (fun v => id v = i) = ∅ from ?_, Finset.sum_empty]
      exact Finset.filter_eq_empty_iff.mpr fun v hv e => hi (e ▸ hv)
  obtain ⟨h1, h2⟩ := sum_fib (V := g.verts) (V' := g'.verts) (w := g.wt) (w' := g'.wt) (f := f) (f' := id) (fun i => by
    rw [hs]
    split
    · next hi => exact h i hi
    · exact Nat.zero_le _)
  refine ⟨h1, fun heq => ⟨fun v hv => ?_, fun u hu hn => ?_⟩⟩
  · have := h2 heq v
    rw [hs, if_pos hv] at this
    exact this
  · have := h2 heq (f u)
    rw [hs, if_neg hn] at this
    have hle := le_fib (g := g) (f := f) hu rfl
    unfold fib at hle
    omega

/-! ### Removing isolated vertices -/

/-- `g'` consists of some vertices of `g` with all their edges. -/
structure Cut (g g' : Graph) : Prop where
  wf : g.WF
  wf' : g'.WF
  sub : g'.verts ⊆ g.verts
  ty : g'.ty = g.ty
  phase : g'.phase = g.phase
  adj : ∀ v ∈ g'.verts, ∀ n, g'.adj v n = g.adj v n

theorem Cut.refl {g : Graph} (h : g.WF) : Cut g g := ⟨h, h, Finset.Subset.refl _, rfl, rfl, fun _ _ _ => rfl⟩

theorem Cut.cl {g g' : Graph} (h : Cut g g') {v : ℕ} : g'.Cl v ↔ g.Cl v := by unfold Cl; rw [h.phase]

theorem Cut.pl {g g' : Graph} (h : Cut g g') {v : ℕ} : g'.Pl v ↔ g.Pl v := by unfold Pl; rw [h.phase]

theorem Cut.bd {g g' : Graph} (h : Cut g g') {v : ℕ} (hv : v ∈ g'.verts) : g'.Bd v ↔ g.Bd v := by
  unfold Bd
  simp only [h.adj v hv, h.ty]

theorem Cut.leaf {g g' : Graph} (h : Cut g g') {v x : ℕ} (hv : v ∈ g'.verts) : g'.Lf x v ↔ g.Lf x v := by
  have key : x ∈ g'.verts → (g'.Lf x v ↔ g.Lf x v) := by
    intro hx
    unfold Lf
    simp only [h.adj x hx, h.ty]
  constructor
  · intro hl
    exact (key (h.wf'.mem _ _ ((hl.2 v).mpr rfl))).mp hl
  · intro hl
    refine (key ?_).mpr hl
    have h1 := (hl.2 v).mpr rfl
    rw [h.wf.symm, ← h.adj v hv] at h1
    exact h.wf'.toInv.mem' h1

theorem Cut.wt {g g' : Graph} (h : Cut g g') {v : ℕ} (hv : v ∈ g'.verts) : g'.wt v = g.wt v := by
  refine le_antisymm (wt_le (by rw [h.ty]) h.cl.mpr (h.bd hv).mpr (h.bd hv).mp fun x hx => ⟨(h.leaf hv).mpr hx, h.cl.mpr⟩)
    (wt_le (by rw [h.ty]) h.cl.mp (h.bd hv).mp (h.bd hv).mpr fun x hx => ⟨(h.leaf hv).mp hx, h.cl.mp⟩)

theorem Cut.ctr {g g' : Graph} (h : Cut g g') {v : ℕ} (hv : v ∈ g'.verts) : g'.Ctr v ↔ g.Ctr v := by
  unfold Ctr
  simp only [h.ty, h.cl, h.bd hv, h.leaf hv]

theorem Cut.half {g g' : Graph} (h : Cut g g') {v : ℕ} (hv : v ∈ g'.verts) : g'.Half v ↔ g.Half v := by
  unfold Half
  simp only [h.ty, h.cl, h.pl, h.bd hv]

/-! ### Changes of phases -/

theorem Shift.pl {g g' : Graph} (h : Shift g g') {v : ℕ} : g'.Pl v ↔ g.Pl v := h.int

theorem Shift.cl {g g' : Graph} (h : Shift g g') {v : ℕ} : g'.Cl v ↔ g.Cl v := by
  obtain ⟨l, hl⟩ := h v
  constructor
  · rintro ⟨k, hk⟩
    exact ⟨k - 2 * l, by push_cast; rw [← hk, hl]; ring⟩
  · rintro ⟨k, hk⟩
    exact ⟨k + 2 * l, by push_cast; rw [← hk, hl]; ring⟩

/-! ### Edges of vertices that a rewrite does not touch -/

theorem finish_quiet {s : RewriteState} {g' : Graph} (h : s.finish = some g') {x : ℕ} (hx : x ∉ s.remVerts)
    (hk : ∀ e ∈ s.etab, e.2 ≠ (0, 0) → ¬ touch x e.1) (he : ∀ e ∈ s.remEdges, ¬ touch x e) {y : ℕ} (hy : y ∉ s.remVerts) :
    g'.adj x y = s.g.adj x y := by
  unfold RewriteState.finish at h
  obtain ⟨g1, h1, h⟩ := Option.bind_eq_some_iff.mp h
  obtain ⟨g2, h2, h3⟩ := Option.bind_eq_some_iff.mp h
  obtain ⟨hr, -, -, -⟩ := removeVertices_spec h3
  obtain ⟨-, -, -, b4⟩ := removeEdges_same h2
  have tc : ∀ e, SamePair (x, y) e → touch x e := by
    rintro e (⟨p, -⟩ | ⟨p, -⟩)
    · exact Or.inl p
    · exact Or.inr p
  rw [hr.adj x y (by simpa using hx) (by simpa using hy), b4 x y fun e hh hsp => he e hh (tc e hsp),
    addEdgeTable_adj_other h1 fun e hh hz hsp => hk e hh hz (tc _ hsp)]

/-- A leaf of a vertex that stays is a leaf of it afterwards if the rewrite does not touch it. -/
theorem finish_leaf {s : RewriteState} {g g' : Graph} (h : s.finish = some g') (hw : g'.Inv) (ha : s.g.adj = g.adj) (ht : g'.ty = g.ty)
    {x v : ℕ} (hl : g.Lf x v) (hx : x ∉ s.remVerts) (hv : v ∉ s.remVerts)
    (hk : ∀ e ∈ s.etab, e.2 ≠ (0, 0) → ¬ touch x e.1) (he : ∀ e ∈ s.remEdges, ¬ touch x e) : g'.Lf x v := by
  refine ⟨by rw [ht]; exact hl.1, fun w => ⟨fun hw' => ?_, ?_⟩⟩
  · obtain ⟨-, a2, -, -⟩ := finish_adj h hw hw'
    rw [finish_quiet h hx hk he a2, ha] at hw'
    exact (hl.2 w).mp hw'
  · rintro rfl
    rw [finish_quiet h hx hk he hv, ha]
    exact (hl.2 w).mpr rfl

theorem AllPos.jj {g : Graph} (h : g.AllPos) : g.JJ := fun v hv hc => absurd hc (h v hv)

/-- How the relation is shown for a pass that matched something. -/
theorem Rel.of {g g' : Graph} (h : g'.pot ≤ g.pot) (h2 : g'.pot = g.pot → g.JJ → g'.JJ ∧ (g.WW → g'.WW) ∧ ¬ g.AllPos) : Rel g g' := by
  rcases h.lt_or_eq with h | h
  · exact Or.inl h
  · exact Or.inr ⟨h, fun j => (h2 h j).1, fun j => (h2 h j).2.1, fun a => absurd a (h2 h a.jj).2.2⟩

/-- A vertex without neighbours is isolated. -/
theorem isolated_of {g : Graph} (hw : g.Inv) {v : ℕ} (hv : v ∈ g.verts) (h : ∀ n, g.adj v n = none) : g.Isolated v := by
  refine ⟨hv, Or.inl ?_⟩
  ext n
  rw [mem_nbrs hw]
  simp [h]

/-- Two Z-spiders that are each other's only neighbours are isolated. -/
theorem isolated_pair {g : Graph} (hw : g.WF) {v x : ℕ} (h : g.Lf x v) (h' : g.Lf v x) : g.Isolated v := by
  have hx : g.adj x v ≠ none := (h.2 v).mpr rfl
  refine ⟨hw.toInv.mem' hx, Or.inr ⟨x, hw.toInv.mem' hx, hw.mem _ _ hx, ?_, ?_, by rw [h'.1]; simp, by rw [h.1]; simp⟩⟩
  · ext n
    rw [mem_nbrs hw.toInv, Finset.mem_singleton]; exact h'.2 n
  · ext n
    rw [mem_nbrs hw.toInv, Finset.mem_singleton]; exact h.2 n

/-- Z-spiders with a neighbour are leaves if they have no other one. -/
theorem Lf.mem {g : Graph} (hw : g.WF) {x v : ℕ} (h : g.Lf x v) : x ∈ g.verts ∧ v ∈ g.verts :=
  ⟨hw.mem _ _ ((h.2 v).mpr rfl), hw.toInv.mem' ((h.2 v).mpr rfl)⟩

/-- An edge of the table at a vertex with at most one edge in the table. -/
theorem finish_new {s : RewriteState} {g' : Graph} (h : s.finish = some g') {c z : ℕ} (hc : c ∉ s.remVerts) (hz : z ∉ s.remVerts)
    (ht : tcount s.etab c ≤ 1) {e} (he : e ∈ s.etab) (hne : e.2 ≠ (0, 0)) (hs : e.1 = (z, c)) (hn : s.g.adj z c = none)
    (hr : ∀ e ∈ s.remEdges, ¬ SamePair (z, c) e) : g'.adj z c ≠ none := by
  unfold RewriteState.finish at h
  obtain ⟨g1, h1, h⟩ := Option.bind_eq_some_iff.mp h
  obtain ⟨g2, h2, h3⟩ := Option.bind_eq_some_iff.mp h
  obtain ⟨hrr, -, -, -⟩ := removeVertices_spec h3
  obtain ⟨-, -, -, b4⟩ := removeEdges_same h2
  rw [hrr.adj z c (by simpa using hz) (by simpa using hc), b4 z c hr]
  have := addEdgeTable_single h1 ht he hne (by rw [hs]; exact Or.inr rfl) (by rw [hs]; exact hn)
  rw [hs] at this
  exact this

/-- Edges at boundaries are not lost. -/
theorem finish_bnd {s : RewriteState} {g' : Graph} (h : s.finish = some g') {b z : ℕ} (hbt : s.g.ty b = .boundary) (hb : b ∉ s.remVerts)
    (hz : z ∉ s.remVerts) (hr : ∀ e ∈ s.remEdges, ¬ SamePair (b, z) e)
    (ha : s.g.adj b z ≠ none ∨ ∃ e ∈ s.etab, e.2 ≠ (0, 0) ∧ SamePair (b, z) e.1) : g'.adj b z ≠ none := by
  unfold RewriteState.finish at h
  obtain ⟨g1, h1, h⟩ := Option.bind_eq_some_iff.mp h
  obtain ⟨g2, h2, h3⟩ := Option.bind_eq_some_iff.mp h
  obtain ⟨hrr, -, -, -⟩ := removeVertices_spec h3
  obtain ⟨-, -, -, b4⟩ := removeEdges_same h2
  rw [hrr.adj b z (by simpa using hb) (by simpa using hz), b4 b z hr]
  rcases ha with ha | ⟨e, he, hne, hsp⟩
  · exact (addEdgeTable_bnd h1 hbt).1 ha
  · exact (addEdgeTable_bnd h1 hbt).2 e he hne hsp

end Graph
end PyZX
