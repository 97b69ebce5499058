import Verif.Proofs.OptComm
import Verif.Model.Optimize

/-!
# Helper lemmas for `basic_optimization`: lists of gates for every qubit and the circuits they stand for

A circuit `L` fits the lists of gates of the qubits if the list of a qubit has the gates of `L` on the qubit, and two gates that do not commute
because of the qubit are in the same order in both.
-/

namespace PyZX
namespace Optimize

open scoped List

/-! ### Circuits up to a global phase -/

/-- Two circuits with the same map up to a global phase. -/
def Eqv (a b : List Gate) : Prop := EqUpToPhase (semGates a) (semGates b)

theorem Eqv.of_eq {a b : List Gate} (h : ∀ ψ, semGates a ψ = semGates b ψ) : Eqv a b := ⟨1, by simp, fun ψ x => by rw [h, one_mul]⟩

theorem Eqv.refl (a : List Gate) : Eqv a a := .of_eq fun _ => rfl

theorem eqUp_symm {f g : QState → QState} (h : EqUpToPhase f g) : EqUpToPhase g f := by
  obtain ⟨z, hz, e⟩ := h
  have h0 : z ≠ 0 := fun h => by rw [h] at hz; simp at hz
  exact ⟨z⁻¹, by rw [norm_inv, hz, inv_one], fun ψ x => by rw [e, inv_mul_cancel_left₀ h0]⟩

theorem eqUp_trans {f g h : QState → QState} (h1 : EqUpToPhase f g) (h2 : EqUpToPhase g h) : EqUpToPhase f h := by
  obtain ⟨z, hz, e⟩ := h1
  obtain ⟨w, hw, e'⟩ := h2
  exact ⟨z * w, by rw [norm_mul, hz, hw, one_mul], fun ψ x => by rw [e, e', mul_assoc]⟩

theorem Eqv.symm {a b : List Gate} (h : Eqv a b) : Eqv b a := eqUp_symm h
theorem Eqv.trans {a b c : List Gate} (h : Eqv a b) (h' : Eqv b c) : Eqv a c := eqUp_trans h h'

theorem Eqv.append {a b c d : List Gate} (h : Eqv a b) (h' : Eqv c d) : Eqv (a ++ c) (b ++ d) := by
  have := EqUpToPhase.comp (a := a) (b := c) h h' (semGates_smul d)
  obtain ⟨z, hz, e⟩ := this
  exact ⟨z, hz, fun ψ x => by rw [e, semGates_append]⟩

theorem Eqv.left {a b : List Gate} (h : Eqv a b) (c : List Gate) : Eqv (c ++ a) (c ++ b) := (Eqv.refl c).append h
theorem Eqv.right {a b : List Gate} (h : Eqv a b) (c : List Gate) : Eqv (a ++ c) (b ++ c) := h.append (.refl c)

/-! ### Moving a gate -/

theorem move_right {x : Gate} (hx : Placed x) : ∀ (B : List Gate), (∀ y ∈ B, Placed y ∧ ∀ q, ¬ DepAt q x y) → ∀ ψ,
    semGates (x :: B) ψ = semGates (B ++ [x]) ψ
  | [], _, _ => rfl
  | y :: B, h, ψ => by
    obtain ⟨h1, h2⟩ := h y (by simp)
    rw [List.cons_append, semGates_cons, semGates_cons, semGates_cons, comm hx h1 h2, ← move_right hx B (fun z hz => h z (by simp [hz]))]
    rfl

/-! ### The order of two elements -/

theorem pair_append {α : Type} {x y : α} {a b : List α} : [x, y] <+ a ++ b ↔ [x, y] <+ a ∨ (x ∈ a ∧ y ∈ b) ∨ [x, y] <+ b := by
  constructor
  · intro h
    obtain ⟨l1, l2, e, h1, h2⟩ := List.sublist_append_iff.mp h
    rcases l1 with _ | ⟨u, l1⟩
    · right; right; rw [List.nil_append] at e; rw [e]; exact h2
    · rcases l1 with _ | ⟨v, l1⟩
      · simp only [List.cons_append, List.nil_append, List.cons.injEq] at e
        obtain ⟨rfl, rfl⟩ := e
        right; left; exact ⟨List.singleton_sublist.mp h1, List.singleton_sublist.mp h2⟩
      · simp only [List.cons_append, List.cons.injEq, List.nil_eq, List.append_eq_nil_iff] at e
        obtain ⟨rfl, rfl, rfl, rfl⟩ := e
        left; exact h1
  · rintro (h | ⟨h1, h2⟩ | h)
    · exact h.trans (List.sublist_append_left _ _)
    · exact (List.singleton_sublist.mpr h1).append (List.singleton_sublist.mpr h2)
    · exact h.trans (List.sublist_append_right _ _)

theorem pair_cons {α : Type} {x y z : α} {b : List α} : [x, y] <+ z :: b ↔ (x = z ∧ y ∈ b) ∨ [x, y] <+ b := by
  have := pair_append (x := x) (y := y) (a := [z]) (b := b)
  rw [List.singleton_append] at this
  rw [this]
  constructor
  · rintro (h | ⟨h1, h2⟩ | h)
    · exact absurd h.length_le (by simp)
    · exact Or.inl ⟨by simpa using h1, h2⟩
    · exact Or.inr h
  · rintro (⟨h1, h2⟩ | h)
    · right; left; exact ⟨by simp [h1], h2⟩
    · exact Or.inr (Or.inr h)

theorem pair_nil {α : Type} {x y : α} : ¬ [x, y] <+ ([] : List α) := fun h => absurd h.length_le (by simp)

theorem pair_mem {α : Type} {x y : α} {l : List α} (h : [x, y] <+ l) : x ∈ l ∧ y ∈ l := ⟨h.subset (by simp), h.subset (by simp)⟩

theorem pair_total {α : Type} {x y : α} (hne : x ≠ y) : ∀ {l : List α}, x ∈ l → y ∈ l → [x, y] <+ l ∨ [y, x] <+ l
  | [], h, _ => absurd h (by simp)
  | z :: l, hx, hy => by
    rcases List.mem_cons.mp hx with e | hx'
    · rcases List.mem_cons.mp hy with e' | hy'
      · exact absurd (e.trans e'.symm) hne
      · left; exact pair_cons.mpr (Or.inl ⟨e, hy'⟩)
    · rcases List.mem_cons.mp hy with e' | hy'
      · right; exact pair_cons.mpr (Or.inl ⟨e', hx'⟩)
      · rcases pair_total hne hx' hy' with h | h
        · left; exact pair_cons.mpr (Or.inr h)
        · right; exact pair_cons.mpr (Or.inr h)

theorem pair_asymm {α : Type} {x y : α} : ∀ {l : List α}, l.Nodup → [x, y] <+ l → ¬ [y, x] <+ l
  | [], _, h => absurd h pair_nil
  | z :: l, hn, h => by
    obtain ⟨h1, h2⟩ := List.nodup_cons.mp hn
    intro h'
    rcases pair_cons.mp h with ⟨e, hy⟩ | k
    · rcases pair_cons.mp h' with ⟨e', hx⟩ | k'
      · exact h1 (e ▸ hx)
      · exact h1 (e ▸ (pair_mem k').2)
    · rcases pair_cons.mp h' with ⟨e', hx⟩ | k'
      · exact h1 (e' ▸ (pair_mem k).2)
      · exact pair_asymm h2 k k'

theorem pair_ne {α : Type} {x y : α} {l : List α} (hn : l.Nodup) (h : [x, y] <+ l) : x ≠ y := by
  rintro rfl; exact pair_asymm hn h h

theorem pair_erase {α : Type} [DecidableEq α] {x y g : α} {l : List α} (h : [x, y] <+ l) (hx : x ≠ g) (hy : y ≠ g) : [x, y] <+ l.erase g := by
  have := h.erase g
  rwa [List.erase_of_not_mem (by simp [Ne.symm hx, Ne.symm hy])] at this

theorem split_mem {α : Type} [DecidableEq α] {g : α} {l : List α} (h : g ∈ l) (hn : l.Nodup) :
    ∃ a b, l = a ++ g :: b ∧ l.erase g = a ++ b ∧ g ∉ a ∧ g ∉ b := by
  obtain ⟨a, b, rfl⟩ := List.append_of_mem h
  rw [List.nodup_append] at hn
  have hga : g ∉ a := fun h' => hn.2.2 g h' g (by simp) rfl
  have hgb : g ∉ b := (List.nodup_cons.mp hn.2.1).1
  exact ⟨a, b, rfl, by rw [List.erase_append_right _ hga, List.erase_cons_head], hga, hgb⟩

/-! ### Circuits that fit -/

/-- The gates that are placed. -/
def Stored : Gate → Prop
  | .zrot _ _ _ _ => True
  | .had _ => True
  | .cz c t => c ≠ t
  | .cnot c t => c ≠ t
  | _ => False

theorem Stored.placed {g : Gate} (h : Stored g) : Placed g := by
  cases g <;> simp only [Stored] at h <;> simp [Placed, h]

/-- The circuit `L` fits the lists of gates. -/
structure Lin (gates : ℕ → List SG) (L : List SG) : Prop where
  idx : (L.map SG.idx).Nodup
  stored : ∀ x ∈ L, Stored x.gate
  mem : ∀ q x, x ∈ gates q ↔ x ∈ L ∧ q ∈ x.gate.qubits
  nodup : ∀ q, (gates q).Nodup
  ord : ∀ q x y, [x, y] <+ gates q → DepAt q x.gate y.gate → [x, y] <+ L

variable {gates gates' : ℕ → List SG} {L : List SG}

theorem Lin.lnodup (h : Lin gates L) : L.Nodup := h.idx.of_map _

theorem DepAt.mem {q : ℕ} {a b : Gate} (ha : Placed a) (hb : Placed b) (h : DepAt q a b) : q ∈ a.qubits ∧ q ∈ b.qubits := by
  obtain ⟨k, l, h1, h2, -⟩ := h
  exact ⟨(mem_qubits_iff ha q).mpr (by simp [h1]), (mem_qubits_iff hb q).mpr (by simp [h2])⟩

theorem Lin.ord' (h : Lin gates L) {q : ℕ} {x y : SG} (hxy : [x, y] <+ L) (hd : DepAt q x.gate y.gate) : [x, y] <+ gates q := by
  obtain ⟨hx, hy⟩ := pair_mem hxy
  obtain ⟨h1, h2⟩ := hd.mem (h.stored x hx).placed (h.stored y hy).placed
  rcases pair_total (pair_ne h.lnodup hxy) ((h.mem q x).mpr ⟨hx, h1⟩) ((h.mem q y).mpr ⟨hy, h2⟩) with h3 | h3
  · exact h3
  · exact absurd (h.ord q y x h3 hd.symm) (pair_asymm h.lnodup hxy)

theorem Lin.nil : Lin (fun _ => []) [] := ⟨by simp, by simp, by simp, by simp, fun q x y h => absurd h pair_nil⟩

/-- Place a gate at the end. -/
theorem Lin.snoc (h : Lin gates L) {z : SG} (hz : Stored z.gate) (hi : z.idx ∉ L.map SG.idx)
    (hg : ∀ q, gates' q = if q ∈ z.gate.qubits then gates q ++ [z] else gates q) : Lin gates' (L ++ [z]) := by
  have hzL : z ∉ L := fun h' => hi (List.mem_map_of_mem h')
  refine ⟨?_, ?_, ?_, ?_, ?_⟩
  · rw [List.map_append, List.nodup_append]
    refine ⟨h.idx, by simp, ?_⟩
    rintro a ha b hb rfl
    simp only [List.map_cons, List.map_nil, List.mem_singleton] at hb
    exact hi (hb ▸ ha)
  · intro x hx
    rcases List.mem_append.mp hx with hx | hx
    · exact h.stored x hx
    · rw [List.mem_singleton.mp hx]; exact hz
  · intro q x
    rw [hg]
    by_cases hq : q ∈ z.gate.qubits
    · rw [if_pos hq, List.mem_append, List.mem_append, h.mem, List.mem_singleton]
      constructor
      · rintro (⟨h1, h2⟩ | rfl)
        · exact ⟨Or.inl h1, h2⟩
        · exact ⟨Or.inr rfl, hq⟩
      · rintro ⟨h1 | rfl, h2⟩
        · exact Or.inl ⟨h1, h2⟩
        · exact Or.inr rfl
    · rw [if_neg hq, List.mem_append, h.mem, List.mem_singleton]
      constructor
      · rintro ⟨h1, h2⟩; exact ⟨Or.inl h1, h2⟩
      · rintro ⟨h1 | rfl, h2⟩
        · exact ⟨h1, h2⟩
        · exact absurd h2 hq
  · intro q
    rw [hg]
    split
    · rw [List.nodup_append]
      refine ⟨h.nodup q, by simp, ?_⟩
      rintro a ha b hb rfl
      rw [List.mem_singleton] at hb
      subst hb
      exact hzL ((h.mem q _).mp ha).1
    · exact h.nodup q
  · intro q x y hxy hd
    rw [hg] at hxy
    split at hxy
    · rcases pair_append.mp hxy with h1 | ⟨h1, h2⟩ | h1
      · exact (h.ord q x y h1 hd).trans (List.sublist_append_left _ _)
      · exact pair_append.mpr (Or.inr (Or.inl ⟨((h.mem q x).mp h1).1, h2⟩))
      · exact absurd h1.length_le (by simp)
    · exact (h.ord q x y hxy hd).trans (List.sublist_append_left _ _)

/-- Remove a gate. -/
theorem Lin.erase (h : Lin gates L) (g : SG) (hg : ∀ q, gates' q = (gates q).erase g) : Lin gates' (L.erase g) := by
  refine ⟨h.idx.sublist (List.erase_sublist.map _), fun x hx => h.stored x (List.mem_of_mem_erase hx), ?_, ?_, ?_⟩
  · intro q x
    rw [hg, (h.nodup q).mem_erase_iff, h.lnodup.mem_erase_iff, h.mem]
    tauto
  · intro q; rw [hg]; exact (h.nodup q).erase g
  · intro q x y hxy hd
    rw [hg] at hxy
    obtain ⟨hx, hy⟩ := pair_mem hxy
    exact pair_erase (h.ord q x y (hxy.trans List.erase_sublist) hd) ((h.nodup q).mem_erase_iff.mp hx).1 ((h.nodup q).mem_erase_iff.mp hy).1

/-- A gate that commutes with what comes after it on its qubits can be the last one. -/
theorem Lin.last (h : Lin gates L) {g : SG} (hg : g ∈ L) (hc : ∀ q y, [g, y] <+ gates q → ¬ DepAt q g.gate y.gate) (ψ : QState) :
    semGates (L.map SG.gate) ψ = semGates ((L.erase g ++ [g]).map SG.gate) ψ := by
  obtain ⟨a, b, e, e', -, -⟩ := split_mem hg h.lnodup
  rw [e', e, List.append_assoc, List.map_append, List.map_append, semGates_append, semGates_append, List.map_append, List.map_cons]
  refine move_right (h.stored g hg).placed _ ?_ _
  intro y' hy'
  obtain ⟨y, hy, rfl⟩ := List.mem_map.mp hy'
  refine ⟨(h.stored y (by rw [e]; simp [hy])).placed, fun q hd => ?_⟩
  have hp : [g, y] <+ L := by rw [e]; exact pair_append.mpr (Or.inr (Or.inr (pair_cons.mpr (Or.inl ⟨rfl, hy⟩))))
  exact hc q y (h.ord' hp hd) hd

/-- A gate that commutes with what comes before it on its qubits can be the first one. -/
theorem Lin.first (h : Lin gates L) {g : SG} (hg : g ∈ L) (hc : ∀ q y, [y, g] <+ gates q → ¬ DepAt q y.gate g.gate) (ψ : QState) :
    semGates (L.map SG.gate) ψ = semGates ((g :: L.erase g).map SG.gate) ψ := by
  obtain ⟨a, b, e, e', -, -⟩ := split_mem hg h.lnodup
  rw [e', e, ← List.cons_append, List.append_cons a g b, List.map_append (l₁ := a ++ [g]), List.map_append (l₁ := g :: a), semGates_append, semGates_append]
  congr 1
  rw [List.map_cons, List.map_append]
  refine (move_right (h.stored g hg).placed _ ?_ _).symm
  intro y' hy'
  obtain ⟨y, hy, rfl⟩ := List.mem_map.mp hy'
  refine ⟨(h.stored y (by rw [e]; simp [hy])).placed, fun q hd => ?_⟩
  have hp : [y, g] <+ L := by rw [e]; exact pair_append.mpr (Or.inr (Or.inl ⟨hy, by simp⟩))
  exact hc q y (h.ord' hp hd.symm) hd.symm

end Optimize
end PyZX
