import Verif.Proofs.PBMove
import Verif.Spec.Todd

/-!
# Helper lemmas for `phase_block_optimize`: the lists of the qubits
-/

namespace PyZX
namespace PhaseBlock

open Optimize ToddSpec
open scoped List

/-- The gates that are allowed. -/
def LGate (n : ℕ) (g : Gate) : Prop := (∃ t < n, g = .had t) ∨ PhaseGate n g

theorem LGate.stored {n : ℕ} {g : Gate} (h : LGate n g) : Stored g := by
  rcases h with ⟨t, -, rfl⟩ | h
  · trivial
  · cases g <;> simp only [PhaseGate] at h <;> simp only [Stored]
    · exact h.2.2
    · exact h.2.2

theorem LGate.lt {n : ℕ} {g : Gate} (h : LGate n g) {q : ℕ} (hq : q ∈ g.qubits) : q < n := by
  rcases h with ⟨t, ht, rfl⟩ | h
  · simp only [Gate.qubits, List.mem_singleton] at hq
    omega
  · cases g <;> simp only [PhaseGate] at h <;> simp only [Gate.qubits, List.mem_cons, List.not_mem_nil, or_false] at hq
    · omega
    · rcases hq with rfl | rfl <;> omega
    · rcases hq with rfl | rfl <;> omega

theorem LGate.phase {n : ℕ} {g : SG} (h : LGate n g.gate) (hh : isHad g = false) : PhaseGate n g.gate := by
  rcases h with ⟨t, ht, e⟩ | h
  · simp [isHad, e] at hh
  · exact h

theorem tcount_two {g : SG} (h : isTwo g = true) : g.gate.tcount = 0 := by
  unfold isTwo at h
  cases hg : g.gate <;> rw [hg] at h <;> simp at h <;> rfl

theorem places_eq {g : Gate} (h : Stored g) : places g = g.qubits := by
  cases g <;> simp only [Stored] at h <;> rfl

/-- The lists of the qubits are those of the circuit `L`. -/
structure Flt (n : ℕ) (gates : ℕ → List SG) (L : List SG) : Prop where
  sorted : L.Pairwise fun a b => a.idx < b.idx
  lg : ∀ x ∈ L, LGate n x.gate
  eq : ∀ q, gates q = L.filter fun x => decide (q ∈ x.gate.qubits)

variable {n : ℕ} {gates gates' : ℕ → List SG} {L : List SG} {g : SG}

theorem Flt.stored (h : Flt n gates L) {x : SG} (hx : x ∈ L) : Stored x.gate := (h.lg x hx).stored

theorem Flt.nodup (h : Flt n gates L) : L.Nodup := h.sorted.imp fun hab e => by rw [e] at hab; exact lt_irrefl _ hab

theorem Flt.mem (h : Flt n gates L) {q : ℕ} {x : SG} : x ∈ gates q ↔ x ∈ L ∧ q ∈ x.gate.qubits := by
  rw [h.eq, List.mem_filter, decide_eq_true_eq]

theorem Flt.nodupq (h : Flt n gates L) (q : ℕ) : (gates q).Nodup := by rw [h.eq]; exact h.nodup.filter _

theorem Flt.sortedq (h : Flt n gates L) (q : ℕ) : (gates q).Pairwise fun a b => a.idx < b.idx := by rw [h.eq]; exact h.sorted.filter _

theorem idx_inj' : ∀ {L : List SG}, L.Pairwise (fun a b => a.idx < b.idx) → ∀ {a b : SG}, a ∈ L → b ∈ L → a.idx = b.idx → a = b
  | [], _, _, _, ha, _, _ => by simp at ha
  | x :: L, h, a, b, ha, hb, e => by
    obtain ⟨h1, h2⟩ := List.pairwise_cons.mp h
    rcases List.mem_cons.mp ha with rfl | ha' <;> rcases List.mem_cons.mp hb with rfl | hb'
    · rfl
    · exact absurd (h1 b hb') (by omega)
    · exact absurd (h1 a ha') (by omega)
    · exact idx_inj' h2 ha' hb' e

theorem Flt.inj (h : Flt n gates L) {a b : SG} (ha : a ∈ L) (hb : b ∈ L) (e : a.idx = b.idx) : a = b := idx_inj' h.sorted ha hb e

theorem Flt.erase (h : Flt n gates L) (g : SG) (hg : ∀ q, gates' q = (gates q).erase g) : Flt n gates' (L.erase g) := by
  refine ⟨h.sorted.sublist List.erase_sublist, fun x hx => h.lg x (List.mem_of_mem_erase hx), fun q => ?_⟩
  rw [hg, (h.nodupq q).erase_eq_filter, h.nodup.erase_eq_filter, h.eq, List.filter_filter, List.filter_filter]
  exact List.filter_congr fun x _ => Bool.and_comm _ _

/-- The gates before a gate on a qubit. -/
theorem Flt.before (h : Flt n gates L) {q : ℕ} {pre r : List SG} (e : gates q = pre ++ g :: r) {y : SG} (hy : y ∈ L) (hq : q ∈ y.gate.qubits) (hi : y.idx < g.idx) : y ∈ pre := by
  have hm := h.mem.mpr ⟨hy, hq⟩
  have hs := h.sortedq q
  rw [e] at hm hs
  rcases List.mem_append.mp hm with hm | hm
  · exact hm
  · rcases List.mem_cons.mp hm with rfl | hm
    · exact absurd hi (lt_irrefl _)
    · have := (List.pairwise_cons.mp (List.pairwise_append.mp hs).2.1).1 y hm
      omega

theorem Flt.pre_lt (h : Flt n gates L) {q : ℕ} {pre r : List SG} (e : gates q = pre ++ g :: r) {y : SG} (hy : y ∈ pre) : y.idx < g.idx := by
  have hs := h.sortedq q
  rw [e] at hs
  exact (List.pairwise_append.mp hs).2.2 y hy g (by simp)

theorem Flt.at (h : Flt n gates L) {q : ℕ} {pre r : List SG} (e : gates q = pre ++ g :: r) : g ∈ L ∧ q ∈ g.gate.qubits :=
  h.mem.mp (by rw [e]; simp)

theorem stored_cases {g : Gate} (h : Stored g) : (∃ q, g.qubits = [q]) ∨ ∃ c t, c ≠ t ∧ g.qubits = [c, t] := by
  cases g <;> simp only [Stored] at h
  case zrot a t p b => exact Or.inl ⟨t, rfl⟩
  case had t => exact Or.inl ⟨t, rfl⟩
  case cz c t => exact Or.inr ⟨c, t, h, rfl⟩
  case cnot c t => exact Or.inr ⟨c, t, h, rfl⟩

/-- `takeOut`. -/
theorem Flt.takeOut (h : Flt n gates L) (hg : g ∈ L) : ∃ gates', takeOut gates g = some gates' ∧ Flt n gates' (L.erase g) := by
  have hs := h.stored hg
  rw [PhaseBlock.takeOut, places_eq hs]
  have hm : ∀ q, q ∈ g.gate.qubits → g ∈ gates q := fun q hq => h.mem.mpr ⟨hg, hq⟩
  have hn : ∀ q, q ∉ g.gate.qubits → g ∉ gates q := fun q hq h' => hq (h.mem.mp h').2
  rcases stored_cases hs with ⟨q, e⟩ | ⟨c, t, hct, e⟩
  · rw [e] at hm hn ⊢
    refine ⟨Function.update gates q ((gates q).erase g), ?_, h.erase g fun r => ?_⟩
    · simp [remove_of_mem (hm q (by simp))]
    · by_cases hr : r = q
      · subst hr; rw [Function.update_self]
      · rw [Function.update_of_ne hr, List.erase_of_not_mem (hn r (by simpa using hr))]
  · rw [e] at hm hn ⊢
    refine ⟨Function.update (Function.update gates c ((gates c).erase g)) t ((gates t).erase g), ?_, h.erase g fun r => ?_⟩
    · simp only [List.foldlM_cons, List.foldlM_nil]
      rw [remove_of_mem (hm c (by simp))]
      simp only [Option.map_some, Option.bind_eq_bind, Option.bind_some]
      rw [Function.update_of_ne (Ne.symm hct), remove_of_mem (hm t (by simp))]
      rfl
    · by_cases hr : r = t
      · subst hr; rw [Function.update_self]
      · rw [Function.update_of_ne hr]
        by_cases hr' : r = c
        · subst hr'; rw [Function.update_self]
        · rw [Function.update_of_ne hr', List.erase_of_not_mem (hn r (by simp [hr, hr']))]

/-- All gates on the qubit up to `g` are of the same type. -/
def Free (L : List SG) (r : ℕ) (g : SG) : Prop := ∃ x, ∀ y ∈ L, r ∈ y.gate.qubits → y.idx ≤ g.idx → kind y.gate r = some (kd x)

theorem Free.sub {L' : List SG} {r : ℕ} (h : Free L r g) (hs : List.Sublist L' L) : Free L' r g :=
  let ⟨x, hx⟩ := h
  ⟨x, fun y hy => hx y (hs.subset hy)⟩

theorem split_at {L : List SG} (h : L.Pairwise fun a b => a.idx < b.idx) (hg : g ∈ L) : ∃ a b, L = a ++ g :: b ∧ L.erase g = a ++ b ∧ (∀ y ∈ a, y.idx < g.idx) ∧ ∀ y ∈ b, g.idx < y.idx := by
  have hn : L.Nodup := h.imp fun hab e => by rw [e] at hab; exact lt_irrefl _ hab
  obtain ⟨a, b, e, e', -, -⟩ := split_mem hg hn
  rw [e] at h
  obtain ⟨-, h2, h3⟩ := List.pairwise_append.mp h
  exact ⟨a, b, e, e', fun y hy => h3 y hy g (by simp), (List.pairwise_cons.mp h2).1⟩

/-- A gate of the same type as the gates before it on its qubits can be the first one. -/
theorem Flt.first (h : Flt n gates L) (hg : g ∈ L) (hf : ∀ r ∈ g.gate.qubits, Free L r g) (ψ : QState) :
    semGates (gs L) ψ = semGates (g.gate :: gs (L.erase g)) ψ := by
  obtain ⟨a, b, e, e', ha, -⟩ := split_at h.sorted hg
  rw [e', e, gs_append, gs_append, ← List.cons_append, semGates_append, semGates_append]
  change semGates (gs b) (g.gate.sem (semGates (gs a) ψ)) = _
  congr 1
  rw [move_right (h.stored hg).placed, semGates_append]
  · rfl
  intro y' hy'
  obtain ⟨y, hy, rfl⟩ := List.mem_map.mp hy'
  have hyL : y ∈ L := by rw [e]; simp [hy]
  refine ⟨(h.stored hyL).placed, fun q hd => ?_⟩
  obtain ⟨h1, h2⟩ := hd.mem (h.stored hg).placed (h.stored hyL).placed
  obtain ⟨x, hx⟩ := hf q h1
  exact not_dep (hx g hg h1 le_rfl) (hx y hyL h2 (ha y hy).le) hd

end PhaseBlock
end PyZX
