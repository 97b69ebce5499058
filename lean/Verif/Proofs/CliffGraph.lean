import Verif.Proofs.ToGraphZX
import Verif.Spec.Clifford

/-!
# The phases of the diagram of a circuit
-/

namespace PyZX
namespace ToGraph

open Graph Simplify

variable {P : ℚ → Prop} {g g' : Graph}

/-- All phases lie in `P`. -/
def Ph (P : ℚ → Prop) (g : Graph) : Prop := ∀ v, P (g.phase v)

theorem Ph.vertex (h : Ph P g) {t : VType} {p : ℚ} (hp : P (mod2 p)) : Ph P (g.addVertex t p) := by
  intro v
  rw [(addVertex_fields g t p).2.2.2.1]
  by_cases c : v = g.vindex
  · subst c; rw [Function.update_self]; exact hp
  · rw [Function.update_of_ne c]; exact h v

theorem Ph.edge (hP : PhaseSet P) (h : Ph P g) {a b : ℕ} {e : EType} (he : g.addEdge a b e = some g') : Ph P g' := by
  unfold addEdge at he
  split at he
  · simp at he
  split at he
  · split at he
    · simp at he
    · obtain rfl := Option.some.inj he; exact h
  · split at he
    · dsimp only at he
      generalize (if (g.ty a).zLike = (g.ty b).zLike then EType.simple else EType.had) = fu at he
      generalize (if (g.ty a).zLike = (g.ty b).zLike then EType.had else EType.simple) = ho at he
      split at he
      · obtain rfl := Option.some.inj he; exact h
      · split at he
        · obtain rfl := Option.some.inj he
          intro v
          show P ((if g.ty a = .zbox then _ else _ : Graph).phase v)
          split
          · exact h v
          · show P (Function.update g.phase a (mod2 (g.phase a + 1)) v)
            by_cases c : v = a
            · subst c; rw [Function.update_self]; exact hP.add _ _ (h v) hP.one
            · rw [Function.update_of_ne c]; exact h v
        · split at he
          · obtain ⟨g1, h1, rfl⟩ := Option.map_eq_some_iff.mp he
            unfold removeEdge at h1
            split at h1
            · simp at h1
            · obtain rfl := Option.some.inj h1; exact h
          · simp at he
    · simp at he

theorem Ph.node (hP : PhaseSet P) {s s' : St} (h : Ph P s.1) {t : VType} {l : ℕ} {p : ℚ} {e : EType} (hp : P (mod2 p))
    (hs : addNode s t l p e = some s') : Ph P s'.1 := by
  unfold addNode at hs
  obtain ⟨u, -, hs⟩ := bind_some hs
  obtain ⟨g1, hg1, hs⟩ := bind_some hs
  obtain rfl := Option.some.inj hs
  exact (h.vertex hp).edge hP hg1

theorem Ph.pair (hP : PhaseSet P) {s s' : St} (h : Ph P s.1) {tt tc : VType} {c t : ℕ} {e : EType}
    (hs : addPair s tt tc c t e = some s') : Ph P s'.1 := by
  unfold addPair at hs
  obtain ⟨s1, h1, hs⟩ := bind_some hs
  obtain ⟨s2, h2, hs⟩ := bind_some hs
  obtain ⟨g3, h3, hs⟩ := bind_some hs
  obtain rfl := Option.some.inj hs
  have h0 : P (mod2 0) := by rw [mod2_zero]; exact hP.zero
  have h4 := Ph.edge hP ((h.node hP h0 h1).node hP h0 h2) h3
  exact fun v => h4 v

/-- Basic gates with phases in `P`. -/
def PhBasic (P : ℚ → Prop) : Gate → Prop
  | .zrot _ _ p _ => P (mod2 p)
  | .xrot _ _ p _ => P (mod2 p)
  | .had _ => True
  | .cnot _ _ => True
  | .cz _ _ => True
  | _ => False

theorem Ph.direct (hP : PhaseSet P) {s s' : St} (h : Ph P s.1) {a : Gate} (ha : PhBasic P a) (hs : direct s a = some s') : Ph P s'.1 := by
  have h0 : P (mod2 0) := by rw [mod2_zero]; exact hP.zero
  cases a <;> first
    | exact absurd ha id
    | exact h.node hP ha hs
    | exact h.node hP h0 hs
    | exact h.pair hP hs

theorem Ph.ops (hP : PhaseSet P) : ∀ (gs : List Gate) {s s' : St}, Ph P s.1 → (∀ a ∈ gs, PhBasic P a) →
    (gs.map Op.gate).foldlM step s = some s' → Ph P s'.1
  | [], s, s', h, _, hs => by
    simp only [List.map_nil, List.foldlM_nil, Option.pure_def, Option.some.injEq] at hs
    subst hs
    exact h
  | a :: gs, s, s', h, hgs, hs => by
    rw [List.map_cons, List.foldlM_cons] at hs
    obtain ⟨s1, h1, hs⟩ := bind_some hs
    have b1 := hgs a (by simp)
    have hd : isDirect a = true := by cases a <;> first | rfl | exact absurd b1 id
    have h1' : ToGraph.direct s a = some s1 := by
      change gateToGraph s a = some s1 at h1
      unfold gateToGraph at h1
      rwa [if_pos hd] at h1
    exact Ph.ops hP gs (h.direct hP b1 h1') (fun a ha => hgs a (by simp [ha])) hs

theorem Ph.inputs (hP : PhaseSet P) (k : ℕ) (l : List ℕ) (h : Ph P g) : Ph P (addInputs k g l).1 := by
  have h0 : P (mod2 0) := by rw [mod2_zero]; exact hP.zero
  unfold addInputs
  generalize List.range k = L
  generalize Mapper.new = m
  induction L generalizing g m l with
  | nil => exact h
  | cons a L ih => rw [List.foldl_cons]; exact ih _ (h.vertex h0) _

theorem Ph.outs (hP : PhaseSet P) {m : Mapper} : ∀ (ls : List ℕ) {g : Graph} {os : List ℕ} {r : Graph × List ℕ}, Ph P g →
    addOutputs m ls (g, os) = some r → Ph P r.1
  | [], g, os, r, h, hs => by
    unfold addOutputs at hs
    simp only [List.foldlM_nil, Option.pure_def, Option.some.injEq] at hs
    subst hs
    exact h
  | l :: ls, g, os, r, h, hs => by
    unfold addOutputs at hs
    rw [List.foldlM_cons] at hs
    obtain ⟨r1, h1, hs⟩ := bind_some hs
    obtain ⟨u, hu, h1⟩ := bind_some h1
    obtain ⟨g1, hg1, h1⟩ := bind_some h1
    obtain rfl := Option.some.inj h1
    exact Ph.outs hP ls ((h.vertex (by rw [mod2_zero]; exact hP.zero)).edge hP hg1) hs

/-- The phases of the diagram of a circuit of basic gates lie in every set of phases with those of the gates. -/
theorem toGraph_phases (hP : PhaseSet P) {ord : Finset ℕ → List ℕ} {c : Circuit} (hc : ∀ a ∈ c.toBasicGates.gates, PhBasic P a)
    (hg : toGraph ord false c = some g) : Ph P g := by
  unfold toGraph ofCircuit circuitToGraph at hg
  simp only [Bool.false_eq_true, if_false] at hg
  obtain ⟨s, hs, hg⟩ := bind_some hg
  obtain ⟨r, hr, hg⟩ := bind_some hg
  obtain ⟨r', hr', hg⟩ := bind_some hg
  obtain rfl := Option.some.inj hg
  have h0 : Ph P Graph.empty := fun v => hP.zero
  exact Ph.outs hP _ (Ph.outs hP _ (Ph.ops hP _ (Ph.inputs hP _ _ (Ph.inputs hP _ _ h0)) hc hs) hr) hr'

end ToGraph
end PyZX
