import Verif.Proofs.OptPass
import Verif.Props.Circuit

/-!
# Helper lemmas for `basic_optimization`: the passes back and forth
-/

namespace PyZX
namespace Optimize

open scoped List ComplexConjugate

/-- The conjugate state. -/
noncomputable def cj (ψ : QState) : QState := fun x => conj (ψ x)

theorem cj_cj (ψ : QState) : cj (cj ψ) = ψ := by funext x; simp [cj]

variable {k n : ℕ} {E : ℕ → ℕ → Prop}

theorem conj_ph (p : ℚ) : conj (ph p) = ph (-p) := by
  rw [ph_neg, Complex.inv_eq_conj (norm_ph p)]

theorem sem_conj {g : Gate} (h : Accepted n g) (ψ : QState) : g.toAdjoint.sem (cj ψ) = cj (g.sem ψ) := by
  funext x
  cases g with
  | had t =>
    simp only [Gate.toAdjoint, Gate.sem, on1_apply, matH, mat2, cj, sq2]
    cases x t <;> simp
  | zrot cls t p adj =>
    simp only [Gate.toAdjoint, cj, sem_zrot_apply]
    split <;> simp [conj_ph]
  | xrot cls t p adj =>
    simp only [Gate.toAdjoint, Gate.sem, on1_apply, matX, mat2, cj]
    cases x t <;> simp [conj_ph, map_ofNat]
  | cz c t =>
    simp only [Gate.toAdjoint, cj, sem_cz_apply]
    split <;> simp
  | cnot c t => simp only [Gate.toAdjoint, cj, sem_cnot_apply]
  | _ => exact h.elim

theorem sems_conj : ∀ {l : List Gate}, (∀ g ∈ l, Accepted n g) → ∀ ψ, semGates (l.map Gate.toAdjoint) (cj ψ) = cj (semGates l ψ)
  | [], _, _ => rfl
  | g :: l, h, ψ => by
    rw [List.map_cons, semGates_cons, semGates_cons, sem_conj (h g (by simp)), sems_conj fun g hg => h g (by simp [hg])]

theorem accepted_ok {g : Gate} (h : Accepted n g) : g.adjointOK = true ∧ g.qubits.Nodup := by
  cases g <;> simp only [Accepted] at h <;> simp [Gate.adjointOK, Gate.qubits, h]

theorem sems_inv {l : List Gate} (h : ∀ g ∈ l, Accepted n g) (ψ : QState) :
    semGates (l.reverse.map Gate.toAdjoint) (semGates l ψ) = ψ ∧ semGates l (semGates (l.reverse.map Gate.toAdjoint) ψ) = ψ := by
  have := Props.adjoint_inverse_partial (c := ⟨0, 0, l⟩) (fun g hg => (accepted_ok (h g hg)).1) (fun g hg => (accepted_ok (h g hg)).2) ψ
  simpa only [Circuit.adjoint, semGates_append] using this

/-- Circuits with the same map have the same map when they are reversed. -/
theorem Eqv.reverse {a b : List Gate} (ha : ∀ g ∈ a, Accepted n g) (hb : ∀ g ∈ b, Accepted n g) (h : Eqv a b) : Eqv a.reverse b.reverse := by
  obtain ⟨z, hz, h⟩ := h
  have hz0 : z ≠ 0 := by rintro rfl; simp at hz
  have key : ∀ {l : List Gate}, (∀ g ∈ l, Accepted n g) → ∀ ψ, semGates l.reverse ψ = cj (semGates (l.reverse.map Gate.toAdjoint) (cj ψ)) := by
    intro l hl ψ
    rw [sems_conj (fun g hg => hl g (by simpa using hg)), cj_cj]
  have inv : ∀ φ, semGates (a.reverse.map Gate.toAdjoint) φ = fun x => z⁻¹ * semGates (b.reverse.map Gate.toAdjoint) φ x := by
    intro φ
    have e1 : semGates a (semGates (b.reverse.map Gate.toAdjoint) φ) = fun x => z * φ x := by
      funext x
      rw [h, (sems_inv hb φ).2]
    have e2 := (sems_inv ha (semGates (b.reverse.map Gate.toAdjoint) φ)).1
    rw [e1] at e2
    rw [← e2]
    funext x
    rw [semGates_smul, ← mul_assoc, inv_mul_cancel₀ hz0, one_mul]
  refine ⟨conj z⁻¹, by simp [hz], fun ψ x => ?_⟩
  rw [key ha, key hb, inv]
  simp [cj]

theorem accepted_correction {ds : Bool} {l : List Gate} {r : List Gate × List Gate} (h : PassOK k n E ds l r) (h1 : ds = true → ∀ a b, E a b) (hk : ds = true → k = 0) :
    (∀ g ∈ withCorrection r, Accepted n g) ∧ (∀ g ∈ withCorrection r, Links E g) ∧ tc k (withCorrection r) ≤ tc k l ∧ Eqv l (withCorrection r) := by
  obtain ⟨nots, sw, e, hn, hs, hd⟩ := h.cor
  have mem : ∀ g ∈ r.2.flatMap Gate.toBasic, (∃ q < n, g = .mkNOT q) ∨ ∃ c t, g = .cnot c t ∧ c ≠ t ∧ c < n ∧ t < n ∧ ds = true := by
    intro g hg
    rw [e, List.flatMap_append, List.mem_append] at hg
    rcases hg with hg | hg
    · obtain ⟨g', h1, h2⟩ := List.mem_flatMap.mp hg
      obtain ⟨q, hq, rfl⟩ := List.mem_map.mp h1
      rw [show (Gate.mkNOT q).toBasic = [.mkNOT q] from rfl, List.mem_singleton] at h2
      exact Or.inl ⟨q, hn q hq, h2⟩
    · obtain ⟨g', h1, h2⟩ := List.mem_flatMap.mp hg
      obtain ⟨p, hp, rfl⟩ := List.mem_map.mp h1
      obtain ⟨k1, k2⟩ := hs p hp
      have hds : ds = true := by
        cases hds : ds with
        | true => rfl
        | false => rw [hd hds] at hp; simp at hp
      simp only [Gate.toBasic, List.mem_cons, List.not_mem_nil, or_false] at h2
      right
      rcases h2 with h2 | h2 | h2
      · exact ⟨_, _, h2, by omega, by omega, by omega, hds⟩
      · exact ⟨_, _, h2, by omega, by omega, by omega, hds⟩
      · exact ⟨_, _, h2, by omega, by omega, by omega, hds⟩
  refine ⟨?_, ?_, ?_, ?_⟩
  · intro g hg
    rcases List.mem_append.mp hg with hg | hg
    · exact h.acc g hg
    · rcases mem g hg with ⟨q, hq, rfl⟩ | ⟨c, t, rfl, k1, k2, k3, -⟩
      · refine ⟨rfl, ?_, hq⟩
        norm_num [mod2]
      · exact ⟨k1, k2, k3⟩
  · intro g hg
    rcases List.mem_append.mp hg with hg | hg
    · exact h.lnk g hg
    · rcases mem g hg with ⟨q, hq, rfl⟩ | ⟨c, t, rfl, k1, k2, k3, k4⟩
      · trivial
      · exact h1 k4 c t
  · unfold withCorrection
    rw [tc_append]
    have : tc k (r.2.flatMap Gate.toBasic) = 0 := by
      unfold tc
      refine List.sum_eq_zero fun v hv => ?_
      obtain ⟨g, hg, rfl⟩ := List.mem_map.mp hv
      rcases mem g hg with ⟨q, hq, rfl⟩ | ⟨c, t, rfl, -, -, -, k4⟩
      · simp [wg, Gate.mkNOT, Gate.tcount]
      · rw [wg_cnot, hk k4]
    have := h.tc
    omega
  · refine h.sem.trans (Eqv.left ?_ _)
    have hv : ∀ g ∈ r.2, g.Valid := by
      intro g hg
      rw [e] at hg
      rcases List.mem_append.mp hg with hg | hg
      · obtain ⟨q, hq, rfl⟩ := List.mem_map.mp hg
        exact ⟨by simp [Gate.mkNOT, Gate.qubits], by simp [Gate.mkNOT, Gate.qubits]⟩
      · obtain ⟨p, hp, rfl⟩ := List.mem_map.mp hg
        have := hs p hp
        refine ⟨by simp [Gate.qubits], ?_⟩
        simp only [Gate.qubits, List.nodup_cons, List.mem_singleton, List.not_mem_nil, not_false_eq_true, List.nodup_nil, and_true]
        omega
    have : ∀ m : List Gate, (∀ g ∈ m, g.Valid) → Eqv m (m.flatMap Gate.toBasic) := by
      intro m
      induction m with
      | nil => intro _; exact Eqv.refl _
      | cons g m ih =>
        intro hm
        rw [List.flatMap_cons]
        have a1 : Eqv [g] g.toBasic := eqUp_symm (Props.toBasic_sound (hm g (by simp)))
        exact a1.append (ih fun g hg => hm g (by simp [hg]))
    exact this _ hv

/-- What a number of passes gives. -/
structure OptOK (k n : ℕ) (E : ℕ → ℕ → Prop) (l r : List Gate) : Prop where
  acc : ∀ g ∈ r, Accepted n g
  lnk : ∀ g ∈ r, Links E g
  tc : tc k r ≤ tc k l
  sem : Eqv l r

theorem OptOK.of_pass {ds : Bool} {l : List Gate} {r : List Gate × List Gate} (h : PassOK k n E ds l r) (h1 : ds = true → ∀ a b, E a b) (hk : ds = true → k = 0) : OptOK k n E l (withCorrection r) :=
  let ⟨a, b, c, d⟩ := accepted_correction h h1 hk
  ⟨a, b, c, d⟩

theorem tc_reverse (l : List Gate) : tc k l.reverse = tc k l := tc_perm l.reverse_perm

theorem OptOK.trans {a b c : List Gate} (h : OptOK k n E a b) (h' : OptOK k n E b c) : OptOK k n E a c :=
  ⟨h'.acc, h'.lnk, h'.tc.trans h.tc, h.sem.trans h'.sem⟩

theorem OptOK.reverse {a b : List Gate} (ha : ∀ g ∈ a, Accepted n g) (h : OptOK k n E a.reverse b) : OptOK k n E a b.reverse := by
  refine ⟨fun g hg => h.acc g (by simpa using hg), fun g hg => h.lnk g (by simpa using hg), by rw [tc_reverse]; exact h.tc.trans (tc_reverse a).le, ?_⟩
  have := h.sem.reverse (n := n) (fun g hg => ha g (by simpa using hg)) h.acc
  rwa [List.reverse_reverse] at this

/-- The loop of `parse_circuit`. -/
theorem rounds_spec (maxIter : ℕ) (ds : Bool) (sym : ∀ a b, E a b → E b a) (h1 : ds = true → ∀ a b, E a b) (hk : ds = true → k = 0) :
    ∀ (fuel i : ℕ) (min : Bool) (l : List Gate) (cnt : ℕ × ℕ × ℕ), (∀ g ∈ l, Accepted n g) → (∀ g ∈ l, Links E g) →
      (if min then maxIter ≤ i + fuel ∧ 1 ≤ fuel else maxIter ≤ i + fuel ∧ 2 ≤ fuel) →
      ∃ r, rounds n maxIter ds fuel i min l cnt = some r ∧ OptOK k n E l r
  | 0, i, min, l, cnt, _, _, hf => by cases min <;> simp at hf
  | fuel + 1, i, min, l, cnt, ha, hl, hf => by
    obtain ⟨r1, e1, k1⟩ := pass_spec (k := k) min ds sym h1 (l := l.reverse) (fun g hg => ha g (by simpa using hg)) (fun _ g hg => hl g (by simpa using hg))
    have o1 := (OptOK.of_pass k1 h1 hk).reverse ha
    obtain ⟨r2, e2, k2⟩ := pass_spec (k := k) min ds sym h1 o1.acc (fun _ => o1.lnk)
    have o2 := o1.trans (OptOK.of_pass k2 h1 hk)
    rw [rounds, e1]
    simp only [Option.bind_eq_bind, Option.bind_some, e2]
    by_cases hc : (min && (decide (cnt.1 ≤ (stats r2.1).1 ∧ cnt.2.1 ≤ (stats r2.1).2.1 ∧ cnt.2.2 ≤ (stats r2.1).2.2) || decide (maxIter ≤ i + 1))) = true
    · rw [if_pos hc]
      exact ⟨_, rfl, o2⟩
    · rw [if_neg hc]
      obtain ⟨r, e3, o3⟩ := rounds_spec maxIter ds sym h1 hk fuel (i + 1) true (withCorrection r2) (stats r2.1) o2.acc o2.lnk (by
        rw [if_pos rfl]
        cases min with
        | false => simp only [Bool.false_eq_true, if_false] at hf; omega
        | true =>
          simp only [if_true] at hf
          simp only [Bool.true_and, Bool.or_eq_true, decide_eq_true_eq, not_or] at hc
          omega)
      exact ⟨r, e3, o2.trans o3⟩

/-- `parse_circuit`. -/
theorem parseCircuit_spec (maxIter : ℕ) (ds : Bool) (sym : ∀ a b, E a b → E b a) (h1 : ds = true → ∀ a b, E a b) (hk : ds = true → k = 0) {l : List Gate}
    (ha : ∀ g ∈ l, Accepted n g) (hl : ds = false → ∀ g ∈ l, Links E g) :
    ∃ r, parseCircuit n maxIter ds l = some r ∧ OptOK k n E l r := by
  obtain ⟨r1, e1, k1⟩ := pass_spec (k := k) false ds sym h1 ha hl
  have o1 := OptOK.of_pass k1 h1 hk
  obtain ⟨r, e2, o2⟩ := rounds_spec maxIter ds sym h1 hk (maxIter + 2) 0 false (withCorrection r1) (stats r1.1) o1.acc o1.lnk (by
    simp only [Bool.false_eq_true, if_false]; omega)
  refine ⟨r, ?_, o1.trans o2⟩
  rw [parseCircuit, e1]
  exact e2

/-! ### Circuits that raise -/

/-- The gates that are not handled. -/
def Refused (n : ℕ) : Gate → Prop
  | .had t => n ≤ t
  | .zrot _ t _ _ => n ≤ t
  | .xrot cls t _ _ => cls = .not → n ≤ t
  | .cz c t => n ≤ c ∨ n ≤ t
  | .cnot c t => n ≤ c ∨ n ≤ t
  | _ => True

/-- A gate that is not handled raises. -/
theorem parseGate_none {min ds : Bool} {s : State} {g : Gate} (hl : s.perm.length = n) (hp : IsPerm s.perm)
    (hn : Refused n g) : parseGate min ds s g = none := by
  have loc := fun q => (locate_spec hp hl q).2
  cases g with
  | had t => rw [parseGate, loc t hn]; rfl
  | zrot cls t p adj => rw [parseGate, loc t hn]; rfl
  | xrot cls t p adj =>
    cases cls with
    | not => rw [parseGate, loc t (hn rfl)]; rfl
    | _ => rfl
  | cz c t =>
    rw [parseGate]
    rcases hn with hn | hn
    · rw [loc c hn]; rfl
    · rw [loc t hn]; cases locate s c <;> rfl
  | cnot c t =>
    rw [parseGate]
    rcases hn with hn | hn
    · rw [loc c hn]; rfl
    · rw [loc t hn]; cases locate s c <;> rfl
  | _ => rfl

/-- The attributes of a gate are those of its class. -/
def Proper (g : Gate) : Prop := g.Valid ∧ ∀ t p adj, g = .xrot .not t p adj → mod2 p = 1

theorem not_accepted {g : Gate} (h : Proper g) (hn : ¬ Accepted n g) : Refused n g := by
  cases g with
  | had t => exact not_lt.mp hn
  | zrot cls t p adj => exact not_lt.mp hn
  | xrot cls t p adj =>
    intro hc
    subst hc
    by_contra hlt
    exact hn ⟨rfl, h.2 t p adj rfl, not_le.mp hlt⟩
  | cz c t =>
    have hct : c ≠ t := by simpa [Gate.qubits] using h.1.2
    by_contra hlt
    unfold Refused at hlt
    rw [not_or, not_le, not_le] at hlt
    exact hn ⟨hct, hlt⟩
  | cnot c t =>
    have hct : c ≠ t := by simpa [Gate.qubits] using h.1.2
    by_contra hlt
    unfold Refused at hlt
    rw [not_or, not_le, not_le] at hlt
    exact hn ⟨hct, hlt⟩
  | _ => trivial

theorem parseGates_none (min ds : Bool) : ∀ {l : List Gate} {s : State} {L : List SG}, FInv n (fun _ _ => True) s L → (ds = false → s.perm = List.range n) →
    (∀ g ∈ l, Proper g) → (∃ g ∈ l, ¬ Accepted n g) → l.foldlM (parseGate min ds) s = none
  | [], _, _, _, _, _, h => by obtain ⟨g, hg, -⟩ := h; simp at hg
  | g :: l, s, L, hi, hp, hg, hex => by
    rw [List.foldlM_cons]
    by_cases ha : Accepted n g
    · obtain ⟨s1, L1, e1, i1, -, -, p1⟩ := hi.parseGate (k := 0) min ds ha (fun _ _ _ => trivial) (fun _ _ _ => trivial) fun hd => ⟨hp hd, by cases g <;> trivial⟩
      rw [e1]
      refine parseGates_none min ds i1 (fun hd => (p1 hd).trans (hp hd)) (fun g hg' => hg g (by simp [hg'])) ?_
      obtain ⟨g', h1, h2⟩ := hex
      rcases List.mem_cons.mp h1 with rfl | h1
      · exact absurd ha h2
      · exact ⟨g', h1, h2⟩
    · rw [parseGate_none hi.len hi.perm (not_accepted (hg g (by simp)) ha)]
      rfl

theorem parseCircuit_none (maxIter : ℕ) (ds : Bool) {l : List Gate} (hg : ∀ g ∈ l, Proper g) (h : ∃ g ∈ l, ¬ Accepted n g) :
    parseCircuit n maxIter ds l = none := by
  rw [parseCircuit, parseForward, parseGates_none false ds (FInv.init n _) (fun _ => rfl) hg h]
  rfl

end Optimize
end PyZX
