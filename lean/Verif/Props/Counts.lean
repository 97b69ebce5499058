import Verif.Props.Circuit
import Verif.Props.Linalg

/-!
# C09, C40: gate counts against the decompositions and the CNOT synthesis with `optimize=True`
-/

namespace PyZX
namespace Props

/-- The gates for which `tcount` counts the T gates of the decomposition: rotations, Clifford gates without a phase, phase polynomials and the
three-qubit gates. -/
def TCounted : Gate → Prop
  | .zrot .. | .xrot .. | .yrot .. | .had _ | .cnot .. | .cz .. | .xcx .. | .swap .. | .cy .. | .parity .. | .rzz .. | .fsim .. | .ccz .. | .tof ..
  | .cswap .. => True
  | _ => False

private theorem tc_T (t : ℕ) (a : Bool) : (Gate.mkT t a).tcount = 1 := by
  cases a <;> simp only [Gate.mkT, Gate.tcount] <;> norm_num

private theorem tc_S (t : ℕ) (a : Bool) : (Gate.mkS t a).tcount = 0 := by
  cases a <;> simp only [Gate.mkS, Gate.tcount] <;> norm_num

private theorem tc_cnot (c t : ℕ) : (Gate.cnot c t).tcount = 0 := rfl

private theorem tc_had (t : ℕ) : (Gate.had t).tcount = 0 := rfl

private theorem parity_tcount (p : ℚ) (ts : List ℕ) : ((Gate.parityBasic p ts).map Gate.tcount).sum = if p.den > 2 then 1 else 0 := by
  have h : ∀ l : List ℕ, ((l.map fun i => Gate.cnot (ts.getD i 0) (ts.getD (i + 1) 0)).map Gate.tcount).sum = 0 := by
    intro l
    induction l with
    | nil => rfl
    | cons a l ih =>
      rw [List.map_cons, List.map_cons, List.sum_cons, ih]
      rfl
  unfold Gate.parityBasic
  simp only [List.map_append, List.sum_append, List.map_reverse, List.sum_reverse, h]
  simp [Gate.mkZPhase, Gate.tcount]

/-- C40: the T-count of a gate is that of its decomposition into basic gates. -/
theorem tcount_toBasic {g : Gate} (h : TCounted g) : (g.toBasic.map Gate.tcount).sum = g.tcount := by
  cases g <;> simp only [TCounted] at h
  case parity p ts => exact parity_tcount p ts
  case rzz c t ts p => exact parity_tcount p ts
  case yrot cls t p =>
    simp only [Gate.toBasic, Gate.yBasic, Gate.mkZPhase, Gate.mkXPhase, Gate.tcount, List.map_cons, List.map_nil, List.sum_cons, List.sum_nil,
      Rat.neg_den]
    norm_num
  case ccz c1 c2 t => simp only [Gate.toBasic, Gate.cczBasic, List.map_cons, List.map_nil, List.sum_cons, List.sum_nil, tc_T, tc_cnot]; rfl
  case tof c1 c2 t => simp only [Gate.toBasic, Gate.tofBasic, List.map_cons, List.map_nil, List.sum_cons, List.sum_nil, tc_T, tc_cnot, tc_had]; rfl
  case cswap c1 c2 t =>
    simp only [Gate.toBasic, Gate.tofBasic, List.cons_append, List.nil_append, List.map_cons, List.map_nil, List.sum_cons, List.sum_nil, tc_T,
      tc_cnot, tc_had]
    rfl
  case cy c t => simp only [Gate.toBasic, List.map_cons, List.map_nil, List.sum_cons, List.sum_nil, tc_S, tc_cnot]; rfl
  case swap c t => rfl
  case xcx c t => rfl
  all_goals simp only [Gate.toBasic, List.map_cons, List.map_nil, List.sum_cons, List.sum_nil, Nat.add_zero]

example : TCounted (.ccz 0 1 2) ∧ (Gate.ccz 0 1 2).tcount = 7 := ⟨trivial, rfl⟩

/-- C40: the same for circuits. -/
theorem tcount_toBasicGates {c : Circuit} (h : ∀ g ∈ c.gates, TCounted g) : c.toBasicGates.tcount = c.tcount := by
  unfold Circuit.tcount Circuit.toBasicGates
  simp only
  revert h
  induction c.gates with
  | nil => intro _; rfl
  | cons g gs ih =>
    intro h
    rw [List.flatMap_cons, List.map_append, List.sum_append, tcount_toBasic (h g (by simp)), ih fun g' hg' => h g' (by simp [hg'])]
    rfl

/-- C40: a rotation counts as a T gate exactly when its angle is no multiple of π/2. -/
theorem tcount_rot {p : ℚ} {g : Gate} (h : (∃ c t a, g = .zrot c t p a) ∨ (∃ c t a, g = .xrot c t p a) ∨ ∃ c t, g = .yrot c t p) :
    ((∃ k : ℤ, p = k / 2) → g.tcount = 0) ∧ ((¬ ∃ k : ℤ, p = k / 2) → g.tcount = 1) := by
  have e : g.tcount = if p.den > 2 then 1 else 0 := by
    rcases h with ⟨c, t, a, rfl⟩ | ⟨c, t, a, rfl⟩ | ⟨c, t, rfl⟩ <;> rfl
  rw [e]
  have key : (∃ k : ℤ, p = k / 2) ↔ ¬ p.den > 2 := by
    constructor
    · rintro ⟨k, hk⟩ hd
      have h1 : (p.den : ℤ) ∣ 2 := by
        rw [hk, show ((k : ℚ) / 2) = Rat.divInt k 2 by rw [Rat.divInt_eq_div]; norm_num]
        exact Rat.den_dvd k 2
      have := Int.le_of_dvd (by norm_num) h1
      omega
    · intro hd
      have hp := p.den_pos
      have hpe := Rat.num_div_den p
      rcases (by omega : p.den = 1 ∨ p.den = 2) with h1 | h1
      · refine ⟨2 * p.num, ?_⟩
        rw [h1] at hpe
        push_cast at hpe ⊢
        linarith
      · refine ⟨p.num, ?_⟩
        rw [h1] at hpe
        exact hpe.symm
  exact ⟨fun c => if_neg (key.mp c), fun c => if_pos (by by_contra h'; exact c (key.mpr h'))⟩

/-- The gates that `depth` takes into account. -/
def DepthCounted : Gate → Prop
  | .zrot .. | .xrot .. | .had _ | .cnot .. | .cz .. | .xcx .. | .swap .. | .ccz .. | .tof .. | .cswap .. => True
  | _ => False

/-- C40: `depth` takes these gates into account with all their qubits, and no others. -/
theorem depthQubits_spec (g : Gate) : (DepthCounted g → ∀ q, q ∈ Circuit.depthQubits g ↔ q ∈ g.qubits) ∧
    (¬ DepthCounted g → Circuit.depthQubits g = []) := by
  cases g <;> simp only [DepthCounted, Circuit.depthQubits, Gate.qubits, true_imp_iff, false_imp_iff, not_true_eq_false, not_false_eq_true,
    List.mem_cons, List.not_mem_nil, or_false, implies_true, and_true] <;> (try (intro q; tauto))

/-- A chain of `k ≥ 1` gates, in order, any two consecutive ones sharing a qubit, the last one acting on `q`. -/
inductive Chain : List Gate → ℕ → ℕ → Prop
  | start {gs : List Gate} {g : Gate} {q : ℕ} : q ∈ g.qubits → Chain (gs ++ [g]) 1 q
  | skip {gs : List Gate} {g : Gate} {k q : ℕ} : Chain gs k q → Chain (gs ++ [g]) k q
  | step {gs : List Gate} {g : Gate} {k q q' : ℕ} : Chain gs k q' → q' ∈ g.qubits → q ∈ g.qubits → Chain (gs ++ [g]) (k + 1) q

/-- C40: in a circuit of gates it takes into account, `depth` is the length of the longest chain of gates in which consecutive gates share a
qubit. -/
theorem depth_chain {c : Circuit} (hc : ∀ g ∈ c.gates, DepthCounted g) {d : ℕ} (h : c.depth = some d) :
    (∀ k q, Chain c.gates k q → k ≤ d) ∧ (d = 0 ∨ ∃ q, Chain c.gates d q) := by
  have h1 : ∀ gs k q, DepPath gs k q → (∀ g ∈ gs, DepthCounted g) → Chain gs k q := by
    intro gs k q hp
    induction hp with
    | start hq => exact fun hh => .start (((depthQubits_spec _).1 (hh _ (by simp)) _).mp hq)
    | skip _ ih => exact fun hh => .skip (ih fun g hg => hh g (by simp [hg]))
    | step _ h1 h2 ih =>
      exact fun hh => .step (ih fun g hg => hh g (by simp [hg])) (((depthQubits_spec _).1 (hh _ (by simp)) _).mp h1)
        (((depthQubits_spec _).1 (hh _ (by simp)) _).mp h2)
  have h2 : ∀ gs k q, Chain gs k q → (∀ g ∈ gs, DepthCounted g) → DepPath gs k q := by
    intro gs k q hp
    induction hp with
    | start hq => exact fun hh => .start (((depthQubits_spec _).1 (hh _ (by simp)) _).mpr hq)
    | skip _ ih => exact fun hh => .skip (ih fun g hg => hh g (by simp [hg]))
    | step _ h1 h2 ih =>
      exact fun hh => .step (ih fun g hg => hh g (by simp [hg])) (((depthQubits_spec _).1 (hh _ (by simp)) _).mpr h1)
        (((depthQubits_spec _).1 (hh _ (by simp)) _).mpr h2)
  obtain ⟨k1, k2⟩ := depth_longest_chain h
  refine ⟨fun k q hk => k1 k q (h2 _ _ _ hk hc), ?_⟩
  rcases k2 with k2 | ⟨q, k2⟩
  · exact Or.inl k2
  · exact Or.inr ⟨q, h1 _ _ _ k2 hc⟩

example : ∀ g ∈ [Gate.mkT 0, Gate.cnot 0 1, Gate.had 2, Gate.ccz 0 1 2], DepthCounted g := by simp [DepthCounted, Gate.mkT]

private def isB : Gate → Bool
  | .zrot .. | .xrot .. | .had _ | .cnot .. | .cz .. => true
  | _ => false

/-- C40: `twoqubitcount` is the number of two-qubit gates of the basic-gate circuit. -/
theorem twoqubitcount_spec {c : Circuit} (h : ∀ g ∈ c.gates, ∀ a b p, g ≠ .fsim a b p) :
    c.twoqubitcount = (c.toBasicGates.gates.filter fun g => g.qubits.length = 2).length := by
  unfold Circuit.twoqubitcount
  rw [List.countP_eq_length_filter]
  congr 1
  refine List.filter_congr fun g hg => ?_
  obtain ⟨g0, hg0, hg1⟩ := List.mem_flatMap.mp hg
  have hb : ∀ g0 : Gate, (∀ a b p, g0 ≠ .fsim a b p) → g0.toBasic.all isB = true := by
    intro g0 hf
    have hpar : ∀ p ts, (Gate.parityBasic p ts).all isB = true := by
      intro p ts
      rw [List.all_eq_true]
      intro g hg
      unfold Gate.parityBasic at hg
      simp only [List.mem_append, List.mem_reverse, List.mem_map, List.mem_singleton] at hg
      rcases hg with (⟨i, -, rfl⟩ | rfl) | ⟨i, -, rfl⟩ <;> rfl
    cases g0
    case fsim a b p => exact absurd rfl (hf a b p)
    case parity p ts => exact hpar p ts
    case rzz c t ts p => exact hpar p ts
    all_goals rfl
  have hB := List.all_eq_true.mp (hb g0 (h g0 hg0)) g hg1
  cases g <;> first | rfl | exact absurd hB Bool.false_ne_true

example : (Circuit.twoqubitcount ⟨3, 0, [Gate.ccz 0 1 2, Gate.swap 0 1]⟩) = 9 := by decide

/-- C09: with `optimize=True` the result is no longer than the circuit of any block size tried. -/
theorem toCnots_optimize_min {stale : ℕ → List ℕ} {useLog : Bool} {d : Mat2.Data} {gs : List (ℕ × ℕ)}
    (h : Mat2.toCnots stale true useLog d = some gs) :
    ∀ b, 1 ≤ b → b < d.length → gs.length ≤ (Mat2.gauss Mat2.cnotMaker Mat2.noOp true b (stale b) ⟨d, [], ()⟩).1.x.length := by
  have key : ∀ (sizes : List ℕ) (best : ℕ) (bc : Option (List (ℕ × ℕ))), (∀ l, bc = some l → best ≤ l.length ∧ l.length ≤ best) →
      Mat2.bestCnots stale d sizes best bc = some gs →
      gs.length ≤ best ∧ ∀ b ∈ sizes, gs.length ≤ (Mat2.gauss Mat2.cnotMaker Mat2.noOp true b (stale b) ⟨d, [], ()⟩).1.x.length := by
    intro sizes
    induction sizes with
    | nil => exact fun best bc hbc hh => ⟨(hbc gs hh).2, by simp⟩
    | cons a sizes ih =>
      intro best bc hbc hh
      unfold Mat2.bestCnots at hh
      simp only at hh
      by_cases c : (Mat2.gauss Mat2.cnotMaker Mat2.noOp true a (stale a) ⟨d, [], ()⟩).1.x.length < best
      · rw [if_pos c] at hh
        obtain ⟨k1, k2⟩ := ih _ _ (fun l hl => by rw [← Option.some.inj hl]; exact ⟨le_rfl, le_rfl⟩) hh
        refine ⟨by omega, fun b hb => ?_⟩
        rcases List.mem_cons.mp hb with rfl | hb
        · exact k1
        · exact k2 b hb
      · rw [if_neg c] at hh
        obtain ⟨k1, k2⟩ := ih _ _ hbc hh
        refine ⟨k1, fun b hb => ?_⟩
        rcases List.mem_cons.mp hb with rfl | hb
        · omega
        · exact k2 b hb
  intro b h1 h2
  unfold Mat2.toCnots at h
  rw [if_pos rfl] at h
  exact (key _ _ _ (by simp) h).2 b (List.mem_range'_1.mpr ⟨h1, by omega⟩)

example : (Mat2.toCnots (fun _ => []) true false [[true, true], [false, true]]) = some [(0, 1)] := by decide

end Props
end PyZX
