import Verif.Model.Identities
import Verif.Proofs.OptLocal
import Verif.Proofs.ToGraph
import Verif.Props.Circuit

/-!
# Lemmas on the circuit identities of `generate.py`
-/

namespace PyZX
namespace Generate

open Gate Optimize

/-- A phase gate multiplies amplitudes. -/
theorem zdiag (t : ℕ) (p : ℚ) (ψ : QState) (x : ℕ → Bool) : on1 (matZ p) t ψ x = (if x t then ph p else 1) * ψ x := by
  rw [on1_apply]
  rcases h : x t with _ | _
  · have : Function.update x t false = x := by rw [← h]; exact Function.update_eq_self t x
    simp [matZ, mat2, this]
  · have : Function.update x t true = x := by rw [← h]; exact Function.update_eq_self t x
    simp [matZ, mat2, this]

/-- A Z-phase on the control of a block matrix. -/
theorem blk_diag {a b : ℂ} {A B : Matrix Bool Bool ℂ} {c t : ℕ} (hA : A = mat2 1 0 0 a) (hB : B = mat2 1 0 0 b) (ψ : QState) (x : ℕ → Bool) :
    blk c t A B ψ x = (if x t then (if x c then b else a) else 1) * ψ x := by
  subst hA; subst hB
  unfold blk
  rw [on1_apply, on1_apply]
  rcases h : x t with _ | _
  · have : Function.update x t false = x := by rw [← h]; exact Function.update_eq_self t x
    rcases x c with _ | _ <;> simp [mat2, this]
  · have : Function.update x t true = x := by rw [← h]; exact Function.update_eq_self t x
    rcases x c with _ | _ <;> simp [mat2, this]

/-- A phase on two qubits and their parity is a phase on their product. -/
theorem cphase_of (p : ℚ) (a b : Bool) (z : ℂ) :
    (if xor a (xor b false) then ph (-p) else 1) * ((if b then ph p else 1) * ((if a then ph p else 1) * z)) = (if a && b then ph (p + p) else 1) * z := by
  have h : ph (-p) * ph p = 1 := by rw [← ph_add, neg_add_cancel, ph_zero]
  rw [ph_add]
  cases a <;> cases b <;> simp
  · rw [← mul_assoc, h, one_mul]
  · rw [← mul_assoc, h, one_mul]
  · ring

/-- `cb` is a phase on qubit 1 when qubit 0 is not set. -/
theorem cb_blk (beta : ℚ) (ψ : QState) : semGates (identityCb beta).gates ψ = blk 0 1 (matZ (beta + beta)) 1 ψ := by
  funext x
  rw [blk_diag (a := ph (beta + beta)) (A := matZ (beta + beta)) rfl mat2_one]
  show (mkNOT 0).sem ((parity (-beta) [0, 1]).sem (on1 (matZ beta) 1 (on1 (matZ beta) 0 ((mkNOT 0).sem ψ)))) x = _
  rw [sem_mkNOT_apply]
  show (if parityOf [0, 1] (Function.update x 0 (!x 0)) then ph (-beta) else 1) * _ = _
  rw [zdiag, zdiag, sem_mkNOT_apply]
  simp only [parityOf, List.foldr_cons, List.foldr_nil, Function.update_self, Function.update_of_ne (show (1 : ℕ) ≠ 0 by omega)]
  rw [cphase_of, Function.update_idem, Bool.not_not, Function.update_eq_self]
  rcases x 0 with _ | _ <;> rcases x 1 with _ | _ <;> simp

theorem matX_inv' : matX (1/2) * matX (3/2) = 1 := by
  have h : ph (1/2) * ph (3/2) = 1 := by rw [← ph_add]; norm_num [ph_two]
  unfold matX
  rw [mat2_mul, mat2_one]
  apply mat2_congr <;> first | ring1 | linear_combination (1/2 : ℂ) * h | linear_combination (-1/2 : ℂ) * h

theorem matZ_inv' : matZ (1/2) * matZ (3/2) = 1 := by
  have h : ph (1/2) * ph (3/2) = 1 := by rw [← ph_add]; norm_num [ph_two]
  unfold matZ
  rw [mat2_mul, mat2_one]
  apply mat2_congr <;> first | ring1 | linear_combination (1 : ℂ) * h

/-- `ca` acts on qubit 1 when qubit 0 is set. -/
theorem ca_blk (alpha : ℚ) : ∃ B, ∀ ψ, semGates (identityCa alpha).gates ψ = blk 0 1 1 B ψ := by
  have h01 : (0 : ℕ) ≠ 1 := by omega
  refine ⟨matZ (1/2) * (matX (1/2) * (matZ (alpha + alpha) * (matX (3/2) * matZ (3/2)))), fun ψ => ?_⟩
  have hd : ∀ φ : QState, (parity (-alpha) [0, 1]).sem (on1 (matZ alpha) 1 (on1 (matZ alpha) 0 φ)) = blk 0 1 1 (matZ (alpha + alpha)) φ := by
    intro φ
    funext x
    rw [blk_diag (b := ph (alpha + alpha)) (B := matZ (alpha + alpha)) mat2_one rfl]
    have hp : (parity (-alpha) [0, 1]).sem (on1 (matZ alpha) 1 (on1 (matZ alpha) 0 φ)) x =
      (if xor (x 0) (xor (x 1) false) then ph (-alpha) else 1) * on1 (matZ alpha) 1 (on1 (matZ alpha) 0 φ) x := rfl
    rw [hp, zdiag, zdiag, cphase_of]
    rcases x 0 with _ | _ <;> rcases x 1 with _ | _ <;> simp
  show on1 (matZ (1/2)) 1 (on1 (matX (1/2)) 1 ((parity (-alpha) [0, 1]).sem (on1 (matZ alpha) 1 (on1 (matZ alpha) 0
    (on1 (matX (3/2)) 1 (on1 (matZ (3/2)) 1 ψ)))))) = _
  rw [hd, on1_eq_blk 0 1 (matZ (3/2)), on1_eq_blk 0 1 (matX (3/2)), on1_eq_blk 0 1 (matX (1/2)), on1_eq_blk 0 1 (matZ (1/2)), blk_mul h01, blk_mul h01,
    blk_mul h01, blk_mul h01, mul_one, mul_assoc (matZ (1/2)) (matX (1/2)) (matX (3/2)), matX_inv', mul_one, matZ_inv']
  simp only [mul_assoc]

/-! ### The two-qubit identities -/

/-- A NOT on the control exchanges the blocks. -/
theorem not_blk (A B : Matrix Bool Bool ℂ) (ψ : QState) : (mkNOT 0).sem (blk 0 1 A B ψ) = blk 0 1 B A ((mkNOT 0).sem ψ) := by
  funext x
  rw [sem_mkNOT_apply]
  have hc : ∀ b, Function.update (Function.update x 0 (!x 0)) 1 b = Function.update (Function.update x 1 b) 0 (!x 0) := fun b =>
    Function.update_comm (by omega) _ _ _
  have e : ∀ M : Matrix Bool Bool ℂ, on1 M 1 ψ (Function.update x 0 (!x 0)) = on1 M 1 ((mkNOT 0).sem ψ) x := by
    intro M
    rw [on1_apply, on1_apply, sem_mkNOT_apply, sem_mkNOT_apply]
    simp [hc]
  unfold blk
  rw [e, e, Function.update_self]
  rcases x 0 with _ | _ <;> simp

theorem not_not' (ψ : QState) : (mkNOT 0).sem ((mkNOT 0).sem ψ) = ψ := by
  funext x
  rw [sem_mkNOT_apply, sem_mkNOT_apply, Function.update_self, Function.update_idem, Bool.not_not, Function.update_eq_self]

theorem matX_sq : mat2 0 1 1 0 * mat2 0 1 1 0 = 1 := by
  rw [mat2_mul, mat2_one]
  apply mat2_congr <;> ring

theorem matH_sq : matH * matH = 1 := by
  have h2 : sq2⁻¹ * sq2⁻¹ = (1 / 2 : ℂ) := ToGraph.half_sq
  unfold matH
  rw [mat2_mul, mat2_one]
  apply mat2_congr <;> first | ring1 | linear_combination 2 * h2

theorem matZ_cancel (p q : ℚ) (h : p + q = 0) : matZ p * matZ q = 1 := by
  have e : p = -q := by linarith
  subst e
  exact matZ_inv q

/-- The common form of both identities: on the blocks, an involution. -/
theorem two_blk {A B : Matrix Bool Bool ℂ} (h1 : A * B = 1) (ψ : QState) :
    blk 0 1 (A * (mat2 0 1 1 0 * B)) (mat2 0 1 1 0) (blk 0 1 (A * (mat2 0 1 1 0 * B)) (mat2 0 1 1 0) ψ) = ψ := by
  have h2 : B * A = 1 := mul_eq_one_comm.mp h1
  rw [blk_mul (by omega), matX_sq]
  have e : A * (mat2 0 1 1 0 * B) * (A * (mat2 0 1 1 0 * B)) = 1 := by
    calc A * (mat2 0 1 1 0 * B) * (A * (mat2 0 1 1 0 * B)) = A * (mat2 0 1 1 0 * ((B * A) * (mat2 0 1 1 0 * B))) := by simp only [mul_assoc]
      _ = A * ((mat2 0 1 1 0 * mat2 0 1 1 0) * B) := by rw [h2, one_mul]; simp only [mul_assoc]
      _ = 1 := by rw [matX_sq, one_mul, h1]
  rw [e, ← on1_eq_blk, on1_one]

theorem cancel3 {A A' B B' C C' : Matrix Bool Bool ℂ} (h1 : A * A' = 1) (h2 : B * B' = 1) (h3 : C * C' = 1) : A * (B * C) * (C' * (B' * A')) = 1 := by
  calc A * (B * C) * (C' * (B' * A')) = A * (B * ((C * C') * (B' * A'))) := by simp only [mul_assoc]
    _ = A * ((B * B') * A') := by rw [h3, one_mul]; simp only [mul_assoc]
    _ = 1 := by rw [h2, one_mul, h1]

theorem two1_id (ψ : QState) : semGates ([mkNOT 0, mkT 1 true, mkS 1 true, had 1, mkT 1 true, cnot 0 1, mkNOT 0, mkT 1, had 1, mkS 1, mkT 1, cnot 0 1] ++
    [mkNOT 0, mkT 1 true, mkS 1 true, had 1, mkT 1 true, cnot 0 1, mkNOT 0, mkT 1, had 1, mkS 1, mkT 1, cnot 0 1]) ψ = ψ := by
  have h01 : (0 : ℕ) ≠ 1 := by omega
  set W1 := matZ (-(1/4)) * (matH * (matZ (-(1/2)) * matZ (-(1/4)))) with hW1
  set W2 := matZ (1/4) * (matZ (1/2) * (matH * matZ (1/4))) with hW2
  have hW : W2 * W1 = 1 := by
    rw [hW1, hW2]
    calc _ = matZ (1/4) * (matZ (1/2) * (matH * ((matZ (1/4) * matZ (-(1/4))) * (matH * (matZ (-(1/2)) * matZ (-(1/4))))))) := by simp only [mul_assoc]
      _ = matZ (1/4) * (matZ (1/2) * ((matH * matH) * (matZ (-(1/2)) * matZ (-(1/4))))) := by
        rw [matZ_cancel (1/4) (-(1/4)) (by norm_num), one_mul]; simp only [mul_assoc]
      _ = matZ (1/4) * ((matZ (1/2) * matZ (-(1/2))) * matZ (-(1/4))) := by rw [matH_sq, one_mul]; simp only [mul_assoc]
      _ = 1 := by rw [matZ_cancel (1/2) (-(1/2)) (by norm_num), one_mul, matZ_cancel (1/4) (-(1/4)) (by norm_num)]
  have half : ∀ φ, semGates [mkNOT 0, mkT 1 true, mkS 1 true, had 1, mkT 1 true, cnot 0 1, mkNOT 0, mkT 1, had 1, mkS 1, mkT 1, cnot 0 1] φ =
      blk 0 1 (W2 * (mat2 0 1 1 0 * W1)) (mat2 0 1 1 0) φ := by
    intro φ
    simp only [semGates_cons, semGates_nil, sem_t, sem_tdg, sem_s, sem_sdg, sem_had, sem_cnot, ctrl_eq_blk, on1_eq_blk 0 1, blk_mul h01, not_blk, not_not']
    refine congrArg₂ (fun A B => blk 0 1 A B φ) ?_ ?_
    · rw [hW1, hW2]; simp only [mul_assoc, one_mul]
    · have e : (mat2 0 1 1 0 : Matrix Bool Bool ℂ) = mat2 0 1 1 0 * (W2 * W1) := by rw [hW, mul_one]
      refine Eq.trans ?_ e.symm
      rw [hW1, hW2]; simp only [mul_assoc, one_mul]
  rw [semGates_append, half, half, two_blk hW]

theorem two2_id (ψ : QState) : semGates ([cnot 0 1, mkNOT 0, mkT 1, had 1, mkT 1, had 1, mkT 1 true, cnot 0 1, mkNOT 0, mkT 1, had 1, mkT 1 true, had 1,
    mkT 1 true] ++ [cnot 0 1, mkNOT 0, mkT 1, had 1, mkT 1, had 1, mkT 1 true, cnot 0 1, mkNOT 0, mkT 1, had 1, mkT 1 true, had 1, mkT 1 true]) ψ = ψ := by
  have h01 : (0 : ℕ) ≠ 1 := by omega
  have hT : matZ (1/4) * matZ (-(1/4)) = 1 := matZ_cancel _ _ (by norm_num)
  have hT' : matZ (-(1/4)) * matZ (1/4) = 1 := matZ_cancel _ _ (by norm_num)
  set W1 := matZ (-(1/4)) * (matH * (matZ (1/4) * (matH * matZ (1/4)))) with hW1
  set W2 := matZ (-(1/4)) * (matH * (matZ (-(1/4)) * (matH * matZ (1/4)))) with hW2
  have hW : W2 * W1 = 1 := by
    rw [hW1, hW2]
    calc _ = matZ (-(1/4)) * (matH * (matZ (-(1/4)) * (matH * ((matZ (1/4) * matZ (-(1/4))) * (matH * (matZ (1/4) * (matH * matZ (1/4)))))))) := by
          simp only [mul_assoc]
      _ = matZ (-(1/4)) * (matH * (matZ (-(1/4)) * ((matH * matH) * (matZ (1/4) * (matH * matZ (1/4)))))) := by rw [hT, one_mul]; simp only [mul_assoc]
      _ = matZ (-(1/4)) * (matH * ((matZ (-(1/4)) * matZ (1/4)) * (matH * matZ (1/4)))) := by rw [matH_sq, one_mul]; simp only [mul_assoc]
      _ = matZ (-(1/4)) * ((matH * matH) * matZ (1/4)) := by rw [hT', one_mul]; simp only [mul_assoc]
      _ = 1 := by rw [matH_sq, one_mul, hT']
  have half : ∀ φ, semGates [cnot 0 1, mkNOT 0, mkT 1, had 1, mkT 1, had 1, mkT 1 true, cnot 0 1, mkNOT 0, mkT 1, had 1, mkT 1 true, had 1, mkT 1 true] φ =
      blk 0 1 (W2 * (mat2 0 1 1 0 * W1)) (mat2 0 1 1 0) φ := by
    intro φ
    simp only [semGates_cons, semGates_nil, sem_t, sem_tdg, sem_had, sem_cnot, ctrl_eq_blk, on1_eq_blk 0 1, blk_mul h01, not_blk, not_not']
    refine congrArg₂ (fun A B => blk 0 1 A B φ) ?_ ?_
    · rw [hW1, hW2]; simp only [mul_assoc, mul_one]
    · have e : (mat2 0 1 1 0 : Matrix Bool Bool ℂ) = (W2 * W1) * mat2 0 1 1 0 := by rw [hW, one_mul]
      refine Eq.trans ?_ e.symm
      rw [hW1, hW2]; simp only [mul_assoc, one_mul]
  rw [semGates_append, half, half, two_blk hW]

/-! ### The phase polynomial identity -/

theorem phasepoly_id (ψ : QState) : semGates identityPhasepoly.gates ψ = ψ := by
  have hl : identityPhasepoly.gates = [parity (1/4) [0, 1, 2, 3], mkZPhase 0 (3/4), parity (5/4) [0, 1], parity (7/4) [0, 1, 2], parity (7/4) [0, 1, 3],
      parity (5/4) [0, 2], parity (7/4) [0, 2, 3], parity (5/4) [0, 3], mkZPhase 1 (3/4), parity (5/4) [1, 2], parity (7/4) [1, 2, 3],
      parity (5/4) [1, 3], mkZPhase 2 (3/4), parity (5/4) [2, 3], mkZPhase 3 (3/4)] := by rfl
  have hp : ∀ (p : ℚ) (ts : List ℕ) (φ : QState) (x : ℕ → Bool), (parity p ts).sem φ x = cond (parityOf ts x) (ph p) 1 * φ x := fun p ts φ x => by
    show (if parityOf ts x then ph p else 1) * φ x = _
    cases parityOf ts x <;> rfl
  have hz : ∀ (p : ℚ) (t : ℕ) (φ : QState) (x : ℕ → Bool), (mkZPhase t p).sem φ x = cond (x t) (ph p) 1 * φ x := fun p t φ x => by
    rw [show (mkZPhase t p).sem φ x = on1 (matZ p) t φ x from rfl, zdiag]
    cases x t <;> rfl
  have e3 : ph (3/4) = ph (1/4) ^ 3 := by rw [pow_succ, pow_two, ← ph_add, ← ph_add]; norm_num
  have e5 : ph (5/4) = ph (1/4) ^ 5 := by simp only [pow_succ, pow_zero, one_mul, ← ph_add]; norm_num
  have e7 : ph (7/4) = ph (1/4) ^ 7 := by simp only [pow_succ, pow_zero, one_mul, ← ph_add]; norm_num
  have e8 : ph (1/4) ^ 8 = 1 := by simp only [pow_succ, pow_zero, one_mul, ← ph_add]; norm_num [ph_two]
  funext x
  rw [hl]
  simp only [semGates_cons, semGates_nil, hp, hz, e3, e5, e7, parityOf, List.foldr_cons, List.foldr_nil]
  generalize ph (1/4) = w at *
  have h32 : w ^ 32 = 1 := by rw [show 32 = 8 * 4 from rfl, pow_mul, e8, one_pow]
  have h40 : w ^ 40 = 1 := by rw [show 40 = 8 * 5 from rfl, pow_mul, e8, one_pow]
  rcases x 0 with _ | _ <;> rcases x 1 with _ | _ <;> rcases x 2 with _ | _ <;> rcases x 3 with _ | _ <;> simp <;> ring_nf <;> simp [h32, h40]

end Generate
end PyZX
