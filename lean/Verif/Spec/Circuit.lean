import Verif.Model.Circuit

/-!
# Specification of gates: textbook matrices

A state assigns an amplitude to every assignment of bits to qubits. The matrices are the standard ones (OpenQASM `qelib1`,
with the conventions of the `pyzx` documentation for `ZPhase` and `XPhase`).
-/

namespace PyZX

/-- An amplitude for every basis state. -/
abbrev QState := (ℕ → Bool) → ℂ

/-- The `2 × 2` matrix with rows `(a, b)` and `(c, d)`. -/
def mat2 (a b c d : ℂ) : Matrix Bool Bool ℂ := fun i j => match i, j with
  | false, false => a
  | false, true => b
  | true, false => c
  | true, true => d

/-- A one-qubit matrix acting on qubit `t`. -/
noncomputable def on1 (U : Matrix Bool Bool ℂ) (t : ℕ) (ψ : QState) : QState := fun x =>
  ∑ b : Bool, U (x t) b * ψ (Function.update x t b)

/-- A one-qubit matrix acting on qubit `t` when qubit `c` is set. -/
noncomputable def ctrl (U : Matrix Bool Bool ℂ) (c t : ℕ) (ψ : QState) : QState := fun x =>
  if x c then on1 U t ψ x else ψ x

/-- `cos (π p / 2)`. -/
noncomputable def hcos (p : ℚ) : ℂ := ((Real.cos (Real.pi * p / 2) : ℝ) : ℂ)

/-- `sin (π p / 2)`. -/
noncomputable def hsin (p : ℚ) : ℂ := ((Real.sin (Real.pi * p / 2) : ℝ) : ℂ)

/-- The phase gate. -/
noncomputable def matZ (p : ℚ) : Matrix Bool Bool ℂ := mat2 1 0 0 (ph p)

/-- The phase gate in the X basis. -/
noncomputable def matX (p : ℚ) : Matrix Bool Bool ℂ :=
  mat2 ((1 + ph p) / 2) ((1 - ph p) / 2) ((1 - ph p) / 2) ((1 + ph p) / 2)

/-- The Hadamard gate. -/
noncomputable def matH : Matrix Bool Bool ℂ := mat2 sq2⁻¹ sq2⁻¹ sq2⁻¹ (-sq2⁻¹)

/-- `exp (-i π p X / 2)`. -/
noncomputable def matRX (p : ℚ) : Matrix Bool Bool ℂ :=
  mat2 (hcos p) (-Complex.I * hsin p) (-Complex.I * hsin p) (hcos p)

/-- `exp (-i π p Y / 2)`. -/
noncomputable def matRY (p : ℚ) : Matrix Bool Bool ℂ := mat2 (hcos p) (-hsin p) (hsin p) (hcos p)

/-- `exp (-i π p Z / 2)`. -/
noncomputable def matRZ (p : ℚ) : Matrix Bool Bool ℂ := mat2 (ph (-p / 2)) 0 0 (ph (p / 2))

/-- OpenQASM `U(θ, φ, λ)`. -/
noncomputable def matU (theta phi lam : ℚ) : Matrix Bool Bool ℂ :=
  mat2 (hcos theta) (-ph lam * hsin theta) (ph phi * hsin theta) (ph (phi + lam) * hcos theta)

/-- The basis state with two qubits exchanged. -/
def swapBits (a b : ℕ) (x : ℕ → Bool) : ℕ → Bool := fun q => x (Equiv.swap a b q)

/-- The basis state with a qubit flipped. -/
def flipBit (a : ℕ) (x : ℕ → Bool) : ℕ → Bool := Function.update x a (!x a)

/-- The parity of some qubits of a basis state. -/
def parityOf (ts : List ℕ) (x : ℕ → Bool) : Bool := ts.foldr (fun t b => xor (x t) b) false

/-- The linear map of a gate. -/
noncomputable def Gate.sem : Gate → QState → QState
  | .zrot _ t p _ => on1 (matZ p) t
  | .xrot _ t p _ => on1 (matX p) t
  | .yrot _ t p => on1 (matRY p) t
  | .had t => on1 matH t
  | .cnot c t => ctrl (mat2 0 1 1 0) c t
  | .cz c t => ctrl (mat2 1 0 0 (-1)) c t
  | .xcx c t => fun ψ x => (ψ x + ψ (flipBit c x) + ψ (flipBit t x) - ψ (flipBit c (flipBit t x))) / 2
  | .swap c t => fun ψ x => ψ (swapBits c t x)
  | .csx c t => ctrl (matX (1/2)) c t
  | .cy c t => ctrl (mat2 0 (-Complex.I) Complex.I 0) c t
  | .chad c t => ctrl matH c t
  | .crx c t p => ctrl (matRX p) c t
  | .cry c t p => ctrl (matRY p) c t
  | .crz c t p => ctrl (matRZ p) c t
  | .cphase c t p => ctrl (matZ p) c t
  | .rxx c t p => fun ψ x => hcos p * ψ x - Complex.I * hsin p * ψ (flipBit c (flipBit t x))
  | .parity p ts => fun ψ x => (if parityOf ts x then ph p else 1) * ψ x
  | .rzz _ _ ts p => fun ψ x => (if parityOf ts x then ph p else 1) * ψ x
  | .fsim c t phi => fun ψ x =>
      (if x c = x t then (if x c then ph (-phi) else 1) else -Complex.I) * ψ (swapBits c t x)
  | .ccz c1 c2 t => fun ψ x => if x c1 && x c2 && x t then -ψ x else ψ x
  | .tof c1 c2 t => fun ψ x => if x c1 && x c2 then ψ (flipBit t x) else ψ x
  | .cswap c1 c2 t => fun ψ x => if x c1 then ψ (swapBits c2 t x) else ψ x
  | .u2 t theta phi => on1 (matU (1/2) theta phi) t
  | .u3 t theta phi rho => on1 (matU theta phi rho) t
  | .cu3 c t theta phi rho => ctrl (matU theta phi rho) c t
  | .cu c t theta phi rho gamma => ctrl (ph gamma • matU theta phi rho) c t

/-- The linear map of a list of gates, first gate first. -/
noncomputable def semGates (gs : List Gate) (ψ : QState) : QState := gs.foldl (fun ψ g => g.sem ψ) ψ

/-- The qubits a gate acts on. -/
def Gate.qubits : Gate → List ℕ
  | .zrot _ t _ _ => [t]
  | .xrot _ t _ _ => [t]
  | .yrot _ t _ => [t]
  | .had t => [t]
  | .cnot c t => [c, t]
  | .cz c t => [c, t]
  | .xcx c t => [c, t]
  | .swap c t => [c, t]
  | .csx c t => [c, t]
  | .cy c t => [c, t]
  | .chad c t => [c, t]
  | .crx c t _ => [c, t]
  | .cry c t _ => [c, t]
  | .crz c t _ => [c, t]
  | .cphase c t _ => [c, t]
  | .rxx c t _ => [c, t]
  | .parity _ ts => ts
  | .rzz _ _ ts _ => ts
  | .fsim c t _ => [c, t]
  | .ccz c1 c2 t => [c1, c2, t]
  | .tof c1 c2 t => [c1, c2, t]
  | .cswap c1 c2 t => [c1, c2, t]
  | .u2 t _ _ => [t]
  | .u3 t _ _ _ => [t]
  | .cu3 c t _ _ _ => [c, t]
  | .cu c t _ _ _ _ => [c, t]

/-- The qubits of a gate are different, and there is at least one. -/
def Gate.Valid (g : Gate) : Prop := g.qubits ≠ [] ∧ g.qubits.Nodup

/-- Two maps that agree up to a global phase. -/
def EqUpToPhase (f g : QState → QState) : Prop := ∃ z : ℂ, ‖z‖ = 1 ∧ ∀ ψ x, f ψ x = z * g ψ x

end PyZX
