import Verif.Model.Generate

/-!
# Model of the generators of fixed diagrams and circuits

Source: `/repo/pyzx/generate.py`. Qubit and row coordinates are not modelled.
-/

namespace PyZX
namespace Generate

open Gate

/-- The loop of `identity`, `/repo/pyzx/generate.py` lines 61-66. -/
noncomputable def identityStep (s : Graph × List ℕ × List ℕ) (_ : ℕ) : Option (Graph × List ℕ × List ℕ) :=
  let v := s.1.vindex
  let g := s.1.addVertex .boundary 0
  let w := g.vindex
  let g := g.addVertex .boundary 0
  (g.addEdge v w .simple).map fun g => (g, s.2.1 ++ [v], s.2.2 ++ [w])

/-- `identity`, `/repo/pyzx/generate.py` lines 50-70. -/
noncomputable def identity (n : ℕ) : Option Graph :=
  ((List.range n).foldlM identityStep (Graph.empty, [], [])).map fun s => { s.1 with inputs := s.2.1, outputs := s.2.2 }

/-- One loop that adds boundary vertices, `/repo/pyzx/generate.py` lines 107-109 and 110-112. -/
noncomputable def spiderBoundary (g : Graph) (k : ℕ) : Graph × List ℕ :=
  (List.range k).foldl (fun s _ => (s.1.addVertex .boundary 0, s.2 ++ [s.1.vindex])) (g, [])

/-- `spider`, `/repo/pyzx/generate.py` lines 72-121, for the types Z, X and H-box; `phase` is the phase in use (lines 88-89 choose 0
if none is given). Z-boxes and W-nodes are not modelled. -/
noncomputable def spider (t : VType) (n m : ℕ) (phase : ℚ) : Option Graph := do
  let v := Graph.empty.vindex
  let g := Graph.empty.addVertex t phase
  let (g, inp) := spiderBoundary g n
  let (g, outp) := spiderBoundary g m
  let g ← inp.foldlM (fun g w => g.addEdge v w .simple) g
  let g ← outp.foldlM (fun g w => g.addEdge v w .simple) g
  return { g with inputs := inp, outputs := outp }

/-- `circuit_identity_phasepoly`, `/repo/pyzx/generate.py` lines 521-532. -/
def identityPhasepoly : Circuit :=
  { qubits := 4
    bits := 0
    gates := parity (1/4) [0, 1, 2, 3] :: (List.range 4).flatMap fun i =>
      mkZPhase i (3/4) :: (List.range' (i + 1) (4 - (i + 1))).flatMap fun j =>
        parity (5/4) [i, j] :: (List.range' (j + 1) (4 - (j + 1))).map fun k => parity (7/4) [i, j, k] }

/-- The circuit `cb`, `/repo/pyzx/generate.py` lines 539-544. -/
def identityCb (beta : ℚ) : Circuit :=
  { qubits := 2
    bits := 0
    gates := [mkNOT 0, mkZPhase 0 beta, mkZPhase 1 beta, parity (-beta) [0, 1], mkNOT 0] }

/-- The circuit `ca`, `/repo/pyzx/generate.py` lines 546-553. -/
def identityCa (alpha : ℚ) : Circuit :=
  { qubits := 2
    bits := 0
    gates := [mkZPhase 1 (3/2), mkXPhase 1 (3/2), mkZPhase 0 alpha, mkZPhase 1 alpha, parity (-alpha) [0, 1], mkXPhase 1 (1/2),
      mkZPhase 1 (1/2)] }

/-- `circuit_identity_commuting_controls`, `/repo/pyzx/generate.py` lines 535-560. -/
def identityControls (alpha beta : ℚ) : Option Circuit := do
  let c ← (identityCb beta).addCircuit (identityCa alpha)
  let c ← c.addCircuit (identityCb beta).adjoint
  c.addCircuit (identityCa alpha).adjoint

/-- `circuit_identity_two_qubit1`, `/repo/pyzx/generate.py` lines 563-580; the last line adds the circuit to itself. -/
def identityTwo1 : Option Circuit :=
  let c : Circuit :=
    { qubits := 2
      bits := 0
      gates := [mkNOT 0, mkT 1 true, mkS 1 true, had 1, mkT 1 true, cnot 0 1, mkNOT 0, mkT 1, had 1, mkS 1, mkT 1, cnot 0 1] }
  c.addCircuit c

/-- `circuit_identity_two_qubit2`, `/repo/pyzx/generate.py` lines 582-601. -/
def identityTwo2 : Option Circuit :=
  let c : Circuit :=
    { qubits := 2
      bits := 0
      gates := [cnot 0 1, mkNOT 0, mkT 1, had 1, mkT 1, had 1, mkT 1 true, cnot 0 1, mkNOT 0, mkT 1, had 1, mkT 1 true, had 1,
        mkT 1 true] }
  c.addCircuit c

end Generate
end PyZX
