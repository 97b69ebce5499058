import Verif.Lib.Phase

/-!
# Model of `pyzx/circuit/gates.py` and `pyzx/circuit/__init__.py`

Gates without classical bits. `Measurement`, `DiscardBit`, `InitAncilla` and `PostSelect` are not modelled, nor are the
printing functions. Phases are rational; the attribute `index` and circuit names are not modelled.
-/

namespace PyZX

/-- The classes `ZPhase`, `Z`, `S`, `T`, `/repo/pyzx/circuit/gates.py` lines 306-389. They differ in name only. -/
inductive ZCls
  | zphase | z | s | t
  deriving DecidableEq, Repr

/-- The classes `XPhase`, `SX`, `NOT`, `/repo/pyzx/circuit/gates.py` lines 391-452 and 524-531. -/
inductive XCls
  | xphase | sx | not
  deriving DecidableEq, Repr

/-- The classes `YPhase` and `Y`, `/repo/pyzx/circuit/gates.py` lines 470-506. -/
inductive YCls
  | yphase | y
  deriving DecidableEq, Repr

/-- The gate classes of `/repo/pyzx/circuit/gates.py` lines 306-1137. The flag of `zrot` and `xrot` is the attribute `adjoint`
(meaningful for `S`, `T`, `SX` only). `rzz` keeps its `targets` separately from `control` and `target`, as the class does. -/
inductive Gate
  | zrot (cls : ZCls) (t : ℕ) (p : ℚ) (adj : Bool)
  | xrot (cls : XCls) (t : ℕ) (p : ℚ) (adj : Bool)
  | yrot (cls : YCls) (t : ℕ) (p : ℚ)
  | had (t : ℕ)
  | cnot (c t : ℕ)
  | cz (c t : ℕ)
  | xcx (c t : ℕ)
  | swap (c t : ℕ)
  | csx (c t : ℕ)
  | cy (c t : ℕ)
  | chad (c t : ℕ)
  | crx (c t : ℕ) (p : ℚ)
  | cry (c t : ℕ) (p : ℚ)
  | crz (c t : ℕ) (p : ℚ)
  | cphase (c t : ℕ) (p : ℚ)
  | rxx (c t : ℕ) (p : ℚ)
  | parity (p : ℚ) (ts : List ℕ)
  | rzz (c t : ℕ) (ts : List ℕ) (p : ℚ)
  | fsim (c t : ℕ) (phi : ℚ)
  | ccz (c1 c2 t : ℕ)
  | tof (c1 c2 t : ℕ)
  | cswap (c1 c2 t : ℕ)
  | u2 (t : ℕ) (theta phi : ℚ)
  | u3 (t : ℕ) (theta phi rho : ℚ)
  | cu3 (c t : ℕ) (theta phi rho : ℚ)
  | cu (c t : ℕ) (theta phi rho gamma : ℚ)
  deriving DecidableEq, Repr

namespace Gate

/-- Constructor of `ZPhase`, `/repo/pyzx/circuit/gates.py` lines 311-313. -/
def mkZPhase (t : ℕ) (p : ℚ) : Gate := zrot .zphase t p false

/-- Constructor of `Z`, `/repo/pyzx/circuit/gates.py` lines 366-367. -/
def mkZ (t : ℕ) : Gate := zrot .z t 1 false

/-- Constructor of `S`, `/repo/pyzx/circuit/gates.py` lines 376-378. -/
def mkS (t : ℕ) (adj : Bool := false) : Gate := zrot .s t (1/2 * (if adj then -1 else 1)) adj

/-- Constructor of `T`, `/repo/pyzx/circuit/gates.py` lines 387-389. -/
def mkT (t : ℕ) (adj : Bool := false) : Gate := zrot .t t (1/4 * (if adj then -1 else 1)) adj

/-- Constructor of `XPhase`, `/repo/pyzx/circuit/gates.py` lines 396-398. -/
def mkXPhase (t : ℕ) (p : ℚ) : Gate := xrot .xphase t p false

/-- Constructor of `SX`, `/repo/pyzx/circuit/gates.py` lines 450-452. -/
def mkSX (t : ℕ) (adj : Bool := false) : Gate := xrot .sx t (1/2 * (if adj then -1 else 1)) adj

/-- Constructor of `NOT`, `/repo/pyzx/circuit/gates.py` lines 530-531. -/
def mkNOT (t : ℕ) : Gate := xrot .not t 1 false

/-- Constructor of `RZZ`, `/repo/pyzx/circuit/gates.py` lines 815-819. -/
def mkRZZ (c t : ℕ) (p : ℚ) : Gate := rzz c t [c, t] p

/-- `ParityPhase.to_basic_gates`, `/repo/pyzx/circuit/gates.py` lines 799-802. No target raises in the code; here the result
is then junk. -/
def parityBasic (p : ℚ) (ts : List ℕ) : List Gate :=
  let cnots := (List.range (ts.length - 1)).map fun i => cnot (ts.getD i 0) (ts.getD (i + 1) 0)
  cnots ++ [mkZPhase (ts.getD (ts.length - 1) 0) p] ++ cnots.reverse

/-- `U2.to_basic_gates`, `/repo/pyzx/circuit/gates.py` lines 1059-1062. -/
def u2Basic (t : ℕ) (theta phi : ℚ) : List Gate :=
  [mkZPhase t (mod2 (phi - 1/2)), mkXPhase t (1/2), mkZPhase t (mod2 (theta + 1/2))]

/-- `U3.to_basic_gates`, `/repo/pyzx/circuit/gates.py` lines 1079-1084. -/
def u3Basic (t : ℕ) (theta phi rho : ℚ) : List Gate :=
  [mkZPhase t rho, mkXPhase t (1/2), mkZPhase t (mod2 (theta + 1)), mkXPhase t (1/2), mkZPhase t (mod2 (phi + 3))]

/-- `YPhase.to_basic_gates`, `/repo/pyzx/circuit/gates.py` lines 489-490. -/
def yBasic (t : ℕ) (p : ℚ) : List Gate := [mkZPhase t (1/2), mkXPhase t (-p), mkZPhase t (-(1/2))]

/-- `CPhase.to_basic_gates`, `/repo/pyzx/circuit/gates.py` lines 739-751. -/
def cphaseBasic (c t : ℕ) (p : ℚ) : List Gate :=
  [mkZPhase c (mod2 (p / 2)), cnot c t, mkZPhase t (mod2 (-p / 2)), cnot c t, mkZPhase t (mod2 (p / 2))]

/-- `CCZ.to_basic_gates`, `/repo/pyzx/circuit/gates.py` lines 969-974. -/
def cczBasic (c1 c2 t : ℕ) : List Gate :=
  [cnot c2 t, mkT t true, cnot c1 t, mkT t, cnot c2 t, mkT t true, cnot c1 t, mkT c2, mkT t, cnot c1 c2, mkT c1,
    mkT c2 true, cnot c1 c2]

/-- `Tofolli.to_basic_gates`, `/repo/pyzx/circuit/gates.py` lines 1014-1019. -/
def tofBasic (c1 c2 t : ℕ) : List Gate :=
  [had t, cnot c2 t, mkT t true, cnot c1 t, mkT t, cnot c2 t, mkT t true, cnot c1 t, mkT c2, mkT t, cnot c1 c2, mkT c1,
    mkT c2 true, cnot c1 c2, had t]

/-- `CU3.to_basic_gates`, `/repo/pyzx/circuit/gates.py` lines 1103-1109. -/
def cu3Basic (c t : ℕ) (theta phi rho : ℚ) : List Gate :=
  [mkZPhase c ((rho + phi) / 2), mkZPhase t ((rho - phi) / 2), cnot c t] ++ u3Basic t (-theta / 2) 0 (-(phi + rho) / 2) ++
    [cnot c t] ++ u3Basic t (theta / 2) phi 0

/-- `to_basic_gates` of every class, `/repo/pyzx/circuit/gates.py` lines 222-223, 461-464, 489-490, 515-518, 631-632, 639-642,
657-662, 677-681, 696-707, 722-729, 739-751, 762-767, 799-802, 851-855, 969-974, 1014-1019, 1039-1043, 1059-1062, 1079-1084,
1103-1109, 1131-1133. -/
def toBasic : Gate → List Gate
  | yrot _ t p => yBasic t p
  | csx c t => [had t] ++ cphaseBasic c t (1/2) ++ [had t]
  | cy c t => [mkS t true, cnot c t, mkS t]
  | xcx c t => [had c, cnot c t, had c]
  | swap c t => [cnot c t, cnot t c, cnot c t]
  | crx c t p => [mkZPhase t (1/2), cnot c t] ++ u3Basic t (-p / 2) 0 0 ++ [cnot c t] ++ u3Basic t (p / 2) (-1/2) 0
  | cry c t p => yBasic t (p / 2) ++ [cnot c t] ++ yBasic t (-p / 2) ++ [cnot c t]
  | crz c t p => [mkZPhase t (mod2 (p / 2)), cnot c t, mkZPhase t (mod2 (-p / 2)), cnot c t]
  | rxx c t p => u3Basic c (1/2) p 0 ++ [had t, cnot c t, mkZPhase t (-p), cnot c t, had t] ++ u2Basic c (-1) (mod2 (1 - p))
  | cphase c t p => cphaseBasic c t p
  | chad c t => [had t, mkS t true, cnot c t, had t, mkT t, cnot c t, mkT t, had t, mkS t, mkNOT t, mkS c]
  | parity p ts => parityBasic p ts
  | rzz _ _ ts p => parityBasic p ts
  | ccz c1 c2 t => cczBasic c1 c2 t
  | tof c1 c2 t => tofBasic c1 c2 t
  | cswap c1 c2 t => [cnot t c2] ++ tofBasic c1 c2 t ++ [cnot t c2]
  | u2 t theta phi => u2Basic t theta phi
  | u3 t theta phi rho => u3Basic t theta phi rho
  | cu3 c t theta phi rho => cu3Basic c t theta phi rho
  | cu c t theta phi rho gamma => [mkZPhase c gamma] ++ cu3Basic c t theta phi rho
  | g => [g]

/-- `Gate.to_adjoint`, `/repo/pyzx/circuit/gates.py` lines 203-209: the attributes `phase` and `adjoint`, where present,
are negated. -/
def toAdjoint : Gate → Gate
  | zrot cls t p adj => zrot cls t (-p) (!adj)
  | xrot cls t p adj => xrot cls t (-p) (!adj)
  | yrot cls t p => yrot cls t (-p)
  | crx c t p => crx c t (-p)
  | cry c t p => cry c t (-p)
  | crz c t p => crz c t (-p)
  | cphase c t p => cphase c t (-p)
  | rxx c t p => rxx c t (-p)
  | parity p ts => parity (-p) ts
  | rzz c t ts p => rzz c t ts (-p)
  | g => g

/-- `tcount` of every class, `/repo/pyzx/circuit/gates.py` lines 211-212, 337-338, 422-423, 496-497, 808-809, 934-936, 959-960. -/
def tcount : Gate → ℕ
  | zrot _ _ p _ => if p.den > 2 then 1 else 0
  | xrot _ _ p _ => if p.den > 2 then 1 else 0
  | yrot _ _ p => if p.den > 2 then 1 else 0
  | parity p _ => if p.den > 2 then 1 else 0
  | rzz _ _ _ p => if p.den > 2 then 1 else 0
  | ccz _ _ _ => 7
  | tof _ _ _ => 7
  | cswap _ _ _ => 7
  | _ => 0

/-- The gates for a phase with denominator 4, `/repo/pyzx/circuit/gates.py` lines 348-354 and 433-438. -/
def splitQuarter (t : ℕ) (p : ℚ) : List Gate :=
  let n := p.num % 8
  let pre := if n = 3 ∨ n = 5 then [mkZ t] else []
  let n1 := if n = 3 ∨ n = 5 then (n - 4) % 8 else n
  pre ++ (if n1 = 1 then [mkT t] else []) ++ (if n1 = 7 then [mkT t true] else [])

/-- `split_phases` of `ZPhase` and `XPhase`, `/repo/pyzx/circuit/gates.py` lines 340-357 and 425-443. Other gates have no
such method; `split_phase_gates` keeps them. -/
def splitPhases : Gate → List Gate
  | zrot cls t p adj =>
    if p = 0 then []
    else if p = 1 then [mkZ t]
    else if p.den = 2 then (if p.num % 4 = 1 then [mkS t] else [mkS t true])
    else if p.den = 4 then splitQuarter t p
    else [zrot cls t p adj]
  | xrot _ t p _ =>
    if p = 0 then []
    else if p = 1 then [mkNOT t]
    else [had t] ++
      (if p.den = 2 then (if p.num % 4 = 1 then [mkS t] else [mkS t true])
      else if p.den = 4 then splitQuarter t p
      else [mkZPhase t p]) ++ [had t]
  | g => [g]

/-- `mask[t]`; a missing index raises. -/
def maskGet (mask : List ℕ) (t : ℕ) : Option ℕ := mask[t]?

/-- `reposition` of every class, `/repo/pyzx/circuit/gates.py` lines 214-220, 794-797, 846-849, 962-967. `RZZ` inherits the
method of `ParityPhase`, which leaves `control` and `target` alone. `FSim.reposition` reads an attribute the class does
not have and raises. -/
def reposition (mask : List ℕ) : Gate → Option Gate
  | zrot cls t p adj => (maskGet mask t).map fun t => zrot cls t p adj
  | xrot cls t p adj => (maskGet mask t).map fun t => xrot cls t p adj
  | yrot cls t p => (maskGet mask t).map fun t => yrot cls t p
  | had t => (maskGet mask t).map had
  | cnot c t => do return cnot (← maskGet mask c) (← maskGet mask t)
  | cz c t => do return cz (← maskGet mask c) (← maskGet mask t)
  | xcx c t => do return xcx (← maskGet mask c) (← maskGet mask t)
  | swap c t => do return swap (← maskGet mask c) (← maskGet mask t)
  | csx c t => do return csx (← maskGet mask c) (← maskGet mask t)
  | cy c t => do return cy (← maskGet mask c) (← maskGet mask t)
  | chad c t => do return chad (← maskGet mask c) (← maskGet mask t)
  | crx c t p => do return crx (← maskGet mask c) (← maskGet mask t) p
  | cry c t p => do return cry (← maskGet mask c) (← maskGet mask t) p
  | crz c t p => do return crz (← maskGet mask c) (← maskGet mask t) p
  | cphase c t p => do return cphase (← maskGet mask c) (← maskGet mask t) p
  | rxx c t p => do return rxx (← maskGet mask c) (← maskGet mask t) p
  | parity p ts => (ts.mapM (maskGet mask)).map fun ts => parity p ts
  | rzz c t ts p => (ts.mapM (maskGet mask)).map fun ts => rzz c t ts p
  | fsim _ _ _ => none
  | ccz c1 c2 t => do return ccz (← maskGet mask c1) (← maskGet mask c2) (← maskGet mask t)
  | tof c1 c2 t => do return tof (← maskGet mask c1) (← maskGet mask c2) (← maskGet mask t)
  | cswap c1 c2 t => do return cswap (← maskGet mask c1) (← maskGet mask c2) (← maskGet mask t)
  | u2 t a b => (maskGet mask t).map fun t => u2 t a b
  | u3 t a b c => (maskGet mask t).map fun t => u3 t a b c
  | cu3 c t x y z => do return cu3 (← maskGet mask c) (← maskGet mask t) x y z
  | cu c t x y z w => do return cu (← maskGet mask c) (← maskGet mask t) x y z w

end Gate

/-- `Circuit`, `/repo/pyzx/circuit/__init__.py` lines 45-49, without its name. -/
structure Circuit where
  qubits : ℕ
  bits : ℕ
  gates : List Gate
  deriving DecidableEq, Repr

namespace Circuit

/-- `adjoint`, `/repo/pyzx/circuit/__init__.py` lines 65-69. -/
def adjoint (c : Circuit) : Circuit := { c with gates := c.gates.reverse.map Gate.toAdjoint }

/-- `add_circuit` without masks, `/repo/pyzx/circuit/__init__.py` lines 160-166. -/
def addCircuit (c d : Circuit) : Option Circuit :=
  if c.qubits ≠ d.qubits then none
  else if c.bits ≠ d.bits then none
  else some { c with gates := c.gates ++ d.gates }

/-- `add_circuit` with a qubit mask, `/repo/pyzx/circuit/__init__.py` lines 167-177; the bit mask is the default one. -/
def addCircuitMask (c d : Circuit) (mask : List ℕ) : Option Circuit :=
  if mask.length ≠ d.qubits then none
  else if c.bits ≠ d.bits then none
  else (d.gates.mapM (Gate.reposition mask)).map fun gs => { c with gates := c.gates ++ gs }

/-- `tensor`, `/repo/pyzx/circuit/__init__.py` lines 179-193. The result has no bits. -/
def tensor (c d : Circuit) : Option Circuit :=
  (d.gates.mapM (Gate.reposition ((List.range d.qubits).map (· + c.qubits)))).map fun gs =>
    { qubits := c.qubits + d.qubits, bits := 0, gates := c.gates ++ gs }

/-- `to_basic_gates`, `/repo/pyzx/circuit/__init__.py` lines 195-201. -/
def toBasicGates (c : Circuit) : Circuit := { c with gates := c.gates.flatMap Gate.toBasic }

/-- `split_phase_gates`, `/repo/pyzx/circuit/__init__.py` lines 203-210. The result has no bits. -/
def splitPhaseGates (c : Circuit) : Circuit := { c with bits := 0, gates := c.gates.flatMap Gate.splitPhases }

/-- `tcount`, `/repo/pyzx/circuit/__init__.py` lines 422-425. -/
def tcount (c : Circuit) : ℕ := (c.gates.map Gate.tcount).sum

/-- `twoqubitcount`, `/repo/pyzx/circuit/__init__.py` lines 427-430. -/
def twoqubitcount (c : Circuit) : ℕ :=
  c.toBasicGates.gates.countP fun g => match g with
    | .cnot _ _ => true
    | .cz _ _ => true
    | _ => false

/-- The qubits whose entries `depth` updates for a gate, `/repo/pyzx/circuit/__init__.py` lines 508-518. `XCX` and `SWAP` are
subclasses of `CZ`, `CSWAP` of `CCZ`. Other gates are skipped. -/
def depthQubits : Gate → List ℕ
  | .zrot _ t _ _ => [t]
  | .xrot _ t _ _ => [t]
  | .had t => [t]
  | .cnot c t => [t, c]
  | .cz c t => [t, c]
  | .xcx c t => [t, c]
  | .swap c t => [t, c]
  | .ccz c1 c2 t => [t, c1, c2]
  | .tof c1 c2 t => [t, c1, c2]
  | .cswap c1 c2 t => [t, c1, c2]
  | _ => []

/-- One round of the loop of `depth`, `/repo/pyzx/circuit/__init__.py` lines 507-518: all the qubits get one more than their
maximum. A qubit out of range raises. -/
def depthStep (md : List ℕ) (g : Gate) : Option (List ℕ) :=
  let qs := depthQubits g
  if ∀ q ∈ qs, q < md.length then
    let d := (qs.map fun q => md.getD q 0).foldr max 0 + 1
    some (qs.foldl (fun md q => md.set q d) md)
  else none

/-- `depth`, `/repo/pyzx/circuit/__init__.py` lines 505-519. `max` of the empty list raises. -/
def depth (c : Circuit) : Option ℕ :=
  if c.qubits = 0 then none
  else (c.gates.foldlM depthStep (List.replicate c.qubits 0)).map fun md => md.foldr max 0

end Circuit
end PyZX
