import Verif.Model.Circuit
import Verif.Model.Perm

/-!
# Model of `basic_optimization` in `pyzx/optimize.py`

`none` means that the code raises. Gates that are being placed carry their attribute `index`; the code compares gates by value, including
`index`, and every gate it places gets an index of its own. A missing element in `list.remove` raises. `phase_block_optimize` and
`full_optimize` are in `PhaseBlock.lean`.
-/

namespace PyZX
namespace Optimize

/-- A gate that has been placed, with the attribute `index`, `/repo/pyzx/circuit/gates.py` line 150. -/
structure SG where
  idx : ℕ
  gate : Gate
  deriving DecidableEq, Repr

/-- The attributes of `Optimizer` used by a pass, `/repo/pyzx/optimize.py` lines 155-162. `xtype` says that `availty` is 2. The dictionary
`permutation` is the list of its values for the keys `0, ..., n-1`. -/
structure State where
  gates : ℕ → List SG
  avail : ℕ → List SG
  xtype : ℕ → Bool
  hads : List ℕ
  nots : List ℕ
  zs : List ℕ
  perm : List ℕ
  count : ℕ

/-- The start of `parse_forward`, `/repo/pyzx/optimize.py` lines 155-162. -/
def init (n : ℕ) : State := ⟨fun _ => [], fun _ => [], fun _ => false, [], [], [], List.range n, 0⟩

/-- `toggle_element`, `/repo/pyzx/optimize.py` lines 59-61. -/
def toggle (l : List ℕ) (e : ℕ) : List ℕ := if e ∈ l then l.erase e else l ++ [e]

/-- `swap_element`, `/repo/pyzx/optimize.py` lines 63-69. -/
def swapEl (l : List ℕ) (e1 e2 : ℕ) : List ℕ :=
  if e1 ∈ l ∧ e2 ∉ l then l.erase e1 ++ [e2]
  else if e2 ∈ l ∧ e1 ∉ l then l.erase e2 ++ [e1]
  else l

/-- `list.remove`. -/
def remove (l : List SG) (g : SG) : Option (List SG) := if g ∈ l then some (l.erase g) else none

/-- `isinstance(g, ZPhase)`. -/
def isZPhase (g : SG) : Bool := match g.gate with
  | .zrot _ _ _ _ => true
  | _ => false

/-- The phase of a `ZPhase`. -/
def phaseOf (g : SG) : ℚ := match g.gate with
  | .zrot _ _ p _ => p
  | _ => 0

/-- `isinstance(g, XPhase)`. -/
def isXPhase (g : SG) : Bool := match g.gate with
  | .xrot _ _ _ _ => true
  | _ => false

/-- `g.name in ('CZ', 'CNOT')`. -/
def isTwo (g : SG) : Bool := match g.gate with
  | .cz _ _ => true
  | .cnot _ _ => true
  | _ => false

/-- `g.name == 'HAD'`. -/
def isHad (g : SG) : Bool := match g.gate with
  | .had _ => true
  | _ => false

/-- `g.name == 'CNOT' and g.target == t`. -/
def isCnotTo (t : ℕ) (g : SG) : Bool := match g.gate with
  | .cnot _ t' => t' = t
  | _ => false

/-- `g.name == 'CZ' or (g.name == 'CNOT' and g.control == q)`. -/
def isZAt (q : ℕ) (g : SG) : Bool := match g.gate with
  | .cz _ _ => true
  | .cnot c _ => c = q
  | _ => false

/-- `add_hadamard`, `/repo/pyzx/optimize.py` lines 239-247. The callers have checked that `t` is in `hadamards`. -/
def addHad (s : State) (t : ℕ) : State :=
  { s with
    gates := Function.update s.gates t (s.gates t ++ [⟨s.count, .had t⟩])
    avail := Function.update s.avail t []
    xtype := Function.update s.xtype t false
    hads := s.hads.erase t
    count := s.count + 1 }

/-- `add_gate`, `/repo/pyzx/optimize.py` lines 249-254. -/
def addGate (s : State) (t : ℕ) (g : Gate) : State :=
  { s with
    gates := Function.update s.gates t (s.gates t ++ [⟨s.count, g⟩])
    avail := Function.update s.avail t (s.avail t ++ [⟨s.count, g⟩])
    count := s.count + 1 }

/-- Reset the available gates of a qubit to none, of type 1 (`x = false`) or 2. -/
def reset (s : State) (q : ℕ) (x : Bool) : State :=
  { s with avail := Function.update s.avail q [], xtype := Function.update s.xtype q x }

/-- Place a two-qubit gate on `a` and `b`, `/repo/pyzx/optimize.py` lines 336-341 and 395-400. -/
def addTwo (s : State) (a b : ℕ) (g : Gate) : State := addGate { addGate s a g with count := s.count } b g

/-- Remove a gate from both lists of both its qubits, `/repo/pyzx/optimize.py` lines 330-333 and 389-392. -/
def cancel (s : State) (a b : ℕ) (g : SG) : Option State := do
  let aa ← remove (s.avail a) g
  let ga ← remove (s.gates a) g
  let ab ← remove (s.avail b) g
  let gb ← remove (s.gates b) g
  return { s with
    gates := Function.update (Function.update s.gates a ga) b gb
    avail := Function.update (Function.update s.avail a aa) b ab }

/-- The slice `self.gates[t][:-len(self.available[t])]`, `/repo/pyzx/optimize.py` line 275. It is empty if there are no available gates. -/
def behind (s : State) (t : ℕ) : List SG :=
  if s.avail t = [] then [] else (s.gates t).take ((s.gates t).length - (s.avail t).length)

/-- Whether a CNOT available on its control can be used on its target `t`, `/repo/pyzx/optimize.py` lines 266-281. -/
def usable (s : State) (t : ℕ) (g : SG) : Bool :=
  if s.xtype t then decide (g ∈ s.avail t) else decide (g ∈ (behind s t).reverse.takeWhile (isCnotTo t))

/-- The search for a CNOT with control `c` and target `t`, `/repo/pyzx/optimize.py` lines 264-281. -/
def findCnot (s : State) (c t : ℕ) : Option SG :=
  (s.avail c).find? fun g => decide (g.gate = .cnot c t) && usable s t g

/-- The rewrite of a CNOT followed by a CZ, `/repo/pyzx/optimize.py` lines 283-312. The comparison in line 286 has no effect. With no
available gates the two gates go to the end, which is what the slices give then. -/
def cnotCz (s : State) (c t : ℕ) (g : SG) : Option State := do
  let av := if s.xtype t then [] else s.avail t
  let gt ← remove (s.gates t) g
  let gc ← remove (s.gates c) g
  let ac ← remove (s.avail c) g
  let s1 : SG := ⟨s.count, .mkS t true⟩
  let s2 : SG := ⟨s.count + 1, .mkS t⟩
  let s3 : SG := ⟨s.count + 2, .mkS c⟩
  return { s with
    gates := Function.update (Function.update s.gates t
      (gt.take (gt.length - av.length) ++ [s1, g] ++ gt.drop (gt.length - av.length) ++ [s2])) c (gc ++ [g, s3])
    avail := Function.update (Function.update s.avail t (av ++ [s2])) c (ac ++ [g, s3])
    count := s.count + 3 }

/-- The end of `add_cz`, `/repo/pyzx/optimize.py` lines 314-341. -/
def addCzPlain (s : State) (a b : ℕ) : Option State :=
  let s := if s.xtype a then reset s a false else s
  let s := if s.xtype b then reset s b false else s
  match (s.avail a).reverse.find? fun g => decide (g.gate = .cz a b) with
  | some g => if g ∈ s.avail b then cancel s a b g else some (addTwo s a b (.cz a b))
  | none => some (addTwo s a b (.cz a b))

/-- `add_cz` for the gate `CZ(a, b)`, `/repo/pyzx/optimize.py` lines 256-341. -/
def addCz (min : Bool) (s : State) (a b : ℕ) : Option State :=
  if min then
    match findCnot s a b with
    | some g => cnotCz s a b g
    | none =>
      match findCnot s b a with
      | some g => cnotCz s b a g
      | none => addCzPlain s a b
  else addCzPlain s a b

/-- The rewrite of CNOT(t,c) followed by CNOT(c,t), `/repo/pyzx/optimize.py` lines 356-373. -/
def swapRule (s : State) (c t : ℕ) (g : SG) : Option State := do
  let gc ← remove (s.gates c) g
  let gt ← remove (s.gates t) g
  let n : SG := ⟨s.count, .cnot c t⟩
  return { s with
    gates := Function.update (Function.update s.gates c (gc ++ [n])) t (gt ++ [n])
    avail := Function.update (Function.update s.avail c [n]) t [n]
    xtype := Function.update (Function.update s.xtype c false) t true
    hads := swapEl s.hads t c
    nots := swapEl s.nots t c
    zs := swapEl s.zs t c
    perm := (s.perm.set c (s.perm.getD t 0)).set t (s.perm.getD c 0)
    count := s.count + 1 }

/-- The end of `add_cnot`, `/repo/pyzx/optimize.py` lines 347 and 375-400. -/
def addCnotPlain (s : State) (c t : ℕ) : Option State :=
  let s := if s.xtype c then reset s c false else s
  let s := if s.xtype t then s else reset s t true
  match (s.avail c).reverse.find? fun g => decide (g.gate = .cnot c t) with
  | some g => if g ∈ s.avail t then cancel s c t g else some (addTwo s c t (.cnot c t))
  | none => some (addTwo s c t (.cnot c t))

/-- `add_cnot` for the gate `CNOT(c, t)`, `/repo/pyzx/optimize.py` lines 343-400. -/
def addCnot (doSwaps : Bool) (s : State) (c t : ℕ) : Option State :=
  if s.xtype c && !s.xtype t then
    match (s.avail c).reverse.find? fun g => decide (g.gate = .cnot t c) with
    | some g => if doSwaps && decide (g ∈ s.avail t) then swapRule s c t g else addCnotPlain s c t
    | none => addCnotPlain s c t
  else addCnotPlain s c t

/-- The rewrite of HAD, S, HAD, `/repo/pyzx/optimize.py` lines 423-434. The gate `g2` is changed in place, in the list of available gates
as well. -/
def hadSHad (s : State) (t : ℕ) : Option State :=
  match (s.gates t).reverse with
  | g2 :: h :: r =>
    match g2.gate with
    | .zrot cls t2 p adj =>
      if isHad h ∧ p.den = 2 then
        let p' := mod2 (-p)
        let zp : SG := ⟨s.count, .mkZPhase t p'⟩
        let g2' : SG := ⟨g2.idx, .zrot cls t2 p' (if cls = .s ∧ p'.num > 1 then true else adj)⟩
        some { s with
          gates := Function.update s.gates t (r.reverse ++ [zp, h, g2'])
          avail := Function.update s.avail t ((s.avail t).map fun x => if x = g2 then g2' else x)
          count := s.count + 1 }
      else none
    | _ => none
  | _ => none

/-- `parse_gate` for `HAD`, `/repo/pyzx/optimize.py` lines 413-435. -/
def parseHad (s : State) (t : ℕ) : State :=
  let s :=
    if t ∈ s.nots ∧ t ∉ s.zs then { s with nots := s.nots.erase t, zs := s.zs ++ [t] }
    else if t ∈ s.zs ∧ t ∉ s.nots then { s with zs := s.zs.erase t, nots := s.nots ++ [t] }
    else s
  match hadSHad s t with
  | some s' => s'
  | none => { s with hads := toggle s.hads t }

/-- The placement of a phase gate, `/repo/pyzx/optimize.py` lines 452-468. -/
def placeZ (s : State) (t : ℕ) (p : ℚ) : Option State :=
  match (if s.xtype t then none else (s.avail t).find? isZPhase) with
  | some g2 => do
    let gt ← remove (s.gates t) g2
    let s := { s with avail := Function.update s.avail t ((s.avail t).eraseP isZPhase), gates := Function.update s.gates t gt }
    let p' := mod2 (p + phaseOf g2)
    if p' = 1 then return { s with zs := toggle s.zs t }
    else if p' ≠ 0 then return addGate s t (.mkZPhase t p')
    else return s
  | none => some (addGate (if s.xtype t then reset s t false else s) t (.mkZPhase t p))

/-- `parse_gate` for phase gates, `/repo/pyzx/optimize.py` lines 438-468. -/
def parseZ (s : State) (t : ℕ) (p : ℚ) : Option State :=
  let p := if t ∈ s.zs then mod2 (p + 1) else p
  let s := { s with zs := s.zs.erase t }
  if p = 0 then some s
  else
    let p := if t ∈ s.nots then mod2 (-p) else p
    if p = 1 then some { s with zs := toggle s.zs t }
    else placeZ (if t ∈ s.hads then addHad s t else s) t p

/-- `parse_gate` for `CZ`, `/repo/pyzx/optimize.py` lines 469-492; `a` is the control. -/
def parseCz (min doSwaps : Bool) (s : State) (a b : ℕ) : Option State :=
  let s := if a ∈ s.nots then { s with zs := toggle s.zs b } else s
  let s := if b ∈ s.nots then { s with zs := toggle s.zs a } else s
  let s := if a ∈ s.hads ∧ b ∈ s.hads then addHad (addHad s a) b else s
  if a ∉ s.hads ∧ b ∉ s.hads then (if a > b then addCz min s b a else addCz min s a b)
  else if a ∈ s.hads then addCnot doSwaps s b a
  else addCnot doSwaps s a b

/-- `parse_gate` for `CNOT`, `/repo/pyzx/optimize.py` lines 494-514. -/
def parseCnot (min doSwaps : Bool) (s : State) (c t : ℕ) : Option State :=
  let s := if c ∈ s.nots then { s with nots := toggle s.nots t } else s
  let s := if t ∈ s.zs then { s with zs := toggle s.zs c } else s
  if c ∈ s.hads ∧ t ∈ s.hads then addCnot doSwaps s t c
  else if c ∉ s.hads ∧ t ∉ s.hads then addCnot doSwaps s c t
  else if t ∈ s.hads then addCz min s (if c < t then c else t) (if c > t then c else t)
  else addCnot doSwaps (addHad s c) c t

/-- `next(i for i in self.permutation if self.permutation[i] == q)`, `/repo/pyzx/optimize.py` lines 408 and 411. -/
def locate (s : State) (q : ℕ) : Option ℕ := if q ∈ s.perm then some (s.perm.idxOf q) else none

/-- `parse_gate`, `/repo/pyzx/optimize.py` lines 402-517. -/
def parseGate (min doSwaps : Bool) (s : State) : Gate → Option State
  | .had t => (locate s t).map fun t => parseHad s t
  | .xrot .not t _ _ => (locate s t).map fun t => { s with nots := toggle s.nots t }
  | .zrot _ t p _ => (locate s t).bind fun t => parseZ s t p
  | .cz c t => do parseCz min doSwaps s (← locate s c) (← locate s t)
  | .cnot c t => do parseCnot min doSwaps s (← locate s c) (← locate s t)
  | _ => none

/-- The variables of `topological_sort_gates`, `/repo/pyzx/optimize.py` lines 199-202. -/
structure TopState where
  gates : ℕ → List SG
  avail : List ℕ
  out : List SG

/-- `q2 = g.target if q == g.control else g.control`, `/repo/pyzx/optimize.py` lines 209 and 225. -/
def other (g : SG) (q : ℕ) : ℕ := match g.gate with
  | .cz c t => if q = c then t else c
  | .cnot c t => if q = c then t else c
  | _ => q

/-- Output a two-qubit gate seen on both qubits, `/repo/pyzx/optimize.py` lines 208-211 and 224-227. -/
def emitTwo (s : TopState) (q : ℕ) (g : SG) : Option TopState := do
  let l ← remove (s.gates (other g q)) g
  return { gates := Function.update s.gates (other g q) l, avail := s.avail.erase g.idx, out := s.out ++ [g] }

/-- The loop over the gates behind a two-qubit gate of type 1 (`x = false`) or 2, `/repo/pyzx/optimize.py` lines 215-234. The gates that
are kept are returned. -/
def scan (q : ℕ) (x : Bool) : List SG → TopState → Option (List SG × TopState)
  | [], s => some ([], s)
  | g :: r, s =>
    if (!x && isZPhase g) || (x && isXPhase g) then scan q x r { s with out := s.out ++ [g] }
    else if !isTwo g then some (g :: r, s)
    else if (!x && isZAt q g) || (x && isCnotTo q g) then
      if g.idx ∈ s.avail then (emitTwo s q g).bind fun s => scan q x r s
      else (scan q x r { s with avail := g.idx :: s.avail }).map fun p => (g :: p.1, p.2)
    else some (g :: r, s)

/-- The loop `while gs` for a qubit, `/repo/pyzx/optimize.py` lines 203-235. The gates that are left are returned. -/
def visit (q : ℕ) : List SG → TopState → Option (List SG × TopState)
  | [], s => some ([], s)
  | g :: r, s =>
    if !isTwo g then visit q r { s with out := s.out ++ [g] }
    else if g.idx ∈ s.avail then (emitTwo s q g).bind fun s => visit q r s
    else (scan q (!isZAt q g) r { s with avail := g.idx :: s.avail }).map fun p => (g :: p.1, p.2)

/-- The visit of a qubit, `/repo/pyzx/optimize.py` lines 202-235. -/
def visitQubit (s : TopState) (q : ℕ) : Option TopState :=
  (visit q (s.gates q) s).map fun p => { p.2 with gates := Function.update p.2.gates q p.1 }

/-- The outer loop of `topological_sort_gates`, `/repo/pyzx/optimize.py` lines 200-236. `fuel` limits the number of rounds. -/
def sortLoop (n : ℕ) : ℕ → (ℕ → List SG) → List SG → Option (List SG)
  | 0, _, _ => none
  | fuel + 1, gates, out =>
    if ∀ q ∈ List.range n, gates q = [] then some out
    else ((List.range n).foldlM visitQubit ⟨gates, [], out⟩).bind fun s => sortLoop n fuel s.gates s.out

/-- `topological_sort_gates`, `/repo/pyzx/optimize.py` lines 195-236. Every round puts out a gate, so the number of rounds is enough. -/
def topSort (n : ℕ) (gates : ℕ → List SG) : Option (List SG) :=
  sortLoop n (((List.range n).map fun q => (gates q).length).sum + 1) gates []

/-- Place a `Z` gate at the end, `/repo/pyzx/optimize.py` lines 167-171. -/
def placePauliZ (s : State) (t : ℕ) : State :=
  { s with gates := Function.update s.gates t (s.gates t ++ [⟨s.count, .mkZ t⟩]), count := s.count + 1 }

/-- `parse_forward`, `/repo/pyzx/optimize.py` lines 153-193: the gates and the correction. -/
def parseForward (n : ℕ) (min doSwaps : Bool) (gs : List Gate) : Option (List Gate × List Gate) := do
  let s ← gs.foldlM (parseGate min doSwaps) (init n)
  let s := s.hads.foldl addHad s
  let s := s.zs.foldl placePauliZ s
  let out ← topSort n s.gates
  return (out.map SG.gate, s.nots.map Gate.mkNOT ++ (permutationAsSwaps s.perm).map fun p => .swap p.1 p.2)

/-- `stats`, `/repo/pyzx/optimize.py` lines 71-82. A gate without a phase counts as not Pauli; the code raises, but no such gate is in
the output of a pass. -/
def stats (gs : List Gate) : ℕ × ℕ × ℕ :=
  (gs.countP fun g => match g with
    | .had _ => true
    | _ => false,
  gs.countP fun g => match g with
    | .cz _ _ => true
    | .cnot _ _ => true
    | _ => false,
  gs.countP fun g => match g with
    | .cz _ _ => false
    | .cnot _ _ => false
    | .had _ => false
    | .xrot .not _ _ _ => false
    | .zrot _ _ p _ => p ≠ 1
    | _ => true)

/-- A pass followed by its correction, `/repo/pyzx/optimize.py` lines 128-130, 134-135 and 137-148. -/
def withCorrection (r : List Gate × List Gate) : List Gate := r.1 ++ r.2.flatMap Gate.toBasic

/-- The loop of `parse_circuit`, `/repo/pyzx/optimize.py` lines 132-148, and its result. `i` is the number of rounds done, `min` the
attribute `minimize_czs`. -/
def rounds (n maxIter : ℕ) (doSwaps : Bool) : ℕ → ℕ → Bool → List Gate → ℕ × ℕ × ℕ → Option (List Gate)
  | 0, _, _, _, _ => none
  | fuel + 1, i, min, gs, count => do
    let r1 ← parseForward n min doSwaps gs.reverse
    let r2 ← parseForward n min doSwaps (withCorrection r1).reverse
    let s := stats r2.1
    if min && (decide (count.1 ≤ s.1 ∧ count.2.1 ≤ s.2.1 ∧ count.2.2 ≤ s.2.2) || decide (maxIter ≤ i + 1)) then
      return withCorrection r2
    else rounds n maxIter doSwaps fuel (i + 1) true (withCorrection r2) s

/-- `parse_circuit`, `/repo/pyzx/optimize.py` lines 112-151, with `separate_correction` false. There are at most `maxIter + 2` rounds. -/
def parseCircuit (n maxIter : ℕ) (doSwaps : Bool) (gs : List Gate) : Option (List Gate) := do
  let r ← parseForward n false doSwaps gs
  rounds n maxIter doSwaps (maxIter + 2) 0 false (withCorrection r) (stats r.1)

/-- `basic_optimization`, `/repo/pyzx/optimize.py` lines 43-57. The result has no bits. -/
def basicOptimization (c : Circuit) (doSwaps : Bool := true) : Option Circuit :=
  (parseCircuit c.qubits 1000 doSwaps c.gates).map fun gs => ⟨c.qubits, 0, gs⟩

end Optimize
end PyZX
