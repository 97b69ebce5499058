import Verif.Model.Optimize
import Verif.Model.Todd
import Mathlib.Data.List.Sort

/-!
# Model of `phase_block_optimize` and `full_optimize` in `pyzx/optimize.py`

`none` means that the code raises. The lists of the gates of the qubits are a function; the loops over the dictionary run over the qubits
`0, ..., n-1`. The attribute `index` of the gates in a block is overwritten before it is read, so the gates of a block have none here.
`quiet` is true.
-/

namespace PyZX
namespace PhaseBlock

open Optimize Todd Mat2

/-- The keys of the lists a gate is in, `/repo/pyzx/optimize.py` lines 704-714 and 731-733. -/
def places : Gate → List ℕ
  | .cz c t => [c, t]
  | .cnot c t => [c, t]
  | .zrot _ t _ _ => [t]
  | .had t => [t]
  | _ => []

/-! ### `greedy_consume_gates` -/

/-- The variables `available`, `to_be_appended`, `had_blocked` and `gatetype`, `/repo/pyzx/optimize.py` lines 531-534. The values 0, 1, 2 of
`gatetype` are `none`, `some false`, `some true`. -/
structure Front where
  avail : List ℕ := []
  app : List SG := []
  blocked : ℕ → Option SG := fun _ => none
  type : ℕ → Option Bool := fun _ => none

/-- The type of a gate on a qubit, `/repo/pyzx/optimize.py` lines 541-547 and 591-596. -/
def typeOf (q : ℕ) (g : SG) : Bool := !(isZPhase g || isZAt q g)

/-- The loop over the gates of a qubit, `/repo/pyzx/optimize.py` lines 548-568. The state is `available` and `to_be_appended`. The Hadamard gate
that stops the loop is returned. -/
def scanFront (q : ℕ) (x : Bool) : List SG → List ℕ × List SG → (List ℕ × List SG) × Option SG
  | [], s => (s, none)
  | g :: r, s =>
    if isHad g then (s, some g)
    else if isZPhase g then (if x then (s, none) else scanFront q x r (s.1, s.2 ++ [g]))
    else if typeOf q g ≠ x then (s, none)
    else if g.idx ∈ s.1 then scanFront q x r (s.1, s.2 ++ [g])
    else scanFront q x r (s.1 ++ [g.idx], s.2)

/-- The visit of a qubit, `/repo/pyzx/optimize.py` lines 535-568. -/
def visitFront (gates : ℕ → List SG) (s : Front) (q : ℕ) : Front :=
  match gates q with
  | [] => s
  | g :: r =>
    if isHad g then { s with blocked := Function.update s.blocked q (some g) }
    else
      let x := typeOf q g
      let t := scanFront q x (g :: r) (s.avail, s.app)
      ⟨t.1.1, t.1.2, match t.2 with
        | some h => Function.update s.blocked q (some h)
        | none => s.blocked, Function.update s.type q (some x)⟩

/-- All visits, `/repo/pyzx/optimize.py` lines 531-568. -/
def front (n : ℕ) (gates : ℕ → List SG) : Front := (List.range n).foldl (visitFront gates) {}

/-- Remove a gate from the lists of its qubits, `/repo/pyzx/optimize.py` lines 571-573, 627-628, 636-637 and 643-644. The order in which the lists
are changed has no effect. -/
def takeOut (gates : ℕ → List SG) (g : SG) : Option (ℕ → List SG) :=
  (places g.gate).foldlM (fun gates q => (remove (gates q) g).map fun l => Function.update gates q l) gates

/-- The loop over the gates behind a Hadamard gate, `/repo/pyzx/optimize.py` lines 598-612. The state is `available` and `candidates`. -/
def scanBehind (q : ℕ) (x : Bool) : List SG → List ℕ × List SG → List ℕ × List SG
  | [], s => s
  | g :: r, s =>
    if isHad g then s
    else if isZPhase g then (if x then s else scanBehind q x r s)
    else if typeOf q g ≠ x then s
    else if g.idx ∈ s.1 then scanBehind q x r (s.1, if g ∈ s.2 then s.2 else s.2 ++ [g])
    else scanBehind q x r (match g.gate with
      | .cnot _ _ => s.1 ++ [g.idx]
      | _ => s.1, s.2)

/-- The loop over the Hadamard gates, `/repo/pyzx/optimize.py` lines 579-612. The result is the lists of gates after two Hadamard gates have been
removed, or `available` and `candidates`. -/
def behind (gates : ℕ → List SG) (s : Front) : List ℕ → List ℕ × List SG → Option ((ℕ → List SG) ⊕ (List ℕ × List SG))
  | [], a => some (.inr a)
  | q :: qs, a =>
    match s.blocked q with
    | none => behind gates s qs a
    | some h =>
      if h ∉ gates q then none
      else match (gates q).drop ((gates q).idxOf h + 1) with
        | [] => behind gates s qs a
        | g :: r =>
          if isHad g then do
            let l ← remove (gates q) h
            let l ← remove l g
            return .inl (Function.update gates q l)
          else if s.type q = some (typeOf q g) then behind gates s qs a
          else behind gates s qs (scanBehind q (typeOf q g) (g :: r) a)

/-- `q in had_blocked and g.index > had_blocked[q].index`, `/repo/pyzx/optimize.py` lines 617, 622, 632-633 and 640. -/
def isBehind (s : Front) (q : ℕ) (g : SG) : Bool := match s.blocked q with
  | some h => h.idx < g.idx
  | none => false

/-- The treatment of a candidate, `/repo/pyzx/optimize.py` lines 616-647. The state is `gates` and `block`. -/
def pull (s : Front) (st : (ℕ → List SG) × List Gate) (g : SG) : Option ((ℕ → List SG) × List Gate) :=
  match g.gate with
  | .cz c t =>
    let q := if isBehind s t g then t else c
    let q2 := if c = q then t else c
    if isBehind s q2 g then none
    else (takeOut st.1 g).map fun gates => (gates, st.2 ++ [.cnot q2 q])
  | .cnot c t =>
    if isBehind s t g && isBehind s c g then (takeOut st.1 g).map fun gates => (gates, st.2 ++ [.cnot t c])
    else if isBehind s t g then (takeOut st.1 g).map fun gates => (gates, st.2 ++ [.cz c t])
    else some st
  | _ => some st

/-- The loop of `greedy_consume_gates`, `/repo/pyzx/optimize.py` lines 530-649. `added_any` says that a candidate has been put in the block. -/
def greedy (n : ℕ) : ℕ → (ℕ → List SG) → List Gate → Option ((ℕ → List SG) × List Gate)
  | 0, _, _ => none
  | fuel + 1, gates, block =>
    let s := front n gates
    if s.app ≠ [] then (s.app.foldlM takeOut gates).bind fun gates => greedy n fuel gates (block ++ s.app.map SG.gate)
    else (behind gates s (List.range n) (s.avail, [])).bind fun r =>
      match r with
      | .inl gates => greedy n fuel gates block
      | .inr a => (a.2.foldlM (pull s) (gates, block)).bind fun st =>
        if st.2.length ≠ block.length then greedy n fuel st.1 st.2 else some st

/-- The loop over the qubits at the end, `/repo/pyzx/optimize.py` lines 651-654. A Hadamard gate is given by its qubit. -/
def popHad (st : (ℕ → List SG) × List ℕ) (q : ℕ) : (ℕ → List SG) × List ℕ :=
  match st.1 q with
  | [] => st
  | g :: r => if isHad g then (Function.update st.1 q r, st.2 ++ [q]) else st

/-- `greedy_consume_gates`, `/repo/pyzx/optimize.py` lines 522-655: the block, the Hadamard gates and what is left in the dictionary. Every round
removes a gate, so that the number of rounds is enough. -/
def greedyConsume (n : ℕ) (gates : ℕ → List SG) : Option (List Gate × List ℕ × (ℕ → List SG)) := do
  let st ← greedy n (((List.range n).map fun q => (gates q).length).sum + 1) gates []
  let p := (List.range n).foldl popHad (st.1, [])
  return (st.2, p.2, p.1)

/-! ### `phase_block_optimize` -/

/-- The lists of the gates of the qubits, `/repo/pyzx/optimize.py` lines 699-714 and 722-733. A gate with the same control and target, which the
code puts in the list twice, is not considered. -/
def split (gs : List Gate) (q : ℕ) : List SG := (gs.zipIdx.map fun p => (⟨p.2, p.1⟩ : SG)).filter fun g => decide (q ∈ places g.gate)

/-- The checks in `/repo/pyzx/optimize.py` lines 701-714. A gate on a qubit that is not in the circuit raises. -/
def allowed (n : ℕ) : Gate → Bool
  | .zrot _ t p _ => decide (t < n) && decide (p.den ∈ [1, 2, 4])
  | .had t => decide (t < n)
  | .cz c t => decide (c < n) && decide (t < n)
  | .cnot c t => decide (c < n) && decide (t < n)
  | _ => false

/-- Add the gates whose index is new, `/repo/pyzx/optimize.py` lines 742-745. -/
def collect (l : List SG) (g : SG) : List SG := if g.idx ∈ l.map SG.idx then l else l ++ [g]

/-- `notparsed`, `/repo/pyzx/optimize.py` lines 739-746. The keys are different, so that all ways of sorting agree. -/
def notParsed (n : ℕ) (gates : ℕ → List SG) : List Gate :=
  ((((List.range n).flatMap gates).foldl collect []).insertionSort fun a b => b.idx ≤ a.idx).map SG.gate

/-- The main loop, `/repo/pyzx/optimize.py` lines 720-768. The result is `consumed` after line 771. The permutation `permute` that `todd_simp`
returns is the identity, so that lines 755-768 have no effect. `shuffle k` is the effect of `random.shuffle` in the `k`-th last round. -/
def blocks (shuffle : ℕ → Data → Data) (n : ℕ) : ℕ → List Gate → List Gate → List ℕ → (ℕ → List SG) → Option (List Gate)
  | 0, _, _, _, _ => none
  | fuel + 1, consumed, block, hads, gates =>
    if ∀ q ∈ List.range n, gates q = [] then some (consumed ++ block ++ hads.map Gate.had)
    else do
      let r ← greedyConsume n (split (hads.map Gate.had ++ block.reverse))
      if hads.length ≠ r.2.1.length then none
      else do
        let f ← greedyConsume n gates
        let b ← toddSimp (shuffle fuel) n (r.1.reverse ++ f.1)
        blocks shuffle n fuel (consumed ++ notParsed n r.2.2 ++ r.2.1.map Gate.had) b f.2.1 f.2.2

/-- The rest of `phase_block_optimize` for the gates, `/repo/pyzx/optimize.py` lines 699-771. Every round consumes a gate, so that the number of
rounds is enough. -/
def blockGates (shuffle : ℕ → Data → Data) (n : ℕ) (gs : List Gate) : Option (List Gate) :=
  if gs.all (allowed n) then blocks shuffle n (gs.length + 1) [] [] [] (split gs) else none

/-- A SWAP of the correction, `/repo/pyzx/optimize.py` lines 687-691. A dictionary is the list of its values. -/
def swapAt (p : List ℕ) : Gate → List ℕ
  | .swap a b => (p.set a (p.getD b 0)).set b (p.getD a 0)
  | _ => p

/-- `{v:k for k,v in permutation.items()}`, `/repo/pyzx/optimize.py` line 697. -/
def invert (p : List ℕ) : List ℕ := (List.range p.length).map fun i => p.idxOf i

/-- `g.name == 'NOT'`, `/repo/pyzx/optimize.py` line 692. -/
def isNot : Gate → Bool
  | .xrot .not _ _ _ => true
  | _ => false

/-- `phase_block_optimize`, `/repo/pyzx/optimize.py` lines 658-778, for the gates and the correction of lines 679-683. The correction has only
SWAP and NOT gates. -/
def withBlocks (shuffle : ℕ → Data → Data) (n : ℕ) (r : List Gate × List Gate) : Option (List Gate) :=
  (blockGates shuffle n r.1).map fun l =>
    l ++ r.2.filter isNot ++ (permutationAsSwaps (invert (r.2.foldl swapAt (List.range n)))).map fun p => .swap p.1 p.2

/-- `parse_circuit` with `separate_correction` true, `/repo/pyzx/optimize.py` lines 132-151. See `Optimize.rounds`. -/
def roundsSep (n maxIter : ℕ) (doSwaps : Bool) : ℕ → ℕ → Bool → List Gate → ℕ × ℕ × ℕ → Option (List Gate × List Gate)
  | 0, _, _, _, _ => none
  | fuel + 1, i, min, gs, count => do
    let r1 ← parseForward n min doSwaps gs.reverse
    let r2 ← parseForward n min doSwaps (withCorrection r1).reverse
    let s := stats r2.1
    if min && (decide (count.1 ≤ s.1 ∧ count.2.1 ≤ s.2.1 ∧ count.2.2 ≤ s.2.2) || decide (maxIter ≤ i + 1)) then
      return r2
    else roundsSep n maxIter doSwaps fuel (i + 1) true (withCorrection r2) s

/-- `parse_circuit` with `separate_correction` true, `/repo/pyzx/optimize.py` lines 112-151. See `Optimize.parseCircuit`. -/
def parseCircuitSep (n maxIter : ℕ) (doSwaps : Bool) (gs : List Gate) : Option (List Gate × List Gate) := do
  let r ← parseForward n false doSwaps gs
  roundsSep n maxIter doSwaps (maxIter + 2) 0 false (withCorrection r) (stats r.1)

/-- `phase_block_optimize`, `/repo/pyzx/optimize.py` lines 658-778. The result has no bits. -/
def phaseBlockOptimize (shuffle : ℕ → Data → Data) (c : Circuit) (pre : Bool := true) : Option Circuit := do
  let r ← if pre then parseCircuitSep c.qubits 1000 true c.gates else some (c.gates, [])
  let l ← withBlocks shuffle c.qubits r
  return ⟨c.qubits, 0, l⟩

/-- `full_optimize`, `/repo/pyzx/optimize.py` lines 32-41. -/
def fullOptimize (shuffle : ℕ → Data → Data) (c : Circuit) : Option Circuit := do
  let c1 ← basicOptimization c.toBasicGates
  let c2 ← phaseBlockOptimize shuffle c1
  basicOptimization c2.toBasicGates

end PhaseBlock
end PyZX
