import Verif.Model.Graph
import Verif.Model.Linalg

/-!
# Model of `pyzx/gflow.py`

The orders in which sets are turned into lists are parameters.
-/

namespace PyZX
namespace GFlow

/-- `bi_adj`, `/repo/pyzx/extract.py` lines 35-38. -/
def biAdj (g : Graph) (vs ws : List ℕ) : Mat2.Data := ws.map fun w => vs.map fun v => decide (g.adj v w ≠ none)

/-- `pattern_inputs`, `/repo/pyzx/gflow.py` lines 74-79. -/
def patternInputs (g : Graph) : Finset ℕ :=
  (g.inputs.toFinset.filter fun i => g.ty i ≠ .boundary) ∪ (g.inputs.toFinset.filter fun i => g.ty i = .boundary).biUnion g.nbrs

/-- `processed_prime`, `/repo/pyzx/gflow.py` lines 88-92, as a set. -/
def prime (g : Graph) (processed : Finset ℕ) : Finset ℕ :=
  (processed \ patternInputs g).filter fun v => ∃ w ∈ g.nbrs v, w ∉ processed

/-- `candidates`, `/repo/pyzx/gflow.py` lines 93-97, as a set. -/
def cands (g : Graph) (processed : Finset ℕ) : Finset ℕ :=
  (g.verts \ processed).filter fun v => ∃ w ∈ g.nbrs v, w ∈ prime g processed

/-- `vu`, `/repo/pyzx/gflow.py` lines 99 and 103-104: the unit vector of length `n`. -/
def unitVec (n i : ℕ) : Mat2.Data := ((List.range n).map fun _ => [false]).set i [true]

/-- The set `{processed_prime[i] for i in range(x.rows()) if x.data[i][0]}`, `/repo/pyzx/gflow.py` line 108. -/
def support (pr : List ℕ) (x : Mat2.Data) : Finset ℕ :=
  ((List.range x.length).filter fun i => Mat2.get x i 0).toFinset.image fun i => pr.getD i 0

/-- The loop over the candidates, `/repo/pyzx/gflow.py` lines 101-109: the vertices in `correct` with their correction sets. `lst` is the
order in which the sets are listed; `stale` is the content of the list that `Mat2.gauss` shares between calls. -/
def corrections (lst : Finset ℕ → List ℕ) (stale : ℕ → List ℕ) (g : Graph) (processed : Finset ℕ) : List (ℕ × Finset ℕ) :=
  let pr := lst (prime g processed)
  let cs := lst (cands g processed)
  cs.filterMap fun u =>
    (Mat2.solve (stale u) (biAdj g pr cs) (unitVec cs.length (cs.idxOf u))).map fun x => (u, support pr x)

/-- The result of `gflow`. The dictionaries `l` and `gflow` are partial functions. -/
inductive Res where
  | running
  | none
  | some (l : ℕ → Option ℕ) (gf : ℕ → Option (Finset ℕ)) (k : ℕ)

/-- The main loop, `/repo/pyzx/gflow.py` lines 85-117. `fuel` limits the number of iterations. -/
def loop (lst : ℕ → Finset ℕ → List ℕ) (stale : ℕ → ℕ → List ℕ) (g : Graph) :
    ℕ → Finset ℕ → (ℕ → Option ℕ) → (ℕ → Option (Finset ℕ)) → ℕ → Res
  | 0, _, _, _, _ => .running
  | fuel + 1, processed, l, gf, k =>
    let c := corrections (lst k) (stale k) g processed
    if c = [] then
      if g.verts \ processed = g.inputs.toFinset \ patternInputs g then .some l gf k else .none
    else
      loop lst stale g fuel (processed ∪ (c.map (·.1)).toFinset) (fun v => if v ∈ c.map (·.1) then .some k else l v)
        (fun v => (c.lookup v).or (gf v)) (k + 1)

/-- `gflow`, `/repo/pyzx/gflow.py` lines 60-117. `grounds` is `g.grounds()`, which is not part of the model of graphs. -/
def gflow (lst : ℕ → Finset ℕ → List ℕ) (stale : ℕ → ℕ → List ℕ) (g : Graph) (grounds : Finset ℕ) (fuel : ℕ) : Res :=
  loop lst stale g fuel (g.outputs.toFinset ∪ grounds) (fun v => if v ∈ g.outputs.toFinset ∪ grounds then .some 0 else .none)
    (fun _ => .none) 1

end GFlow
end PyZX
