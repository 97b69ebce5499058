import Verif.Model.Rule
import Verif.Model.Rules

/-!
# Model of the fusion of phase gadgets of `pyzx/rules.py`

The order in which the set `candidates` is iterated over is the parameter `cands`, the order of neighbours the parameter `ord`.
-/

namespace PyZX
namespace Rules

/-- An entry of the dictionary `parities` of `match_phase_gadgets`, `/repo/pyzx/rules.py` lines 836 and 851-853: the targets, and the axels with
these targets. Simplification: every axel is stored together with its leaf (`gadgets[n]`, line 850). -/
structure GadGroup where
  par : Finset ℕ
  mem : List (ℕ × ℕ)

/-- `phases[v] != 0 and phases[v].denominator > 2`, `/repo/pyzx/rules.py` line 842. Symbolic phases are not modelled. -/
def nonCliff (g : Graph) (v : ℕ) : Bool := decide (g.phase v ≠ 0) && decide (2 < (g.phase v).den)

/-- `par in parities: parities[par].append(n)`, `/repo/pyzx/rules.py` lines 851-853. -/
def addGadget (par : Finset ℕ) (q : ℕ × ℕ) : List GadGroup → List GadGroup
  | [] => [⟨par, [q]⟩]
  | d :: ds => if d.par = par then { d with mem := d.mem ++ [q] } :: ds else d :: addGadget par q ds

/-- The first loop of `match_phase_gadgets`, `/repo/pyzx/rules.py` lines 841-853. -/
def gadFindStep (g : Graph) (ord : ℕ → List ℕ) (ds : List GadGroup) (v : ℕ) : List GadGroup :=
  if nonCliff g v && decide ((ord v).length = 1) then
    match (ord v).head? with
    | none => ds
    | some n =>
      if ¬ (g.phase n = 0 ∨ g.phase n = 1) then ds
      else if n ∈ (ds.flatMap (·.mem)).map (·.1) then ds
      else if n ∈ g.inputs ∨ n ∈ g.outputs then ds
      else addGadget ((g.nbrs n).erase v) (n, v) ds
  else ds

/-- The groups found by the first loop of `match_phase_gadgets`, `/repo/pyzx/rules.py` lines 841-853. -/
def gadgetGroups (g : Graph) (ord : ℕ → List ℕ) (cands : List ℕ) : List GadGroup := cands.foldl (gadFindStep g ord) []

/-- A match, `/repo/pyzx/rules.py` line 822: leaf, axel, new phase, other axels, other leaves. -/
structure GadMatch where
  leaf : ℕ
  axel : ℕ
  phase : ℚ
  axels : List ℕ
  leaves : List ℕ

/-- The scalar of the axels with phase π, `/repo/pyzx/rules.py` lines 865-868. -/
def gadgetScalars (g : Graph) (L : List (ℕ × ℕ)) : Graph :=
  L.foldl (fun g q => if g.phase q.1 ≠ 0 then g.addScalarPhase (g.phase q.2) else g) g

/-- `sum((1 if phases[n]==0 else -1)*phases[gadgets[n]] for n in gad)%2`, `/repo/pyzx/rules.py` line 864. -/
def totPhase (g : Graph) (L : List (ℕ × ℕ)) : ℚ :=
  mod2 (L.map fun q => if g.phase q.1 = 0 then g.phase q.2 else -g.phase q.2).sum

/-- The second loop of `match_phase_gadgets`, `/repo/pyzx/rules.py` lines 855-871. The loop changes the scalar of the graph.
`phase_negate` does nothing without phase tracking. -/
def gadgetEmit (s : Graph × List GadMatch) (d : GadGroup) : Graph × List GadMatch :=
  match d.mem with
  | [] => s
  | [q] => if s.1.phase q.1 ≠ 0 then (s.1.addScalarPhase (s.1.phase q.2), s.2 ++ [⟨q.2, q.1, -s.1.phase q.2, [], []⟩]) else s
  | q :: q' :: L =>
    let gad := q :: q' :: L
    let g2 := (gadgetScalars s.1 gad).addPower (-(((d.par.card : ℤ) - 1) * ((gad.length : ℤ) - 1)))
    let last := gad.getLast (by simp)
    (g2, s.2 ++ [⟨last.2, last.1, totPhase s.1 gad, gad.dropLast.map (·.1), gad.dropLast.map (·.2)⟩])

/-- `match_phase_gadgets`, `/repo/pyzx/rules.py` lines 824-872: returns the graph (with a new scalar) and the matches. -/
def matchGadgets (g : Graph) (ord : ℕ → List ℕ) (cands : List ℕ) : Graph × List GadMatch :=
  (gadgetGroups g ord cands).foldl gadgetEmit (g, [])

/-- The loop body of `merge_phase_gadgets`, `/repo/pyzx/rules.py` lines 877-885 (`fuse_phases` and `merge_vdata` do not change the diagram). -/
def gadgetMerge (s : Graph × List ℕ) (m : GadMatch) : Graph × List ℕ :=
  ((s.1.setPhase m.leaf m.phase).setPhase m.axel 0, s.2 ++ m.axels ++ m.leaves)

/-- `merge_phase_gadgets`, `/repo/pyzx/rules.py` lines 874-886, followed by the removal of the vertices (`/repo/pyzx/rules.py` line 75). -/
def mergeGadgets (g : Graph) (ms : List GadMatch) : Option Graph :=
  let s := ms.foldl gadgetMerge (g, [])
  s.1.removeVertices s.2

/-- One round of `gadget_simp`, `/repo/pyzx/simplify.py` lines 135-137: the matcher and the rewrite. -/
def gadgetRound (g : Graph) (ord : ℕ → List ℕ) (cands : List ℕ) : Option Graph :=
  let s := matchGadgets g ord cands
  mergeGadgets s.1 s.2

end Rules
end PyZX
