import Verif.Model.Simp
import Verif.Model.Supp
import Verif.Model.Magic
import Verif.Model.TCount

/-!
# Model of `reduce_scalar`, `pyzx/simplify.py`, and of `find_stabilizer_decomp` and `max_terms_needed`, `pyzx/simulate.py`

As in `Verif.Model.Simp`, loops have fuel and take a sequence of choices.
-/

namespace PyZX
namespace Simplify

/-- One pass of `supplementarity_simp`, `/repo/pyzx/simplify.py` lines 87-104 and 132-133. `apply_supplementarity` asks for the removal of
isolated vertices (`/repo/pyzx/rules.py` line 961). -/
noncomputable def suppRound (o : Orders) (g : Graph) : Option (Bool × Graph) :=
  let ms := Rules.matchSupp g o.lst (o.vcand g)
  if ms = [] then some (false, g)
  else (Rules.applySupp g o.lst ms).bind fun g' => (g'.removeIsolated (o.nbr g') (o.all g')).map fun g'' => (true, g'')

/-- `supplementarity_simp`, `/repo/pyzx/simplify.py` lines 132-133. -/
noncomputable def suppSimp := simp suppRound

/-- The four loops at the start of the body of `reduce_scalar`, `/repo/pyzx/simplify.py` lines 178-181. The number is `i1+i2+i3+i4`. -/
noncomputable def scalarInterior (ω : ℕ → Orders) (fuel t : ℕ) (g : Graph) : Run :=
  (idSimp ω fuel t g).bind fun g1 t1 i1 =>
  (spiderSimp ω fuel t1 g1).bind fun g2 t2 i2 =>
  (pivotSimp ω fuel t2 g2).bind fun g3 t3 i3 =>
  (lcompSimp ω fuel t3 g3).bind fun g4 t4 i4 => .done g4 t4 (i1 + i2 + i3 + i4)

/-- The next two loops of the body of `reduce_scalar`, `/repo/pyzx/simplify.py` lines 185-186. The number is `i5+i6`. -/
noncomputable def scalarGadgets (ω : ℕ → Orders) (fuel t : ℕ) (g : Graph) : Run :=
  (pivotGadgetSimp ω fuel t g).bind fun g5 t5 i5 =>
  (gadgetSimp ω fuel t5 g5).bind fun g6 t6 i6 => .done g6 t6 (i5 + i6)

/-- The loop of `reduce_scalar`, `/repo/pyzx/simplify.py` lines 173-193; `fuel` limits each of the inner loops. `i` is the number of
iterations already made. -/
noncomputable def reduceScalar (ω : ℕ → Orders) (fuel : ℕ) : ℕ → ℕ → ℕ → Graph → Run
  | 0, _, _, _ => .running
  | n + 1, i, t, g =>
    (scalarInterior ω fuel t g).bind fun g4 t4 a =>
    if a ≠ 0 then reduceScalar ω fuel n (i + 1) t4 g4
    else (scalarGadgets ω fuel t4 g4).bind fun g6 t6 b =>
    if b ≠ 0 then reduceScalar ω fuel n (i + 1) t6 g6
    else (suppSimp ω fuel t6 g6).bind fun g7 t7 c =>
    if c = 0 then .done g7 t7 i else reduceScalar ω fuel n (i + 1) t7 g7

end Simplify

namespace Magic
open Simplify

/-- The choices made by one call of `replace_magic_states`: the orders of the vertices and edges of the diagram, of the edges of the
copy, and the candidates. -/
structure MagicChoice where
  vs : Graph → List ℕ
  es : Graph → List (ℕ × ℕ)
  es' : Graph → List (ℕ × ℕ)
  pick : Graph → List ℕ → ℕ → List ℕ

/-- The outcome of a computation that returns a list of diagrams. `t` is the clock. -/
inductive DRun where
  | raised
  | running
  | done (gs : List Graph) (t : ℕ)

/-- Continue with the list and the clock of a finished computation. -/
def DRun.bind (r : DRun) (f : List Graph → ℕ → DRun) : DRun :=
  match r with
  | .raised => .raised
  | .running => .running
  | .done gs t => f gs t

/-- `SumGraph.reduce_scalar`, `/repo/pyzx/simulate.py` lines 78-86. -/
noncomputable def reduceTerms (ω : ℕ → Orders) (fuel : ℕ) : List Graph → ℕ → DRun
  | [], t => .done [] t
  | g :: gs, t =>
    match reduceScalar ω fuel fuel 0 t g with
    | .raised => .raised
    | .running => .running
    | .done g' t' _ => (reduceTerms ω fuel gs t').bind fun rs t'' => .done (if g'.scalar.isZero then rs else g' :: rs) t''

/-- A loop that calls `f` on every diagram that is not marked as zero and concatenates the results, `/repo/pyzx/simulate.py` lines 301-304. -/
def collect (f : ℕ → Graph → DRun) : List Graph → ℕ → DRun
  | [], t => .done [] t
  | g :: gs, t =>
    if g.scalar.isZero then collect f gs t
    else (f t g).bind fun rs t' => (collect f gs t').bind fun rs' t'' => .done (rs ++ rs') t''

/-- `find_stabilizer_decomp`, `/repo/pyzx/simulate.py` lines 297-305. `n` limits the depth of the recursion, `fuel` the loops. The same
clock gives the choices of `replace_magic_states` and those of the loops. -/
noncomputable def findDecomp (κ : ℕ → MagicChoice) (ω : ℕ → Orders) (fuel : ℕ) : ℕ → ℕ → Graph → DRun
  | 0, _, _ => .running
  | n + 1, t, g =>
    if Simplify.tcount g = 0 then .done [g] t
    else
      match replaceMagic g ((κ t).vs g) ((κ t).es g) (κ t).es' (κ t).pick with
      | none => .raised
      | some hs => (reduceTerms ω fuel hs (t + 1)).bind fun gs t' => collect (findDecomp κ ω fuel n) gs t'

/-- `max_terms_needed`, `/repo/pyzx/simulate.py` lines 307-316, as a function of the T-count. -/
def maxTerms (v : ℕ) : ℕ :=
  let count := 7 ^ (v / 6)
  let r := v - 6 * (v / 6)
  if r = 5 then count * 8 else if r = 4 ∨ r = 3 then count * 4 else if r = 2 ∨ r = 1 then count * 2 else count

end Magic
end PyZX
