import Verif.Model.MatchGadget
import Verif.Model.Isolated
import Verif.Model.GadgetFuse
import Verif.Model.Recolor

/-!
# Model of the simplification loops of `pyzx/simplify.py`

A loop of unknown length is a recursion on a number `fuel` of iterations after which the model gives up (`Run.running`). Python's
sets and dictionaries are iterated in unspecified orders, which may differ each time; every pass of a loop therefore consults an
`Orders`, and the loops take a sequence of them.
-/

namespace PyZX
namespace Simplify

/-- The choices made during one pass of a loop: the orders in which the dictionary of neighbours, the set of candidate vertices, the set
of candidate edges, `g.vertices()` and a set of vertices are iterated, and whether the row of a vertex is 0 (only used by `spider`). The
filter `matchf` restricts the candidates, so it is part of `vcand` and `ecand`. -/
structure Orders where
  nbr : Graph → ℕ → List ℕ
  vcand : Graph → List ℕ
  ecand : Graph → List (ℕ × ℕ)
  all : Graph → List ℕ
  lst : Finset ℕ → List ℕ
  row0 : Graph → ℕ → Bool

/-- The outcome of running a loop with limited fuel. `done g t i`: the loop ended with the graph `g` after using the choices before `t`,
and returned `i`. -/
inductive Run where
  | raised
  | running
  | done (g : Graph) (t i : ℕ)

/-- Continue with the graph and the clock of a finished loop. -/
def Run.bind (r : Run) (f : Graph → ℕ → ℕ → Run) : Run :=
  match r with
  | .raised => .raised
  | .running => .running
  | .done g t i => f g t i

/-- The loop of `simp`, `/repo/pyzx/simplify.py` lines 84-106, without the output and the statistics. `round` is one pass: `none` is an
exception, the boolean is `new_matches`. -/
def simp (round : Orders → Graph → Option (Bool × Graph)) (ω : ℕ → Orders) : ℕ → ℕ → Graph → Run
  | 0, _, _ => .running
  | fuel + 1, t, g =>
    match round (ω t) g with
    | none => .raised
    | some (false, g') => .done g' (t + 1) 0
    | some (true, g') => (simp round ω fuel (t + 1) g').bind fun g'' t' i => .done g'' t' (i + 1)

/-- The part of a pass after the rewrite, `/repo/pyzx/simplify.py` lines 96-99. -/
noncomputable def afterRewrite (o : Orders) (check : Bool) (s : RewriteState) : Option (Bool × Graph) :=
  s.finish.bind fun g' => if check then (g'.removeIsolated (o.nbr g') (o.all g')).map fun g'' => (true, g'') else some (true, g')

/-- One pass of `id_simp`, `/repo/pyzx/simplify.py` lines 87-104 and 126-127. -/
noncomputable def idRound (o : Orders) (g : Graph) : Option (Bool × Graph) :=
  let ms := Rules.matchIds g (o.nbr g) (-1) (o.vcand g)
  if ms = [] then some (false, g) else afterRewrite o false (Rules.removeIds g ms)

/-- One pass of `spider_simp`, `/repo/pyzx/simplify.py` lines 87-104 and 123-124. -/
noncomputable def spiderRound (o : Orders) (g : Graph) : Option (Bool × Graph) :=
  let ms := Rules.matchSpider g (-1) (o.ecand g)
  if ms = [] then some (false, g) else afterRewrite o true (Rules.spider (o.row0 g) (o.nbr g) g ms)

/-- One pass of `pivot_simp`, `/repo/pyzx/simplify.py` lines 87-104 and 108-109. -/
noncomputable def pivotRound (o : Orders) (g : Graph) : Option (Bool × Graph) :=
  let ms := Rules.matchPivot g (o.nbr g) (-1) (o.ecand g)
  if ms = [] then some (false, g) else afterRewrite o true (Rules.pivot o.lst g ms)

/-- One pass of `lcomp_simp`, `/repo/pyzx/simplify.py` lines 87-104 and 117-118. -/
noncomputable def lcompRound (o : Orders) (g : Graph) : Option (Bool × Graph) :=
  let ms := Rules.matchLcomp g (o.nbr g) (-1) (o.vcand g)
  if ms = [] then some (false, g) else afterRewrite o true (Rules.lcomp g ms)

/-- One pass of `pivot_gadget_simp`, `/repo/pyzx/simplify.py` lines 87-104 and 111-112. The matcher changes the graph. -/
noncomputable def pivotGadgetRound (o : Orders) (g : Graph) : Option (Bool × Graph) :=
  (Rules.matchPivotGadget g (o.ecand g)).bind fun p =>
    if p.2 = [] then some (false, p.1) else afterRewrite o true (Rules.pivot o.lst p.1 p.2)

/-- One pass of `pivot_boundary_simp`, `/repo/pyzx/simplify.py` lines 87-104 and 114-115. The matcher changes the graph. -/
noncomputable def pivotBoundaryRound (o : Orders) (g : Graph) : Option (Bool × Graph) :=
  (Rules.matchPivotBoundary g (o.nbr g) (o.vcand g)).bind fun p =>
    if p.2 = [] then some (false, p.1) else afterRewrite o true (Rules.pivot o.lst p.1 p.2)

/-- One pass of `gadget_simp`, `/repo/pyzx/simplify.py` lines 87-104 and 129-130. The matcher changes the scalar. `merge_phase_gadgets`
returns no edges and asks for no removal of isolated vertices. -/
def gadgetFuseRound (o : Orders) (g : Graph) : Option (Bool × Graph) :=
  let s := Rules.matchGadgets g (o.nbr g) (o.vcand g)
  if s.2 = [] then some (false, s.1) else (Rules.mergeGadgets s.1 s.2).map fun g' => (true, g')

/-- `id_simp`, `/repo/pyzx/simplify.py` lines 126-127. -/
noncomputable def idSimp := simp idRound
/-- `spider_simp`, `/repo/pyzx/simplify.py` lines 123-124. -/
noncomputable def spiderSimp := simp spiderRound
/-- `pivot_simp`, `/repo/pyzx/simplify.py` lines 108-109. -/
noncomputable def pivotSimp := simp pivotRound
/-- `lcomp_simp`, `/repo/pyzx/simplify.py` lines 117-118. -/
noncomputable def lcompSimp := simp lcompRound
/-- `pivot_gadget_simp`, `/repo/pyzx/simplify.py` lines 111-112. -/
noncomputable def pivotGadgetSimp := simp pivotGadgetRound
/-- `pivot_boundary_simp`, `/repo/pyzx/simplify.py` lines 114-115. -/
noncomputable def pivotBoundarySimp := simp pivotBoundaryRound

/-- `gadget_simp`, `/repo/pyzx/simplify.py` lines 129-130. -/
def gadgetSimp := simp gadgetFuseRound

/-- The loop of `interior_clifford_simp`, `/repo/pyzx/simplify.py` lines 152-160. `fuel` limits each of the inner loops. -/
noncomputable def interiorLoop (ω : ℕ → Orders) (fuel : ℕ) : ℕ → ℕ → Graph → Run
  | 0, _, _ => .running
  | n + 1, t, g =>
    (idSimp ω fuel t g).bind fun g1 t1 i1 =>
    (spiderSimp ω fuel t1 g1).bind fun g2 t2 i2 =>
    (pivotSimp ω fuel t2 g2).bind fun g3 t3 i3 =>
    (lcompSimp ω fuel t3 g3).bind fun g4 t4 i4 =>
    if i1 + i2 + i3 + i4 = 0 then .done g4 t4 0
    else (interiorLoop ω fuel n t4 g4).bind fun g5 t5 i => .done g5 t5 (i + 1)

/-- `interior_clifford_simp`, `/repo/pyzx/simplify.py` lines 147-160. -/
noncomputable def interiorCliffordSimp (ω : ℕ → Orders) (fuel t : ℕ) (g : Graph) : Run :=
  (spiderSimp ω fuel t g).bind fun g1 t1 _ =>
    interiorLoop ω fuel fuel (t1 + 1) (toGH g1 ((ω t1).nbr g1) ((ω t1).all g1))

/-- The loop of `clifford_simp`, `/repo/pyzx/simplify.py` lines 165-171. -/
noncomputable def cliffordSimp (ω : ℕ → Orders) (fuel : ℕ) : ℕ → ℕ → Graph → Run
  | 0, _, _ => .running
  | n + 1, t, g =>
    (interiorCliffordSimp ω fuel t g).bind fun g1 t1 i1 =>
    (pivotBoundarySimp ω fuel t1 g1).bind fun g2 t2 i2 =>
    if i2 = 0 then .done g2 t2 i1
    else (cliffordSimp ω fuel n t2 g2).bind fun g3 t3 i => .done g3 t3 (i1 + i)

/-- The loop of `full_reduce`, `/repo/pyzx/simplify.py` lines 204-210. -/
noncomputable def fullLoop (ω : ℕ → Orders) (fuel : ℕ) : ℕ → ℕ → Graph → Run
  | 0, _, _ => .running
  | n + 1, t, g =>
    (cliffordSimp ω fuel fuel t g).bind fun g1 t1 _ =>
    (gadgetSimp ω fuel t1 g1).bind fun g2 t2 i =>
    (interiorCliffordSimp ω fuel t2 g2).bind fun g3 t3 _ =>
    (pivotGadgetSimp ω fuel t3 g3).bind fun g4 t4 j =>
    if i + j = 0 then .done g4 t4 0 else fullLoop ω fuel n t4 g4

/-- `full_reduce`, `/repo/pyzx/simplify.py` lines 196-210; `fuel` limits every loop. -/
noncomputable def fullReduce (ω : ℕ → Orders) (fuel t : ℕ) (g : Graph) : Run :=
  if ∃ v ∈ g.verts, g.ty v = .hbox then .raised
  else
    (interiorCliffordSimp ω fuel t g).bind fun g1 t1 _ =>
    (pivotGadgetSimp ω fuel t1 g1).bind fun g2 t2 _ => fullLoop ω fuel fuel t2 g2

end Simplify
end PyZX
