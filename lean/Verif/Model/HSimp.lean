import Verif.Model.HPar
import Verif.Model.Simp

/-!
# Model of the loops of `pyzx/hsimplify.py`
-/

namespace PyZX
namespace HRules

open Simplify

/-- One pass of `par_hbox_simp`, `/repo/pyzx/simplify.py` lines 87-104 and `/repo/pyzx/hsimplify.py` lines 127-128. -/
noncomputable def parRound (o : Orders) (g : Graph) : Option (Bool × Graph) :=
  let ms := matchPar g (o.nbr g) (o.vcand g)
  if ms = [] then some (false, g) else afterRewrite o false (parHbox g ms)

/-- `par_hbox_simp`, `/repo/pyzx/hsimplify.py` lines 127-128. -/
noncomputable def parHboxSimp (ω : ℕ → Orders) (fuel t : ℕ) (g : Graph) : Run := simp parRound ω fuel t g

/-- The body of the first loop of `from_hypergraph_form`, `/repo/pyzx/hsimplify.py` lines 119-123. `remove_vertex(h)` calls `remove_vertices([h])`; the dictionary
`phases` is the one of the graph, so it sees the changes. -/
def absorbStep (ord : Graph → ℕ → List ℕ) (g : Graph) (h : ℕ) : Option Graph :=
  if g.degree h = 1 then
    match ord g h with
    | n :: _ => if g.ty n = .Z then (g.setPhase n (g.phase n + g.phase h)).removeVertices [h] else some g
    | [] => none
  else some g

/-- The first loop of `from_hypergraph_form`, `/repo/pyzx/hsimplify.py` lines 117-123. `vs` are the vertices in the order of the graph. -/
def absorb (ord : Graph → ℕ → List ℕ) (g : Graph) (vs : List ℕ) : Option Graph := (vs.filter fun h => g.ty h = .hbox).foldlM (absorbStep ord) g

end HRules
end PyZX
