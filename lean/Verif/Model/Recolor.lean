import Verif.Model.Basic

/-!
# Model of the colour changes of `pyzx/simplify.py`
-/

namespace PyZX
namespace Simplify

/-- Body of the loop of `to_gh`, `/repo/pyzx/simplify.py` lines 280-284. -/
def toGHStep (ord : ℕ → List ℕ) (g : Graph) (v : ℕ) : Graph :=
  if g.ty v = .X then Basic.toggleEdges (g.setType v .Z) v (ord v) else g

/-- `to_gh`, `/repo/pyzx/simplify.py` lines 276-284; `vs` is the order of `g.vertices()`. -/
def toGH (g : Graph) (ord : ℕ → List ℕ) (vs : List ℕ) : Graph := vs.foldl (toGHStep ord) g

/-- Body of the loop of `to_rg`, `/repo/pyzx/simplify.py` lines 298-302. The predicate may look at the current state of the graph, as the
default one does. -/
def toRGStep (ord : ℕ → List ℕ) (select : Graph → ℕ → Bool) (g : Graph) (v : ℕ) : Graph :=
  if select g v && (g.ty v).isZX then Basic.toggleEdges (g.setType v (g.ty v).toggle) v (ord v) else g

/-- `to_rg`, `/repo/pyzx/simplify.py` lines 286-302; `vs` is the order of `g.vertices()`. -/
def toRG (g : Graph) (ord : ℕ → List ℕ) (select : Graph → ℕ → Bool) (vs : List ℕ) : Graph := vs.foldl (toRGStep ord select) g

/-- The default predicate of `to_rg`, `/repo/pyzx/simplify.py` lines 292-295. -/
def selectDefault (ord : ℕ → List ℕ) (g : Graph) (v : ℕ) : Bool :=
  decide (((ord v).filter fun w => g.adj v w = some .simple).length < ((ord v).filter fun w => g.adj v w = some .had).length)

end Simplify
end PyZX
