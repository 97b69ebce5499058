import Verif.Model.Rules

/-!
# Model of `remove_isolated_vertices` of `pyzx/graph/base.py`
-/

namespace PyZX
namespace Graph

/-- The type used in the comparison of two connected vertices, `/repo/pyzx/graph/base.py` lines 793-794: a 1-ary H-box is a Z-spider. -/
def isoTy (t : VType) : VType := if t = .hbox then .Z else t

/-- The scalar of an isolated pair, `/repo/pyzx/graph/base.py` lines 790-804. -/
noncomputable def isoPairScalar (g : Graph) (s : Scalar) (v w : ℕ) : Scalar :=
  if isoTy (g.ty v) = isoTy (g.ty w) then
    if g.adj v w = some .simple then s.addNode (g.phase v + g.phase w) else s.addSpiderPair (g.phase v) (g.phase w)
  else
    if g.adj v w = some .simple then s.addSpiderPair (g.phase v) (g.phase w) else s.addNode (g.phase v + g.phase w)

/-- The body of the loop of `remove_isolated_vertices`, `/repo/pyzx/graph/base.py` lines 771-804. The state is the scalar and the list
`rem`; `none` is the `TypeError`. -/
noncomputable def isoStep (g : Graph) (ord : ℕ → List ℕ) (s : Scalar × List ℕ) (v : ℕ) : Option (Scalar × List ℕ) :=
  if g.degree v = 0 then
    if g.ty v = .boundary then none
    else if g.ty v = .hbox then some (s.1.addPhase (g.phase v), s.2 ++ [v])
    else some (s.1.addNode (g.phase v), s.2 ++ [v])
  else if g.degree v = 1 then
    if v ∈ s.2 then some s
    else if g.ty v = .boundary then some s
    else match (ord v).head? with
      | none => none
      | some w =>
        if (ord w).length > 1 then some s
        else if g.ty w = .boundary then some s
        else some (g.isoPairScalar s.1 v w, s.2 ++ [v, w])
  else some s

/-- `remove_isolated_vertices`, `/repo/pyzx/graph/base.py` lines 769-805; `vs` is the order of `self.vertices()`. -/
noncomputable def removeIsolated (g : Graph) (ord : ℕ → List ℕ) (vs : List ℕ) : Option Graph :=
  (vs.foldlM (g.isoStep ord) (g.scalar, [])).bind fun s => Graph.removeVertices { g with scalar := s.1 } s.2

end Graph
end PyZX
