import Verif.Model.Graph

/-!
# Model of the local complementation of the local search

Source: `/repo/pyzx/local_search/congruences.py`. `pivot_cong` and `lc_cong` are not modelled.
-/

namespace PyZX
namespace LocalSearch

open Graph

/-- `is_lc_vertex`, `/repo/pyzx/local_search/congruences.py` lines 86-97. -/
def isLcVertex (g : Graph) (v : ℕ) : Bool :=
  if g.degree v < 2 ∨ g.ty v ≠ .Z then false else decide (∀ n ∈ g.nbrs v, g.ty n ≠ .boundary)

/-- `lc_cong2`, `/repo/pyzx/local_search/congruences.py` lines 127-142. -/
noncomputable def lcCong2 (g : Graph) (v : ℕ) : Option Graph :=
  let p := g.phase v
  if p ≠ 1/2 ∧ p ≠ -1/2 then do
    let v1 := g.vindex
    let g := g.addVertex .Z (p + 1/2)
    let v2 := g.vindex
    let g := g.addVertex .Z 0
    let g ← g.addEdge v1 v2 .had
    let g ← g.addEdge v2 v .had
    return g.setPhase v (-1/2)
  else some g

/-- `apply_rand_lc`, `/repo/pyzx/local_search/congruences.py` lines 146-152, for the vertices in the order `vs`. `pick` is the draw of
`np.random.choice`. Without candidates, `uniform_weights` divides by zero. -/
noncomputable def applyRandLc (g : Graph) (vs : List ℕ) (pick : ℕ) : Option Graph :=
  let lcVs := vs.filter (isLcVertex g)
  if h : lcVs = [] then none
  else lcCong2 g (lcVs[pick % lcVs.length]'(Nat.mod_lt _ (List.length_pos_of_ne_nil h)))

end LocalSearch
end PyZX
