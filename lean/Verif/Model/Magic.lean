import Verif.Model.Compose
import Verif.Lib.Phase

/-!
# Model of `replace_magic_states` and of the functions it calls, `pyzx/simulate.py`

Floating-point constants are the exact complex numbers they stand for. Coordinates are not modelled. A list of vertices of the wrong length
raises (unpacking and indexing).
-/

namespace PyZX
namespace Magic

open Graph

/-- `MAGIC_GLOBAL`, `/repo/pyzx/simulate.py` line 36. -/
noncomputable def GLOBAL : ℂ := -(7 + 5 * sq2) / (2 + 2 * Complex.I)
/-- `MAGIC_B60`, `/repo/pyzx/simulate.py` line 37. -/
noncomputable def cB60 : ℂ := -16 + 12 * sq2
/-- `MAGIC_B66`, `/repo/pyzx/simulate.py` line 38. -/
noncomputable def cB66 : ℂ := 96 - 68 * sq2
/-- `MAGIC_E6`, `/repo/pyzx/simulate.py` line 39. -/
noncomputable def cE6 : ℂ := 10 - 7 * sq2
/-- `MAGIC_O6`, `/repo/pyzx/simulate.py` line 40. -/
noncomputable def cO6 : ℂ := -14 + 10 * sq2
/-- `MAGIC_K6`, `/repo/pyzx/simulate.py` line 41. -/
noncomputable def cK6 : ℂ := 7 - 5 * sq2
/-- `MAGIC_PHI`, `/repo/pyzx/simulate.py` line 42. -/
noncomputable def cPHI : ℂ := 10 - 7 * sq2

/-- `scalar.add_float` on the scalar of the graph. -/
noncomputable def addFloat (g : Graph) (f : ℂ) : Graph := { g with scalar := g.scalar.addFloat f }

/-- `replace_B60`, `/repo/pyzx/simulate.py` lines 380-385. -/
noncomputable def replaceB60 (g : Graph) (vs : List ℕ) : Option Graph :=
  some (vs.foldl (fun g v => g.addToPhase v (-1/4)) ((addFloat g cB60).addPower (-6)))

/-- `replace_B66`, `/repo/pyzx/simulate.py` lines 387-394. -/
noncomputable def replaceB66 (g : Graph) (vs : List ℕ) : Option Graph :=
  some (vs.foldl (fun g v => (g.addToPhase v (-1/4)).addToPhase v 1) (((addFloat g cB66).addPower (-6)).addScalarPhase 1))

/-- `replace_E6`, `/repo/pyzx/simulate.py` lines 396-407. -/
noncomputable def replaceE6 (g : Graph) (vs : List ℕ) : Option Graph :=
  let g := vs.foldl (fun g v => (g.addToPhase v (-1/4)).addToPhase v (1/2)) (((addFloat g cE6).addPower 4).addScalarPhase (1/2))
  (g.addVertex .Z 1).addEdges (vs.map fun v => (v, g.vindex)) .had

/-- `replace_O6`, `/repo/pyzx/simulate.py` lines 409-420. -/
noncomputable def replaceO6 (g : Graph) (vs : List ℕ) : Option Graph :=
  let g := vs.foldl (fun g v => (g.addToPhase v (-1/4)).addToPhase v (1/2)) (((addFloat g cO6).addPower 4).addScalarPhase (1/2))
  (g.addVertex .Z 0).addEdges (vs.map fun v => (v, g.vindex)) .had

/-- `replace_K6`, `/repo/pyzx/simulate.py` lines 422-432. -/
noncomputable def replaceK6 (g : Graph) (vs : List ℕ) : Option Graph :=
  let g := vs.foldl (fun g v => g.addToPhase v (-1/4)) (((addFloat g cK6).addPower 5).addScalarPhase (1/4))
  (g.addVertex .Z (3/2)).addEdges (vs.map fun v => (v, g.vindex)) .simple

/-- The body of the loop of `replace_phi1`, `/repo/pyzx/simulate.py` lines 442-446. The new vertex is the old `vindex`. -/
noncomputable def phiStep (w6 : ℕ) (s : Graph × List ℕ) (v : ℕ) : Option (Graph × List ℕ) := do
  let g := s.1.addToPhase v (-1/4)
  let g' ← (g.addVertex .Z 0).addEdges [(w6, g.vindex), (v, g.vindex)] .had
  return (g', s.2 ++ [g.vindex])

/-- `replace_phi1`, `/repo/pyzx/simulate.py` lines 434-449. -/
noncomputable def replacePhi1 (g : Graph) : List ℕ → Option Graph
  | [v1, v2, v3, v4, v5, v6] => do
      let g := ((addFloat g cPHI).addPower 9).addScalarPhase (3/2)
      let w6 := g.vindex
      let g ← ((g.addVertex .Z 1).addToPhase v6 (-1/4)).addEdge v6 w6 .simple
      let s ← [v1, v2, v3, v4, v5].foldlM (phiStep w6) (g, [])
      match s.2 with
      | [w1, w2, w3, w4, w5] => s.1.addEdges [(w1, w3), (w1, w4), (w2, w4), (w2, w5), (w3, w5)] .had
      | _ => none
  | _ => none

/-- `replace_phi2`, `/repo/pyzx/simulate.py` lines 451-454. -/
noncomputable def replacePhi2 (g : Graph) : List ℕ → Option Graph
  | [v1, v2, v3, v4, v5, v6] => replacePhi1 g [v1, v2, v4, v5, v6, v3]
  | _ => none

/-- `replace_2_S`, `/repo/pyzx/simulate.py` lines 457-461. -/
noncomputable def replace2S (g : Graph) (vs : List ℕ) : Option Graph :=
  match vs with
  | v0 :: v1 :: _ => ((g.addVertex .Z (1/2)).addEdges [(v0, g.vindex), (v1, g.vindex)] .simple).map fun g =>
      vs.foldl (fun g v => g.addToPhase v (-1/4)) g
  | _ => none

/-- `replace_2_N`, `/repo/pyzx/simulate.py` lines 464-469. -/
noncomputable def replace2N (g : Graph) (vs : List ℕ) : Option Graph :=
  match vs with
  | v0 :: v1 :: _ => (((g.addScalarPhase (1/4)).addVertex .Z 1).addEdges [(v0, g.vindex), (v1, g.vindex)] .had).map fun g =>
      vs.foldl (fun g v => g.addToPhase v (-1/4)) g
  | _ => none

/-- `replace_1_0`, `/repo/pyzx/simulate.py` lines 471-476. -/
noncomputable def replace10 (g : Graph) (vs : List ℕ) : Option Graph :=
  match vs with
  | v0 :: _ => (((g.addPower (-1)).addVertex .Z 0).addEdge v0 g.vindex .had).map fun g => vs.foldl (fun g v => g.addToPhase v (-1/4)) g
  | _ => none

/-- `replace_1_1`, `/repo/pyzx/simulate.py` lines 478-484. -/
noncomputable def replace11 (g : Graph) (vs : List ℕ) : Option Graph :=
  match vs with
  | v0 :: _ => ((((g.addScalarPhase (1/4)).addPower (-1)).addVertex .Z 1).addEdge v0 g.vindex .had).map fun g =>
      vs.foldl (fun g v => g.addToPhase v (-1/4)) g
  | _ => none

/-- The T-like vertices, `/repo/pyzx/simulate.py` lines 335-350: the keys of `ranking`, for the vertices in the given order. -/
def tLike (g : Graph) (vs : List ℕ) : List ℕ := vs.filter fun v => g.phase v ≠ 0 ∧ (g.phase v).den = 4

/-- `num_replace`, `/repo/pyzx/simulate.py` lines 353-356. -/
def numReplace (n : ℕ) : Option ℕ := if 6 ≤ n then some 6 else if 2 ≤ n then some 2 else if n = 1 then some 1 else none

/-- `replace_functions`, `/repo/pyzx/simulate.py` lines 366-371, with the global factor of line 375. -/
noncomputable def functions (n : ℕ) : List (Graph → List ℕ → Option Graph) :=
  if n = 6 then [replaceB60, replaceB66, replaceE6, replaceO6, replaceK6, replacePhi1, replacePhi2].map fun f g vs => (f g vs).map (addFloat · GLOBAL)
  else if n = 2 then [replace2S, replace2N]
  else [replace10, replace11]

/-- `replace_magic_states`, `/repo/pyzx/simulate.py` lines 319-378. `vs`, `es` are the orders of the vertices and edges of `g`. The vertices of
the first copy are `0, 1, …` in this order (the order of insertion); `es'` is the order of its edges. `pick` chooses the candidates, either
by rank or at random. -/
noncomputable def replaceMagic (g : Graph) (vs : List ℕ) (es : List (ℕ × ℕ)) (es' : Graph → List (ℕ × ℕ)) (pick : Graph → List ℕ → ℕ → List ℕ) :
    Option (List Graph) := do
  let g1 ← g.copy false vs es
  let vs1 := List.range g1.verts.card
  let n ← numReplace (tLike g1 vs1).length
  let cands := pick g1 (tLike g1 vs1) n
  (functions n).mapM fun f => do
    let h ← g1.copy false vs1 (es' g1)
    f h cands

/-- The rank of a vertex, `/repo/pyzx/simulate.py` lines 339-350: its degree, or the degree without it of the only neighbour, if this is a
Z-spider. `ord` is the order of the neighbours. -/
def rank (g : Graph) (ord : ℕ → List ℕ) (v : ℕ) : ℕ :=
  if (g.nbrs v).card = 1 then
    match ord v with
    | w :: _ => if g.ty w = .Z then (g.nbrs w).card - 1 else 1
    | [] => 1
  else (g.nbrs v).card

/-- The candidates if `pick_random` is not set, `/repo/pyzx/simulate.py` line 359: the first `n` after sorting by decreasing rank. -/
def pickRanked (rank : ℕ → ℕ) (l : List ℕ) (n : ℕ) : List ℕ := (l.mergeSort fun a b => decide (rank b ≤ rank a)).take n

end Magic
end PyZX
