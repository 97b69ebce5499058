import Verif.Model.Rule
import Verif.Model.Match

/-!
# Model of the state copy rule of `pyzx/rules.py`
-/

namespace PyZX
namespace Rules

/-- A match of `match_copy`, `/repo/pyzx/rules.py` line 963. -/
structure CopyMatch where
  v : ℕ
  w : ℕ
  a : ℚ
  alpha : ℚ
  neigh : List ℕ

/-- The body of the loop of `match_copy`, `/repo/pyzx/rules.py` lines 981-985. -/
def copyTry (g : Graph) (ord : ℕ → List ℕ) (v : ℕ) : Option CopyMatch :=
  if ¬ (g.phase v = 0 ∨ g.phase v = 1) ∨ g.ty v ≠ .Z ∨ g.degree v ≠ 1 then none
  else match (ord v).head? with
    | none => none
    | some w => if g.ty w ≠ .Z then none else some ⟨v, w, g.phase v, g.phase w, (ord w).filter fun n => decide (n ≠ v)⟩

/-- Candidates discarded by a match, `/repo/pyzx/rules.py` lines 986-987. -/
def copyDisc (m : CopyMatch) (c : ℕ) : Bool := c == m.w || m.neigh.contains c

/-- `match_copy`, `/repo/pyzx/rules.py` lines 965-989. -/
def matchCopy (g : Graph) (ord : ℕ → List ℕ) (cands : List ℕ) : List CopyMatch :=
  greedy (copyTry g ord) copyDisc 0 (-1) (fun _ => false) 0 cands

/-- The body of the inner loop of `apply_copy`, `/repo/pyzx/rules.py` lines 1000-1007. Positions are not modelled. -/
noncomputable def copyNbr (w : ℕ) (a : ℚ) (g : Graph) (n : ℕ) : Option Graph :=
  (if g.ty n = .boundary then
    ((g.addVertex .Z a).adj w n).bind fun et => (g.addVertex .Z a).addEdge n g.vindex et.toggle
  else some g).map fun g1 => g1.addToPhase n a

/-- The body of the outer loop of `apply_copy`, `/repo/pyzx/rules.py` lines 996-1007. -/
noncomputable def copyStep (s : Graph × List ℕ) (m : CopyMatch) : Option (Graph × List ℕ) :=
  let g1 := s.1.addPower (-(m.neigh.length : ℤ) + 1)
  let g2 := if m.a ≠ 0 then g1.addScalarPhase m.alpha else g1
  (m.neigh.foldlM (copyNbr m.w m.a) g2).map fun g3 => (g3, s.2 ++ [m.v, m.w])

/-- `apply_copy`, `/repo/pyzx/rules.py` lines 991-1008, followed by the removal of the vertices (`/repo/pyzx/rules.py` line 75). The
removal of isolated vertices that follows (line 76) is `Graph.removeIsolated`. -/
noncomputable def applyCopy (g : Graph) (ms : List CopyMatch) : Option Graph :=
  (ms.foldlM copyStep (g, [])).bind fun s => s.1.removeVertices s.2

end Rules
end PyZX
