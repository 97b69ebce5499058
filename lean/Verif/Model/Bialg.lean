import Verif.Model.Match

/-!
# Model of the bialgebra rule of `pyzx/rules.py`
-/

namespace PyZX
namespace Rules

/-- `MatchBialgType`, `/repo/pyzx/rules.py` line 79. -/
structure BialgMatch where
  v0 : ℕ
  v1 : ℕ
  n0 : List ℕ
  n1 : List ℕ

/-- The body of the loop of `match_bialg_parallel`, `/repo/pyzx/rules.py` lines 109-124 (no grounds). -/
def bialgTry (g : Graph) (ord : ℕ → List ℕ) (c : ℕ × ℕ) : Option BialgMatch :=
  if g.phase c.1 = 0 ∧ g.phase c.2 = 0 ∧ ((g.ty c.1 = .Z ∧ g.ty c.2 = .X) ∨ (g.ty c.1 = .X ∧ g.ty c.2 = .Z)) then
    let n0 := (ord c.1).filter (· ≠ c.2)
    let n1 := (ord c.2).filter (· ≠ c.1)
    if (∀ n ∈ n0, g.ty n = g.ty c.2 ∧ g.phase n = 0) ∧ (∀ n ∈ n1, g.ty n = g.ty c.1 ∧ g.phase n = 0) then some ⟨c.1, c.2, n0, n1⟩
    else none
  else none

/-- The candidates discarded by a match, `/repo/pyzx/rules.py` lines 125-128. -/
def bialgDisc (m : BialgMatch) (c : ℕ × ℕ) : Bool :=
  decide (c.1 ∈ m.n0 ∨ c.2 ∈ m.n0 ∨ c.1 ∈ m.n1 ∨ c.2 ∈ m.n1)

/-- `match_bialg_parallel`, `/repo/pyzx/rules.py` lines 87-130. The candidates are edges. -/
def matchBialg (g : Graph) (ord : ℕ → List ℕ) (num : ℤ) (cands : List (ℕ × ℕ)) : List BialgMatch :=
  greedy (bialgTry g ord) bialgDisc 1 num (fun _ => false) 0 cands

/-- The body of the loop of `bialg`, `/repo/pyzx/rules.py` lines 138-144. -/
def bialgStep (s : RewriteState) (m : BialgMatch) : RewriteState :=
  { s with
    etab := (m.n0.flatMap fun i => m.n1.map fun j => (i, j)).foldl (fun t e => ETab.incr t e .simple) s.etab
    remVerts := s.remVerts ++ [m.v0, m.v1] }

/-- `bialg`, `/repo/pyzx/rules.py` lines 133-146. -/
def bialg (g : Graph) (ms : List BialgMatch) : RewriteState := ms.foldl bialgStep (RewriteState.start g)

end Rules
end PyZX
