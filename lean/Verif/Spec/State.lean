import Verif.Spec.Matrix

/-!
# Specification: plugging product states into a diagram
-/

namespace PyZX

/-- Amplitudes of the states named by the characters: `|0>`, `|1>`, `|+>`, `|->`. -/
noncomputable def stateAmp (c : Char) (z : Bool) : ℂ :=
  if c = '0' then (if z then 0 else 1)
  else if c = '1' then (if z then 1 else 0)
  else if c = '+' then sq2⁻¹
  else (if z then -sq2⁻¹ else sq2⁻¹)

/-- The characters that name a state. -/
def StateChar (c : Char) : Prop := c = '0' ∨ c = '1' ∨ c = '+' ∨ c = '-'

/-- The product state: the amplitude at the values `b` of the named vertices; `/` names no state. -/
noncomputable def prodAmp (l : List (ℕ × Char)) (b : ℕ → Bool) : ℂ := ((l.filter (·.2 ≠ '/')).map fun q => stateAmp q.2 (b q.1)).prod

/-- The vertices into which a state is plugged. -/
def plugged (l : List (ℕ × Char)) : Finset ℕ := ((l.filter (·.2 ≠ '/')).map Prod.fst).toFinset

/-- The positions of the string that name a state. -/
def statePos (st : List Char) : Finset ℕ := (Finset.range st.length).filter fun i => st.getD i '/' ≠ '/'

/-- The vertex has exactly one neighbour. -/
def Graph.OneNbr (g : Graph) (v : ℕ) : Prop := ∃ n, g.adj v n ≠ none ∧ ∀ w, g.adj v w ≠ none → w = n

end PyZX
