import Verif.Model.Rules

/-!
# Model of the parallel matchers of `pyzx/rules.py`

All matchers share the same loop: a set of candidates is popped in an unspecified order, a popped candidate is skipped
or turned into a match, and a match discards further candidates. Here the order in which the set would be popped is the
list of candidates, which is arbitrary in all theorems; a discarded candidate is passed over. Filter functions
(`matchf`, `vertexf`) only restrict the initial candidates, so they are covered by the list as well.
-/

namespace PyZX
namespace Rules

/-- The loop `while (num == -1 or i < num) and len(candidates) > 0` shared by the matchers,
`/repo/pyzx/rules.py` lines 172-190, 415-458, 718-733 and 789-806. `try_ c` is the match found at the
candidate `c` (or `none` for `continue`), `disc m c` says that `m` discards `c`, `inc` is the amount by which `i` grows per
match. `dead` is the set of candidates discarded so far. -/
def greedy {α β : Type*} (try_ : α → Option β) (disc : β → α → Bool) (inc num : ℤ) : (α → Bool) → ℤ → List α → List β
  | _, _, [] => []
  | dead, i, c :: cs =>
    if dead c then greedy try_ disc inc num dead i cs
    else if num = -1 ∨ i < num then
      match try_ c with
      | none => greedy try_ disc inc num dead i cs
      | some m => m :: greedy try_ disc inc num (fun c => dead c || disc m c) (i + inc) cs
    else []

/-- The body of the loop of `match_ids_parallel`, `/repo/pyzx/rules.py` lines 790-806 (no grounds). `ord` is the order of
the adjacency dictionaries. -/
def idTry (g : Graph) (ord : ℕ → List ℕ) (v : ℕ) : Option IdMatch :=
  if g.phase v ≠ 0 ∨ ¬ (g.ty v).isZX ∨ g.degree v ≠ 2 then none
  else match ord v with
    | [v0, v1] => some ⟨v, v0, v1, if g.adj v v0 ≠ g.adj v v1 then .had else .simple⟩
    | _ => none

/-- Candidates discarded by an identity match, `/repo/pyzx/rules.py` lines 801-802. -/
def idDisc (m : IdMatch) (c : ℕ) : Bool := c == m.v0 || c == m.v1

/-- `match_ids_parallel`, `/repo/pyzx/rules.py` lines 767-807. -/
def matchIds (g : Graph) (ord : ℕ → List ℕ) (num : ℤ) (cands : List ℕ) : List IdMatch :=
  greedy (idTry g ord) idDisc 1 num (fun _ => false) 0 cands

/-- The body of the loop of `match_lcomp_parallel`, `/repo/pyzx/rules.py` lines 719-731 (no grounds,
`check_edge_types=True`). -/
def lcompTry (g : Graph) (ord : ℕ → List ℕ) (v : ℕ) : Option LcompMatch :=
  if g.ty v ≠ .Z then none
  else if ¬ (g.phase v = 1 / 2 ∨ g.phase v = 3 / 2) then none
  else if ¬ (∀ n ∈ ord v, g.adj v n = some .had) then none
  else if ¬ (∀ n ∈ ord v, g.ty n = .Z) then none
  else some ⟨v, ord v⟩

/-- Candidates discarded by a local complementation, `/repo/pyzx/rules.py` line 732. -/
def lcompDisc (m : LcompMatch) (c : ℕ) : Bool := m.vn.contains c

/-- `match_lcomp_parallel`, `/repo/pyzx/rules.py` lines 688-734. The counter `i` is never incremented there. -/
def matchLcomp (g : Graph) (ord : ℕ → List ℕ) (num : ℤ) (cands : List ℕ) : List LcompMatch :=
  greedy (lcompTry g ord) lcompDisc 0 num (fun _ => false) 0 cands

/-- `for v in g.neighbors(v0): for c in g.incident_edges(v): candidates.discard(c)`, and the same for `v1`,
`/repo/pyzx/rules.py` lines 186-189 and 451-454. -/
def edgeDisc (g : Graph) (v0 v1 : ℕ) (c : ℕ × ℕ) : Bool :=
  decide (g.adj v0 c.1 ≠ none) || decide (g.adj v0 c.2 ≠ none) || decide (g.adj v1 c.1 ≠ none) || decide (g.adj v1 c.2 ≠ none)

/-- The body of the loop of `match_spider_parallel`, `/repo/pyzx/rules.py` lines 173-190. -/
def spiderTry (g : Graph) (c : ℕ × ℕ) : Option (ℕ × ℕ) :=
  if g.adj c.1 c.2 ≠ some .simple then none
  else if c.1 = c.2 then none
  else if (g.ty c.1 = g.ty c.2 ∧ (g.ty c.1).isZX) ∨ ((g.ty c.1).zLike ∧ (g.ty c.2).zLike) then some c
  else none

/-- `match_spider_parallel`, `/repo/pyzx/rules.py` lines 154-191. The candidates are edges. -/
def matchSpider (g : Graph) (num : ℤ) (cands : List (ℕ × ℕ)) : List (ℕ × ℕ) :=
  greedy (spiderTry g) (fun m => edgeDisc g m.1 m.2) 1 num (fun _ => false) 0 cands

/-- The loop over the neighbours of one vertex in `match_pivot_parallel`, `/repo/pyzx/rules.py` lines 427-435 and
439-447: `none` if there is an invalid edge, otherwise the list of boundaries. -/
def pivotScan (g : Graph) (v : ℕ) : List ℕ → Option (List ℕ)
  | [] => some []
  | n :: ns =>
    if g.ty n = .Z ∧ g.adj v n = some .had then pivotScan g v ns
    else if g.ty n = .boundary then (pivotScan g v ns).map (n :: ·)
    else none

/-- The body of the loop of `match_pivot_parallel`, `/repo/pyzx/rules.py` lines 416-458 (`check_edge_types=True`, no
grounds). A list of more than one boundary does not occur in a match, so `head?` loses nothing. -/
def pivotTry (g : Graph) (ord : ℕ → List ℕ) (c : ℕ × ℕ) : Option PivotMatch :=
  if g.adj c.1 c.2 ≠ some .had then none
  else if ¬ (g.ty c.1 = .Z ∧ g.ty c.2 = .Z) then none
  else if ¬ ((g.phase c.1 = 0 ∨ g.phase c.1 = 1) ∧ (g.phase c.2 = 0 ∨ g.phase c.2 = 1)) then none
  else match pivotScan g c.1 (ord c.1) with
    | none => none
    | some b0 => match pivotScan g c.2 (ord c.2) with
      | none => none
      | some b1 => if b0.length + b1.length > 1 then none else some ⟨c.1, c.2, b0.head?, b1.head?⟩

/-- `match_pivot_parallel`, `/repo/pyzx/rules.py` lines 386-459. The candidates are edges. -/
def matchPivot (g : Graph) (ord : ℕ → List ℕ) (num : ℤ) (cands : List (ℕ × ℕ)) : List PivotMatch :=
  greedy (pivotTry g ord) (fun m => edgeDisc g m.v0 m.v1) 1 num (fun _ => false) 0 cands

end Rules
end PyZX
