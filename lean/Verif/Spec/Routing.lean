import Verif.Model.Routing
import Verif.Spec.Linalg

/-!
# Specification for the routing properties

Which qubits are coupled, walks in the coupling graph, shortest distances.
-/

namespace PyZX
namespace Routing
open Mat2

/-- A well-formed coupling graph: distinct vertices, undirected edges, no loops. -/
structure GraphOK (adj : List (ℕ × List ℕ)) : Prop where
  /-- vertices are distinct -/
  nodup : (adj.map Prod.fst).Nodup
  /-- edges are undirected -/
  sym : ∀ v w, w ∈ nbrsOf adj v → v ∈ nbrsOf adj w
  /-- there are no loops -/
  irrefl : ∀ v, v ∉ nbrsOf adj v

/-- A well-formed architecture: the placement is a bijection between the qubits `0, 1, ...` and the vertices. -/
structure Arch.OK (A : Arch) : Prop extends GraphOK A.adj where
  /-- no vertex carries two qubits -/
  place : A.qmap.Nodup
  /-- every vertex carries a qubit, and nothing else does -/
  onto : ∀ v, v ∈ A.qmap ↔ v ∈ A.adj.map Prod.fst

/-- Two qubits are coupled if the vertices that carry them are adjacent. -/
def Coupled (A : Arch) (a b : ℕ) : Prop := ∃ u v, A.qmap[a]? = some u ∧ A.qmap[b]? = some v ∧ v ∈ nbrsOf A.adj u

/-- A list of steps is a walk from one vertex to another. -/
inductive Walk (R : ℕ → ℕ → Prop) : List (ℕ × ℕ) → ℕ → ℕ → Prop
  | nil (a : ℕ) : Walk R [] a a
  | cons {a b c : ℕ} {p : List (ℕ × ℕ)} : R a b → Walk R p b c → Walk R ((a, b) :: p) a c

/-- The steps that are allowed for the distances: both ends are in the given list; without `upper` only from the larger to the smaller
qubit, except inside of the second list. -/
def Allowed (A : Arch) (vs : List ℕ) (upper : Bool) (rec : List ℕ) (a b : ℕ) : Prop :=
  a ∈ vs ∧ b ∈ vs ∧ b ∈ nbrsOf A.adj a ∧ (upper = true ∨ (a ∈ rec ∧ b ∈ rec) ∨ A.qubit b < A.qubit a)

/-- `(n, p)` is a shortest walk from `a` to `b`: `p` is one, `n` its length, and no walk is shorter. -/
def Shortest (R : ℕ → ℕ → Prop) (a b : ℕ) (x : ℕ × List (ℕ × ℕ)) : Prop :=
  Walk R x.2 a b ∧ x.2.length = x.1 ∧ ∀ q, Walk R q a b → x.1 ≤ q.length

/-- The qubits from any one on are connected among themselves. -/
def UpConnected (A : Arch) : Prop :=
  ∀ c i, c ≤ i → i < A.qmap.length → ∃ p, Walk (fun a b => Coupled A a b ∧ c ≤ a ∧ c ≤ b) p c i

/-- Consecutive qubits are coupled. -/
def Hamiltonian (A : Arch) : Prop := ∀ q, q + 1 < A.qmap.length → Coupled A q (q + 1)

/-- Upper triangular with ones on the diagonal. -/
def UpperTriangular {n : ℕ} (M : Matrix (Fin n) (Fin n) (ZMod 2)) : Prop := (∀ i j, j < i → M i j = 0) ∧ ∀ i, M i i = 1

/-- Any two vertices are joined by a walk. -/
def Connected (adj : List (ℕ × List ℕ)) : Prop :=
  ∀ u ∈ adj.map Prod.fst, ∀ v ∈ adj.map Prod.fst, ∃ p, Walk (fun a b => b ∈ nbrsOf adj a) p u v

end Routing
end PyZX
