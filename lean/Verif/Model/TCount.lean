import Verif.Model.Graph

/-!
# Model of `tcount` for diagrams
-/

namespace PyZX
namespace Simplify

/-- `tcount` of a diagram, `/repo/pyzx/simplify.py` lines 304-314. -/
def tcount (g : Graph) : ℕ := (g.verts.filter fun v => g.phase v ≠ 0 ∧ 2 < (g.phase v).den).card

end Simplify
end PyZX
