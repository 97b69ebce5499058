import Verif.Sem.Batch

/-! # Mutations of a rewrite that only touch phases and the scalar -/

namespace PyZX
open Finset

namespace Graph

/-- What the loops of a rewrite usually leave alone: everything but phases (and the number held by the scalar). -/
structure SameBut (g g' : Graph) : Prop extends SameFrame g g' where
  adj : g'.adj = g.adj
  nedges : g'.nedges = g.nedges
  label : g'.label = g.label

theorem SameBut.refl (g : Graph) : SameBut g g := ⟨SameFrame.refl g, rfl, rfl, rfl⟩

theorem SameBut.trans {g g' g'' : Graph} (h : SameBut g g') (h' : SameBut g' g'') : SameBut g g'' :=
  ⟨h.toSameFrame.trans h'.toSameFrame, h'.adj.trans h.adj, h'.nedges.trans h.nedges, h'.label.trans h.label⟩

theorem SameBut.wf {g g' : Graph} (h : SameBut g g') (hg : g.WF) : g'.WF :=
  hg.congr (hg.toInv.congr h.verts h.adj h.vindex h.nedges h.inputs h.outputs) h.verts h.adj h.ty h.inputs h.outputs

theorem SameBut.tableK {g g' : Graph} (h : SameBut g g') (x : ℕ → Bool) (t : ETab) : g'.tableK x t = g.tableK x t :=
  tableK_congr_ty (fun v => by unfold isX; rw [h.ty]) x t

theorem SameBut.nbrs {g g' : Graph} (h : SameBut g g') (v : ℕ) : g'.nbrs v = g.nbrs v := by
  unfold Graph.nbrs; rw [h.verts, h.adj]

theorem sameBut_addToPhase (g : Graph) (v : ℕ) (p : ℚ) : SameBut g (g.addToPhase v p) :=
  ⟨⟨rfl, rfl, rfl, rfl, rfl⟩, rfl, rfl, rfl⟩

theorem sameBut_addPower (g : Graph) (n : ℤ) : SameBut g (g.addPower n) :=
  ⟨⟨rfl, rfl, rfl, rfl, rfl⟩, rfl, rfl, rfl⟩

theorem sameBut_addScalarPhase (g : Graph) (p : ℚ) : SameBut g (g.addScalarPhase p) :=
  ⟨⟨rfl, rfl, rfl, rfl, rfl⟩, rfl, rfl, rfl⟩

end Graph
end PyZX
