import Verif.Proofs.HRules2

/-! # H-boxes with white neighbours -/

namespace PyZX
open Finset

namespace HRules
open Graph

theorem white_edge {g : Graph} {h n : ℕ} (hh : g.ty h = .hbox) (hw : g.White h n) (x : ℕ → Bool) :
    g.edgeH x h n = if x h then (if x n then 1 else 0) else 1 := by
  have hs : sq2⁻¹ * sq2⁻¹ = (1 / 2 : ℂ) := by
    rw [← mul_inv, sq2_mul_self]; norm_num
  rcases hw with ⟨ha, h1, h2⟩ | ⟨ha, h1⟩
  · rw [edgeH_some ha, hh]
    have : legT (g.ty n) (x n) = dmat (x n) := by
      funext a
      cases ht : g.ty n <;> simp_all [legT]
    rw [this]
    cases x h <;> cases x n <;> simp [contr, legT, edgeMat, dmat]
  · rw [edgeH_some ha, hh, h1]
    cases x h <;> cases x n <;> simp [contr, legT, edgeMat, hmat] <;> linear_combination 2 * hs

/-- An H-box between white neighbours is a phase on the states where all neighbours are 1. -/
theorem white_local {g : Graph} (hg : g.HWF) {h : ℕ} (hh : g.ty h = .hbox) (hw : ∀ n ∈ g.nbrs h, g.White h n) (x : ℕ → Bool) :
    psum {h} (g.localH h) x = if ∀ n ∈ g.nbrs h, x n = true then ph (g.phase h) else 1 := by
  have hself : h ∉ g.nbrs h := by rw [mem_nbrs hg.toInv, not_not]; exact hg.loopless h
  have hset : ({h} : Finset ℕ) = insert h ∅ := by simp
  rw [hset, psum_insert (by simp), psum_empty]
  have key : ∀ c, g.localH h (Function.update x h c) = (if c then ph (g.phase h) - 1 else 1) * (if c then (if ∀ n ∈ g.nbrs h, x n = true then 1 else 0) else 1) := by
    intro c
    unfold localH
    have e : ∏ n ∈ g.nbrs h, g.edgeH (Function.update x h c) h n = ∏ n ∈ g.nbrs h, if c then (if x n = true then (1 : ℂ) else 0) else 1 := by
      refine Finset.prod_congr rfl fun n hn => ?_
      rw [white_edge hh (hw n hn), Function.update_self, Function.update_of_ne (by rintro rfl; exact hself hn)]
    rw [e, Function.update_self]
    congr 1
    · unfold wtH wtT; rw [hh]
    · cases c
      · simp
      · simp only [if_true]
        rw [Finset.prod_ite_zero]
        simp
  rw [key, key]
  by_cases ha : ∀ n ∈ g.nbrs h, x n = true
  · simp only [if_pos ha]; simp
  · simp only [if_neg ha]; simp

theorem zero_sound {g : Graph} (hg : g.HWF) {ms : List ℕ} (hn : ms.Nodup) (hm : ∀ v ∈ ms, v ∈ g.verts) (ht : ∀ v ∈ ms, g.ty v = .hbox)
    (hp : ∀ v ∈ ms, g.phase v = 0) (hw : ∀ v ∈ ms, ∀ n ∈ g.nbrs v, g.White v n) :
    ∃ g', zeroHbox g ms = some g' ∧ HPreserves g g' ∧ g'.verts = g.verts \ ms.toFinset := by
  obtain ⟨g', h3⟩ := removeVertices_isSome hg.toInv hn hm
  refine ⟨g', h3, ?_⟩
  have h0 : g.addPower 0 = g := by simp [addPower, Scalar.addPower]
  refine rule_soundH (t := []) (n := 0) hg hn hm ht ?_ (by simp) (fun x => ?_) (g' := g') ?_
  · intro v hv w hw' hc
    rcases hw v hv w hc with ⟨-, -, h⟩ | ⟨-, h⟩
    · exact h (ht w hw')
    · rw [ht w hw'] at h; exact absurd h (by decide)
  · have e1 : (ms.map fun m => psum {m} (g.localH m) x) = ms.map fun _ => (1 : ℂ) := by
      refine List.map_congr_left fun v hv => ?_
      rw [white_local hg (ht v hv) (hw v hv), hp v hv]
      simp
    rw [e1]
    simp
  · rw [h0]
    simp [RewriteState.finish, addEdgeTable, removeEdges]
    exact h3

end HRules
end PyZX
