import Verif.Sem.Total
import Verif.Spec.Match

/-! # Identity removal: helper lemmas -/

namespace PyZX
open Finset

namespace Graph

/-- Kernels compose. -/
theorem kern_comp (h0 h1 a b : Bool) :
    kern h0 false a * kern h1 false b + kern h0 true a * kern h1 true b = kern (xor h0 h1) a b := by
  have hs : sq2⁻¹ * sq2⁻¹ = (1 / 2 : ℂ) := by
    rw [← mul_inv, sq2_mul_self]; norm_num
  cases h0 <;> cases h1 <;> cases a <;> cases b <;> simp [kern, dmat, hmat] <;>
    first | ring1 | linear_combination (2 : ℂ) * hs

theorem id_local {g : Graph} (hg : g.WF) {m : Rules.IdMatch} (hty : g.ty m.v = .Z ∨ g.ty m.v = .X)
    (hph : g.phase m.v = 0) (hn : g.nbrs m.v = {m.v0, m.v1}) (hne : m.v0 ≠ m.v1)
    (het : m.et = if g.adj m.v m.v0 = g.adj m.v m.v1 then .simple else .had) (x : ℕ → Bool) :
    psum {m.v} (g.localW m.v) x = kern (g.eff m.v0 m.v1 m.et) (x m.v0) (x m.v1) := by
  have h0 : m.v0 ≠ m.v := by
    intro h
    have : m.v0 ∈ g.nbrs m.v := by rw [hn]; simp
    rw [mem_nbrs hg.toInv, h] at this
    exact this (hg.loopless _)
  have h1 : m.v1 ≠ m.v := by
    intro h
    have : m.v1 ∈ g.nbrs m.v := by rw [hn]; simp
    rw [mem_nbrs hg.toInv, h] at this
    exact this (hg.loopless _)
  have hval : g.vval m.v = 1 := by
    unfold vval
    rcases hty with h | h <;> rw [h] <;> simp [hph, ph_zero]
  have hw : ∀ c, g.vwt m.v c = 1 := by intro c; unfold vwt; split <;> simp [hval]
  obtain ⟨e0, he0⟩ : ∃ e, g.adj m.v m.v0 = some e := by
    have : m.v0 ∈ g.nbrs m.v := by rw [hn]; simp
    rw [mem_nbrs hg.toInv] at this
    exact Option.ne_none_iff_exists'.mp this
  obtain ⟨e1, he1⟩ : ∃ e, g.adj m.v m.v1 = some e := by
    have : m.v1 ∈ g.nbrs m.v := by rw [hn]; simp
    rw [mem_nbrs hg.toInv] at this
    exact Option.ne_none_iff_exists'.mp this
  have hset : ({m.v} : Finset ℕ) = insert m.v ∅ := by simp
  rw [hset, psum_insert (by simp), psum_empty]
  unfold localW
  simp only [hw, one_mul, hn]
  rw [Finset.prod_pair hne, Finset.prod_pair hne, edgeK_some he0, edgeK_some he1, edgeK_some he0, edgeK_some he1]
  simp only [Function.update_self, Function.update_of_ne h0, Function.update_of_ne h1]
  rw [kern_comp]
  congr 1
  rw [het, he0, he1]
  have w0 : e0 ≠ .wio := by rintro rfl; exact hg.noWio _ _ he0
  have w1 : e1 ≠ .wio := by rintro rfl; exact hg.noWio _ _ he1
  unfold eff
  cases e0 <;> cases e1 <;> simp_all <;> cases g.isX m.v <;> cases g.isX m.v0 <;> cases g.isX m.v1 <;> rfl

theorem ids_fold (g : Graph) (ms : List Rules.IdMatch) (h : IdsOK g ms) :
    (Rules.removeIds g ms).g = g ∧ (Rules.removeIds g ms).remVerts = ms.map (·.v) ∧
    (Rules.removeIds g ms).remEdges = [] ∧
    KeysIn (Rules.removeIds g ms).etab (g.verts \ (ms.map (·.v)).toFinset) ∧
    ∀ x, g.tableK x (Rules.removeIds g ms).etab =
      (ms.map fun m => kern (g.eff m.v0 m.v1 m.et) (x m.v0) (x m.v1)).prod := by
  unfold Rules.removeIds
  have := fold_sound Rules.idStep
    (fun s rest => s.g = g ∧ s.remVerts ++ rest.map (·.v) = ms.map (·.v) ∧ s.remEdges = [] ∧ (∀ m ∈ rest, m ∈ ms) ∧
      ∀ e ∈ s.etab, e.1.1 ∈ g.verts \ (ms.map (·.v)).toFinset ∧ e.1.2 ∈ g.verts \ (ms.map (·.v)).toFinset ∧
        e.1.1 ≠ e.1.2)
    (fun s x => g.tableK x s.etab) (fun m x => kern (g.eff m.v0 m.v1 m.et) (x m.v0) (x m.v1)) ?_ ms
    (RewriteState.start g) ⟨rfl, rfl, rfl, fun _ h => h, by simp [RewriteState.start]⟩
  · obtain ⟨⟨h1, h2, h3, -, h4⟩, h5⟩ := this
    refine ⟨h1, by simpa using h2, h3, fun e he _ => h4 e he, fun x => ?_⟩
    have := h5 x
    simpa [RewriteState.start] using this
  · rintro s m rest ⟨h1, h2, h3, h4, h5⟩
    have hm : m ∈ ms := h4 m (by simp)
    have hn := h.nbrs m hm
    have v0m : m.v0 ∈ g.verts := by
      have : m.v0 ∈ g.nbrs m.v := by rw [hn]; simp
      exact (Finset.mem_filter.mp this).1
    have v1m : m.v1 ∈ g.verts := by
      have : m.v1 ∈ g.nbrs m.v := by rw [hn]; simp
      exact (Finset.mem_filter.mp this).1
    refine ⟨⟨h1, by simpa [Rules.idStep] using h2, h3, fun m' hm' => h4 m' (by simp [hm']), ?_⟩, fun x => ?_⟩
    · have key := forall_incr (P := fun k => k.1 ∈ g.verts \ (ms.map (·.v)).toFinset ∧
        k.2 ∈ g.verts \ (ms.map (·.v)).toFinset ∧ k.1 ≠ k.2) h5 (k := (m.v0, m.v1)) ?_ m.et
      · exact key
      · refine ⟨?_, ?_, h.ne m hm⟩
        · simp only [Finset.mem_sdiff, v0m, List.mem_toFinset, List.mem_map, true_and, not_exists, not_and]
          intro m' hm'; exact (h.indep m hm m' hm').1
        · simp only [Finset.mem_sdiff, v1m, List.mem_toFinset, List.mem_map, true_and, not_exists, not_and]
          intro m' hm'; exact (h.indep m hm m' hm').2
    · have hwio : m.et ≠ .wio := by rw [h.et m hm]; split <;> simp
      exact tableK_incr g x s.etab (m.v0, m.v1) hwio

theorem removeIds_sound {g g' : Graph} (hg : g.WF) {ms : List Rules.IdMatch} (h : IdsOK g ms)
    (hfin : (Rules.removeIds g ms).finish = some g') :
    Preserves g g' ∧ g'.verts = g.verts \ (ms.map (·.v)).toFinset := by
  obtain ⟨h1, h2, h3, h4, h5⟩ := ids_fold g ms h
  have := rule_sound hg hfin (by rw [h1]; exact hg) (by rw [h1]) (by rw [h1]; simp) (by rw [h1]) (by rw [h1])
    ?_ ?_ (by rw [h3]; simp) ?_
  · rw [h2] at this; exact this
  · rw [h2]
    intro v hv
    obtain ⟨m, hm, rfl⟩ := List.mem_map.mp (List.mem_toFinset.mp hv)
    simp only [interior, Finset.mem_filter]
    refine ⟨h.mem m hm, ?_⟩
    rcases h.ty m hm with h | h <;> rw [h] <;> simp
  · rw [h2]; exact h4
  · intro x
    rw [h2, h1, h5, psum_singles hg ms (·.v) h.nodup h.mem]
    · congr 2
      refine List.map_congr_left fun m hm => ?_
      exact id_local hg (h.ty m hm) (h.phase m hm) (h.nbrs m hm) (h.ne m hm) (h.et m hm) x
    · intro m hm m' hm' hin
      rw [h.nbrs m hm] at hin
      have := h.indep m hm m' hm'
      simp only [Finset.mem_insert, Finset.mem_singleton] at hin
      tauto

theorem removeIds_total {g : Graph} (hg : g.WF) (hb : g.BDeg) {ms : List Rules.IdMatch} (h : IdsOK g ms) :
    ∃ g', (Rules.removeIds g ms).finish = some g' ∧ Preserves g g' ∧ g'.BDeg ∧ g'.verts = g.verts \ (ms.map (·.v)).toFinset := by
  obtain ⟨h1, h2, h3, h4, -⟩ := ids_fold g ms h
  obtain ⟨g', hfin, hbd⟩ := finish_total (s := Rules.removeIds g ms) hg hb (by rw [h1]; exact hg) (by rw [h1]) (by rw [h1])
    (by rw [h1]; simp) (by rw [h2]; exact h4) (by
      intro b hbv hbt
      have hle := tcount_fold (step := Rules.idStep) (b := b) (c := fun m => if b = m.v0 ∨ b = m.v1 then 1 else 0) ms (by
        intro m _ s
        split
        · exact tcount_upd_le _ _ (fun p => by split <;> simp <;> omega) b
        · next hne => exact (tcount_upd_other _ _ hne).le) (RewriteState.start g)
      rw [show tcount (RewriteState.start g).etab b = 0 from rfl, zero_add] at hle
      obtain ⟨c1, c2⟩ := touch_bound hb hbv hbt (ms := ms) (f := fun m => m.v)
        (c := fun m => if b = m.v0 ∨ b = m.v1 then 1 else 0) h.nodup (fun m _ => by split <;> simp) (by
        intro m hm hne
        have : b = m.v0 ∨ b = m.v1 := by by_contra hc; exact hne (if_neg hc)
        rw [hg.symm, ← mem_nbrs hg.toInv, h.nbrs m hm]
        simpa using this) hle
      refine ⟨c1, fun hne z hz => ?_⟩
      obtain ⟨m, hm, -, hz'⟩ := c2 hne
      left
      rw [h2, hz' z hz]
      exact List.mem_map.mpr ⟨m, hm, rfl⟩) (by rw [h3]; simp) (by rw [h3]; exact List.Pairwise.nil) (by rw [h3]; simp)
    (by rw [h2]; exact h.nodup) (by
      rw [h2]; intro v hv
      obtain ⟨m, hm, rfl⟩ := List.mem_map.mp hv
      exact h.mem m hm)
  obtain ⟨hp, hv⟩ := removeIds_sound hg h hfin
  exact ⟨g', hfin, hp, hbd hp, hv⟩

end Graph
end PyZX
