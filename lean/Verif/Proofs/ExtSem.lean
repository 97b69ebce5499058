import Verif.Sem.OpsInv
import Verif.Spec.Matrix
import Verif.Proofs.Circuit3

/-!
# Splitting gates off the outputs of a diagram: lemmas on the path sum
-/

namespace PyZX

open Finset

theorem psum_update {α : Type*} [DecidableEq α] {I : Finset α} {o : α} (h : o ∉ I) (f : (α → Bool) → ℂ) (b : α → Bool) (z : Bool) :
    psum I (fun x => f (Function.update x o z)) b = psum I f (Function.update b o z) := by
  unfold psum
  refine Finset.sum_congr rfl fun T _ => ?_
  show f _ = f _
  congr 1
  funext w
  by_cases e : w = o
  · subst e; simp [setOn, h]
  · simp [setOn, Function.update_of_ne e]

theorem kern_true_eq (a c : Bool) : kern true a c = ∑ z : Bool, hmat a z * kern false z c := by
  cases c <;> simp [kern, dmat]

theorem hmat_kern (a c : Bool) : ∑ z : Bool, hmat a z * kern true z c = kern false a c := by
  have h := sq2_mul_self
  have h0 : sq2 ≠ 0 := sq2_ne_zero
  have e : 2 * (sq2⁻¹ * sq2⁻¹) = 1 := by
    field_simp
    linear_combination -h
  cases a <;> cases c <;> simp [kern, dmat, hmat, ← two_mul, e]

namespace Graph

/-- A boundary vertex and its only neighbour. -/
structure Leaf (g : Graph) (o v : ℕ) : Prop where
  mem : o ∈ g.verts
  bnd : g.ty o = .boundary
  adj : g.adj o v ≠ none
  only : ∀ w, g.adj o w ≠ none → w = v

theorem vwt_bnd {g : Graph} {o : ℕ} (h : g.ty o = .boundary) (c : Bool) : g.vwt o c = 1 := by
  unfold vwt vval; rw [h]; simp

theorem isX_bnd {g : Graph} {o : ℕ} (h : g.ty o = .boundary) : g.isX o = false := by simp [isX, h]

theorem isX_Z {g : Graph} {o : ℕ} (h : g.ty o = .Z) : g.isX o = false := by simp [isX, h]

theorem wOn_leaf {g : Graph} (hg : g.Inv) {o v : ℕ} (h : Leaf g o v) {S : Finset ℕ} (ho : o ∈ S) (hv : v ∈ S) (x : ℕ → Bool) :
    g.wOn S x = g.wOn (S.erase o) x * g.edgeK x o v := by
  have hne : v ≠ o := by rintro rfl; exact h.adj (hg.loopless _)
  rw [wOn_erase hg.symm ho, vwt_bnd h.bnd, one_mul, mul_comm]
  congr 1
  rw [Finset.prod_eq_single v]
  · intro w _ hw
    exact edgeK_none (by by_contra hc; exact hw (h.only w hc))
  · intro hc
    exact absurd (Finset.mem_erase.mpr ⟨hne, hv⟩) hc

theorem weight_leaf {g : Graph} (hg : g.Inv) {o v : ℕ} (h : Leaf g o v) (x : ℕ → Bool) :
    g.weight x = g.wOn (g.verts.erase o) x * g.edgeK x o v := by
  rw [weight_eq_wOn]
  exact wOn_leaf hg h h.mem (hg.mem' h.adj) x

theorem notMem_interior {g : Graph} {o : ℕ} (h : g.ty o = .boundary) : o ∉ g.interior := by
  simp [interior, h]

theorem edgeK_leaf {g : Graph} {o v : ℕ} {e : EType} (hb : g.ty o = .boundary) (hv : g.isX v = false) (h : g.adj o v = some e) (x : ℕ → Bool) :
    g.edgeK x o v = kern (decide (e = .had)) (x o) (x v) := by
  rw [edgeK_some h]
  unfold eff
  rw [isX_bnd hb, hv]
  simp

theorem edgeK_Z {g : Graph} {u v : ℕ} {e : EType} (hu : g.isX u = false) (hv : g.isX v = false) (h : g.adj u v = some e) (x : ℕ → Bool) :
    g.edgeK x u v = kern (decide (e = .had)) (x u) (x v) := by
  rw [edgeK_some h]
  unfold eff
  rw [hu, hv]
  simp

/-! ### Hadamard edges at a boundary -/

theorem setAdj_wf {g : Graph} (hg : g.WF) {s t : ℕ} (hst : g.adj s t ≠ none) (e : EType) (he : e ≠ .wio) : (g.setAdj s t (some e)).WF := by
  have hne : s ≠ t := by rintro rfl; exact hst (hg.loopless _)
  have hi := hg.toInv.setAdj (hg.mem _ _ hst) (hg.toInv.mem' hst) hne (some e) 0 (by
    cases h : g.adj s t with
    | none => exact absurd h hst
    | some f => simp)
  have hi' : (g.setAdj s t (some e)).Inv := hi.congr rfl rfl rfl (by show g.nedges = g.nedges + 0; rw [add_zero]) rfl rfl
  refine { hi' with noWio := ?_, types := hg.types, io := hg.io }
  intro u v
  simp only [Graph.setAdj]
  split
  · simpa using he
  · exact hg.noWio u v

theorem setAdj_none_iff {g : Graph} (hg : g.Inv) {s t : ℕ} (hst : g.adj s t ≠ none) (e : EType) (u v : ℕ) :
    (g.setAdj s t (some e)).adj u v = none ↔ g.adj u v = none := by
  simp only [Graph.setAdj]
  split
  · next h =>
    rcases h with ⟨rfl, rfl⟩ | ⟨rfl, rfl⟩
    · simp [hst]
    · rw [hg.symm]; simp [hst]
  · rfl

/-- Turning a Hadamard edge at a boundary vertex into a simple edge. -/
theorem sem_had {g : Graph} (hg : g.WF) {o v : ℕ} (h : Leaf g o v) (hv : g.isX v = false) (he : g.adj v o = some .had) (b : ℕ → Bool) :
    g.sem b = ∑ z : Bool, hmat (b o) z * (g.setAdj v o (some .simple)).sem (Function.update b o z) := by
  set g' := g.setAdj v o (some .simple) with hg'
  have hvo : g.adj v o ≠ none := by rw [he]; simp
  have hw' : g'.WF := setAdj_wf hg hvo .simple (by simp)
  have hne : v ≠ o := by rintro rfl; exact hvo (hg.loopless _)
  have hl' : Leaf g' o v := ⟨h.mem, h.bnd, fun hc => h.adj ((setAdj_none_iff hg.toInv hvo _ _ _).mp hc),
    fun w hw => h.only w fun hc => hw ((setAdj_none_iff hg.toInv hvo _ _ _).mpr hc)⟩
  have hint : g'.interior = g.interior := rfl
  have hwt : ∀ x, g.weight x = ∑ z : Bool, hmat (x o) z * g'.weight (Function.update x o z) := by
    intro x
    have e1 : ∀ z, g'.weight (Function.update x o z) = g.wOn (g.verts.erase o) x * kern false z (x v) := by
      intro z
      rw [weight_leaf hw'.toInv hl', edgeK_leaf (e := .simple) hl'.bnd hv (by
        rw [hw'.symm]; exact setAdj_adj_self g v o _)]
      have e2 : g'.wOn (g'.verts.erase o) (Function.update x o z) = g.wOn (g.verts.erase o) x := by
        rw [wOn_congr_env (y := x) (fun w hw => Function.update_of_ne (Finset.ne_of_mem_erase hw) _ _)]
        refine wOn_congr rfl (fun _ _ => rfl) fun a ha c hc _ => ?_
        unfold edgeK
        rw [hg', setAdj_adj_other g _ (by rintro ⟨-, rfl⟩; exact Finset.notMem_erase _ _ hc)
          (by rintro ⟨rfl, -⟩; exact Finset.notMem_erase _ _ ha)]
        rfl
      rw [e2, Function.update_self, Function.update_of_ne hne]
      simp
    rw [weight_leaf hg.toInv h, edgeK_leaf (e := .had) h.bnd hv (by rw [hg.symm]; exact he)]
    simp only [e1]
    rw [show decide True = true from rfl, kern_true_eq, Finset.mul_sum]
    exact Finset.sum_congr rfl fun z _ => by ring
  rw [sem_eq_amp hg]
  unfold amp
  have e3 : ∀ z, psum g.interior (fun x => g'.weight (Function.update x o z)) b = g'.sem (Function.update b o z) := by
    intro z
    rw [psum_update (notMem_interior h.bnd), sem_eq_amp hw']
    rfl
  have e4 : psum g.interior g.weight b = psum g.interior (fun x => hmat (b o) false * g'.weight (Function.update x o false) +
      hmat (b o) true * g'.weight (Function.update x o true)) b := by
    refine psum_congr fun x hx => ?_
    rw [hwt, ← hx o (notMem_interior h.bnd)]
    simp [add_comm]
  rw [e4, psum_add, psum_const_mul, psum_const_mul, e3, e3]
  simp [add_comm]

/-! ### Phases at a simple edge to a boundary -/

theorem weight_eq_zero {g : Graph} (hg : g.Inv) {o v : ℕ} (h : Leaf g o v) (hv : g.isX v = false) (he : g.adj v o = some .simple)
    {x : ℕ → Bool} (hx : x v ≠ x o) : g.weight x = 0 := by
  rw [weight_leaf hg h, edgeK_leaf (e := .simple) h.bnd hv (by rw [hg.symm]; exact he)]
  have : kern false (x o) (x v) = 0 := by
    simp [kern, dmat, Ne.symm hx]
  simp [this]

theorem wOn_phase {g : Graph} {v : ℕ} (hv : g.ty v = .Z) {S : Finset ℕ} (hS : v ∈ S) (x : ℕ → Bool) :
    g.wOn S x = (g.setPhase v 0).wOn S x * (if x v then ph (g.phase v) else 1) := by
  refine wOn_vval_mul hS rfl rfl (fun _ => rfl) ?_ ?_
  · have : (g.setPhase v 0).vval v = 1 := by
      unfold vval
      show (match g.ty v with | .boundary => 1 | .zbox => _ | _ => ph ((g.setPhase v 0).phase v)) = 1
      rw [hv]
      simp [setPhase, mod2_zero, ph_zero]
    rw [this, one_mul]
    unfold vval; rw [hv]
  · intro w _ hw
    exact (vval_update_ne (g := g) (g' := g.setPhase v 0) hw rfl (by simp [setPhase, hw]) rfl).symm

theorem setPhase_wf {g : Graph} (hg : g.WF) (v : ℕ) (p : ℚ) : (g.setPhase v p).WF :=
  hg.congr (hg.toInv.congr rfl rfl rfl rfl rfl rfl) rfl rfl rfl rfl rfl

/-- Moving the phase of a spider next to a boundary vertex out. -/
theorem sem_phase {g : Graph} (hg : g.WF) {o v : ℕ} (h : Leaf g o v) (hv : g.ty v = .Z) (he : g.adj v o = some .simple) (b : ℕ → Bool) :
    g.sem b = (if b o then ph (g.phase v) else 1) * (g.setPhase v 0).sem b := by
  have hw' := setPhase_wf hg v 0
  rw [sem_eq_amp hg, sem_eq_amp hw']
  unfold amp
  rw [← psum_const_mul]
  refine psum_congr fun x hx => ?_
  by_cases hxv : x v = x o
  · have hvm : v ∈ g.verts := hg.toInv.mem' h.adj
    rw [weight_eq_wOn, wOn_phase hv hvm, weight_eq_wOn, hxv, hx o (notMem_interior h.bnd), mul_comm]
    rfl
  · have hl' : Leaf (g.setPhase v 0) o v := ⟨h.mem, h.bnd, h.adj, h.only⟩
    rw [weight_eq_zero hg.toInv h (isX_Z hv) he hxv, weight_eq_zero hw'.toInv hl' (isX_Z hv) he hxv, mul_zero]

/-- Moving an edge between two spiders next to boundary vertices out. -/
theorem sem_cz {g g' : Graph} (hg : g.WF) {o v o' v' : ℕ} (h : Leaf g o v) (h' : Leaf g o' v') (hv : g.ty v = .Z) (hv' : g.ty v' = .Z)
    (he : g.adj v o = some .simple) (he' : g.adj v' o' = some .simple) (hvv : g.adj v v' = some .had)
    (hr : g.removeEdge v v' = some g') (b : ℕ → Bool) : g.sem b = hmat (b o) (b o') * g'.sem b := by
  have hw' := hg.removeEdge hr
  obtain ⟨-, hne, hg'⟩ := removeEdge_eq hr
  have hf := removeEdge_frame hr
  rw [sem_eq_amp hg, sem_eq_amp hw']
  unfold amp
  rw [hf.interior, ← psum_const_mul]
  refine psum_congr fun x hx => ?_
  by_cases hxv : x v = x o
  · by_cases hxv' : x v' = x o'
    · rw [weight_eq_wOn, weight_eq_wOn, hf.verts, ← wOn_removeEdge hr hg.symm (hg.toInv.mem' h.adj) (hg.toInv.mem' h'.adj) x,
        edgeK_Z (isX_Z hv) (isX_Z hv') hvv, hxv, hxv', hx o (notMem_interior h.bnd), hx o' (notMem_interior h'.bnd), mul_comm]
      simp [kern]
    · have h2 : g'.weight x = 0 := by
        have hno : ¬ (v' = v ∧ o' = v') := by rintro ⟨-, e⟩; exact h'.adj (by rw [e]; exact hg.loopless _)
        have ho1 : o' ≠ v := by intro e; have := h'.bnd; rw [e, hv] at this; simp at this
        have ho2 : o' ≠ v' := by intro e; have := h'.bnd; rw [e, hv'] at this; simp at this
        have hadj : ∀ w, g'.adj o' w = g.adj o' w := by
          intro w
          rw [hg']
          exact setAdj_adj_other g _ (by rintro ⟨e, -⟩; exact ho1 e) (by rintro ⟨e, -⟩; exact ho2 e)
        refine weight_eq_zero hw'.toInv (o := o') (v := v') ⟨by rw [hf.verts]; exact h'.mem, by rw [hf.ty]; exact h'.bnd,
          by rw [hadj]; exact h'.adj, fun w hw => h'.only w (by rw [← hadj]; exact hw)⟩ (by
            unfold isX; rw [hf.ty]; exact isX_Z hv') (by rw [hw'.symm, hadj, hg.symm]; exact he') hxv'
      rw [weight_eq_zero hg.toInv h' (isX_Z hv') he' hxv', h2, mul_zero]
  · have h2 : g'.weight x = 0 := by
      have ho1 : o ≠ v := by intro e; have := h.bnd; rw [e, hv] at this; simp at this
      have ho2 : o ≠ v' := by intro e; have := h.bnd; rw [e, hv'] at this; simp at this
      have hadj : ∀ w, g'.adj o w = g.adj o w := by
        intro w
        rw [hg']
        exact setAdj_adj_other g _ (by rintro ⟨e, -⟩; exact ho1 e) (by rintro ⟨e, -⟩; exact ho2 e)
      refine weight_eq_zero hw'.toInv (o := o) (v := v) ⟨by rw [hf.verts]; exact h.mem, by rw [hf.ty]; exact h.bnd,
        by rw [hadj]; exact h.adj, fun w hw => h.only w (by rw [← hadj]; exact hw)⟩ (by
          unfold isX; rw [hf.ty]; exact isX_Z hv) (by rw [hw'.symm, hadj, hg.symm]; exact he) hxv
    rw [weight_eq_zero hg.toInv h (isX_Z hv) he hxv, h2, mul_zero]

end Graph
end PyZX
