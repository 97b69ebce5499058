import Verif.Proofs.ExtTot7
import Verif.Proofs.Fuse
import Verif.Spec.Clifford

/-!
# Reduced Clifford diagrams of invertible maps: every spider is next to a boundary
-/

namespace PyZX

open Finset

namespace Graph

/-! ### Making the edges of all outputs simple -/

theorem Onto.simplify' {g : Graph} (h : g.Onto) (hg : g.WF) (hio : g.IO) {o v : ℕ} (ho : o ∈ g.outputs) (l : Leaf g o v) (hv : g.isX v = false) :
    ∃ g' : Graph, g'.Onto ∧ g'.WF ∧ g'.IO ∧ g'.outputs = g.outputs ∧ g'.ty = g.ty ∧ g'.verts = g.verts ∧ g'.phase = g.phase ∧ g'.adj v o = some .simple ∧
      (∀ a b, g'.adj a b = none ↔ g.adj a b = none) ∧ ∀ a b, b ≠ o → a ≠ o → g'.adj a b = g.adj a b := by
  have hne : v ≠ o := by rintro rfl; exact l.adj (hg.loopless _)
  have hvo : g.adj v o ≠ none := by rw [hg.symm]; exact l.adj
  obtain ⟨e, he⟩ := Option.ne_none_iff_exists'.mp hvo
  cases e with
  | simple => exact ⟨g, h, hg, hio, rfl, rfl, rfl, rfl, he, fun _ _ => Iff.rfl, fun _ _ _ _ => rfl⟩
  | wio => exact absurd he (hg.noWio v o)
  | had =>
    obtain ⟨q, hq⟩ := List.getElem?_of_mem ho
    have hE : GExt g (g.setAdj v o (some .simple)) [.had q] := GExt.of_had (g' := g.setAdj v o (some .simple)) hio rfl rfl hq (Graph.sem_had hg l hv he)
    refine ⟨g.setAdj v o (some .simple), h.ext hE, setAdj_wf hg hvo .simple (by simp),
      ⟨hio.nodupIn, hio.nodupOut, hio.disj, hio.all⟩, rfl, rfl, rfl, rfl, setAdj_adj_self g v o _, setAdj_none_iff hg.toInv hvo _, fun a b h1 h2 => ?_⟩
    exact setAdj_adj_other g _ (by rintro ⟨-, rfl⟩; exact h1 rfl) (by rintro ⟨rfl, -⟩; exact h2 rfl)

/-- All edges of outputs to spiders that are not X-spiders can be made simple. -/
theorem Onto.simplifyAll : ∀ (os : List ℕ) {g : Graph}, g.Onto → g.WF → g.IO → (∀ o ∈ os, o ∈ g.outputs) →
    (∀ o ∈ os, ∃ v, Leaf g o v ∧ g.ty v = .Z) →
    ∃ g' : Graph, g'.Onto ∧ g'.WF ∧ g'.IO ∧ g'.outputs = g.outputs ∧ g'.ty = g.ty ∧ g'.verts = g.verts ∧ g'.phase = g.phase ∧
      (∀ o ∈ os, ∀ v, g.adj v o ≠ none → g'.adj v o = some .simple) ∧
      (∀ a b, g'.adj a b = none ↔ g.adj a b = none) ∧ ∀ a b, a ∉ os → b ∉ os → g'.adj a b = g.adj a b := by
  intro os
  induction os with
  | nil =>
    intro g h1 h2 h3 _ _
    exact ⟨g, h1, h2, h3, rfl, rfl, rfl, rfl, by simp, fun _ _ => Iff.rfl, fun _ _ _ _ => rfl⟩
  | cons o os ih =>
    intro g h1 h2 h3 h4 h5
    obtain ⟨v, l, hv⟩ := h5 o (by simp)
    obtain ⟨g1, a1, a2, a3, a4, a5, a6, a7, a8, a9, a10⟩ := h1.simplify' h2 h3 (h4 o (by simp)) l (isX_Z hv)
    obtain ⟨g2, b1, b2, b3, b4, b5, b6, b7, b8, b9, b10⟩ := ih a1 a2 a3 (fun o ho => by rw [a4]; exact h4 o (List.mem_cons_of_mem _ ho))
      (fun o ho => by
        obtain ⟨w, lw, hw⟩ := h5 o (List.mem_cons_of_mem _ ho)
        exact ⟨w, lw.of a6 a5 a9, by rw [a5]; exact hw⟩)
    refine ⟨g2, b1, b2, b3, b4.trans a4, b5.trans a5, b6.trans a6, b7.trans a7, ?_, fun a b => (b9 a b).trans (a9 a b), ?_⟩
    · intro o' ho' w hw
      by_cases hmem : o' ∈ os
      · exact b8 o' hmem w fun e => hw ((a9 _ _).mp e)
      rcases List.mem_cons.mp ho' with rfl | ho'
      · have hwv : w = v := l.only w (by rw [h2.symm]; exact hw)
        rw [hwv]
        have hvn : v ∉ os := by
          intro hc
          obtain ⟨w', lw', hw'⟩ := h5 v (List.mem_cons_of_mem _ hc)
          rw [lw'.bnd] at hv
          simp at hv
        rw [b10 _ _ hvn hmem]
        exact a8
      · exact absurd ho' hmem
    · intro a b ha hb
      rw [List.mem_cons, not_or] at ha hb
      rw [b10 _ _ ha.2 hb.2, a10 _ _ hb.1 ha.1]

theorem Onto.sep' {g : Graph} (h : g.Onto) {y y' : ℕ → Bool} {c c' : ℂ} (e : ∀ x, c * g.mat x y = c' * g.mat x y') {q : ℕ}
    (hq : q < g.outputs.length) (hne : y q ≠ y' q) : c = 0 := by
  have h1 : ∀ ψ ∈ Submodule.span ℂ (Set.range g.mat), c * ψ y = c' * ψ y' := by
    intro ψ hψ
    induction hψ using Submodule.span_induction with
    | mem ψ h => obtain ⟨x, rfl⟩ := h; exact e x
    | zero => simp
    | add a b _ _ ha hb => rw [Pi.add_apply, Pi.add_apply, mul_add, mul_add, ha, hb]
    | smul k a _ ha => rw [Pi.smul_apply, Pi.smul_apply, smul_eq_mul, smul_eq_mul, mul_left_comm, ha, mul_left_comm]
  have h2 := h1 _ (h y)
  unfold basisState at h2
  rw [if_pos (fun _ _ => rfl), if_neg (fun hc => hne (hc q hq).symm)] at h2
  simpa using h2

/-! ### Spiders with an output as only neighbour -/

theorem sem_lonely {g : Graph} (hg : g.WF) {o v : ℕ} (l : Leaf g o v) (hv : g.ty v = .Z) (he : g.adj v o = some .simple) (hn : g.nbrs v = {o})
    (b : ℕ → Bool) : g.sem b = g.vwt v (b o) * psum (g.interior.erase v) (g.wOn ((g.verts.erase v).erase o)) b := by
  have hvm : v ∈ g.verts := hg.toInv.mem' l.adj
  have hne : v ≠ o := by rintro rfl; exact l.adj (hg.loopless _)
  have hvi : v ∈ g.interior := by simp [interior, hvm, hv]
  have hoi := notMem_interior l.bnd
  have hrest : ∀ x, g.wOn (g.verts.erase v) x = g.wOn ((g.verts.erase v).erase o) x := by
    intro x
    rw [wOn_erase hg.symm (Finset.mem_erase.mpr ⟨hne.symm, l.mem⟩), vwt_bnd l.bnd, one_mul, Finset.prod_eq_one, one_mul]
    intro w hw
    refine edgeK_none ?_
    by_contra hc
    have := l.only w hc
    subst this
    simp at hw
  rw [sem_eq_amp hg]
  unfold amp
  rw [psum_erase hvi, ← psum_const_mul]
  refine psum_congr fun x hx => ?_
  have hxo : x o = b o := hx o fun hc => hoi (Finset.mem_of_mem_erase hc)
  have hstep : ∀ c, g.weight (Function.update x v c) = (g.vwt v c * kern false c (b o)) * g.wOn ((g.verts.erase v).erase o) x := by
    intro c
    rw [Basic.weight_localW hg hvm, hrest]
    have e1 : g.wOn ((g.verts.erase v).erase o) (Function.update x v c) = g.wOn ((g.verts.erase v).erase o) x :=
      wOn_congr_env fun u hu => Function.update_of_ne (Finset.ne_of_mem_erase (Finset.mem_of_mem_erase hu)) _ _
    rw [e1]
    congr 1
    unfold localW
    rw [hn, Finset.prod_singleton, edgeK_Z (isX_Z hv) (isX_bnd l.bnd) he, Function.update_self, Function.update_of_ne hne.symm, hxo]
    simp
  rw [hstep, hstep, ← add_mul]
  congr 1
  cases b o <;> simp [kern, dmat]

theorem Onto.no_lonely {g : Graph} (h : g.Onto) (hg : g.WF) (hio : g.IO) {o v : ℕ} (ho : o ∈ g.outputs) (l : Leaf g o v) (hv : g.ty v = .Z)
    (hn : g.nbrs v = {o}) : False := by
  obtain ⟨g1, a1, a2, a3, a4, a5, a6, a7, a8, a9, a10⟩ := h.simplify' hg hio ho l (isX_Z hv)
  have l1 := l.of a6 a5 a9
  have hv1 : g1.ty v = .Z := by rw [a5]; exact hv
  have hn1 : g1.nbrs v = {o} := by
    rw [← hn]
    ext u
    rw [mem_nbrs a2.toInv, mem_nbrs hg.toInv, ne_eq, ne_eq, a9]
  obtain ⟨q, hq⟩ := List.getElem?_of_mem ho
  rw [← a4] at hq
  have hoi := notMem_interior l1.bnd
  have key : ∀ x, g1.vwt v true * g1.mat x (fun _ => false) = g1.vwt v false * g1.mat x (Function.update (fun _ => false) q true) := by
    intro x
    show _ * g1.sem _ = _ * g1.sem _
    rw [sem_lonely a2 l1 hv1 a8 hn1, sem_lonely a2 l1 hv1 a8 hn1, bval_out a3 hq, bval_out a3 hq, Function.update_self]
    have : psum (g1.interior.erase v) (g1.wOn ((g1.verts.erase v).erase o)) (g1.bval x (Function.update (fun _ => false) q true)) =
        psum (g1.interior.erase v) (g1.wOn ((g1.verts.erase v).erase o)) (g1.bval x fun _ => false) := by
      rw [bval_update a3 hq, ← psum_update (fun hc => hoi (Finset.mem_of_mem_erase hc))]
      refine psum_congr fun z _ => ?_
      exact wOn_congr_env fun u hu => Function.update_of_ne (Finset.ne_of_mem_erase hu) _ _
    rw [this]
    ring
  have := a1.sep' key (List.getElem?_eq_some_iff.mp hq).1 (by rw [Function.update_self]; simp)
  unfold vwt vval at this
  rw [hv1] at this
  exact ph_ne_zero _ (by simpa using this)

/-! ### Spiders with only outputs behind their neighbours -/

theorem sem_parity {g : Graph} (hg : g.WF) {v : ℕ} (hv : g.ty v = .Z) (hvm : v ∈ g.verts) {out : ℕ → ℕ}
    (hw : ∀ w, g.adj v w ≠ none → g.ty w = .Z ∧ g.adj v w = some .had ∧ Leaf g (out w) w ∧ g.adj w (out w) = some .simple)
    {b : ℕ → Bool} (hb : ph (g.phase v) * ∏ w ∈ g.nbrs v, sgn (b (out w)) = -1) : g.sem b = 0 := by
  have hvi : v ∈ g.interior := by simp [interior, hvm, hv]
  rw [sem_eq_amp hg]
  unfold amp
  rw [psum_erase hvi, psum_congr (g := fun _ => 0)]
  · simp [psum]
  intro x hx
  have hbx : ∀ w, g.adj v w ≠ none → x (out w) = b (out w) := fun w h =>
    hx _ fun hc => notMem_interior (hw w h).2.2.1.bnd (Finset.mem_of_mem_erase hc)
  by_cases hc : ∀ w, g.adj v w ≠ none → x w = b (out w)
  · have hstep : ∀ c, g.weight (Function.update x v c) =
        (g.vwt v c * ∏ w ∈ g.nbrs v, (sq2⁻¹ * (if c then sgn (b (out w)) else 1))) * g.wOn (g.verts.erase v) x := by
      intro c
      rw [Basic.weight_localW hg hvm]
      have e1 : g.wOn (g.verts.erase v) (Function.update x v c) = g.wOn (g.verts.erase v) x :=
        wOn_congr_env fun u hu => Function.update_of_ne (Finset.ne_of_mem_erase hu) _ _
      rw [e1]
      congr 1
      unfold localW
      rw [Function.update_self]
      congr 1
      refine Finset.prod_congr rfl fun w hwn => ?_
      rw [mem_nbrs hg.toInv] at hwn
      have hwv : w ≠ v := by rintro rfl; exact hwn (hg.loopless _)
      rw [edgeK_Z (isX_Z hv) (isX_Z (hw w hwn).1) (hw w hwn).2.1, Function.update_self, Function.update_of_ne hwv, hc w hwn, ← hmat_eq]
      simp [kern]
    rw [hstep, hstep, ← add_mul]
    have e2 : g.vwt v true = ph (g.phase v) := by unfold vwt vval; rw [hv]; simp
    have e3 : g.vwt v false = 1 := by simp [vwt]
    rw [e2, e3, Finset.prod_mul_distrib, Finset.prod_mul_distrib]
    simp only [Bool.false_eq_true, if_false, if_true, Finset.prod_const_one]
    have : (1 : ℂ) * ((∏ _w ∈ g.nbrs v, sq2⁻¹) * 1) + ph (g.phase v) * ((∏ _w ∈ g.nbrs v, sq2⁻¹) * ∏ w ∈ g.nbrs v, sgn (b (out w))) =
        (∏ _w ∈ g.nbrs v, sq2⁻¹) * (1 + ph (g.phase v) * ∏ w ∈ g.nbrs v, sgn (b (out w))) := by ring
    rw [this, hb]
    ring
  · push Not at hc
    obtain ⟨w, h1, h2⟩ := hc
    obtain ⟨c1, c2, c3, c4⟩ := hw w h1
    have hwv : w ≠ v := by rintro rfl; exact h1 (hg.loopless _)
    have hov : out w ≠ v := by
      intro e
      have := c3.bnd
      rw [e, hv] at this
      simp at this
    have hz : ∀ c, g.weight (Function.update x v c) = 0 := fun c =>
      weight_eq_zero hg.toInv c3 (isX_Z c1) c4 (by rw [Function.update_of_ne hwv, Function.update_of_ne hov, hbx w h1]; exact h2)
    rw [hz, hz, add_zero]

/-- A spider with phase 0 or π without boundary has a neighbour without output. -/
theorem Onto.no_parity {g : Graph} (h : g.Onto) (hg : g.WF) (hio : g.IO) {v u : ℕ} (hv : g.ty v = .Z) (hp : g.phase v = 0 ∨ g.phase v = 1)
    (hu : g.adj v u ≠ none) (hbd : ∀ o ∈ g.outputs, ∃ w, Leaf g o w)
    (hw : ∀ w, g.adj v w ≠ none → g.ty w = .Z ∧ g.adj v w = some .had ∧ ∃ o ∈ g.outputs, g.adj w o ≠ none) : False := by
  classical
  have hvm : v ∈ g.verts := hg.mem _ _ hu
  obtain ⟨out, hout⟩ : ∃ out : ℕ → ℕ, ∀ w, g.adj v w ≠ none → out w ∈ g.outputs ∧ g.adj w (out w) ≠ none := by
    refine ⟨fun w => if hc : g.adj v w ≠ none then (hw w hc).2.2.choose else 0, fun w hc => ?_⟩
    simp only [hc, ne_eq, not_false_eq_true, dif_pos]
    exact (hw w hc).2.2.choose_spec
  have hleaf : ∀ w, g.adj v w ≠ none → Leaf g (out w) w := by
    intro w hc
    obtain ⟨w', l⟩ := hbd _ (hout w hc).1
    have : w = w' := l.only w (by rw [hg.symm]; exact (hout w hc).2)
    rw [← this] at l
    exact l
  have hnb : ∀ w, w ∈ (g.nbrs v).toList ↔ g.adj v w ≠ none := fun w => by rw [Finset.mem_toList, mem_nbrs hg.toInv]
  have hvo : v ∉ ((g.nbrs v).toList.map out) := by
    intro hc
    obtain ⟨w, h1, h2⟩ := List.mem_map.mp hc
    have := (hleaf w ((hnb w).mp h1)).bnd
    rw [h2, hv] at this
    simp at this
  have hwo : ∀ w, g.ty w = .Z → w ∉ ((g.nbrs v).toList.map out) := by
    intro w hz hc
    obtain ⟨w', h1, h2⟩ := List.mem_map.mp hc
    have := (hleaf w' ((hnb w').mp h1)).bnd
    rw [h2, hz] at this
    simp at this
  obtain ⟨g1, a1, a2, a3, a4, a5, a6, a7, a8, a9, a10⟩ := Onto.simplifyAll ((g.nbrs v).toList.map out) h hg hio
    (fun o ho => by obtain ⟨w, h1, rfl⟩ := List.mem_map.mp ho; exact (hout w ((hnb w).mp h1)).1)
    (fun o ho => by
      obtain ⟨w, h1, rfl⟩ := List.mem_map.mp ho
      exact ⟨w, hleaf w ((hnb w).mp h1), (hw w ((hnb w).mp h1)).1⟩)
  have hw1 : ∀ w, g1.adj v w ≠ none → g1.ty w = .Z ∧ g1.adj v w = some .had ∧ Leaf g1 (out w) w ∧ g1.adj w (out w) = some .simple := by
    intro w hc
    have hc' : g.adj v w ≠ none := fun e => hc ((a9 _ _).mpr e)
    obtain ⟨c1, c2, -⟩ := hw w hc'
    exact ⟨by rw [a5]; exact c1, by rw [a10 _ _ hvo (hwo w c1)]; exact c2, (hleaf w hc').of a6 a5 a9,
      a8 _ (List.mem_map.mpr ⟨w, (hnb w).mpr hc', rfl⟩) w (hout w hc').2⟩
  have hinj : ∀ w w', g.adj v w ≠ none → g.adj v w' ≠ none → out w = out w' → w = w' := by
    intro w w' h1 h2 e
    have l1 := hleaf w h1
    rw [e] at l1
    exact (hleaf w' h2).only w l1.adj
  obtain ⟨q, hq⟩ := List.getElem?_of_mem (hout u hu).1
  rw [← a4] at hq
  obtain ⟨c, hcv⟩ : ∃ c : Bool, ph (g.phase v) * sgn c = -1 := by
    rcases hp with e | e
    · exact ⟨true, by rw [e]; simp [sgn]⟩
    · exact ⟨false, by rw [e]; simp [sgn]⟩
  obtain ⟨x, hx⟩ := a1.ne_zero (Function.update (fun _ => false) q c)
  refine hx ?_
  show g1.sem _ = 0
  refine sem_parity a2 (by rw [a5]; exact hv) (by rw [a6]; exact hvm) hw1 ?_
  have hnn : g1.nbrs v = g.nbrs v := by
    ext w
    rw [mem_nbrs a2.toInv, mem_nbrs hg.toInv, ne_eq, ne_eq, a9]
  rw [a7, hnn, Finset.prod_eq_single u]
  · rw [bval_out a3 hq, Function.update_self]
    exact hcv
  · intro w hwn hne
    rw [mem_nbrs hg.toInv] at hwn
    obtain ⟨q', hq'⟩ := List.getElem?_of_mem (hout w hwn).1
    rw [← a4] at hq'
    have hqq : q' ≠ q := by
      rintro rfl
      rw [hq] at hq'
      exact hne (hinj w u hwn hu (Option.some.inj hq').symm)
    rw [bval_out a3 hq', Function.update_of_ne hqq]
    simp [sgn]
  · intro hc
    exact absurd ((mem_nbrs hg.toInv).mpr hu) hc

/-! ### Reduced Clifford diagrams -/

theorem Clifford.cases {p : ℚ} (h : Clifford p) : p = 0 ∨ p = 1 / 2 ∨ p = 1 ∨ p = 3 / 2 := by
  obtain ⟨⟨h1, h2⟩, h3⟩ := h
  have e : ((2 * p).num : ℚ) = 2 * p := by
    rw [Rat.isInt, beq_iff_eq] at h3
    exact Rat.den_eq_one_iff _ |>.mp h3
  generalize (2 * p).num = k at e
  have h4 : (0 : ℚ) ≤ k := by rw [e]; linarith
  have h5 : (k : ℚ) < 4 := by rw [e]; linarith
  have h4' : 0 ≤ k := by exact_mod_cast h4
  have h5' : k < 4 := by exact_mod_cast h5
  interval_cases k
  · left; push_cast at e; linarith
  · right; left; push_cast at e; linarith
  · right; right; left; push_cast at e; linarith
  · right; right; right; push_cast at e; linarith

theorem clifford_shape {n : ℕ} {g : Graph} (hg : g.ZX Clifford) (hio : g.IO) (hi : g.inputs.length = n) (ho : g.outputs.length = n)
    (hu : IsUnit (g.toMatrix n)) (hN : g.InteriorNF) (hB : g.NoBoundaryPivot) :
    Extract.TB g ∧ ∀ v ∈ g.verts, g.ty v = .Z → (g.nbrs v).card ≠ 1 := by
  have hw := hg.wf
  have hon := onto_of_unit hw hio ho hu
  have hon' := onto_of_unit (flipIO_wf hw) (flipIO_io hio) hi (flipIO_unit hw hio hu)
  have hleaf : ∀ b v, g.ty b = .boundary → g.adj v b ≠ none → Leaf g b v := by
    intro b v hb ha
    have hm : b ∈ g.verts := hw.toInv.mem' ha
    have ha' : g.adj b v ≠ none := by rw [hw.symm]; exact ha
    exact ⟨hm, hb, ha', fun w hw => hg.bdeg b hm hb w v hw ha'⟩
  -- one output and one input at most
  have two : ∀ v, g.ty v = .Z → 2 ≤ (g.bnds v).card → ∃ o ∈ g.outputs, g.adj v o ≠ none := by
    intro v hv h2
    obtain ⟨a, ha, b, hb, hne⟩ := Finset.one_lt_card.mp h2
    simp only [bnds, Finset.mem_filter, mem_nbrs hw.toInv] at ha hb
    by_contra hc
    push Not at hc
    have hia : a ∈ g.inputs := (hio.all a (hw.toInv.mem' ha.1) ha.2).resolve_right fun h => ha.1 (hc a h)
    have hib : b ∈ g.inputs := (hio.all b (hw.toInv.mem' hb.1) hb.2).resolve_right fun h => hb.1 (hc b h)
    have l1 := hleaf a v ha.2 ha.1
    have l2 := hleaf b v hb.2 hb.1
    exact hne (hon'.no_two (flipIO_wf hw) (flipIO_io hio) (o := a) (o' := b) hia hib ⟨l1.mem, l1.bnd, l1.adj, l1.only⟩
      ⟨l2.mem, l2.bnd, l2.adj, l2.only⟩ (isX_Z hv))
  have bpos : ∀ v b, g.adj v b ≠ none → g.ty b = .boundary → (g.bnds v).card ≠ 0 := by
    intro v b h1 h2 hc
    rw [Finset.card_eq_zero] at hc
    have : b ∈ g.bnds v := by simp only [bnds, Finset.mem_filter, mem_nbrs hw.toInv]; exact ⟨h1, h2⟩
    rw [hc] at this
    simp at this
  have bzero : ∀ v, (∀ b, g.adj v b ≠ none → g.ty b ≠ .boundary) → (g.bnds v).card = 0 := by
    intro v h
    rw [Finset.card_eq_zero, Finset.eq_empty_iff_forall_notMem]
    intro b hb
    simp only [bnds, Finset.mem_filter, mem_nbrs hw.toInv] at hb
    exact h b hb.1 hb.2
  -- spiders without boundary have a Pauli phase
  have pau : ∀ v u, g.ty v = .Z → g.adj v u ≠ none → (∀ b, g.adj v b ≠ none → g.ty b ≠ .boundary) → g.phase v = 0 ∨ g.phase v = 1 := by
    intro v u hv ha hb
    have hvm := hw.mem _ _ ha
    rcases (hg.phases v hvm).cases with h | h | h | h
    · exact Or.inl h
    · obtain ⟨b, h1, h2⟩ := hN.half v hvm hv (Or.inl h)
      exact absurd h2 (hb b h1)
    · exact Or.inr h
    · obtain ⟨b, h1, h2⟩ := hN.half v hvm hv (Or.inr h)
      exact absurd h2 (hb b h1)
  have leafB : ∀ v, g.ty v = .Z → ∀ b, g.adj v b ≠ none → g.ty b = .boundary → (g.nbrs v).card ≠ 1 := by
    intro v hv b h1 h2 hc
    obtain ⟨a, ha⟩ := Finset.card_eq_one.mp hc
    have hab : b = a := by
      have : b ∈ g.nbrs v := (mem_nbrs hw.toInv).mpr h1
      rw [ha] at this
      simpa using this
    subst hab
    have l := hleaf b v h2 h1
    rcases hio.all b l.mem h2 with h3 | h3
    · exact hon'.no_lonely (flipIO_wf hw) (flipIO_io hio) (o := b) h3 ⟨l.mem, l.bnd, l.adj, l.only⟩ hv ha
    · exact hon.no_lonely hw hio h3 l hv ha
  have hT : Extract.TB g := by
    intro v u hv ha
    by_contra hc
    push Not at hc
    have hvm := hw.mem _ _ ha
    have hp := pau v u hv ha hc
    have hZ : ∀ w, g.adj v w ≠ none → g.ty w = .Z := fun w h => (hN.types w (hw.toInv.mem' h)).resolve_left (hc w h)
    -- neighbours have a boundary
    have hnb : ∀ w, g.adj v w ≠ none → ∃ b, g.adj w b ≠ none ∧ g.ty b = .boundary := by
      intro w h
      by_contra hcw
      push Not at hcw
      have h' : g.adj w v ≠ none := by rw [hw.symm]; exact h
      have := hN.pauli v w h hv (hZ w h) hp (pau w v (hZ w h) h' hcw)
      rw [bzero v hc, bzero w hcw] at this
      omega
    refine hon.no_parity hw hio hv hp ha (fun o ho' => ?_) fun w h => ⟨hZ w h, hN.had v w h hv (hZ w h), two w (hZ w h) ?_⟩
    · have hbt := hw.io o (Or.inr ho')
      obtain ⟨z, hz⟩ := hg.badj o (hw.out o ho') hbt
      exact ⟨z, hleaf o z hbt (by rw [hw.symm]; exact hz)⟩
    · obtain ⟨b, h1, h2⟩ := hnb w h
      have hne0 := bpos w b h1 h2
      have hne1 : (g.bnds w).card ≠ 1 := by
        intro h1'
        obtain ⟨z, h3, h4, h5⟩ := hB v hvm hv hp (fun m hm => ⟨hZ m hm, by
          obtain ⟨b', h6, h7⟩ := hnb m hm
          exact leafB m (hZ m hm) b' h6 h7⟩) w h h1'
        rcases hN.types z (hw.toInv.mem' h3) with h | h
        · exact h4 h
        · exact h5 h
      omega
  refine ⟨hT, fun v hvm hv hc => ?_⟩
  obtain ⟨a, ha⟩ := Finset.card_eq_one.mp hc
  have hva : g.adj v a ≠ none := (mem_nbrs hw.toInv).mp (by rw [ha]; simp)
  obtain ⟨b, h1, h2⟩ := hT v a hv hva
  exact leafB v hv b h1 h2 hc

/-- Such diagrams have no phase gadgets. -/
theorem clifford_gadgets {g : Graph} (h : ∀ v ∈ g.verts, g.ty v = .Z → (g.nbrs v).card ≠ 1) : g.Gadgets :=
  fun v hv ht hc => absurd hc (h v hv ht)

theorem clifford_initGadgets {g : Graph} (hio : g.IO) (hty : ∀ v ∈ g.verts, g.ty v = .boundary ∨ g.ty v = .Z)
    (h : ∀ v ∈ g.verts, g.ty v = .Z → (g.nbrs v).card ≠ 1) : Extract.initGadgets g = ∅ := by
  unfold Extract.initGadgets
  rw [Finset.eq_empty_iff_forall_notMem]
  intro u hu
  obtain ⟨v, hv, -⟩ := Finset.mem_biUnion.mp hu
  obtain ⟨h1, h2, h3, h4⟩ := by simpa using hv
  rcases hty v h1 with h5 | h5
  · rcases hio.all v h1 h5 with h6 | h6
    · exact h3 h6
    · exact h4 h6
  · exact h v h1 h5 h2

end Graph
end PyZX
