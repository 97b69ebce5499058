import Verif.Proofs.ExtPull
import Verif.Spec.Extract

/-!
# Circuit extraction: the initial state
-/

namespace PyZX

open Finset

namespace Graph

/-! ### Invertible maps -/

theorem onto_of_unit {g : Graph} (hg : g.WF) (hio : g.IO) {n : ℕ} (ho : g.outputs.length = n) (h : IsUnit (g.toMatrix n)) : g.Onto := by
  obtain ⟨B, hB, -⟩ := isUnit_iff_exists.mp h
  intro y
  rw [ho]
  have e : basisState n y = ∑ x : Fin n → Bool, B x (fun q => y q) • g.mat (bits x) := by
    funext w
    rw [Finset.sum_apply]
    have hw : ∀ x, g.mat x w = g.mat x (bits fun q : Fin n => w q) := by
      intro x
      refine mat_local hg hio x _ _ fun q hq => ?_
      rw [ho] at hq
      simp [bits, hq]
    have h1 := congrFun (congrFun hB fun q => w q) fun q => y q
    rw [Matrix.mul_apply] at h1
    have h2 : ∑ x : Fin n → Bool, (B x (fun q => y q) • g.mat (bits x)) w = (1 : Matrix (Fin n → Bool) (Fin n → Bool) ℂ) (fun q => w q) fun q => y q := by
      rw [← h1]
      refine Finset.sum_congr rfl fun x _ => ?_
      rw [Pi.smul_apply, smul_eq_mul, hw, mul_comm]
      rfl
    rw [h2, Matrix.one_apply]
    unfold basisState
    have h3 : (∀ q < n, w q = y q) ↔ (fun q : Fin n => w q) = fun q : Fin n => y q :=
      ⟨fun h => funext fun q => h q q.2, fun h q hq => congrFun h ⟨q, hq⟩⟩
    simp only [h3]
  rw [e]
  exact Submodule.sum_mem _ fun x _ => Submodule.smul_mem _ _ (Submodule.subset_span ⟨_, rfl⟩)

/-- The diagram with inputs and outputs exchanged. -/
def flipIO (g : Graph) : Graph := { g with inputs := g.outputs, outputs := g.inputs }

theorem flipIO_wf {g : Graph} (h : g.WF) : g.flipIO.WF :=
  { h with inp := h.out, out := h.inp, io := fun v hv => h.io v hv.symm }

theorem flipIO_io {g : Graph} (h : g.IO) : g.flipIO.IO :=
  ⟨h.nodupOut, h.nodupIn, fun v hv hv' => h.disj v hv' hv, fun v hv ht => (h.all v hv ht).symm⟩

theorem flipIO_unit {g : Graph} (hg : g.WF) (hio : g.IO) {n : ℕ} (h : IsUnit (g.toMatrix n)) : IsUnit (g.flipIO.toMatrix n) := by
  have e : g.flipIO.toMatrix n = (g.toMatrix n).transpose := by
    ext y x
    show g.sem _ = g.sem _
    refine sem_congr hg fun v hv hb => ?_
    unfold bval flipIO
    simp only
    by_cases hi : v ∈ g.inputs
    · rw [if_neg (hio.disj v hi), if_pos hi]
    · rw [if_pos ((hio.all v hv hb).resolve_left hi), if_neg hi]
  rw [e]
  obtain ⟨B, h1, h2⟩ := isUnit_iff_exists.mp h
  exact isUnit_iff_exists.mpr ⟨B.transpose, by rw [← Matrix.transpose_mul, h2, Matrix.transpose_one],
    by rw [← Matrix.transpose_mul, h1, Matrix.transpose_one]⟩

/-! ### Outputs with a common neighbour -/

/-- Making the edge of an output simple. -/
theorem Onto.simplify {g : Graph} (h : g.Onto) (hg : g.WF) (hio : g.IO) {o v : ℕ} (ho : o ∈ g.outputs) (l : Leaf g o v) (hv : g.isX v = false) :
    ∃ g' : Graph, g'.Onto ∧ g'.WF ∧ g'.IO ∧ g'.outputs = g.outputs ∧ g'.ty = g.ty ∧ g'.verts = g.verts ∧ g'.adj v o = some .simple ∧
      (∀ a b, g'.adj a b = none ↔ g.adj a b = none) ∧ ∀ a b, b ≠ o → a ≠ o → g'.adj a b = g.adj a b := by
  have hne : v ≠ o := by rintro rfl; exact l.adj (hg.loopless _)
  have hvo : g.adj v o ≠ none := by rw [hg.symm]; exact l.adj
  obtain ⟨e, he⟩ := Option.ne_none_iff_exists'.mp hvo
  cases e with
  | simple => exact ⟨g, h, hg, hio, rfl, rfl, rfl, he, fun _ _ => Iff.rfl, fun _ _ _ _ => rfl⟩
  | wio => exact absurd he (hg.noWio v o)
  | had =>
    obtain ⟨q, hq⟩ := List.getElem?_of_mem ho
    have hE : GExt g (g.setAdj v o (some .simple)) [.had q] := GExt.of_had (g' := g.setAdj v o (some .simple)) hio rfl rfl hq (Graph.sem_had hg l hv he)
    refine ⟨g.setAdj v o (some .simple), h.ext hE, setAdj_wf hg hvo .simple (by simp),
      ⟨hio.nodupIn, hio.nodupOut, hio.disj, hio.all⟩, rfl, rfl, rfl, setAdj_adj_self g v o _, setAdj_none_iff hg.toInv hvo _, fun a b h1 h2 => ?_⟩
    exact setAdj_adj_other g _ (by rintro ⟨-, rfl⟩; exact h1 rfl) (by rintro ⟨rfl, -⟩; exact h2 rfl)

theorem Leaf.of {g g' : Graph} {o v : ℕ} (l : Leaf g o v) (hv : g'.verts = g.verts) (ht : g'.ty = g.ty)
    (ha : ∀ a b, g'.adj a b = none ↔ g.adj a b = none) : Leaf g' o v :=
  ⟨by rw [hv]; exact l.mem, by rw [ht]; exact l.bnd, fun e => l.adj ((ha _ _).mp e), fun w hw => l.only w fun e => hw ((ha _ _).mpr e)⟩

theorem isX_congr {g g' : Graph} (h : g'.ty = g.ty) (v : ℕ) : g'.isX v = g.isX v := by unfold isX; rw [h]

theorem Onto.no_two {g : Graph} (h : g.Onto) (hg : g.WF) (hio : g.IO) {o o' v : ℕ} (ho : o ∈ g.outputs) (ho' : o' ∈ g.outputs)
    (l : Leaf g o v) (l' : Leaf g o' v) (hv : g.isX v = false) : o = o' := by
  by_contra hne
  obtain ⟨g1, a1, a2, a3, a4, a5, a6, a7, a8, a9⟩ := h.simplify hg hio ho l hv
  obtain ⟨g2, b1, b2, b3, b4, b5, b6, b7, b8, b9⟩ := a1.simplify a2 a3 (by rw [a4]; exact ho') (l'.of a6 a5 a8) (by rw [isX_congr a5]; exact hv)
  have hvo : v ≠ o' := by rintro rfl; exact l'.adj (hg.loopless _)
  have h2 : g2.adj v o = some .simple := by rw [b9 _ _ hne hvo]; exact a7
  exact hne (b1.two_simple b2 b3 (by rw [b4, a4]; exact ho) (by rw [b4, a4]; exact ho') ((l.of a6 a5 a8).of b6 b5 b8)
    ((l'.of a6 a5 a8).of b6 b5 b8) (by rw [isX_congr b5, isX_congr a5]; exact hv) h2 b7)

theorem Onto.no_wire {g : Graph} (h : g.Onto) (hg : g.WF) (hio : g.IO) {o o' : ℕ} (ho : o ∈ g.outputs) (ho' : o' ∈ g.outputs)
    (l : Leaf g o o') : False := by
  have hne : o' ≠ o := by rintro rfl; exact l.adj (hg.loopless _)
  have hbo' : g.ty o' = .boundary := hg.io o' (Or.inr ho')
  obtain ⟨g1, a1, a2, a3, a4, a5, a6, a7, a8, a9⟩ := h.simplify hg hio ho l (isX_bnd hbo')
  have l1 := l.of a6 a5 a8
  obtain ⟨q, hq⟩ := List.getElem?_of_mem ho
  obtain ⟨q', hq'⟩ := List.getElem?_of_mem ho'
  rw [← a4] at hq hq'
  have hqq : q' ≠ q := by rintro rfl; rw [hq] at hq'; exact hne (Option.some.inj hq').symm
  obtain ⟨x, hx⟩ := a1.ne_zero (Function.update (fun _ => false) q true)
  refine hx ?_
  show g1.sem _ = 0
  have e1 : g1.bval x (Function.update (fun _ => false) q true) o = true := by rw [bval_out a3 hq, Function.update_self]
  have e2 : g1.bval x (Function.update (fun _ => false) q true) o' = false := by rw [bval_out a3 hq', Function.update_of_ne hqq]
  generalize g1.bval x (Function.update (fun _ => false) q true) = b at e1 e2
  rw [sem_eq_amp a2]
  unfold amp
  rw [psum_congr (g := fun _ => 0)]
  · simp [psum]
  · intro y hy
    refine weight_eq_zero a2.toInv l1 (isX_bnd (by rw [a5]; exact hbo')) a7 ?_
    rw [hy o (notMem_interior l1.bnd), hy o' (notMem_interior (by rw [a5]; exact hbo')), e1, e2]
    simp

theorem Extractable.gLike {n : ℕ} {g : Graph} (h : g.Extractable n) : Extract.GLike g := by
  have hg := h.zx.wf
  have hon := onto_of_unit hg h.io h.outs h.unit
  have hon' := onto_of_unit (flipIO_wf hg) (flipIO_io h.io) h.ins (flipIO_unit hg h.io h.unit)
  have hX : ∀ v, g.adj v v = none → ∀ u, g.adj v u ≠ none → g.isX v = false := by
    intro v _ u hu
    rcases h.tys v (hg.mem _ _ hu) with h1 | h1
    · exact isX_bnd h1
    · exact isX_Z h1
  have hleaf : ∀ b v, g.ty b = .boundary → g.adj v b ≠ none → Leaf g b v := by
    intro b v hb ha
    have hm : b ∈ g.verts := hg.toInv.mem' ha
    have ha' : g.adj b v ≠ none := by rw [hg.symm]; exact ha
    exact ⟨hm, hb, ha', fun w hw => h.zx.bdeg b hm hb w v hw ha'⟩
  refine ⟨h.zx, h.tys, h.zh, h.io, ?_, ?_, ?_⟩
  · intro v o o' ho ho' h1 h2
    exact hon.no_two hg h.io ho ho' (hleaf o v (hg.io o (Or.inr ho)) h1) (hleaf o' v (hg.io o' (Or.inr ho')) h2) (hX v (hg.loopless v) o h1)
  · intro o o' ho ho'
    by_contra hc
    exact hon.no_wire hg h.io ho ho' (hleaf o o' (hg.io o (Or.inr ho)) (by rw [hg.symm]; exact hc))
  · intro v o o' ho ho' h1 h2
    have l1 := hleaf o v (hg.io o (Or.inl ho)) h1
    have l2 := hleaf o' v (hg.io o' (Or.inl ho')) h2
    exact hon'.no_two (flipIO_wf hg) (flipIO_io h.io) (o := o) (o' := o') ho ho' ⟨l1.mem, l1.bnd, l1.adj, l1.only⟩ ⟨l2.mem, l2.bnd, l2.adj, l2.only⟩
      (hX v (hg.loopless v) o h1)

end Graph

namespace Extract

open Graph Simplify

theorem initSteps_spec {o : Orders} {g : Graph} : ∀ (l : List (ℕ × ℕ)) {s r : List ℕ × (ℕ → Option ℕ)}, l.foldlM (initStep o g) s = some r →
    (∀ p ∈ l, ∃ v, (o.nbr g p.1).head? = some v) ∧ (s.1.Nodup → (l.map fun p => (o.nbr g p.1).headD 0).Nodup →
    (∀ p ∈ l, (o.nbr g p.1).headD 0 ∉ s.1) → r.1.Nodup ∧ (∀ v ∈ s.1, v ∈ r.1 ∧ r.2 v = s.2 v) ∧
    (∀ p ∈ l, (o.nbr g p.1).headD 0 ∉ g.inputs → (o.nbr g p.1).headD 0 ∈ r.1 ∧ r.2 ((o.nbr g p.1).headD 0) = some p.2) ∧
    ∀ v ∈ r.1, v ∈ s.1 ∨ ∃ p ∈ l, (o.nbr g p.1).headD 0 = v ∧ v ∉ g.inputs) := by
  intro l
  induction l with
  | nil =>
    intro s r e
    rw [List.foldlM_nil] at e
    obtain rfl := Option.some.inj e
    exact ⟨by simp, fun h _ _ => ⟨h, fun v hv => ⟨hv, rfl⟩, by simp, fun v hv => Or.inl hv⟩⟩
  | cons p l ih =>
    intro s r e
    rw [List.foldlM_cons] at e
    obtain ⟨s1, e1, e2⟩ := Option.bind_eq_some_iff.mp e
    obtain ⟨h1, h2⟩ := ih e2
    unfold initStep at e1
    obtain ⟨v, hv, e1⟩ := Option.map_eq_some_iff.mp e1
    have hd : (o.nbr g p.1).headD 0 = v := by rw [List.headD_eq_head?_getD, hv]; rfl
    refine ⟨fun p' hp' => ?_, fun hs hn hl => ?_⟩
    · rcases List.mem_cons.mp hp' with rfl | hp'
      · exact ⟨v, hv⟩
      · exact h1 p' hp'
    rw [List.map_cons, List.nodup_cons, hd] at hn
    have hvs : v ∉ s.1 := by rw [← hd]; exact hl p (by simp)
    have hne : ∀ p' ∈ l, (o.nbr g p'.1).headD 0 ≠ v := fun p' hp' hc => hn.1 (List.mem_map.mpr ⟨p', hp', hc⟩)
    by_cases c : v ∈ g.inputs
    · rw [if_pos c] at e1
      subst e1
      obtain ⟨k1, k2, k3, k4⟩ := h2 hs hn.2 (fun p' hp' => hl p' (by simp [hp']))
      refine ⟨k1, k2, fun p' hp' hi => ?_, fun u hu => ?_⟩
      · rcases List.mem_cons.mp hp' with rfl | hp'
        · rw [hd] at hi; exact absurd c hi
        · exact k3 p' hp' hi
      · rcases k4 u hu with h3 | ⟨p', hp', h3⟩
        · exact Or.inl h3
        · exact Or.inr ⟨p', by simp [hp'], h3⟩
    · rw [if_neg c] at e1
      subst e1
      obtain ⟨k1, k2, k3, k4⟩ := h2 (by
        rw [List.nodup_append]
        refine ⟨hs, by simp, ?_⟩
        intro a ha b hb
        rw [List.mem_singleton] at hb
        rintro rfl
        rw [hb] at ha
        exact hvs ha) hn.2 (fun p' hp' hc => by
          rcases List.mem_append.mp hc with hc | hc
          · exact hl p' (by simp [hp']) hc
          · exact hne p' hp' (List.mem_singleton.mp hc))
      refine ⟨k1, fun u hu => ?_, fun p' hp' hi => ?_, fun u hu => ?_⟩
      · obtain ⟨k5, k6⟩ := k2 u (List.mem_append_left _ hu)
        refine ⟨k5, ?_⟩
        rw [k6]
        show Function.update s.2 v (some p.2) u = s.2 u
        rw [Function.update_of_ne]
        rintro rfl
        exact hvs hu
      · rcases List.mem_cons.mp hp' with rfl | hp'
        · rw [hd]
          obtain ⟨k5, k6⟩ := k2 v (List.mem_append_right _ (by simp))
          exact ⟨k5, by rw [k6]; exact Function.update_self _ _ _⟩
        · exact k3 p' hp' hi
      · rcases k4 u hu with h3 | ⟨p', hp', h3⟩
        · rcases List.mem_append.mp h3 with h3 | h3
          · exact Or.inl h3
          · rw [List.mem_singleton] at h3
            exact Or.inr ⟨p, by simp, by rw [hd, h3], by rw [h3]; exact c⟩
        · exact Or.inr ⟨p', by simp [hp'], h3⟩

theorem init_spec {o : Orders} (ho : o.OK) {n : ℕ} {g : Graph} (h : g.Extractable n) {s : State} (e : init o g = some s) : LoopInv g s := by
  unfold init at e
  obtain ⟨r, e1, rfl⟩ := Option.map_eq_some_iff.mp e
  have hgl := h.gLike
  have hg := h.zx.wf
  obtain ⟨h1, h2⟩ := initSteps_spec _ e1
  obtain ⟨nb, hnbd⟩ : ∃ nb : ℕ → ℕ, nb = fun v => (o.nbr g v).headD 0 := ⟨_, rfl⟩
  have hnb0 : ∀ v, (o.nbr g v).headD 0 = nb v := fun v => by rw [hnbd]
  simp only [hnb0] at h2
  have hnb : ∀ v ∈ g.outputs, g.adj v (nb v) ≠ none := by
    intro v hv
    obtain ⟨q, hq⟩ := List.getElem?_of_mem hv
    obtain ⟨i, hi⟩ := h1 (v, q) (List.mem_zipIdx_iff_getElem?.mpr hq)
    have hd : nb v = i := by
      simp only at hi
      rw [← hnb0, List.headD_eq_head?_getD, hi]; rfl
    rw [hd, ← mem_nbrs hg.toInv, ← (ho.nbr g v (hg.out v hv)).2, List.mem_toFinset]
    exact List.mem_of_head? hi
  have hnb' : ∀ v ∈ g.outputs, g.adj (nb v) v ≠ none := fun v hv => by rw [hg.symm]; exact hnb v hv
  have honly : ∀ o1 ∈ g.outputs, ∀ v, g.adj v o1 ≠ none → v = nb o1 := fun o1 h1 v hv =>
    (hgl.leaf (hg.io o1 (Or.inr h1)) (hnb' o1 h1)).only v (by rw [hg.symm]; exact hv)
  have hmem : ∀ p, p ∈ g.outputs.zipIdx → g.outputs[p.2]? = some p.1 := fun p hp => List.mem_zipIdx_iff_getElem?.mp hp
  obtain ⟨k1, -, k3, k4⟩ := h2 (by simp) (by
    refine List.Nodup.map_on ?_ (List.Nodup.of_map (·.2) (by rw [List.zipIdx_map_snd]; exact List.nodup_range'))
    intro p hp p' hp' hpp
    have m1 := hmem p hp
    have m2 := hmem p' hp'
    have hoo := hgl.out1 (nb p.1) p.1 p'.1 (List.mem_of_getElem? m1) (List.mem_of_getElem? m2) (hnb' _ (List.mem_of_getElem? m1))
      (by rw [hpp]; exact hnb' _ (List.mem_of_getElem? m2))
    refine Prod.ext hoo ?_
    have hlt := (List.getElem?_eq_some_iff.mp m1).1
    exact (List.getElem?_inj hlt h.io.nodupOut).mp (by rw [m1, m2, hoo])) (by simp)
  have hfr : Front g r.1 r.2 := by
    refine ⟨k1, fun v hv => ?_, fun v hv o1 ho1 ha => ?_⟩
    · rcases k4 v hv with h3 | ⟨p, hp, rfl, hni⟩
      · simp at h3
      have m1 := hmem p hp
      have m2 := List.mem_of_getElem? m1
      refine ⟨?_, p.2, p.1, (k3 p hp hni).2, m1, hnb' _ m2⟩
      have hm := hg.mem _ _ (hnb' _ m2)
      rcases h.tys _ hm with h3 | h3
      · rcases h.io.all _ hm h3 with h4 | h4
        · exact absurd h4 hni
        · exact absurd (hgl.oo _ _ m2 h4) (hnb _ m2)
      · exact h3
    · left
      obtain ⟨q, hq⟩ := List.getElem?_of_mem ho1
      have hvn := honly o1 ho1 v ha
      rw [hvn]
      refine (k3 (o1, q) (List.mem_zipIdx_iff_getElem?.mpr hq) ?_).1
      intro hc
      have hc : nb o1 ∈ g.inputs := hc
      rw [← hvn] at hc
      rw [hg.io v (Or.inl hc)] at hv
      simp at hv
  refine ⟨hgl, onto_of_unit hg h.io h.outs h.unit, GExt.refl g, hfr, fun w hw => ?_⟩
  unfold initGadgets at hw
  obtain ⟨v, hv, hw⟩ := Finset.mem_biUnion.mp hw
  obtain ⟨hv1, hv2, hv3, hv4⟩ := Finset.mem_filter.mp hv
  have hvZ : g.ty v = .Z := by
    rcases h.tys v hv1 with h3 | h3
    · rcases h.io.all v hv1 h3 with h4 | h4
      · exact absurd h4 hv3
      · exact absurd h4 hv4
    · exact h3
  have hvw := (mem_nbrs hg.toInv).mp hw
  obtain ⟨g1, g2, g3, u, g4, g5⟩ := h.gad v hv1 hvZ hv2 w hvw
  refine ⟨g1, g2, ?_, g3, v, u, hvZ, by rw [hg.symm]; exact hvw, ?_, g4, g5⟩
  · intro hc
    obtain ⟨-, q, o1, -, m1, m2⟩ := hfr.each w hc
    have := g3 o1 m2
    rw [hg.io o1 (Or.inr (List.mem_of_getElem? m1))] at this
    simp at this
  · intro x hx
    obtain ⟨a, ha⟩ := Finset.card_eq_one.mp hv2
    have e3 := (mem_nbrs hg.toInv).mpr hx
    rw [ha, Finset.mem_singleton] at e3 hw
    rw [e3, hw]

end Extract
end PyZX
