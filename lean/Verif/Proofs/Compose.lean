import Verif.Proofs.Paste
import Verif.Proofs.Ids
import Mathlib.Data.List.GetD

/-!
# Composition of diagrams
-/

namespace PyZX
namespace Graph

open Finset

theorem Removed.trans {g g1 g2 : Graph} {R T : Finset ℕ} (h : Removed g g1 R) (h' : Removed g1 g2 T) : Removed g g2 (R ∪ T) where
  verts := by rw [h'.verts, h.verts]; ext w; simp only [mem_sdiff, mem_union]; tauto
  ty := h'.ty.trans h.ty
  phase := h'.phase.trans h.phase
  label := h'.label.trans h.label
  adj a b ha hb := by
    rw [mem_union, not_or] at ha hb
    rw [h'.adj a b ha.2 hb.2, h.adj a b ha.1 hb.1]
  wOn S hS x := by
    rw [disjoint_union_right] at hS
    rw [h'.wOn S hS.2, h.wOn S hS.1]
  inputs := by
    rw [h'.inputs, h.inputs, List.filter_filter]
    refine List.filter_congr fun w _ => ?_
    simp [Bool.and_comm]
  outputs := by
    rw [h'.outputs, h.outputs, List.filter_filter]
    refine List.filter_congr fun w _ => ?_
    simp [Bool.and_comm]

/-- Removing vertices one after the other. -/
theorem removeOneByOne (l : List ℕ) : ∀ {g : Graph}, g.WF → l.Nodup → (∀ v ∈ l, v ∈ g.verts) →
    ∃ g', l.foldlM (fun g v => g.removeVertices [v]) g = some g' ∧ Removed g g' l.toFinset ∧ g'.WF := by
  induction l with
  | nil =>
    intro g hg _ _
    exact ⟨g, rfl, ⟨by simp, rfl, rfl, rfl, fun _ _ _ _ => rfl, fun _ _ _ => rfl, by simp, by simp⟩, hg⟩
  | cons v l ih =>
    intro g hg hn hv
    rw [List.nodup_cons] at hn
    obtain ⟨g1, h1⟩ := removeVertices_isSome hg.toInv (vs := [v]) (by simp) (by simpa using hv v (by simp))
    obtain ⟨r1, -, -, w1⟩ := removeVertices_spec h1
    obtain ⟨g', h', r', w'⟩ := ih (w1 hg) hn.2 (fun w hw => by
      rw [r1.verts, mem_sdiff]
      exact ⟨hv w (by simp [hw]), by simpa using fun (h : w = v) => hn.1 (by rwa [h] at hw)⟩)
    refine ⟨g', ?_, ?_, w'⟩
    · rw [List.foldlM_cons, h1]; exact h'
    · have := r1.trans r'
      convert this using 1
      ext w; simp

/-! ### Boundary wires -/

/-- The weight with the boundary wires split off. -/
theorem coreW_wires {g : Graph} (hg : g.WF) {L : Finset ℕ} (hL : L ⊆ g.verts) (hb : ∀ v ∈ L, g.ty v = .boundary) {n : ℕ → ℕ}
    (hn : ∀ v ∈ L, n v ∉ L ∧ ∀ w, g.adj v w ≠ none → w = n v) (hnv : ∀ v ∈ L, n v ∈ g.verts) (x : ℕ → Bool) :
    g.coreW g.verts x = g.coreW (g.verts \ L) x * ∏ v ∈ L, g.edgeK x v (n v) := by
  have key : ∀ T ⊆ L, g.coreW ((g.verts \ L) ∪ T) x = g.coreW (g.verts \ L) x * ∏ v ∈ T, g.edgeK x v (n v) := by
    intro T
    induction T using Finset.induction_on with
    | empty => intro _; simp
    | insert v T hv ih =>
      intro hT
      have hvL : v ∈ L := hT (mem_insert_self _ _)
      have hnm : v ∉ (g.verts \ L) ∪ T := by
        rw [mem_union, not_or]
        exact ⟨fun h => (mem_sdiff.mp h).2 hvL, hv⟩
      rw [union_insert, coreW_insert hg.symm hnm, ih fun u hu => hT (mem_insert_of_mem hu), prod_insert hv]
      have h1 : g.vwt v (x v) = 1 := by
        unfold vwt vval
        rw [hb v hvL]
        split <;> rfl
      have h2 : ∏ w ∈ (g.verts \ L) ∪ T, g.edgeK x v w = g.edgeK x v (n v) := by
        refine prod_eq_single (n v) (fun w _ hw => edgeK_none ?_) fun h => ?_
        · by_contra hne
          exact hw ((hn v hvL).2 w hne)
        · exact absurd (mem_union_left _ (mem_sdiff.mpr ⟨hnv v hvL, (hn v hvL).1⟩)) h
      rw [h1, h2]
      ring
  have := key L (Subset.refl _)
  rwa [sdiff_union_of_subset hL] at this

theorem prod_range_getD {L : List ℕ} (hL : L.Nodup) (f : ℕ → ℂ) : ∏ v ∈ L.toFinset, f v = ∏ k ∈ range L.length, f (L.getD k 0) := by
  induction L with
  | nil => simp
  | cons v L ih =>
    rw [List.nodup_cons] at hL
    rw [List.toFinset_cons, prod_insert (by simpa using hL.1), ih hL.2, List.length_cons, prod_range_succ']
    simp [mul_comm]

/-! ### Connecting the plugs -/

/-- The loop that adds the connecting edges. -/
theorem plugEdges_spec {V : Finset ℕ} {ρ : ℕ → ℕ} {vt : ℕ → Option ℕ} (hV : ∀ v, ρ v ∉ V) (hρ : Function.Injective ρ) (ps : List (ℕ × ℕ × EType)) :
    ∀ {h : Graph}, h.WF → (∀ p ∈ ps, vt p.2.1 = some (ρ p.2.1) ∧ p.1 ∈ V ∧ p.1 ∈ h.verts ∧ ρ p.2.1 ∈ h.verts ∧ p.2.2 ≠ .wio) →
    (∀ p ∈ ps, h.adj p.1 (ρ p.2.1) = none ∨ ((h.ty p.1).zxLike ∧ (h.ty (ρ p.2.1)).zxLike)) →
    ps.Pairwise (fun p q => ¬ (p.1 = q.1 ∧ p.2.1 = q.2.1) ∨ ((h.ty p.1).zxLike ∧ (h.ty (ρ p.2.1)).zxLike)) →
    ∃ h', ps.foldlM (plugEdge vt) h = some h' ∧ h'.WF ∧ SameFrame h h' ∧
      ∀ x, h'.wOn h.verts x = h.wOn h.verts x * (ps.map fun p => kern (h.eff p.1 (ρ p.2.1) p.2.2) (x p.1) (x (ρ p.2.1))).prod := by
  induction ps with
  | nil => intro h hw _ _ _; exact ⟨h, rfl, hw, SameFrame.refl h, fun x => by simp⟩
  | cons p ps ih =>
    intro h hw h1 h2 h3
    rw [List.pairwise_cons] at h3
    obtain ⟨k1, k2, k3, k4, k5⟩ := h1 p (by simp)
    have hne : p.1 ≠ ρ p.2.1 := fun e => hV _ (e ▸ k2)
    obtain ⟨g1, e1⟩ := addEdge_isSome hw k3 k4 hne k5 (h2 p (by simp))
    have fr := addEdge_frame e1
    have w1 := hw.addEdge e1 hne k5
    obtain ⟨h', e', w', fr', we⟩ := ih w1 (fun q hq => by
        obtain ⟨m1, m2, m3, m4, m5⟩ := h1 q (by simp [hq])
        exact ⟨m1, m2, by rwa [fr.verts], by rwa [fr.verts], m5⟩) (fun q hq => by
        rw [fr.ty]
        by_cases c : p.1 = q.1 ∧ p.2.1 = q.2.1
        · rcases h3.1 q hq with h | h
          · exact absurd c h
          · rw [← c.1, ← c.2]; exact Or.inr h
        · have hnp : ¬ SamePair (q.1, ρ q.2.1) (p.1, ρ p.2.1) := by
            rintro (⟨c1, c2⟩ | ⟨c1, c2⟩)
            · exact c ⟨c1.symm, (hρ c2).symm⟩
            · exact hV p.2.1 ((show q.1 = ρ p.2.1 from c1) ▸ (h1 q (by simp [hq])).2.1)
          rw [addEdge_adj_other e1 hnp]
          exact h2 q (by simp [hq])) (by rw [fr.ty]; exact h3.2)
    refine ⟨h', ?_, w', fr.trans fr', fun x => ?_⟩
    · rw [List.foldlM_cons]
      have : plugEdge vt h p = some g1 := by
        unfold plugEdge
        rw [k1]
        exact e1
      rw [this]
      exact e'
    · rw [fr.verts] at we
      have hf : (fun p : ℕ × ℕ × EType => kern (g1.eff p.1 (ρ p.2.1) p.2.2) (x p.1) (x (ρ p.2.1))) =
          fun p => kern (h.eff p.1 (ρ p.2.1) p.2.2) (x p.1) (x (ρ p.2.1)) := funext fun p => by rw [fr.eff]
      rw [we, wOn_addEdge e1 hw.symm k3 k4 hne, hf, List.map_cons, List.prod_cons]
      ring

theorem coreW_of_removed {g g' : Graph} {R S : Finset ℕ} (h : Removed g g' R) (hS : Disjoint S R) (x : ℕ → Bool) : g'.coreW S x = g.coreW S x := by
  unfold coreW
  congr 1
  · refine prod_congr rfl fun v _ => ?_
    unfold vwt vval
    rw [h.ty, h.phase, h.label]
  · refine pairProd_congr fun a ha b hb _ => ?_
    unfold edgeK eff isX
    rw [h.ty, h.adj a b (Finset.disjoint_left.mp hS ha) (Finset.disjoint_left.mp hS hb)]

/-- Kind of the kernel of the wire from `v` to its neighbour `n`. -/
def wireK (g : Graph) (v n : ℕ) : Bool := match g.adj v n with
  | none => false
  | some e => g.eff v n e

/-- The tensor with the boundary wires split off. -/
theorem sem_wires {g : Graph} (hg : g.WF) {L : List ℕ} (hd : L.Nodup) (hL : ∀ v ∈ L, v ∈ g.verts ∧ g.ty v = .boundary) {n : ℕ → ℕ}
    (hn : ∀ v ∈ L, n v ∉ L ∧ g.adj v (n v) ≠ none ∧ ∀ w, g.adj v w ≠ none → w = n v) {b c : ℕ → Bool}
    (hbc : ∀ v ∈ g.verts, v ∉ L → g.ty v = .boundary → b v = c v) :
    g.sem b = g.scalar.toNumber * psum g.interior (fun u => g.coreW (g.verts \ L.toFinset) u *
      ∏ k ∈ range L.length, kern (g.wireK (L.getD k 0) (n (L.getD k 0))) (b (L.getD k 0)) (u (n (L.getD k 0)))) c := by
  have hnv : ∀ v ∈ L, n v ∈ g.verts := fun v hv => hg.mem _ v (by rw [hg.symm]; exact (hn v hv).2.1)
  have hk : ∀ k ∈ range L.length, L.getD k 0 ∈ L := fun k hk => by
    rw [List.getD_eq_getElem _ _ (mem_range.mp hk)]; exact List.getElem_mem _
  rw [sem_eq_amp hg, amp_eq_coreAmp]
  congr 1
  unfold coreAmp
  have h1 : psum g.interior (g.coreW g.verts) b = psum g.interior (fun u => g.coreW (g.verts \ L.toFinset) u *
      ∏ k ∈ range L.length, kern (g.wireK (L.getD k 0) (n (L.getD k 0))) (b (L.getD k 0)) (u (n (L.getD k 0)))) b := by
    refine psum_congr fun u hu => ?_
    rw [coreW_wires hg (L := L.toFinset) (n := n) (fun v hv => (hL v (by simpa using hv)).1) (fun v hv => (hL v (by simpa using hv)).2)
      (fun v hv => by simpa using ⟨(hn v (by simpa using hv)).1, (hn v (by simpa using hv)).2.2⟩) (fun v hv => hnv v (by simpa using hv)),
      prod_range_getD hd]
    congr 1
    refine prod_congr rfl fun k hk' => ?_
    have hv := hk k hk'
    generalize L.getD k 0 = v at hv
    rw [← hu v (fun h => (mem_filter.mp h).2 (hL v hv).2)]
    unfold edgeK wireK
    cases hadj : g.adj v (n v) with
    | none => exact absurd hadj (hn v hv).2.1
    | some e => rfl
  rw [h1]
  refine psum_env (S := g.verts \ L.toFinset) (fun x y hxy => ?_) (fun v hv hvi => ?_)
  · rw [coreW_congr_env hxy]
    congr 1
    refine prod_congr rfl fun k hk' => ?_
    rw [hxy _ (mem_sdiff.mpr ⟨hnv _ (hk k hk'), by simpa using (hn _ (hk k hk')).1⟩)]
  · rw [mem_sdiff] at hv
    refine hbc v hv.1 (by simpa using hv.2) ?_
    by_contra h
    exact hvi (mem_filter.mpr ⟨hv.1, h⟩)

theorem mapM_some {α β : Type} {f : α → Option β} {F : α → β} {l : List α} (h : ∀ a ∈ l, f a = some (F a)) : l.mapM f = some (l.map F) := by
  induction l with
  | nil => rfl
  | cons v l ih =>
    rw [List.mapM_cons, h v (by simp), ih fun w hw => h w (by simp [hw])]
    rfl

theorem zip_pairwise {L M : List ℕ} (hL : L.Nodup) : (L.zip M).Pairwise fun q r => q.1 ≠ r.1 := by
  induction L generalizing M with
  | nil => simp
  | cons v L ih =>
    cases M with
    | nil => simp
    | cons w M =>
      rw [List.nodup_cons] at hL
      rw [List.zip_cons_cons, List.pairwise_cons]
      exact ⟨fun q hq (e : v = q.1) => hL.1 (e ▸ (List.of_mem_zip hq).1), ih hL.2⟩

theorem zip_prod {L M : List ℕ} (h : L.length = M.length) (f : ℕ × ℕ → ℂ) :
    ((L.zip M).map f).prod = ∏ k ∈ range L.length, f (L.getD k 0, M.getD k 0) := by
  induction L generalizing M with
  | nil => simp
  | cons v L ih =>
    cases M with
    | nil => simp at h
    | cons w M =>
      rw [List.zip_cons_cons, List.map_cons, List.prod_cons, ih (by simpa using h), List.length_cons, prod_range_succ']
      simp [mul_comm]

theorem zxLike_of {g : Graph} (hg : g.WF) (hb : BDeg g) {a u v : ℕ} (huv : u ≠ v) (hu : g.adj u a ≠ none) (hv : g.adj v a ≠ none) : (g.ty a).zxLike := by
  have ha : a ∈ g.verts := hg.mem a u (by rwa [hg.symm])
  rcases hg.types a ha with h | h | h | h
  · exact absurd (hb a ha h u v (by rwa [hg.symm]) (by rwa [hg.symm])) huv
  all_goals rw [h]; rfl

theorem ord_single {g : Graph} (hg : g.WF) {ord : ℕ → List ℕ} (h : Rules.NbrOrder g ord) {v n : ℕ} (hv : v ∈ g.verts) (h1 : g.adj v n ≠ none)
    (h2 : ∀ w, g.adj v w ≠ none → w = n) : ord v = [n] := by
  obtain ⟨hd, hs⟩ := h v hv
  have hn : g.nbrs v = {n} := by
    ext w
    rw [mem_nbrs hg.toInv, mem_singleton]
    exact ⟨h2 w, fun e => e ▸ h1⟩
  rw [hn] at hs
  have hlen : (ord v).length = 1 := by rw [← List.toFinset_card_of_nodup hd, hs, card_singleton]
  obtain ⟨a, ha⟩ := List.length_eq_one_iff.mp hlen
  rw [ha] at hs ⊢
  simpa using hs

theorem Wired.fn {g : Graph} {bs : List ℕ} (h : Wired g bs) :
    ∃ n : ℕ → ℕ, ∀ v ∈ bs, n v ∉ bs ∧ g.adj v (n v) ≠ none ∧ ∀ w, g.adj v w ≠ none → w = n v := by
  have : ∀ v, ∃ n, v ∈ bs → (n ∉ bs ∧ g.adj v n ≠ none ∧ ∀ w, g.adj v w ≠ none → w = n) := by
    intro v
    by_cases hv : v ∈ bs
    · obtain ⟨n, hn⟩ := h v hv
      exact ⟨n, fun _ => hn⟩
    · exact ⟨0, fun h => absurd h hv⟩
  choose n hn using this
  exact ⟨n, hn⟩

theorem composeInto_eq {g o : Graph} (hg : g.WF) (ho : o.WF) (hio : IO g) (hio' : IO o) (hb : BDeg g) (hb' : BDeg o) (hw : Wired g g.outputs)
    (hw' : Wired o o.inputs) (hlen : g.outputs.length = o.inputs.length) {ord ord' : ℕ → List ℕ} (hord : Rules.NbrOrder g ord)
    (hord' : Rules.NbrOrder o ord') {vs : List ℕ} {es : List (ℕ × ℕ)} (hvs : VertOrder o vs) (hes : EdgeOrder o es) :
    ∃ ρ g', composeInto g o ord ord' vs es = some g' ∧ g'.WF ∧ Function.Injective ρ ∧ (∀ v, ρ v ∉ g.verts \ g.outputs.toFinset) ∧
      g'.verts = (g.verts \ g.outputs.toFinset) ∪ (o.verts \ o.inputs.toFinset).image ρ ∧
      (∀ v ∈ g.verts \ g.outputs.toFinset, g'.ty v = g.ty v) ∧ (∀ v ∈ o.verts \ o.inputs.toFinset, g'.ty (ρ v) = o.ty v) ∧
      g'.inputs = g.inputs ∧ g'.outputs = o.outputs.map ρ ∧
      ∃ n n' : ℕ → ℕ, (∀ v ∈ g.outputs, n v ∉ g.outputs ∧ g.adj v (n v) ≠ none ∧ ∀ w, g.adj v w ≠ none → w = n v) ∧
        (∀ v ∈ o.inputs, n' v ∉ o.inputs ∧ o.adj v (n' v) ≠ none ∧ ∀ w, o.adj v w ≠ none → w = n' v) ∧
        ∀ x, g'.wOn g'.verts x = g.scalar.toNumber * o.scalar.toNumber * (g.coreW (g.verts \ g.outputs.toFinset) x *
          o.coreW (o.verts \ o.inputs.toFinset) (fun v => x (ρ v)) * ∏ k ∈ range g.outputs.length,
            kern (xor (g.wireK (g.outputs.getD k 0) (n (g.outputs.getD k 0))) (o.wireK (o.inputs.getD k 0) (n' (o.inputs.getD k 0))))
              (x (n (g.outputs.getD k 0))) (x (ρ (n' (o.inputs.getD k 0))))) := by
  obtain ⟨n, hn⟩ := hw.fn
  obtain ⟨n', hn'⟩ := hw'.fn
  set A := g.verts \ g.outputs.toFinset with hA
  set B := o.verts \ o.inputs.toFinset with hB
  have hnv : ∀ v ∈ g.outputs, n v ∈ g.verts := fun v hv => hg.mem _ v (by rw [hg.symm]; exact (hn v hv).2.1)
  have hnv' : ∀ v ∈ o.inputs, n' v ∈ o.verts := fun v hv => ho.mem _ v (by rw [ho.symm]; exact (hn' v hv).2.1)
  have hnA : ∀ v ∈ g.outputs, n v ∈ A := fun v hv => mem_sdiff.mpr ⟨hnv v hv, by simpa using (hn v hv).1⟩
  have hnB : ∀ v ∈ o.inputs, n' v ∈ B := fun v hv => mem_sdiff.mpr ⟨hnv' v hv, by simpa using (hn' v hv).1⟩
  -- the plugs
  set P : ℕ × ℕ → ℕ × ℕ × EType := fun q => (n q.1, n' q.2, if g.adj (n q.1) q.1 ≠ o.adj q.2 (n' q.2) then .had else .simple) with hP
  have hplug : (g.outputs.zip o.inputs).mapM (plug g o ord ord') = some ((g.outputs.zip o.inputs).map P) := by
    refine mapM_some fun q hq => ?_
    obtain ⟨q1, q2⟩ := List.of_mem_zip hq
    unfold plug
    rw [ord_single hg hord (hg.out _ q1) (hn _ q1).2.1 (hn _ q1).2.2, ord_single ho hord' (ho.inp _ q2) (hn' _ q2).2.1 (hn' _ q2).2.2]
  -- the outputs are removed
  have hw0 : ({ g with scalar := g.scalar.multWithScalar o.scalar } : Graph).WF := hg.congr (hg.toInv.congr rfl rfl rfl rfl rfl rfl) rfl rfl rfl rfl rfl
  obtain ⟨g1, e1, r1, w1⟩ := removeOneByOne g.outputs hw0 hio.nodupOut hg.out
  have v1 : g1.verts = A := r1.verts
  have t1 : g1.ty = g.ty := r1.ty
  have i1 : g1.inputs = g.inputs := by
    rw [r1.inputs]
    refine List.filter_eq_self.mpr fun v hv => ?_
    simpa using hio.disj v hv
  have W1 : ∀ x, g1.wOn A x = g.scalar.toNumber * o.scalar.toNumber * g.coreW A x := fun x => by
    rw [r1.wOn A sdiff_disjoint, wOn_eq_coreW]
    show (g.scalar.multWithScalar o.scalar).toNumber * _ = _
    rw [Scalar.multWithScalar_toNumber]
    rfl
  -- the other graph is copied
  have hfs : (vs.filter (· ∉ o.inputs)).toFinset = B := by
    ext v
    simp only [List.mem_toFinset, List.mem_filter, decide_eq_true_eq, hB, mem_sdiff, hvs.2 v]
  obtain ⟨ρ, Q0, -, qi, qo, tb, -⟩ := copyVertices_spec ho 1 (vs.filter (· ∉ o.inputs)) g1 (fun _ => none) w1 (hvs.1.filter _)
    (fun v hv => (hvs.2 v).mp (List.mem_filter.mp hv).1)
  obtain ⟨g2, e2, Q, qi2, qo2⟩ := Q0.edges ho tb (es := es.filter fun p => p.1 ∉ o.inputs ∧ p.2 ∉ o.inputs) (hes.1.filter _) (fun p => by
      simp only [List.mem_filter, hes.2 p, decide_eq_true_eq]
      constructor
      · rintro ⟨⟨h1, h2⟩, h3, h4⟩
        exact ⟨h1, ⟨(hvs.2 _).mpr (ho.mem _ _ h2), h3⟩, ⟨(hvs.2 _).mpr (ho.mem _ _ (by rwa [ho.symm])), h4⟩, h2⟩
      · rintro ⟨h1, ⟨-, h3⟩, ⟨-, h4⟩, h2⟩; exact ⟨⟨h1, h2⟩, h3, h4⟩)
  rw [hfs] at Q
  have hfresh : ∀ v, ρ v ∉ A := fun v => v1 ▸ Q.fresh v
  have tbB : ∀ v ∈ B, (List.foldl (copyVertex o 1) (g1, fun _ => none) (vs.filter (· ∉ o.inputs))).2 v = some (ρ v) := fun v hv => by
    rw [← hfs] at hv
    exact tb v (by simpa using hv)
  have v2 : g2.verts = A ∪ B.image ρ := by rw [Q.verts, v1]
  have tA : ∀ v ∈ A, g2.ty v = g.ty v := fun v hv => by rw [Q.tyOld v (by rwa [v1]), t1]
  have tB : ∀ v ∈ B, g2.ty (ρ v) = o.ty v := Q.tyNew
  -- the plugs are connected
  obtain ⟨g3, e3, w3, fr3, W3⟩ := plugEdges_spec hfresh Q.inj ((g.outputs.zip o.inputs).map P) Q.wf
    (vt := (List.foldl (copyVertex o 1) (g1, fun _ => none) (vs.filter (· ∉ o.inputs))).2) (by
      intro p hp
      obtain ⟨q, hq, rfl⟩ := List.mem_map.mp hp
      obtain ⟨q1, q2⟩ := List.of_mem_zip hq
      refine ⟨tbB _ (hnB _ q2), hnA _ q1, ?_, ?_, ?_⟩
      · rw [v2]; exact mem_union_left _ (hnA _ q1)
      · rw [v2]; exact mem_union_right _ (mem_image_of_mem _ (hnB _ q2))
      · show (if _ then EType.had else EType.simple) ≠ _
        split <;> exact fun h => EType.noConfusion h) (by
      intro p hp
      obtain ⟨q, hq, rfl⟩ := List.mem_map.mp hp
      obtain ⟨q1, q2⟩ := List.of_mem_zip hq
      exact Or.inl (Q.cross _ (by rw [v1]; exact hnA _ q1) _ (hnB _ q2))) (by
      rw [List.pairwise_map]
      have hz1 := zip_pairwise (M := o.inputs) hio.nodupOut
      have hz2 : (g.outputs.zip o.inputs).Pairwise fun q r => q.2 ≠ r.2 := by
        have := zip_pairwise (M := g.outputs) hio'.nodupIn
        rw [← List.zip_swap, List.pairwise_map] at this
        exact this
      have := List.Pairwise.and_mem.mp (hz1.and hz2)
      refine this.imp fun {q r} ⟨hq, hr, c1, c2⟩ => ?_
      obtain ⟨q1, q2⟩ := List.of_mem_zip hq
      obtain ⟨r1', r2'⟩ := List.of_mem_zip hr
      by_cases c : n q.1 = n r.1 ∧ n' q.2 = n' r.2
      · right
        show (g2.ty (n q.1)).zxLike ∧ (g2.ty (ρ (n' q.2))).zxLike
        rw [tA _ (hnA _ q1), tB _ (hnB _ q2)]
        exact ⟨zxLike_of hg hb c1 (hn _ q1).2.1 (by rw [c.1]; exact (hn _ r1').2.1),
          zxLike_of ho hb' c2 (hn' _ q2).2.1 (by rw [c.2]; exact (hn' _ r2').2.1)⟩
      · exact Or.inl c)
  have v3 : g3.verts = A ∪ B.image ρ := by rw [fr3.verts, v2]
  have t3 : ∀ v ∈ B, g3.ty (ρ v) = o.ty v := fun v hv => by rw [fr3.ty]; exact tB v hv
  have t3A : ∀ v ∈ A, g3.ty v = g.ty v := fun v hv => by rw [fr3.ty]; exact tA v hv
  have hoB : ∀ v ∈ o.outputs, v ∈ B := fun v hv => mem_sdiff.mpr ⟨ho.out v hv, by simpa using fun h => hio'.disj v h hv⟩
  have wf' : ({ g3 with inputs := g3.inputs, outputs := o.outputs.map ρ } : Graph).WF := w3.setIO
    (fun v hv => ⟨w3.inp v hv, w3.io v (Or.inl hv)⟩) (fun w hw => by
      obtain ⟨v, hv, rfl⟩ := List.mem_map.mp hw
      exact ⟨by rw [v3]; exact mem_union_right _ (mem_image_of_mem _ (hoB v hv)), by rw [t3 v (hoB v hv)]; exact ho.io v (Or.inr hv)⟩)
  refine ⟨ρ, { g3 with outputs := o.outputs.map ρ }, ?_, wf', Q.inj, hfresh, v3, t3A, t3, ?_, rfl, n, n', hn, hn', fun x => ?_⟩
  · unfold composeInto
    rw [if_neg (by simpa using hlen), hplug]
    simp only [Option.bind_eq_bind, Option.bind_some]
    rw [e1, Option.bind_some]
    unfold copyVertices
    rw [e2, Option.bind_some, e3, Option.bind_some, mapM_table (fun v hv => tbB v (hoB v hv)), Option.bind_some]
    rfl
  · show g3.inputs = _
    rw [fr3.inputs, qi2, qi, i1]
  · show g3.wOn g3.verts x = _
    rw [fr3.verts, W3, v2, List.map_map, zip_prod hlen]
    have hW2 : g2.wOn (A ∪ B.image ρ) x = g.scalar.toNumber * o.scalar.toNumber * (g.coreW A x * o.coreW B fun v => x (ρ v)) := by
      rw [wOn_eq_coreW, Q.coreW ho (by rw [v1]) (Subset.refl _), Q.scalar, ← mul_assoc, ← wOn_eq_coreW, W1, scaled_one]
      ring
    have aux : ∀ s a b P Q : ℂ, P = Q → s * (a * b) * P = s * (a * b * Q) := by intro s a b P Q h; rw [h]; ring
    rw [hW2]
    refine aux _ _ _ _ _ (prod_congr rfl fun k hk => ?_)
    have hk1 : g.outputs.getD k 0 ∈ g.outputs := by rw [List.getD_eq_getElem _ _ (mem_range.mp hk)]; exact List.getElem_mem _
    have hk2 : o.inputs.getD k 0 ∈ o.inputs := by
      rw [List.getD_eq_getElem _ _ (by rw [← hlen]; exact mem_range.mp hk)]; exact List.getElem_mem _
    generalize g.outputs.getD k 0 = u at hk1
    generalize o.inputs.getD k 0 = w at hk2
    show kern (g2.eff (n u) (ρ (n' w)) (if g.adj (n u) u ≠ o.adj w (n' w) then .had else .simple)) (x (n u)) (x (ρ (n' w))) = _
    congr 1
    have a1 : g.isX u = false := by unfold isX; rw [hg.io u (Or.inr hk1)]; rfl
    have a2 : o.isX w = false := by unfold isX; rw [ho.io w (Or.inl hk2)]; rfl
    have b1 : g2.isX (n u) = g.isX (n u) := by unfold isX; rw [tA _ (hnA u hk1)]
    have b2 : g2.isX (ρ (n' w)) = o.isX (n' w) := by unfold isX; rw [tB _ (hnB w hk2)]
    unfold wireK eff
    rw [a1, a2, b1, b2, hg.symm (n u) u]
    obtain ⟨f1, hf1⟩ := Option.ne_none_iff_exists'.mp (hn u hk1).2.1
    obtain ⟨f2, hf2⟩ := Option.ne_none_iff_exists'.mp (hn' w hk2).2.1
    have n1 := hg.noWio u (n u)
    have n2 := ho.noWio w (n' w)
    rw [hf1] at n1 ⊢
    rw [hf2] at n2 ⊢
    generalize g.isX (n u) = X1
    generalize o.isX (n' w) = X2
    clear * - n1 n2
    cases f1 <;> cases f2 <;> first | exact absurd rfl n1 | exact absurd rfl n2 | (cases X1 <;> cases X2 <;> rfl)

end Graph
end PyZX
