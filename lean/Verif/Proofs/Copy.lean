import Verif.Model.Copy
import Verif.Proofs.StrongComp
import Verif.Proofs.Match

/-!
# The state copy rule: proofs
-/

namespace PyZX
open Finset Graph

namespace Graph

/-- `g'` has the new spiders `N`, and the same types and edges between the old vertices. -/
structure Grow (g g' : Graph) (N : Finset ℕ) : Prop where
  wf : g'.WF
  verts : g'.verts = g.verts ∪ N
  disj : Disjoint g.verts N
  ty : ∀ v ∈ g.verts, g'.ty v = g.ty v
  newTy : ∀ v ∈ N, g'.ty v ≠ .boundary
  adj : ∀ a ∈ g.verts, ∀ b ∈ g.verts, g'.adj a b = g.adj a b
  inputs : g'.inputs = g.inputs
  outputs : g'.outputs = g.outputs

theorem Grow.refl {g : Graph} (hg : g.WF) : Grow g g ∅ :=
  ⟨hg, by simp, by simp, fun _ _ => rfl, by simp, fun _ _ _ _ => rfl, rfl, rfl⟩

theorem Grow.sub {g g' : Graph} {N : Finset ℕ} (h : Grow g g' N) {v : ℕ} (hv : v ∈ g.verts) : v ∈ g'.verts := by
  rw [h.verts]; exact Finset.mem_union_left _ hv

theorem Grow.trans {g g' g'' : Graph} {N N' : Finset ℕ} (h : Grow g g' N) (h' : Grow g' g'' N') : Grow g g'' (N ∪ N') := by
  refine ⟨h'.wf, by rw [h'.verts, h.verts, Finset.union_assoc], ?_, fun v hv => (h'.ty v (h.sub hv)).trans (h.ty v hv), ?_,
    fun a ha b hb => (h'.adj a (h.sub ha) b (h.sub hb)).trans (h.adj a ha b hb), h'.inputs.trans h.inputs, h'.outputs.trans h.outputs⟩
  · rw [Finset.disjoint_union_right]
    exact ⟨h.disj, Finset.disjoint_of_subset_left (fun v hv => h.sub hv) h'.disj⟩
  · intro v hv
    rcases Finset.mem_union.mp hv with hv | hv
    · rw [h'.ty v (by rw [h.verts]; exact Finset.mem_union_right _ hv)]
      exact h.newTy v hv
    · exact h'.newTy v hv

/-- The same vertices, types, edges and boundary. -/
theorem Grow.same {g g' : Graph} (hg : g.WF) (h1 : g'.verts = g.verts) (h2 : g'.adj = g.adj) (h3 : g'.ty = g.ty) (h4 : g'.vindex = g.vindex)
    (h5 : g'.nedges = g.nedges) (h6 : g'.inputs = g.inputs) (h7 : g'.outputs = g.outputs) : Grow g g' ∅ :=
  ⟨hg.congr (hg.toInv.congr h1 h2 h4 h5 h6 h7) h1 h2 h3 h6 h7, by simp [h1], by simp, fun v _ => by rw [h3], by simp,
    fun a _ b _ => by rw [h2], h6, h7⟩

/-- `add_vertex` and `add_edge` from an old vertex to the new one. -/
theorem attachTo_spec {g : Graph} (hg : g.WF) {n : ℕ} (hn : n ∈ g.verts) {e : EType} (he : e ≠ .wio) (p : ℚ) :
    ∃ g2, (g.addVertex .Z p).addEdge n g.vindex e = some g2 ∧ Grow g g2 {g.vindex} ∧
      ∀ S : Finset ℕ, S ⊆ g.verts → n ∈ S → ∀ x, g2.wOn (insert g.vindex S) x =
        g.wOn S x * ((if x g.vindex then ph p else 1) * kern (xor (decide (e = .had)) (g.isX n)) (x n) (x g.vindex)) := by
  have hu := hg.toInv.notMem_vindex
  set u := g.vindex with hudef
  have hnu : n ≠ u := fun h => hu (h ▸ hn)
  obtain ⟨f1, f2, f3, f4, f5, f6, f7, f8, f9, f10⟩ := addVertex_fields g .Z p
  set g1 := g.addVertex .Z p with hg1
  have hw1 : g1.WF := hg.addVertex (by simp) p
  have hadj1 : g1.adj = g.adj := hg.toInv.addVertex_adj .Z p
  have hnone : g1.adj n u = none := by rw [hadj1]; exact hg.toInv.adj_vindex (Or.inr rfl)
  set g2 : Graph := { g1.setAdj n u (some e) with nedges := g1.nedges + 1 } with hg2
  have hadd : g1.addEdge n u e = some g2 := by
    unfold addEdge
    rw [if_neg (by rw [f1]; simp [hn]), hnone]
    simp only
    rw [if_neg (by rw [f1, hudef]; simp)]
  have hw2 : g2.WF := hw1.addEdge hadd hnu he
  have hne : ∀ v ∈ g.verts, v ≠ u := fun v hv h => hu (h ▸ hv)
  have hty : ∀ v, g2.ty v = if v = u then .Z else g.ty v := by
    intro v
    show g1.ty v = _
    rw [f3, Function.update_apply]
  refine ⟨g2, hadd, ⟨hw2, ?_, by simpa using hu, fun v hv => ?_, fun v hv => ?_, fun a ha b hb => ?_, f9, f10⟩, ?_⟩
  · show g1.verts = _
    rw [f1, Finset.union_comm]; rfl
  · rw [hty, if_neg (hne v hv)]
  · rw [Finset.mem_singleton] at hv
    rw [hty, if_pos hv]
    decide
  · show (if (a = n ∧ b = u) ∨ (a = u ∧ b = n) then some e else g1.adj a b) = _
    rw [if_neg, hadj1]
    rintro (⟨-, h⟩ | ⟨h, -⟩)
    · exact hne b hb h
    · exact hne a ha h
  · intro S hS hnS x
    have huS : u ∉ S := fun h => hu (hS h)
    rw [wOn_addEdge hadd hw1.symm (by simp [hnS]) (by simp) hnu, wOn_insert hw1.symm huS, wOn_addVertex hg.toInv .Z p huS]
    have h1 : ∏ w ∈ S, g1.edgeK x u w = 1 := Finset.prod_eq_one fun w _ => edgeK_none (by rw [hadj1]; exact hg.toInv.adj_vindex (Or.inl rfl))
    have h2 : g1.vwt u (x u) = if x u then ph p else 1 := by
      have : g1.vval u = ph p := by
        unfold vval
        rw [f3, f4, Function.update_self, Function.update_self, ph_mod2]
      unfold vwt
      rw [this]
    have h3 : g1.eff n u e = xor (decide (e = .had)) (g.isX n) := by
      unfold eff isX
      rw [f3, Function.update_self, Function.update_of_ne hnu]
      simp
    rw [h1, h2, h3]
    ring

end Graph

namespace Rules
open Graph Basic

theorem toggle_had {e : EType} (he : e ≠ .wio) : decide (e.toggle = .had) = !decide (e = .had) := by
  cases e <;> simp_all [EType.toggle]

theorem toggle_ne_wio {e : EType} (he : e ≠ .wio) : e.toggle ≠ .wio := by
  cases e <;> simp_all [EType.toggle]

/-- One neighbour of the copied spider. -/
theorem copyNbr_spec {g : Graph} (hg : g.WF) {w n : ℕ} {a : ℚ} (ha : a = 0 ∨ a = 1) (hw : g.ty w = .Z) (hadj : g.adj w n ≠ none)
    (hn : g.ty n = .boundary ∨ (g.ty n = .Z ∧ g.adj w n = some .had)) :
    ∃ g' N, copyNbr w a g n = some g' ∧ Grow g g' N ∧
      ∀ S : Finset ℕ, S ⊆ g.verts → n ∈ S → ∀ x, psum N (g'.wOn (S ∪ N)) x =
        g.wOn S x * (sq2 * kern (hadTo g w n) (decide (a = 1)) (x n)) := by
  obtain ⟨e, he⟩ := Option.ne_none_iff_exists'.mp hadj
  obtain ⟨hwm, hnm, -, -, hwio⟩ := hg.edge he
  have hpa : ph a = sgn (decide (a = 1)) := by rcases ha with h | h <;> simp [h, sgn]
  unfold copyNbr
  by_cases hb : g.ty n = .boundary
  · rw [if_pos hb]
    obtain ⟨g2, e1, hG, hS⟩ := attachTo_spec hg hnm (toggle_ne_wio hwio) a
    have hadj1 : (g.addVertex .Z a).adj w n = some e := by rw [hg.toInv.addVertex_adj, he]
    rw [hadj1, Option.bind_some, e1]
    have hG2 : Grow g2 (g2.addToPhase n a) ∅ := Grow.same hG.wf rfl rfl rfl rfl rfl rfl rfl
    refine ⟨_, {g.vindex}, rfl, by simpa using hG.trans hG2, fun S hS1 hn1 x => ?_⟩
    have hu : g.vindex ∉ S := fun h => hg.toInv.notMem_vindex (hS1 h)
    have hnu : n ≠ g.vindex := fun h => hu (h ▸ hn1)
    have hX : g.isX n = false := by unfold isX; rw [hb]; rfl
    have hh : hadTo g w n = decide (e = .had) := by
      unfold hadTo eff
      rw [he]
      have : g.isX w = false := by unfold isX; rw [hw]; rfl
      simp [hX, this]
    have hE : S ∪ {g.vindex} = insert g.vindex S := by rw [Finset.union_comm]; rfl
    have key : ∀ b, (g2.addToPhase n a).wOn (S ∪ {g.vindex}) (Function.update x g.vindex b) =
        g.wOn S x * ((if b then sgn (decide (a = 1)) else 1) * kern (!hadTo g w n) b (x n)) := by
      intro b
      rw [wOn_addToPhase_boundary g2 (by rw [hG.ty n hnm]; exact hb), hE, hS S hS1 hn1, Function.update_self, Function.update_of_ne hnu, hpa,
        hX, Bool.xor_false, toggle_had hwio, ← hh, wOn_congr_env (y := x), kern_comm]
      intro v hv
      rw [Function.update_of_ne]
      rintro rfl
      exact hu hv
    rw [show ({g.vindex} : Finset ℕ) = insert g.vindex ∅ from rfl, psum_insert_env (by simp), psum_empty, psum_empty]
    rw [show insert g.vindex (∅ : Finset ℕ) = {g.vindex} from rfl, key, key, ← mul_add]
    have := leg_sum (hadTo g w n) (decide (a = 1)) false (x n)
    simp only [sgn, Bool.false_eq_true, if_false, if_true, one_mul, Bool.xor_false] at this ⊢
    rw [this]
  · rw [if_neg hb]
    rcases hn with hn | ⟨hz, hh⟩
    · exact absurd hn hb
    refine ⟨g.addToPhase n a, ∅, rfl, Grow.same hg rfl rfl rfl rfl rfl rfl rfl, fun S hS1 hn1 x => ?_⟩
    have hh : hadTo g w n = true := by
      unfold hadTo eff isX
      rw [hh, hw, hz]
      rfl
    rw [psum_empty, Finset.union_empty, wOn_addToPhase g hn1 hb (by rw [hz]; decide), hh, hpa]
    congr 1
    have : sq2 * sq2⁻¹ = 1 := mul_inv_cancel₀ sq2_ne_zero
    simp only [kern, hmat, if_true, ← mul_assoc, this, one_mul]
    rcases decide (a = 1) <;> rcases x n <;> simp [sgn]

theorem hadTo_grow {g g' : Graph} {N : Finset ℕ} (h : Grow g g' N) {v w : ℕ} (hv : v ∈ g.verts) (hw : w ∈ g.verts) :
    hadTo g' v w = hadTo g v w := by
  unfold hadTo eff isX
  rw [h.adj v hv w hw, h.ty v hv, h.ty w hw]

/-- The neighbours of the copied spider. -/
theorem copyNbrs_spec {w : ℕ} {a : ℚ} (ha : a = 0 ∨ a = 1) (ns : List ℕ) : ∀ {g : Graph}, g.WF → g.ty w = .Z → (∀ n ∈ ns, g.adj w n ≠ none) →
    (∀ n ∈ ns, g.ty n = .boundary ∨ (g.ty n = .Z ∧ g.adj w n = some .had)) →
    ∃ g' N, ns.foldlM (copyNbr w a) g = some g' ∧ Grow g g' N ∧
      ∀ S : Finset ℕ, S ⊆ g.verts → (∀ n ∈ ns, n ∈ S) → ∀ x, psum N (g'.wOn (S ∪ N)) x =
        g.wOn S x * (ns.map fun n => sq2 * kern (hadTo g w n) (decide (a = 1)) (x n)).prod := by
  induction ns with
  | nil => exact fun {g} hg _ _ _ => ⟨g, ∅, rfl, Grow.refl hg, fun S _ _ x => by simp⟩
  | cons n ns ih =>
    intro g hg hw hadj hty
    obtain ⟨g1, N1, e1, G1, s1⟩ := copyNbr_spec hg ha hw (hadj n (by simp)) (hty n (by simp))
    have hmem : ∀ k ∈ n :: ns, w ∈ g.verts ∧ k ∈ g.verts := by
      intro k hk
      obtain ⟨e, he⟩ := Option.ne_none_iff_exists'.mp (hadj k hk)
      obtain ⟨h1, h2, -⟩ := hg.edge he
      exact ⟨h1, h2⟩
    have hwm := (hmem n (by simp)).1
    have hnm : ∀ k ∈ ns, k ∈ g.verts := fun k hk => (hmem k (by simp [hk])).2
    obtain ⟨g', N2, e2, G2, s2⟩ := ih G1.wf (by rw [G1.ty w hwm]; exact hw)
      (fun k hk => by rw [G1.adj w hwm k (hnm k hk)]; exact hadj k (by simp [hk]))
      (fun k hk => by rw [G1.adj w hwm k (hnm k hk), G1.ty k (hnm k hk)]; exact hty k (by simp [hk]))
    refine ⟨g', N1 ∪ N2, by rw [List.foldlM_cons, e1]; exact e2, G1.trans G2, fun S hS hn x => ?_⟩
    have hd : Disjoint N1 N2 := by
      refine Finset.disjoint_of_subset_left ?_ G2.disj
      rw [G1.verts]
      exact Finset.subset_union_right
    have hS1 : S ∪ N1 ⊆ g1.verts := by
      rw [G1.verts]
      exact Finset.union_subset_union hS (le_refl _)
    rw [psum_union hd]
    have e3 : ∀ y, psum N2 (g'.wOn (S ∪ (N1 ∪ N2))) y = g1.wOn (S ∪ N1) y * (ns.map fun n => sq2 * kern (hadTo g w n) (decide (a = 1)) (y n)).prod := by
      intro y
      rw [← Finset.union_assoc, s2 (S ∪ N1) hS1 (fun k hk => Finset.mem_union_left _ (hn k (by simp [hk])))]
      congr 2
      refine List.map_congr_left fun k hk => ?_
      rw [hadTo_grow G1 hwm (hnm k hk)]
    have e4 : psum N1 (psum N2 (g'.wOn (S ∪ (N1 ∪ N2)))) x =
        psum N1 (fun y => g1.wOn (S ∪ N1) y * (ns.map fun n => sq2 * kern (hadTo g w n) (decide (a = 1)) (x n)).prod) x := by
      refine psum_congr fun y hy => ?_
      rw [e3]
      congr 2
      refine List.map_congr_left fun k hk => ?_
      rw [hy k (fun h => Finset.disjoint_left.mp G1.disj (hnm k hk) h)]
    rw [e4, psum_mul_const, s1 S hS (hn n (by simp)), List.map_cons, List.prod_cons]
    ring

/-- A match to which the rule applies. -/
structure CopyOK (g : Graph) (m : CopyMatch) : Prop where
  v : m.v ∈ g.verts
  tv : g.ty m.v = .Z
  tw : g.ty m.w = .Z
  a : g.phase m.v = m.a
  pauli : m.a = 0 ∨ m.a = 1
  alpha : g.phase m.w = m.alpha
  had : g.adj m.v m.w = some .had
  leaf : ∀ u, u ≠ m.w → g.adj m.v u = none
  nodup : m.neigh.Nodup
  neigh : ∀ u, u ∈ m.neigh ↔ u ≠ m.v ∧ g.adj m.w u ≠ none
  nty : ∀ n ∈ m.neigh, g.ty n = .boundary ∨ (g.ty n = .Z ∧ g.adj m.w n = some .had)

/-- The factor that replaces the two spiders of a match. -/
noncomputable def copyF (g : Graph) (m : CopyMatch) (x : ℕ → Bool) : ℂ :=
  sq2 * (if m.a = 1 then ph m.alpha else 1) * (m.neigh.map fun n => kern (hadTo g m.w n) (decide (m.a = 1)) (x n)).prod

/-- The two spiders of a match. -/
def copyG (m : CopyMatch) : Finset ℕ := {m.v, m.w}

theorem copy_sumOut {g : Graph} (hg : g.WF) {m : CopyMatch} (h : CopyOK g m) {U : Finset ℕ} (hU : Disjoint U (copyG m)) (hn : ∀ n ∈ m.neigh, n ∈ U)
    (x : ℕ → Bool) : psum (copyG m) (g.grpW U (copyG m)) x = copyF g m x := by
  have hne : m.v ≠ m.w := (hg.edge h.had).2.2.1
  have hvU : m.v ∉ U := fun h' => Finset.disjoint_left.mp hU h' (by simp [copyG])
  have hwU : m.w ∉ U := fun h' => Finset.disjoint_left.mp hU h' (by simp [copyG])
  have hpa : ph m.a = sgn (decide (m.a = 1)) := by rcases h.pauli with h | h <;> simp [h, sgn]
  have vv : g.vval m.v = sgn (decide (m.a = 1)) := by unfold vval; rw [h.tv, h.a]; exact hpa
  have vw : g.vval m.w = ph m.alpha := by unfold vval; rw [h.tw, h.alpha]
  have key : ∀ b c, g.grpW U (copyG m) (Function.update (Function.update x m.v b) m.w c) =
      (if b then sgn (decide (m.a = 1)) else 1) * (if c then ph m.alpha else 1) * hmat b c *
        (m.neigh.map fun n => kern (hadTo g m.w n) c (x n)).prod := by
    intro b c
    unfold grpW copyG
    have ps : ∀ f : ℕ → ℕ → ℂ, pairProd ({m.w} : Finset ℕ) f = 1 := fun f => by simp [pairProd, pairs, Finset.filter_singleton]
    rw [show ({m.v, m.w} : Finset ℕ) = insert m.v {m.w} from rfl, Finset.prod_insert (by simpa using hne), Finset.prod_singleton,
      pairProd_insert (by simpa using hne) (edgeK_comm hg.symm _), ps, Finset.prod_singleton,
      Finset.prod_insert (by simpa using hne), Finset.prod_singleton, edgeK_some h.had,
      Finset.prod_eq_one (s := U) (f := fun u => g.edgeK _ m.v u)
        (fun u hu => edgeK_none (h.leaf u (fun (h' : u = m.w) => hwU (h' ▸ hu))))]
    have e1 : g.eff m.v m.w .had = true := by unfold eff isX; rw [h.tv, h.tw]; rfl
    have e2 : ∏ u ∈ U, g.edgeK (Function.update (Function.update x m.v b) m.w c) m.w u =
        (m.neigh.map fun n => kern (hadTo g m.w n) c (x n)).prod := by
      rw [← List.prod_toFinset _ h.nodup]
      symm
      refine Finset.prod_subset_one_on_sdiff (fun n hn' => hn n (List.mem_toFinset.mp hn')) (fun u hu => ?_) (fun n hn' => ?_)
      · rw [Finset.mem_sdiff, List.mem_toFinset, h.neigh] at hu
        refine edgeK_none ?_
        by_contra h'
        exact hu.2 ⟨fun (h'' : u = m.v) => hvU (h'' ▸ hu.1), h'⟩
      · rw [List.mem_toFinset] at hn'
        have hnU := hn n hn'
        rw [edgeK_hadTo ((h.neigh n).mp hn').2, Function.update_self, Function.update_of_ne, Function.update_of_ne]
        · rintro rfl; exact hvU hnU
        · rintro rfl; exact hwU hnU
    rw [e1, e2, Function.update_self, Function.update_of_ne hne, Function.update_self]
    unfold vwt
    rw [vv, vw]
    simp only [kern, if_true]
    ring
  have hs : sq2⁻¹ + sq2⁻¹ = sq2 := by rw [sq2_inv]; ring
  unfold copyG at key ⊢
  rw [show ({m.v, m.w} : Finset ℕ) = insert m.v (insert m.w ∅) from rfl, psum_insert_env (by simpa using hne), psum_insert_env (by simp),
    psum_insert_env (by simp)]
  simp only [psum_empty]
  rw [show (insert m.v (insert m.w ∅) : Finset ℕ) = {m.v, m.w} from rfl, key, key, key, key]
  unfold copyF
  rcases h.pauli with h' | h'
  · rw [h']
    simp only [hmat, sgn, Bool.and_true, Bool.and_false, Bool.false_eq_true, if_false, if_true, zero_ne_one, decide_false]
    generalize (m.neigh.map fun n => kern (hadTo g m.w n) false (x n)).prod = A
    generalize (m.neigh.map fun n => kern (hadTo g m.w n) true (x n)).prod = B
    linear_combination A * hs
  · rw [h']
    simp only [hmat, sgn, Bool.and_true, Bool.and_false, Bool.false_eq_true, if_false, if_true, decide_true]
    generalize (m.neigh.map fun n => kern (hadTo g m.w n) false (x n)).prod = A
    generalize (m.neigh.map fun n => kern (hadTo g m.w n) true (x n)).prod = B
    linear_combination (ph m.alpha * B) * hs

theorem prod_sq2_kern (ns : List ℕ) (f : ℕ → ℂ) : (ns.map fun n => sq2 * f n).prod = sq2 ^ (ns.length : ℤ) * (ns.map f).prod := by
  induction ns with
  | nil => simp
  | cons n ns ih =>
    rw [List.map_cons, List.prod_cons, ih, List.map_cons, List.prod_cons, List.length_cons]
    push_cast
    rw [zpow_add₀ sq2_ne_zero, zpow_one]
    ring

/-- The loop over the matches. `g` is the original graph and `h` the current one. -/
theorem copy_fold {g : Graph} {U : Finset ℕ} (hU : U ⊆ g.verts) (ms : List CopyMatch) :
    ∀ {h : Graph} {N : Finset ℕ} (rem : List ℕ), Grow g h N → (∀ m ∈ ms, CopyOK g m) → (∀ m ∈ ms, ∀ n ∈ m.neigh, n ∈ U) →
    g.WF → ∃ g' N', ms.foldlM copyStep (h, rem) = some (g', rem ++ ms.flatMap fun m => [m.v, m.w]) ∧ Grow g g' N' ∧
      ∀ x, psum N' (g'.wOn (U ∪ N')) x = psum N (h.wOn (U ∪ N)) x * (ms.map fun m => copyF g m x).prod := by
  induction ms with
  | nil => exact fun {h N} rem hG _ _ _ => ⟨h, N, by simp, hG, fun x => by simp⟩
  | cons m ms ih =>
    intro h N rem hG hok hn hg
    have hm := hok m (by simp)
    obtain ⟨hvm, hwm, -, -, -⟩ := hg.edge hm.had
    set h1 := h.addPower (-(m.neigh.length : ℤ) + 1) with hh1
    set h2 := if m.a ≠ 0 then h1.addScalarPhase m.alpha else h1 with hh2
    have G2 : Grow h h2 ∅ := by
      rw [hh2]
      by_cases ha : m.a ≠ 0
      · rw [if_pos ha]; exact Grow.same hG.wf rfl rfl rfl rfl rfl rfl rfl
      · rw [if_neg ha]; exact Grow.same hG.wf rfl rfl rfl rfl rfl rfl rfl
    have hG2 : Grow g h2 N := by simpa using hG.trans G2
    have hnm : ∀ n ∈ m.neigh, n ∈ g.verts := fun n hn' => hU (hn m (by simp) n hn')
    have hsub : U ∪ N ⊆ h2.verts := by
      rw [hG2.verts]
      exact Finset.union_subset_union hU (le_refl _)
    obtain ⟨h3, N3, e3, G3, s3⟩ := copyNbrs_spec hm.pauli m.neigh hG2.wf (by rw [hG2.ty _ hwm]; exact hm.tw)
      (fun n hn' => by rw [hG2.adj _ hwm _ (hnm n hn')]; exact ((hm.neigh n).mp hn').2)
      (fun n hn' => by rw [hG2.adj _ hwm _ (hnm n hn'), hG2.ty _ (hnm n hn')]; exact hm.nty n hn')
    obtain ⟨g', N', e', G', s'⟩ := ih (rem ++ [m.v, m.w]) (hG2.trans G3) (fun m' h' => hok m' (by simp [h'])) (fun m' h' => hn m' (by simp [h'])) hg
    refine ⟨g', N', ?_, G', fun x => ?_⟩
    · rw [List.foldlM_cons]
      have : copyStep (h, rem) m = some (h3, rem ++ [m.v, m.w]) := by
        unfold copyStep
        simp only
        rw [← hh1, ← hh2, e3]
        rfl
      rw [this]
      show ms.foldlM copyStep _ = _
      rw [e']
      simp
    · have hd : Disjoint N N3 := by
        refine Finset.disjoint_of_subset_left ?_ G3.disj
        rw [hG2.verts]
        exact Finset.subset_union_right
      rw [s', psum_union hd, List.map_cons, List.prod_cons, ← mul_assoc]
      congr 1
      rw [← psum_mul_const]
      refine psum_congr fun y hy => ?_
      rw [← Finset.union_assoc, s3 (U ∪ N) hsub (fun n hn' => Finset.mem_union_left _ (hn m (by simp) n hn'))]
      have e5 : (m.neigh.map fun n => sq2 * kern (hadTo h2 m.w n) (decide (m.a = 1)) (y n)) =
          m.neigh.map fun n => sq2 * kern (hadTo g m.w n) (decide (m.a = 1)) (x n) := by
        refine List.map_congr_left fun n hn' => ?_
        rw [hadTo_grow hG2 hwm (hnm n hn'), hy n (fun h' => Finset.disjoint_left.mp hG2.disj (hnm n hn') h')]
      rw [e5, prod_sq2_kern]
      have e6 : h2.wOn (U ∪ N) y = h.wOn (U ∪ N) y * sq2 ^ (-(m.neigh.length : ℤ) + 1) * (if m.a = 1 then ph m.alpha else 1) := by
        rw [hh2]
        rcases hm.pauli with ha | ha
        · rw [if_neg (by simp [ha]), if_neg (by rw [ha]; norm_num), hh1, wOn_addPower, mul_one]
        · rw [if_pos (by rw [ha]; norm_num), if_pos ha, wOn_addScalarPhase, hh1, wOn_addPower]
      rw [e6]
      unfold copyF
      have e7 : sq2 ^ (-(m.neigh.length : ℤ) + 1) * sq2 ^ (m.neigh.length : ℤ) = sq2 := by
        rw [← zpow_add₀ sq2_ne_zero]
        rw [show (-(m.neigh.length : ℤ) + 1 + (m.neigh.length : ℤ)) = 1 by ring, zpow_one]
      generalize sq2 ^ (-(m.neigh.length : ℤ) + 1) = A at e7 ⊢
      generalize sq2 ^ (m.neigh.length : ℤ) = B at e7 ⊢
      rw [← e7]
      ring

/-- The rule is sound for matches that do not interact. -/
theorem applyCopy_sound {g : Graph} (hg : g.WF) {ms : List CopyMatch} (hok : ∀ m ∈ ms, CopyOK g m)
    (hd : ms.Pairwise fun m m' => Disjoint (copyG m) (copyG m') ∧ ∀ v ∈ copyG m, ∀ w ∈ copyG m', g.adj v w = none) :
    ∃ g', applyCopy g ms = some g' ∧ Preserves g g' := by
  set R := unions ms copyG with hR
  set U := g.verts \ R with hUdef
  have hU : U ⊆ g.verts := Finset.sdiff_subset
  have hmemR : ∀ v, v ∈ R ↔ ∃ m ∈ ms, v = m.v ∨ v = m.w := by
    intro v
    rw [hR, mem_unions]
    simp [copyG]
  have hint : ∀ m ∈ ms, m.v ∈ g.interior ∧ m.w ∈ g.interior := by
    intro m hm
    have h := hok m hm
    obtain ⟨h1, h2, -⟩ := hg.edge h.had
    exact ⟨Finset.mem_filter.mpr ⟨h1, by rw [h.tv]; decide⟩, Finset.mem_filter.mpr ⟨h2, by rw [h.tw]; decide⟩⟩
  have hRi : R ⊆ g.interior := by
    intro v hv
    obtain ⟨m, hm, h | h⟩ := (hmemR v).mp hv
    · rw [h]; exact (hint m hm).1
    · rw [h]; exact (hint m hm).2
  have hRv : R ⊆ g.verts := fun v hv => (Finset.mem_filter.mp (hRi hv)).1
  have hn : ∀ m ∈ ms, ∀ n ∈ m.neigh, n ∈ U := by
    intro m hm n hn
    obtain ⟨h1, h2⟩ := ((hok m hm).neigh n).mp hn
    obtain ⟨e, he⟩ := Option.ne_none_iff_exists'.mp h2
    refine Finset.mem_sdiff.mpr ⟨(hg.edge he).2.1, fun hr => ?_⟩
    obtain ⟨m', hm', h⟩ := (hmemR n).mp hr
    have hng : n ∈ copyG m' := by unfold copyG; rcases h with h | h <;> simp [h]
    by_cases hmm : m = m'
    · rw [← hmm] at h
      rcases h with h | h
      · exact h1 h
      · exact (hg.edge he).2.2.1 h.symm
    · have hsym : Std.Symm (fun m m' : CopyMatch => Disjoint (copyG m) (copyG m') ∧ ∀ v ∈ copyG m, ∀ w ∈ copyG m', g.adj v w = none) :=
        ⟨fun a b hab => ⟨hab.1.symm, fun v hv w hw => by rw [hg.symm]; exact hab.2 w hw v hv⟩⟩
      have := hd.forall hm hm' hmm
      exact h2 (this.2 m.w (by simp [copyG]) n hng)
  obtain ⟨g1, N, e1, G1, s1⟩ := copy_fold hU ms [] (Grow.refl hg) hok hn hg
  rw [List.nil_append] at e1
  have hremF : (ms.flatMap fun m => [m.v, m.w]).toFinset = R := by
    ext v
    rw [List.mem_toFinset, hmemR, List.mem_flatMap]
    simp
  have hrn : (ms.flatMap fun m => [m.v, m.w]).Nodup := by
    rw [List.nodup_flatMap]
    refine ⟨fun m hm => ?_, hd.imp fun {a b} hab => ?_⟩
    · have := (hg.edge (hok m hm).had).2.2.1
      simpa using this
    · rw [Function.onFun, List.disjoint_iff_ne]
      intro v hv w hw h
      have hv' : v ∈ copyG a := by simpa [copyG] using hv
      have hw' : w ∈ copyG b := by simpa [copyG] using hw
      exact Finset.disjoint_left.mp hab.1 hv' (h ▸ hw')
  obtain ⟨g', e2⟩ := removeVertices_isSome G1.wf.toInv hrn (fun v hv => by
    refine G1.sub (hRv ?_)
    rw [← hremF, List.mem_toFinset]
    exact hv)
  obtain ⟨hr, -, -, hw⟩ := removeVertices_spec e2
  rw [hremF] at hr
  have hNR : Disjoint N R := (Finset.disjoint_of_subset_left hRv G1.disj).symm
  have hverts : g'.verts = U ∪ N := by
    rw [hr.verts, G1.verts, Finset.union_sdiff_distrib, Finset.sdiff_eq_self_of_disjoint hNR]
  have hnb : ∀ v, g.ty v = .boundary → v ∉ R := fun v hb hv => (Finset.mem_filter.mp (hRi hv)).2 hb
  refine ⟨g', ?_, replace_preserves hg (hw G1.wf) hRi G1.disj hverts (fun v hv => ?_) (fun v hv hvR => ?_) ?_ ?_ fun x => ?_⟩
  · unfold applyCopy
    rw [e1]
    exact e2
  · rw [hr.ty]; exact G1.newTy v hv
  · rw [hr.ty, G1.ty v hv]
  · rw [hr.inputs, G1.inputs]
    exact List.filter_eq_self.mpr fun v hv => by simpa using hnb v (hg.io v (Or.inl hv))
  · rw [hr.outputs, G1.outputs]
    exact List.filter_eq_self.mpr fun v hv => by simpa using hnb v (hg.io v (Or.inr hv))
  · have h1 : ∀ y, g'.weight y = g1.wOn (U ∪ N) y := by
      intro y
      rw [weight_eq_wOn, hverts]
      refine hr.wOn _ ?_ y
      rw [Finset.disjoint_union_left]
      exact ⟨Finset.sdiff_disjoint, hNR⟩
    have h2 : psum N g'.weight x = psum N (g1.wOn (U ∪ N)) x := psum_congr fun y _ => h1 y
    rw [h2, s1 x, psum_empty, Finset.union_empty]
    have h3 := psum_groups hg.symm (U := U) ms copyG (fun _ _ => 1) (fun m hm => by
      rw [Finset.disjoint_left]
      intro v hv hv'
      exact (Finset.mem_sdiff.mp hv).2 (mem_unions.mpr ⟨m, hm, hv'⟩)) hd (by
        refine hd.imp fun _ => ⟨fun _ _ _ => rfl, fun _ _ _ => rfl⟩) x
    have h4 : psum R g.weight x = psum (unions ms copyG) (fun x => g.wOn (U ∪ unions ms copyG) x * (ms.map fun _ => (1 : ℂ)).prod) x := by
      refine psum_congr fun y _ => ?_
      rw [weight_eq_wOn, ← hR, Finset.sdiff_union_of_subset hRv]
      simp
    rw [h4, h3]
    congr 2
    refine List.map_congr_left fun m hm => ?_
    simp only [mul_one]
    exact (copy_sumOut hg (hok m hm) (by
      rw [Finset.disjoint_left]
      intro v hv hv'
      exact (Finset.mem_sdiff.mp hv).2 (mem_unions.mpr ⟨m, hm, hv'⟩)) (hn m hm) x).symm

end Rules
end PyZX
