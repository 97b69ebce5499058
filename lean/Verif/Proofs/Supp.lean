import Verif.Model.Supp
import Verif.Proofs.Copy

/-!
# Supplementarity: proofs
-/

namespace PyZX
open Finset Graph

namespace Graph

/-- Removing groups of interior vertices that are not connected to each other, after the values of the groups were put into `g1`. -/
theorem removeGroups_sound {ι : Type*} {g g1 : Graph} (hg : g.WF) {ms : List ι} {G : ι → Finset ℕ} {rem : List ℕ} (hs : SameBut g g1)
    (hint : ∀ m ∈ ms, G m ⊆ g.interior)
    (hd : ms.Pairwise fun i j => Disjoint (G i) (G j) ∧ ∀ v ∈ G i, ∀ w ∈ G j, g.adj v w = none)
    (hn : rem.Nodup) (hrem : rem.toFinset = unions ms G)
    (hsum : ∀ x, g1.wOn (g.verts \ unions ms G) x =
      g.wOn (g.verts \ unions ms G) x * (ms.map fun m => psum (G m) (g.grpW (g.verts \ unions ms G) (G m)) x).prod) :
    ∃ g', g1.removeVertices rem = some g' ∧ Preserves g g' ∧ g'.verts = g.verts \ unions ms G := by
  set R := unions ms G with hR
  have hRi : R ⊆ g.interior := by
    intro v hv
    obtain ⟨m, hm, h⟩ := mem_unions.mp hv
    exact hint m hm h
  have hRv : R ⊆ g.verts := fun v hv => (Finset.mem_filter.mp (hRi hv)).1
  have hw1 : g1.WF := hs.wf hg
  obtain ⟨g', e2⟩ := removeVertices_isSome hw1.toInv hn (fun v hv => by
    rw [hs.verts]
    refine hRv ?_
    rw [← hrem, List.mem_toFinset]
    exact hv)
  obtain ⟨hr, -, -, hw⟩ := removeVertices_spec e2
  rw [hrem] at hr
  have hverts : g'.verts = g.verts \ R := by rw [hr.verts, hs.verts]
  have hnb : ∀ v, g.ty v = .boundary → v ∉ R := fun v hb hv => (Finset.mem_filter.mp (hRi hv)).2 hb
  refine ⟨g', e2, replace_preserves hg (hw hw1) hRi (N := ∅) (by simp) (by rw [hverts]; simp) (by simp) (fun v hv hvR => ?_) ?_ ?_ fun x => ?_,
    hverts⟩
  · rw [hr.ty, hs.ty]
  · rw [hr.inputs, hs.inputs]
    exact List.filter_eq_self.mpr fun v hv => by simpa using hnb v (hg.io v (Or.inl hv))
  · rw [hr.outputs, hs.outputs]
    exact List.filter_eq_self.mpr fun v hv => by simpa using hnb v (hg.io v (Or.inr hv))
  · rw [psum_empty, weight_eq_wOn, hverts, hr.wOn _ Finset.sdiff_disjoint, hsum]
    have hdU : ∀ m ∈ ms, Disjoint (g.verts \ R) (G m) := by
      intro m hm
      rw [Finset.disjoint_left]
      intro v hv hv'
      exact (Finset.mem_sdiff.mp hv).2 (mem_unions.mpr ⟨m, hm, hv'⟩)
    have h3 := psum_groups hg.symm (U := g.verts \ R) ms G (fun _ _ => 1) hdU hd
      (hd.imp fun _ => ⟨fun _ _ _ => rfl, fun _ _ _ => rfl⟩) x
    have h4 : psum R g.weight x = psum (unions ms G) (fun x => g.wOn ((g.verts \ R) ∪ unions ms G) x * (ms.map fun _ => (1 : ℂ)).prod) x := by
      refine psum_congr fun y _ => ?_
      rw [weight_eq_wOn, ← hR, Finset.sdiff_union_of_subset hRv]
      simp
    rw [h4, h3]
    simp only [mul_one]

end Graph

namespace Rules
open Graph Basic

/-- A match of supplementarity to which the rule applies. -/
structure SuppOK (g : Graph) (m : SuppMatch) : Prop where
  v : m.v ∈ g.verts
  w : m.w ∈ g.verts
  ne : m.v ≠ m.w
  tv : g.ty m.v = .Z
  tw : g.ty m.w = .Z
  nv : ∀ u, u ∈ m.neigh ↔ u ≠ m.w ∧ g.adj m.v u ≠ none
  nw : ∀ u, u ∈ m.neigh ↔ u ≠ m.v ∧ g.adj m.w u ≠ none
  nty : ∀ u ∈ m.neigh, g.ty u = .Z ∧ g.adj m.v u = some .had ∧ g.adj m.w u = some .had
  kind : (m.t = 1 ∧ g.adj m.v m.w = none ∧ (mod2 (g.phase m.v - g.phase m.w) = 1 ∨ mod2 (g.phase m.v + g.phase m.w) = 1)) ∨
    (m.t = 2 ∧ g.adj m.v m.w = some .had ∧ (mod2 (g.phase m.v + g.phase m.w) = 0 ∨ mod2 (g.phase m.v - g.phase m.w) = 1))

/-- The two spiders of a match. -/
def suppG (m : SuppMatch) : Finset ℕ := {m.v, m.w}

/-- The edge between the two spiders. -/
noncomputable def suppE (m : SuppMatch) (a b : Bool) : ℂ := if m.t = 1 then 1 else hmat a b

theorem supp_sumOut {g : Graph} (hg : g.WF) {m : SuppMatch} (h : SuppOK g m) {U : Finset ℕ} (hU : Disjoint U (suppG m)) (hn : m.neigh ⊆ U)
    (x : ℕ → Bool) {p : Bool} (hp : ∀ c : Bool, ∏ w ∈ m.neigh, sgn (c && x w) = sgn (c && p)) :
    psum (suppG m) (g.grpW U (suppG m)) x = (sq2⁻¹) ^ m.neigh.card * (sq2⁻¹) ^ m.neigh.card *
      (suppE m false false + ph (g.phase m.v) * sgn p * suppE m true false + ph (g.phase m.w) * sgn p * suppE m false true +
        ph (g.phase m.v) * ph (g.phase m.w) * suppE m true true) := by
  have hne := h.ne
  have hvU : m.v ∉ U := fun h' => Finset.disjoint_left.mp hU h' (by simp [suppG])
  have hwU : m.w ∉ U := fun h' => Finset.disjoint_left.mp hU h' (by simp [suppG])
  have vv : g.vval m.v = ph (g.phase m.v) := by unfold vval; rw [h.tv]
  have vw : g.vval m.w = ph (g.phase m.w) := by unfold vval; rw [h.tw]
  have side : ∀ (u : ℕ) (y : ℕ → Bool), (u = m.v ∨ u = m.w) → (∀ n ∈ m.neigh, y n = x n) →
      ∏ n ∈ U, g.edgeK y u n = (sq2⁻¹) ^ m.neigh.card * sgn (y u && p) := by
    intro u y hu hy
    rw [← prod_hmat_fin hp (y u)]
    symm
    refine Finset.prod_subset_one_on_sdiff hn (fun n hn' => ?_) (fun n hn' => ?_)
    · rw [Finset.mem_sdiff] at hn'
      refine edgeK_none ?_
      by_contra h'
      rcases hu with hu | hu
      · rw [hu] at h'; exact hn'.2 ((h.nv n).mpr ⟨fun (e : n = m.w) => hwU (e ▸ hn'.1), h'⟩)
      · rw [hu] at h'; exact hn'.2 ((h.nw n).mpr ⟨fun (e : n = m.v) => hvU (e ▸ hn'.1), h'⟩)
    · obtain ⟨t1, t2, t3⟩ := h.nty n hn'
      have hadj : g.adj u n = some .had := by rcases hu with hu | hu <;> rw [hu] <;> assumption
      have htu : g.ty u = .Z := by
        rcases hu with hu | hu
        · rw [hu]; exact h.tv
        · rw [hu]; exact h.tw
      have : g.eff u n .had = true := by unfold eff isX; rw [htu, t1]; rfl
      rw [edgeK_some hadj, this, hy n hn']
      rfl
  have key : ∀ b c, g.grpW U (suppG m) (Function.update (Function.update x m.v b) m.w c) =
      (if b then ph (g.phase m.v) else 1) * (if c then ph (g.phase m.w) else 1) * suppE m b c *
        ((sq2⁻¹) ^ m.neigh.card * sgn (b && p)) * ((sq2⁻¹) ^ m.neigh.card * sgn (c && p)) := by
    intro b c
    have hy : ∀ n ∈ m.neigh, Function.update (Function.update x m.v b) m.w c n = x n := by
      intro n hn'
      have := hn hn'
      rw [Function.update_of_ne, Function.update_of_ne]
      · rintro rfl; exact hvU this
      · rintro rfl; exact hwU this
    have ps : ∀ f : ℕ → ℕ → ℂ, pairProd ({m.w} : Finset ℕ) f = 1 := fun f => by simp [pairProd, pairs, Finset.filter_singleton]
    have e1 : g.edgeK (Function.update (Function.update x m.v b) m.w c) m.v m.w = suppE m b c := by
      rcases h.kind with ⟨k1, k2, -⟩ | ⟨k1, k2, -⟩
      · rw [edgeK_none k2]; unfold suppE; rw [if_pos k1]
      · have : g.eff m.v m.w .had = true := by unfold eff isX; rw [h.tv, h.tw]; rfl
        rw [edgeK_some k2, this, Function.update_self, Function.update_of_ne hne, Function.update_self]
        unfold suppE; rw [if_neg (by omega)]; rfl
    unfold grpW suppG
    rw [show ({m.v, m.w} : Finset ℕ) = insert m.v {m.w} from rfl, Finset.prod_insert (by simpa using hne), Finset.prod_singleton,
      pairProd_insert (by simpa using hne) (edgeK_comm hg.symm _), ps, Finset.prod_singleton,
      Finset.prod_insert (by simpa using hne), Finset.prod_singleton, e1, side m.v _ (Or.inl rfl) hy, side m.w _ (Or.inr rfl) hy,
      Function.update_self, Function.update_of_ne hne, Function.update_self]
    unfold vwt
    rw [vv, vw]
    ring
  unfold suppG at key ⊢
  rw [show ({m.v, m.w} : Finset ℕ) = insert m.v (insert m.w ∅) from rfl, psum_insert_env (by simpa using hne), psum_insert_env (by simp),
    psum_insert_env (by simp)]
  simp only [psum_empty]
  rw [show (insert m.v (insert m.w ∅) : Finset ℕ) = {m.v, m.w} from rfl, key, key, key, key]
  have hs : sgn p * sgn p = 1 := sgn_mul_self p
  generalize hA : (sq2⁻¹ : ℂ) ^ m.neigh.card = A
  simp only [Bool.false_and, Bool.true_and, if_true, Bool.false_eq_true, if_false]
  rw [show sgn false = 1 from rfl]
  linear_combination (ph (g.phase m.v) * ph (g.phase m.w) * suppE m true true * A * A) * hs

/-- The number and signs recorded by one step of the rewrite. -/
theorem suppApply_spec {lst : Finset ℕ → List ℕ} (hl : SetOrder lst) {g h : Graph} (hs : SameBut g h) {m : SuppMatch}
    (hok : SuppOK g m) (hv : h.phase m.v = g.phase m.v) (hw : h.phase m.w = g.phase m.w) (rem : List ℕ) :
    ∃ h', suppApply lst (h, rem) m = some (h', rem ++ [m.v, m.w]) ∧ SameBut g h' ∧ (∀ u, u ∉ m.neigh → h'.phase u = h.phase u) ∧
      ∀ U : Finset ℕ, Disjoint U (suppG m) → m.neigh ⊆ U → ∀ x, g.WF → h'.wOn U x = h.wOn U x * psum (suppG m) (g.grpW U (suppG m)) x := by
  obtain ⟨l1, l2⟩ := hl m.neigh
  have hmem : ∀ u, u ∈ lst m.neigh ↔ u ∈ m.neigh := fun u => by rw [← List.mem_toFinset, l2]
  have hnode : ∀ (k : Graph) p, SameBut k (addNode k p) := fun k p => ⟨⟨rfl, rfl, rfl, rfl, rfl⟩, rfl, rfl, rfl⟩
  have hpow : ∀ (k : Graph) p, SameBut k (k.addPower p) := fun k p => ⟨⟨rfl, rfl, rfl, rfl, rfl⟩, rfl, rfl, rfl⟩
  have hsph : ∀ (k : Graph) p, SameBut k (k.addScalarPhase p) := fun k p => ⟨⟨rfl, rfl, rfl, rfl, rfl⟩, rfl, rfl, rfl⟩
  have wnode : ∀ (k : Graph) p (S : Finset ℕ) x, (addNode k p).wOn S x = k.wOn S x * (1 + ph p) := by
    intro k p S x
    unfold wOn
    show (k.scalar.addNode p).toNumber * _ = _
    rw [Scalar.addNode_toNumber]
    show _ * ((∏ v ∈ S, k.vwt v (x v)) * pairProd S (k.edgeK x)) = _
    ring
  have hflip : ∀ (k : Graph), SameBut g k → ∀ U : Finset ℕ, m.neigh ⊆ U → ∀ x p, (∀ c : Bool, ∏ w ∈ m.neigh, sgn (c && x w) = sgn (c && p)) →
      (addToPhases k (lst m.neigh) 1).wOn U x = k.wOn U x * sgn p := by
    intro k hk U hU x p hp
    rw [(addToPhases_spec (lst m.neigh) 1 k).2.2 U (fun v hv => ⟨hU ((hmem v).mp hv), by rw [hk.ty]; exact (hok.nty v ((hmem v).mp hv)).1⟩)]
    congr 1
    have := hp true
    simp only [Bool.true_and] at this
    rw [← this, ← List.prod_toFinset _ l1, l2]
    refine Finset.prod_congr rfl fun v _ => ?_
    rw [ph_one]; rfl
  have hzp : ∀ k : ℕ, sq2 ^ (-2 * (k : ℤ)) = (sq2⁻¹) ^ k * (sq2⁻¹) ^ k := by
    intro k
    rw [show (-2 * (k : ℤ)) = -((k + k : ℕ) : ℤ) by push_cast; ring, zpow_neg, zpow_natCast, ← pow_add, inv_pow]
  have phm : ∀ q r : ℚ, mod2 q = r → ph q = ph r := fun q r h => by rw [← ph_mod2 q, h]
  set α := g.phase m.v with hα
  set β := g.phase m.w with hβ
  have p2 : ph (2 * α) = ph α * ph α := by rw [← ph_add]; congr 1; ring
  have hne := ph_ne_zero α
  have hmn : ph α * ph (-α) = 1 := ph_mul_neg α
  rcases hok.kind with ⟨k1, k2, k3⟩ | ⟨k1, k2, k3⟩
  · set g2 := addNode (h.addPower (-2 * (m.neigh.card : ℤ))) (2 * α + 1) with hg2
    have s2 : SameBut g g2 := hs.trans ((hpow _ _).trans (hnode _ _))
    have w2 : ∀ U x, g2.wOn U x = h.wOn U x * ((sq2⁻¹) ^ m.neigh.card * (sq2⁻¹) ^ m.neigh.card) * (1 - ph α * ph α) := by
      intro U x
      rw [hg2, wnode, wOn_addPower, hzp, ph_add, p2, ph_one]
      ring
    by_cases hc : mod2 (α + β) = 1
    · refine ⟨addToPhases (g2.addScalarPhase (-α + 1)) (lst m.neigh) 1, ?_, ?_, fun u hu => ?_, fun U hU hn x hg => ?_⟩
      · unfold suppApply
        simp only [hv, hw]
        rw [if_pos k1, if_pos hc]
      · exact (s2.trans (hsph _ _)).trans (addToPhases_spec _ _ _).1
      · exact (addToPhases_spec _ _ _).2.1 u (fun h' => hu ((hmem u).mp h'))
      · obtain ⟨p, hp⟩ := exists_par_fin m.neigh x
        rw [hflip _ (s2.trans (hsph _ _)) U hn x p hp, wOn_addScalarPhase, w2, supp_sumOut hg hok hU hn x hp]
        have e1 : ph α * ph β = -1 := by rw [← ph_add, phm _ _ hc, ph_one]
        have e2 : ph β = - ph (-α) := by
          apply mul_left_cancel₀ hne
          rw [e1, mul_neg, hmn]
        have hE : ∀ a b, suppE m a b = 1 := fun a b => by unfold suppE; rw [if_pos k1]
        simp only [hE, mul_one]
        rw [← hα, ← hβ, e1, e2, ph_add, ph_one]
        generalize (sq2⁻¹ : ℂ) ^ m.neigh.card = A
        linear_combination (h.wOn U x * A * A * sgn p * ph α) * hmn
    · refine ⟨g2, ?_, s2, fun u hu => rfl, fun U hU hn x hg => ?_⟩
      · unfold suppApply
        simp only [hv, hw]
        rw [if_pos k1, if_neg hc]
      · obtain ⟨p, hp⟩ := exists_par_fin m.neigh x
        rw [w2, supp_sumOut hg hok hU hn x hp]
        have hk : mod2 (α - β) = 1 := by
          rcases k3 with h' | h'
          · exact h'
          · exact absurd h' hc
        have e1 : ph α = - ph β := by
          have := phm _ _ hk
          rw [ph_sub, ph_one, div_eq_iff (ph_ne_zero β)] at this
          rw [this]; ring
        have hE : ∀ a b, suppE m a b = 1 := fun a b => by unfold suppE; rw [if_pos k1]
        simp only [hE, mul_one]
        rw [← hα, ← hβ, e1]
        ring
  · have k1' : m.t ≠ 1 := by omega
    set g2 := addNode ((h.addPower (-2 * (m.neigh.card : ℤ))).addPower (-1)) (2 * α) with hg2
    have s2 : SameBut g g2 := hs.trans ((hpow _ _).trans ((hpow _ _).trans (hnode _ _)))
    have w2 : ∀ U x, g2.wOn U x = h.wOn U x * ((sq2⁻¹) ^ m.neigh.card * (sq2⁻¹) ^ m.neigh.card) * sq2⁻¹ * (1 + ph α * ph α) := by
      intro U x
      rw [hg2, wnode, wOn_addPower, wOn_addPower, hzp, p2, zpow_neg, zpow_one]
    have hE : ∀ a b, suppE m a b = sq2⁻¹ * (if a && b then -1 else 1) := fun a b => by unfold suppE hmat; rw [if_neg k1']
    by_cases hc : mod2 (α + β) = 0
    · refine ⟨addToPhases (g2.addScalarPhase (-α)) (lst m.neigh) 1, ?_, ?_, fun u hu => ?_, fun U hU hn x hg => ?_⟩
      · unfold suppApply
        simp only [hv, hw]
        rw [if_neg k1', if_pos k1, if_pos hc]
      · exact (s2.trans (hsph _ _)).trans (addToPhases_spec _ _ _).1
      · exact (addToPhases_spec _ _ _).2.1 u (fun h' => hu ((hmem u).mp h'))
      · obtain ⟨p, hp⟩ := exists_par_fin m.neigh x
        rw [hflip _ (s2.trans (hsph _ _)) U hn x p hp, wOn_addScalarPhase, w2, supp_sumOut hg hok hU hn x hp]
        have e1 : ph α * ph β = 1 := by rw [← ph_add, phm _ _ hc, ph_zero]
        have e2 : ph β = ph (-α) := by
          apply mul_left_cancel₀ hne
          rw [e1, hmn]
        simp only [hE, Bool.and_true, Bool.and_false, Bool.false_eq_true, if_false, if_true]
        rw [← hα, ← hβ, e1, e2]
        generalize (sq2⁻¹ : ℂ) ^ m.neigh.card = A
        generalize sq2⁻¹ = q
        linear_combination (h.wOn U x * A * A * q * sgn p * ph α) * hmn
    · refine ⟨g2, ?_, s2, fun u hu => rfl, fun U hU hn x hg => ?_⟩
      · unfold suppApply
        simp only [hv, hw]
        rw [if_neg k1', if_pos k1, if_neg hc]
      · obtain ⟨p, hp⟩ := exists_par_fin m.neigh x
        rw [w2, supp_sumOut hg hok hU hn x hp]
        have hk : mod2 (α - β) = 1 := by
          rcases k3 with h' | h'
          · exact absurd h' hc
          · exact h'
        have e1 : ph α = - ph β := by
          have := phm _ _ hk
          rw [ph_sub, ph_one, div_eq_iff (ph_ne_zero β)] at this
          rw [this]; ring
        simp only [hE, Bool.and_true, Bool.and_false, Bool.false_eq_true, if_false, if_true]
        rw [← hα, ← hβ, e1]
        generalize (sq2⁻¹ : ℂ) ^ m.neigh.card = A
        generalize sq2⁻¹ = q
        ring

theorem supp_fold {lst : Finset ℕ → List ℕ} (hl : SetOrder lst) {g : Graph} (hg : g.WF) {U : Finset ℕ} (ms : List SuppMatch) :
    ∀ (h : Graph) (rem : List ℕ), SameBut g h → (∀ m ∈ ms, SuppOK g m) → (∀ m ∈ ms, Disjoint U (suppG m) ∧ m.neigh ⊆ U) →
    (∀ m ∈ ms, h.phase m.v = g.phase m.v ∧ h.phase m.w = g.phase m.w) →
    ∃ h', ms.foldlM (suppApply lst) (h, rem) = some (h', rem ++ ms.flatMap fun m => [m.v, m.w]) ∧ SameBut g h' ∧
      ∀ x, h'.wOn U x = h.wOn U x * (ms.map fun m => psum (suppG m) (g.grpW U (suppG m)) x).prod := by
  induction ms with
  | nil => exact fun h rem hs _ _ _ => ⟨h, by simp, hs, fun x => by simp⟩
  | cons m ms ih =>
    intro h rem hs hok hU hp
    obtain ⟨h1, e1, s1, p1, w1⟩ := suppApply_spec hl hs (hok m (by simp)) (hp m (by simp)).1 (hp m (by simp)).2 rem
    have hUm := hU m (by simp)
    obtain ⟨h', e', s', w'⟩ := ih h1 (rem ++ [m.v, m.w]) s1 (fun m' hm' => hok m' (by simp [hm'])) (fun m' hm' => hU m' (by simp [hm']))
      (fun m' hm' => by
        have hd := (hU m' (by simp [hm'])).1
        have q := hp m' (by simp [hm'])
        constructor
        · rw [p1 m'.v (fun h'' => Finset.disjoint_left.mp hd (hUm.2 h'') (by simp [suppG]))]; exact q.1
        · rw [p1 m'.w (fun h'' => Finset.disjoint_left.mp hd (hUm.2 h'') (by simp [suppG]))]; exact q.2)
    refine ⟨h', ?_, s', fun x => ?_⟩
    · rw [List.foldlM_cons, e1]
      show List.foldlM _ _ _ = _
      rw [e']
      simp
    · rw [w', w1 U hUm.1 hUm.2 x hg, List.map_cons, List.prod_cons]
      ring

/-- The rule is sound for matches that do not interact. -/
theorem applySupp_sound {lst : Finset ℕ → List ℕ} (hl : SetOrder lst) {g : Graph} (hg : g.WF) {ms : List SuppMatch} (hok : ∀ m ∈ ms, SuppOK g m)
    (hd : ms.Pairwise fun m m' => Disjoint (suppG m) (suppG m') ∧ ∀ v ∈ suppG m, ∀ w ∈ suppG m', g.adj v w = none) :
    ∃ g', applySupp g lst ms = some g' ∧ Preserves g g' ∧ g'.verts = g.verts \ unions ms suppG := by
  set U := g.verts \ unions ms suppG with hUdef
  have hU : ∀ m ∈ ms, Disjoint U (suppG m) ∧ m.neigh ⊆ U := by
    intro m hm
    refine ⟨?_, fun n hn => ?_⟩
    · rw [Finset.disjoint_left]
      intro v hv hv'
      exact (Finset.mem_sdiff.mp hv).2 (mem_unions.mpr ⟨m, hm, hv'⟩)
    · obtain ⟨h1, h2⟩ := ((hok m hm).nv n).mp hn
      obtain ⟨h3, h4⟩ := ((hok m hm).nw n).mp hn
      obtain ⟨e, he⟩ := Option.ne_none_iff_exists'.mp h2
      refine Finset.mem_sdiff.mpr ⟨(hg.edge he).2.1, fun hr => ?_⟩
      obtain ⟨m', hm', h⟩ := mem_unions.mp hr
      by_cases hmm : m = m'
      · rw [← hmm] at h
        simp only [suppG, Finset.mem_insert, Finset.mem_singleton] at h
        rcases h with h | h
        · exact h3 h
        · exact h1 h
      · have hsym : Std.Symm (fun m m' : SuppMatch => Disjoint (suppG m) (suppG m') ∧ ∀ v ∈ suppG m, ∀ w ∈ suppG m', g.adj v w = none) :=
          ⟨fun a b hab => ⟨hab.1.symm, fun v hv w hw => by rw [hg.symm]; exact hab.2 w hw v hv⟩⟩
        have := hd.forall hm hm' hmm
        exact h2 (this.2 m.v (by simp [suppG]) n h)
  obtain ⟨g1, e1, s1, w1⟩ := supp_fold hl hg (U := U) ms g [] (SameBut.refl g) hok hU (fun m _ => ⟨rfl, rfl⟩)
  rw [List.nil_append] at e1
  have hremF : (ms.flatMap fun m => [m.v, m.w]).toFinset = unions ms suppG := by
    ext v
    rw [List.mem_toFinset, mem_unions, List.mem_flatMap]
    simp [suppG]
  have hrn : (ms.flatMap fun m => [m.v, m.w]).Nodup := by
    rw [List.nodup_flatMap]
    refine ⟨fun m hm => ?_, hd.imp fun {a b} hab => ?_⟩
    · have := (hok m hm).ne
      simpa using this
    · rw [Function.onFun, List.disjoint_iff_ne]
      intro v hv w hw h
      have hv' : v ∈ suppG a := by simpa [suppG] using hv
      have hw' : w ∈ suppG b := by simpa [suppG] using hw
      exact Finset.disjoint_left.mp hab.1 hv' (h ▸ hw')
  obtain ⟨g', e2, hp, hv⟩ := removeGroups_sound hg (G := suppG) s1 (fun m hm => by
    intro v hv
    have h := hok m hm
    simp only [suppG, Finset.mem_insert, Finset.mem_singleton] at hv
    rcases hv with hv | hv <;> rw [hv]
    · exact Finset.mem_filter.mpr ⟨h.v, by rw [h.tv]; decide⟩
    · exact Finset.mem_filter.mpr ⟨h.w, by rw [h.tw]; decide⟩) hd hrn hremF w1
  refine ⟨g', ?_, hp, hv⟩
  unfold applySupp
  rw [e1]
  exact e2

end Rules
end PyZX
