import Verif.Proofs.GadgetFuse
import Verif.Spec.Example

/-!
# C19: fusion of phase gadgets
-/

namespace PyZX
namespace Props
open Graph Rules

/-- The diagrams on which the simplifier fuses gadgets: green spiders, connected by Hadamard edges, boundaries without a phase, which are inputs or
outputs. -/
structure GadgetGraph (g : Graph) : Prop where
  wf : g.WF
  deg : g.BDeg
  zx : ∀ v ∈ g.verts, g.ty v = .boundary ∨ g.ty v = .Z
  had : g.ZHad
  bphase : ∀ v ∈ g.verts, g.ty v = .boundary → g.phase v = 0
  io : ∀ v ∈ g.verts, g.ty v = .boundary → v ∈ g.inputs ∨ v ∈ g.outputs

/-- A spider that carries a phase gadget: phase 0 or π, with a neighbour of degree 1 with a non-Clifford phase. -/
def IsAxel (g : Graph) (n : ℕ) : Prop :=
  (g.phase n = 0 ∨ g.phase n = 1) ∧ ∃ v, g.nbrs v = {n} ∧ 2 < (g.phase v).den

private structure FInv (g : Graph) (ds : List GadGroup) : Prop where
  ok : ∀ d ∈ ds, d.mem ≠ [] ∧ ∀ q ∈ d.mem, GadgetAt g d.par q.1 q.2
  nodup : ((ds.flatMap (·.mem)).map (·.1)).Nodup
  ax : ∀ d ∈ ds, ∀ q ∈ d.mem, IsAxel g q.1

private theorem addGadget_mem (P : Finset ℕ) (q : ℕ × ℕ) (ds : List GadGroup) : ∀ d ∈ addGadget P q ds,
    d ∈ ds ∨ (d.par = P ∧ ∃ L, d.mem = L ++ [q] ∧ (L = [] ∨ ∃ d' ∈ ds, d'.par = P ∧ d'.mem = L)) := by
  induction ds with
  | nil => intro d hd; simp only [addGadget, List.mem_singleton] at hd; right; rw [hd]; exact ⟨rfl, [], by simp, Or.inl rfl⟩
  | cons e ds ih =>
    intro d hd
    unfold addGadget at hd
    by_cases c : e.par = P
    · rw [if_pos c, List.mem_cons] at hd
      rcases hd with hd | hd
      · right; rw [hd]; exact ⟨c, e.mem, rfl, Or.inr ⟨e, by simp, c, rfl⟩⟩
      · left; simp [hd]
    · rw [if_neg c, List.mem_cons] at hd
      rcases hd with hd | hd
      · left; simp [hd]
      · rcases ih d hd with h | ⟨h1, L, h2, h3⟩
        · left; simp [h]
        · right
          refine ⟨h1, L, h2, ?_⟩
          rcases h3 with h3 | ⟨d', h4, h5⟩
          · exact Or.inl h3
          · exact Or.inr ⟨d', by simp [h4], h5⟩

private theorem addGadget_perm (P : Finset ℕ) (q : ℕ × ℕ) (ds : List GadGroup) :
    ((addGadget P q ds).flatMap (·.mem)).Perm (q :: ds.flatMap (·.mem)) := by
  induction ds with
  | nil => simp [addGadget]
  | cons e ds ih =>
    unfold addGadget
    by_cases c : e.par = P
    · rw [if_pos c, List.flatMap_cons, List.flatMap_cons]
      simp only [List.append_assoc, List.singleton_append]
      exact List.perm_middle
    · rw [if_neg c, List.flatMap_cons, List.flatMap_cons]
      exact (List.Perm.append_left _ ih).trans List.perm_middle

private theorem find_inv {g : Graph} (hg : GadgetGraph g) {ord : ℕ → List ℕ} (ho : NbrOrder g ord) {ds : List GadGroup} (h : FInv g ds) {v : ℕ}
    (hv : v ∈ g.verts) : FInv g (gadFindStep g ord ds v) := by
  unfold gadFindStep
  by_cases c0 : (nonCliff g v && decide ((ord v).length = 1)) = true
  swap
  · rw [if_neg c0]; exact h
  rw [if_pos c0]
  simp only [Bool.and_eq_true, nonCliff, decide_eq_true_eq] at c0
  obtain ⟨⟨c1, c2⟩, c3⟩ := c0
  obtain ⟨n, hn⟩ := List.length_eq_one_iff.mp c3
  rw [hn]
  simp only [List.head?_cons]
  obtain ⟨o1, o2⟩ := ho v hv
  have hnb : g.nbrs v = {n} := by rw [← o2, hn]; rfl
  by_cases c4 : ¬ (g.phase n = 0 ∨ g.phase n = 1)
  · rw [if_pos c4]; exact h
  rw [if_neg c4]
  push Not at c4
  by_cases c5 : n ∈ (ds.flatMap (·.mem)).map (·.1)
  · rw [if_pos c5]; exact h
  rw [if_neg c5]
  by_cases c6 : n ∈ g.inputs ∨ n ∈ g.outputs
  · rw [if_pos c6]; exact h
  rw [if_neg c6]
  have hwf := hg.wf
  have hvn : g.adj v n ≠ none := (mem_nbrs hwf.toInv).mp (by rw [hnb]; simp)
  obtain ⟨e, he⟩ := Option.ne_none_iff_exists'.mp hvn
  have hnm : n ∈ g.verts := (hwf.edge he).2.1
  have tv : g.ty v = .Z := by
    rcases hg.zx v hv with h' | h'
    · exact absurd (hg.bphase v hv h') c1
    · exact h'
  have tn : g.ty n = .Z := by
    rcases hg.zx n hnm with h' | h'
    · exact absurd (hg.io n hnm h') c6
    · exact h'
  have hnv : g.adj n v ≠ none := by rw [hwf.symm]; exact hvn
  have hga : GadgetAt g ((g.nbrs n).erase v) n v := by
    refine ⟨hnm, hv, tn, tv, hg.had n v tn tv hnv, fun u hu => ?_, fun u => ?_, c4, ?_⟩
    · have := (mem_nbrs hwf.toInv).mpr hu
      rw [hnb] at this
      simpa using this
    · rw [Finset.mem_erase, mem_nbrs hwf.toInv]
    · rintro (h' | h')
      · exact c1 h'
      · rw [h'] at c2; simp at c2
  refine ⟨fun d hd => ?_, ?_, fun d hd q hq => ?_⟩
  · rcases addGadget_mem _ _ ds d hd with h' | ⟨e1, L, e2, e3⟩
    · exact h.ok d h'
    · refine ⟨by rw [e2]; simp, fun q hq => ?_⟩
      rw [e2, List.mem_append, List.mem_singleton] at hq
      rw [e1]
      rcases hq with hq | hq
      · rcases e3 with e3 | ⟨d', k1, k2, k3⟩
        · rw [e3] at hq; simp at hq
        · rw [← k2]; exact (h.ok d' k1).2 q (k3 ▸ hq)
      · rw [hq]; exact hga
  · have := (addGadget_perm ((g.nbrs n).erase v) (n, v) ds).map (·.1)
    rw [this.nodup_iff, List.map_cons, List.nodup_cons]
    exact ⟨c5, h.nodup⟩
  · have hax : IsAxel g n := ⟨c4, v, hnb, c2⟩
    rcases addGadget_mem _ _ ds d hd with h' | ⟨e1, L, e2, e3⟩
    · exact h.ax d h' q hq
    · rw [e2, List.mem_append, List.mem_singleton] at hq
      rcases hq with hq | hq
      · rcases e3 with e3 | ⟨d', k1, k2, k3⟩
        · rw [e3] at hq; simp at hq
        · exact h.ax d' k1 q (k3 ▸ hq)
      · rw [hq]; exact hax

private theorem groups_inv {g : Graph} (hg : GadgetGraph g) {ord : ℕ → List ℕ} (ho : NbrOrder g ord) (cands : List ℕ) :
    ∀ ds, FInv g ds → (∀ c ∈ cands, c ∈ g.verts) → FInv g (cands.foldl (gadFindStep g ord) ds) := by
  induction cands with
  | nil => exact fun ds h _ => h
  | cons v cs ih => exact fun ds h hc => ih _ (find_inv hg ho h (hc v (by simp))) (fun c hc' => hc c (by simp [hc']))

/-- C19: the groups found by `match_phase_gadgets` consist of phase gadgets with the given targets and different axels. -/
theorem gadgetGroups_spec {g : Graph} (hg : GadgetGraph g) {ord : ℕ → List ℕ} (ho : NbrOrder g ord) {cands : List ℕ}
    (hc : ∀ c ∈ cands, c ∈ g.verts) :
    (∀ d ∈ gadgetGroups g ord cands, GroupOK g d) ∧ (((gadgetGroups g ord cands).flatMap (·.mem)).map (·.1)).Nodup ∧
      ∀ d ∈ gadgetGroups g ord cands, ∀ q ∈ d.mem, IsAxel g q.1 := by
  have h := groups_inv hg ho cands [] ⟨by simp, by simp, by simp⟩ hc
  refine ⟨fun d hd => ?_, h.nodup, h.ax⟩
  obtain ⟨h1, h2⟩ := h.ok d hd
  refine ⟨h1, h2, fun hl u hu => ?_⟩
  have hwf := hg.wf
  have hz : g.ty u = .Z := by
    obtain ⟨q, q', L, hm⟩ : ∃ q q' L, d.mem = q :: q' :: L := by
      match hm : d.mem with
      | [] => rw [hm] at hl; simp at hl
      | [q] => rw [hm] at hl; simp at hl
      | q :: q' :: L => exact ⟨q, q', L, rfl⟩
    have a := h2 q (by rw [hm]; simp)
    have b := h2 q' (by rw [hm]; simp)
    have hne : q.1 ≠ q'.1 := by
      have hn := h.nodup
      obtain ⟨l1, l2, hs⟩ := List.append_of_mem hd
      change gadgetGroups g ord cands = _ at hs
      change (((gadgetGroups g ord cands).flatMap (·.mem)).map (·.1)).Nodup at hn
      rw [hs] at hn
      simp only [List.flatMap_append, List.flatMap_cons, List.map_append, hm, List.map_cons] at hn
      have h3 := ((List.nodup_append.mp hn).2.1)
      have h4 := (List.nodup_append.mp h3).1
      have h5 := (List.nodup_cons.mp h4).1
      exact fun e => h5 (by rw [e]; simp)
    have k1 := ((a.par u).mp hu).2
    have k2 := ((b.par u).mp hu).2
    obtain ⟨e, he⟩ := Option.ne_none_iff_exists'.mp k1
    have huv := (hwf.edge he).2.1
    rcases hg.zx u huv with h' | h'
    · exact absurd (hg.deg u huv h' q.1 q'.1 (by rw [hwf.symm]; exact k1) (by rw [hwf.symm]; exact k2)) hne
    · exact h'
  refine ⟨hz, fun q hq => ?_⟩
  have a := h2 q hq
  exact hg.had q.1 u a.tn hz ((a.par u).mp hu).2

/-- C19: one round of gadget fusion (matcher and rewrite) never raises and preserves the tensor, scalar included, if no two spiders that carry phase gadgets are
connected. Missing for the full claim: with connected axels the scalar can be wrong (`gadget_not_exact`). -/
theorem gadget_partial {g : Graph} (hg : GadgetGraph g) {ord : ℕ → List ℕ} (ho : NbrOrder g ord) {cands : List ℕ} (hc : ∀ c ∈ cands, c ∈ g.verts)
    (hsep : ∀ n n', IsAxel g n → IsAxel g n' → g.adj n n' = none) :
    ∃ g', gadgetRound g ord cands = some g' ∧ Preserves g g' ∧ g'.verts ⊆ g.verts := by
  obtain ⟨h1, h2, h3⟩ := gadgetGroups_spec hg ho hc
  have hs : GroupSep g (gadgetGroups g ord cands) := by
    refine ⟨h2, ?_⟩
    rw [List.pairwise_iff_forall_sublist]
    intro a b hab _ _ q hq q' hq'
    exact hsep _ _ (h3 a (hab.subset (by simp)) q hq) (h3 b (hab.subset (by simp)) q' hq')
  obtain ⟨g', e1, e2, e3, -⟩ := gadget_sound hg.wf h1 hs
  exact ⟨g', e1, e2, by rw [e3]; exact Finset.sdiff_subset⟩

/-- C19: the same for arbitrary connections as long as the groups of at least two gadgets are not connected to each other: a weaker condition,
stated on the groups found. -/
theorem gadget_groups_partial {g : Graph} (hg : GadgetGraph g) {ord : ℕ → List ℕ} (ho : NbrOrder g ord) {cands : List ℕ} (hc : ∀ c ∈ cands, c ∈ g.verts)
    (hsep : (gadgetGroups g ord cands).Pairwise fun d d' => 2 ≤ d.mem.length → 2 ≤ d'.mem.length →
      ∀ q ∈ d.mem, ∀ q' ∈ d'.mem, g.adj q.1 q'.1 = none) :
    ∃ g', gadgetRound g ord cands = some g' ∧ Preserves g g' ∧ g'.verts ⊆ g.verts := by
  obtain ⟨h1, h2, h3⟩ := gadgetGroups_spec hg ho hc
  obtain ⟨g', e1, e2, e3, -⟩ := gadget_sound hg.wf h1 ⟨h2, hsep⟩
  exact ⟨g', e1, e2, by rw [e3]; exact Finset.sdiff_subset⟩

/-! ### Completeness -/

private theorem addGadget_par (P : Finset ℕ) (q : ℕ × ℕ) (ds : List GadGroup) (h : (ds.map (·.par)).Nodup) : ((addGadget P q ds).map (·.par)).Nodup := by
  have hmem : ∀ ds : List GadGroup, ∀ R, R ∈ (addGadget P q ds).map (·.par) → R = P ∨ R ∈ ds.map (·.par) := by
    intro ds R hR
    obtain ⟨d, hd, e⟩ := List.mem_map.mp hR
    rcases addGadget_mem P q ds d hd with h' | ⟨e1, -⟩
    · right; exact List.mem_map.mpr ⟨d, h', e⟩
    · left; rw [← e, e1]
  induction ds with
  | nil => simp [addGadget]
  | cons e ds ih =>
    unfold addGadget
    rw [List.map_cons, List.nodup_cons] at h
    by_cases c : e.par = P
    · rw [if_pos c, List.map_cons, List.nodup_cons]; exact h
    · rw [if_neg c, List.map_cons, List.nodup_cons]
      refine ⟨fun h' => ?_, ih h.2⟩
      rcases hmem ds _ h' with h'' | h''
      · exact c h''
      · exact h.1 h''

/-- `v` is the leaf of a phase gadget with axel `n`. -/
def IsGadget (g : Graph) (n v : ℕ) : Prop :=
  g.nbrs v = {n} ∧ 2 < (g.phase v).den ∧ (g.phase n = 0 ∨ g.phase n = 1) ∧ n ∉ g.inputs ∧ n ∉ g.outputs

private structure KInv (g : Graph) (done : List ℕ) (ds : List GadGroup) : Prop where
  par : (ds.map (·.par)).Nodup
  seen : ∀ v ∈ done, ∀ n, IsGadget g n v → n ∈ (ds.flatMap (·.mem)).map (·.1)
  mem : ∀ d ∈ ds, ∀ q ∈ d.mem, IsGadget g q.1 q.2

private theorem find_complete {g : Graph} {ord : ℕ → List ℕ} (ho : NbrOrder g ord) (cands : List ℕ) : ∀ done ds, KInv g done ds →
    (∀ c ∈ cands, c ∈ g.verts) → KInv g (done ++ cands) (cands.foldl (gadFindStep g ord) ds) := by
  induction cands with
  | nil => intro done ds h _; simpa using h
  | cons v cs ih =>
    intro done ds h hc
    obtain ⟨o1, o2⟩ := ho v (hc v (by simp))
    have key : KInv g (done ++ [v]) (gadFindStep g ord ds v) := by
      have hno : (∀ n, IsGadget g n v → n ∈ (ds.flatMap (·.mem)).map (·.1)) → KInv g (done ++ [v]) ds := by
        intro hn
        refine ⟨h.par, fun w hw n hgw => ?_, h.mem⟩
        rw [List.mem_append, List.mem_singleton] at hw
        rcases hw with hw | hw
        · exact h.seen w hw n hgw
        · exact hn n (hw ▸ hgw)
      unfold gadFindStep
      by_cases c0 : (nonCliff g v && decide ((ord v).length = 1)) = true
      swap
      · rw [if_neg c0]
        refine hno fun n hn => absurd ?_ c0
        simp only [Bool.and_eq_true, nonCliff, decide_eq_true_eq]
        refine ⟨⟨fun h0 => ?_, hn.2.1⟩, ?_⟩
        · have := hn.2.1
          rw [h0] at this
          simp at this
        · rw [← List.toFinset_card_of_nodup o1, o2, hn.1]; rfl
      rw [if_pos c0]
      simp only [Bool.and_eq_true, nonCliff, decide_eq_true_eq] at c0
      obtain ⟨⟨c1, c2⟩, c3⟩ := c0
      obtain ⟨n, hn⟩ := List.length_eq_one_iff.mp c3
      have hnb : g.nbrs v = {n} := by rw [← o2, hn]; rfl
      have hun : ∀ n', IsGadget g n' v → n' = n := by
        intro n' h'
        have := h'.1
        rw [hnb] at this
        exact (Finset.singleton_injective this).symm
      rw [hn]
      simp only [List.head?_cons]
      by_cases c4 : ¬ (g.phase n = 0 ∨ g.phase n = 1)
      · rw [if_pos c4]
        exact hno fun n' h' => absurd (by have := h'.2.2.1; rwa [hun n' h'] at this) c4
      rw [if_neg c4]
      push Not at c4
      by_cases c5 : n ∈ (ds.flatMap (·.mem)).map (·.1)
      · rw [if_pos c5]
        exact hno fun n' h' => by rw [hun n' h']; exact c5
      rw [if_neg c5]
      by_cases c6 : n ∈ g.inputs ∨ n ∈ g.outputs
      · rw [if_pos c6]
        exact hno fun n' h' => by
          have h1 := h'.2.2.2
          rw [hun n' h'] at h1
          exact absurd c6 (by push Not; exact h1)
      rw [if_neg c6]
      push Not at c6
      have hperm := (addGadget_perm ((g.nbrs n).erase v) (n, v) ds).map (·.1)
      refine ⟨addGadget_par _ _ ds h.par, fun w hw n' hgw => ?_, fun d hd q hq => ?_⟩
      · rw [hperm.mem_iff, List.map_cons, List.mem_cons]
        rw [List.mem_append, List.mem_singleton] at hw
        rcases hw with hw | hw
        · exact Or.inr (h.seen w hw n' hgw)
        · exact Or.inl (hun n' (hw ▸ hgw))
      · rcases addGadget_mem _ _ ds d hd with h' | ⟨e1, L, e2, e3⟩
        · exact h.mem d h' q hq
        · rw [e2, List.mem_append, List.mem_singleton] at hq
          rcases hq with hq | hq
          · rcases e3 with e3 | ⟨d', k1, k2, k3⟩
            · rw [e3] at hq; simp at hq
            · exact h.mem d' k1 q (k3 ▸ hq)
          · rw [hq]; exact ⟨hnb, c2, c4, c6.1, c6.2⟩
    have := ih (done ++ [v]) _ key (fun c hc' => hc c (by simp [hc']))
    simpa using this

theorem gadgetGroups_isGadget {g : Graph} {ord : ℕ → List ℕ} (ho : NbrOrder g ord) {cands : List ℕ} (hc : ∀ c ∈ cands, c ∈ g.verts) :
    ∀ d ∈ gadgetGroups g ord cands, ∀ q ∈ d.mem, IsGadget g q.1 q.2 := by
  have hk := find_complete ho cands [] [] ⟨by simp, by simp, by simp⟩ hc
  rw [List.nil_append] at hk
  exact hk.mem

/-- C19: when the matcher returns nothing, all axels of phase gadgets among the candidates have phase 0 and phase gadgets with different axels have
different targets. -/
theorem gadget_complete {g : Graph} (hg : GadgetGraph g) {ord : ℕ → List ℕ} (ho : NbrOrder g ord) {cands : List ℕ} (hc : ∀ c ∈ cands, c ∈ g.verts)
    (h : (matchGadgets g ord cands).2 = []) :
    ∀ n v, v ∈ cands → IsGadget g n v → g.phase n = 0 ∧
      ∀ n' v', v' ∈ cands → IsGadget g n' v' → n ≠ n' → (g.nbrs n).erase v ≠ (g.nbrs n').erase v' := by
  have hk := find_complete ho cands [] [] ⟨by simp, by simp, by simp⟩ hc
  rw [List.nil_append] at hk
  change KInv g cands (gadgetGroups g ord cands) at hk
  obtain ⟨hok, -, -⟩ := gadgetGroups_spec hg ho hc
  have hm : (gadgetGroups g ord cands).flatMap (gMatch g) = [] := by
    have := (gadgetEmit_fold (g := g) (gadgetGroups g ord cands) g [] ⟨SameBut.refl g, rfl⟩).2.1
    rw [List.nil_append] at this
    rw [← this]; exact h
  have hd : ∀ d ∈ gadgetGroups g ord cands, ∃ q, d.mem = [q] ∧ g.phase q.1 = 0 := by
    intro d hd
    have h1 : gMatch g d = [] := List.flatMap_eq_nil_iff.mp hm d hd
    have h2 := (hok d hd).ne
    obtain ⟨P, mem⟩ := d
    match mem with
    | [] => exact absurd rfl h2
    | [q] =>
      refine ⟨q, rfl, ?_⟩
      simp only [gMatch] at h1
      by_contra c
      rw [if_pos c] at h1
      simp at h1
    | q :: q' :: L => simp [gMatch] at h1
  have find : ∀ n v, v ∈ cands → IsGadget g n v → g.phase n = 0 ∧ ((∀ u, IsGadget g n u → u = v) →
      ∃ d ∈ gadgetGroups g ord cands, d.mem = [(n, v)] ∧ d.par = (g.nbrs n).erase v) := by
    intro n v hv hgv
    obtain ⟨q, hq, e⟩ := List.mem_map.mp (hk.seen v hv n hgv)
    obtain ⟨d, hd', hqd⟩ := List.mem_flatMap.mp hq
    have hq2 := hk.mem d hd' q hqd
    rw [e] at hq2
    obtain ⟨q', k1, k2⟩ := hd d hd'
    rw [k1, List.mem_singleton] at hqd
    rw [← hqd] at k1 k2
    refine ⟨by rw [← e]; exact k2, fun huniq => ?_⟩
    have hqe : q = (n, v) := Prod.ext e (huniq q.2 hq2)
    have a := (hok d hd').mem q (by rw [k1]; simp)
    refine ⟨d, hd', by rw [k1, hqe], ?_⟩
    ext u
    rw [a.par u, Finset.mem_erase, mem_nbrs hg.wf.toInv, hqe]
  intro n v hv hgv
  obtain ⟨d3, d0⟩ := find n v hv hgv
  refine ⟨d3, fun n' v' hv' hgv' hne hp => ?_⟩
  -- an axel with two leaves shares its targets with no other axel
  have uniq : ∀ n v n' v', IsGadget g n' v' → n ≠ n' → (g.nbrs n).erase v = (g.nbrs n').erase v' → ∀ u, IsGadget g n u → u = v := by
    intro n v n' v' hgv' hne hp u hu
    by_contra huv
    have h1 : g.adj n u ≠ none := by
      rw [hg.wf.symm]; exact (mem_nbrs hg.wf.toInv).mp (by rw [hu.1]; simp)
    have h2 : u ∈ (g.nbrs n').erase v' := by
      rw [← hp, Finset.mem_erase]; exact ⟨huv, (mem_nbrs hg.wf.toInv).mpr h1⟩
    have h3 : g.adj u n' ≠ none := by
      rw [hg.wf.symm]; exact (mem_nbrs hg.wf.toInv).mp (Finset.mem_of_mem_erase h2)
    have h4 := (mem_nbrs hg.wf.toInv).mpr h3
    rw [hu.1, Finset.mem_singleton] at h4
    exact hne h4.symm
  have hun := uniq n v n' v' hgv' hne hp
  have hun' := uniq n' v' n v hgv (Ne.symm hne) hp.symm
  obtain ⟨d, d1, d2, d4⟩ := d0 hun
  obtain ⟨d', e1, e2, e4⟩ := (find n' v' hv' hgv').2 hun'
  have hdd : d = d' := List.inj_on_of_nodup_map hk.par d1 e1 (by rw [d4, e4, hp])
  rw [hdd, e2] at d2
  simp at d2
  exact hne d2.1.symm

/-! ### Examples -/

/-- Two phase gadgets with phases π/4 and π/2+π/4, one of them with π on the axel, on the same two spiders. -/
noncomputable def exGad : Graph := mkG [.Z, .Z, .Z, .Z, .Z, .Z, .boundary, .boundary] [0, 1, 1 / 4, 3 / 4, 0, 1 / 2, 0, 0]
  [(0, 2, .had), (1, 3, .had), (0, 4, .had), (0, 5, .had), (1, 4, .had), (1, 5, .had), (4, 6, .simple), (5, 7, .had)] [6] [7]

theorem exGad_graph : GadgetGraph exGad := by
  have hw : exGad.WF := mkG_wf (by decide)
  refine ⟨hw, mkG_bdeg (by decide) (by decide), fun v hv => ?_, mkG_zhad (by decide) (by decide), fun v hv hb => ?_, fun v hv hb => ?_⟩
  · have : v < 8 := by simpa [exGad, mkG] using hv
    interval_cases v <;> simp [exGad, mkG]
  · have : v < 8 := by simpa [exGad, mkG] using hv
    interval_cases v <;> first | (simp [exGad, mkG] at hb; done) | simp [exGad, mkG]
  · have : v < 8 := by simpa [exGad, mkG] using hv
    interval_cases v <;> first | (simp [exGad, mkG] at hb; done) | simp [exGad, mkG]

/-- `exGad` meets the hypotheses of `gadget_partial`. -/
example : ∃ g', gadgetRound exGad exGad.incOrd [0, 1, 2, 3, 4, 5] = some g' ∧ Preserves exGad g' ∧ g'.verts ⊆ exGad.verts := by
  have hw := exGad_graph.wf
  refine gadget_partial exGad_graph (incOrd_ok _) (by simp [exGad, mkG]) fun n n' h h' => ?_
  have hlt : ∀ n, IsAxel exGad n → n < 2 := by
    rintro n ⟨-, v, h1, h2⟩
    have hadj : exGad.adj v n ≠ none := (mem_nbrs hw.toInv).mp (by rw [h1]; simp)
    obtain ⟨e, he⟩ := Option.ne_none_iff_exists'.mp hadj
    have hv : v < 8 := by simpa [exGad, mkG] using (hw.edge he).1
    have n2 : exGad.nbrs 2 = {0} := by ext v; rw [mem_nbrs hw.toInv]; simp [exGad, mkG]; omega
    have n3 : exGad.nbrs 3 = {1} := by ext v; rw [mem_nbrs hw.toInv]; simp [exGad, mkG]; omega
    interval_cases v
    · simp [exGad, mkG] at h2
    · simp [exGad, mkG] at h2
    · rw [n2] at h1; have := Finset.singleton_injective h1; omega
    · rw [n3] at h1; have := Finset.singleton_injective h1; omega
    · simp [exGad, mkG] at h2
    · have hp : exGad.phase 5 = 1 / 2 := by simp [exGad, mkG]
      rw [hp, show (1 / 2 : ℚ) = mkRat 1 2 by norm_num [Rat.mkRat_eq_div]] at h2
      exact absurd h2 (by decide)
    · simp [exGad, mkG] at h2
    · simp [exGad, mkG] at h2
  have h1 := hlt n h
  have h2 := hlt n' h'
  interval_cases n <;> interval_cases n' <;> simp [exGad, mkG]

/-! ### The scalar is wrong for adjacent axels of different groups -/

/-- Four phase gadgets; the axels `0` and `1` both have the targets `2` and `3`, and the axels `2` and `3` both have the targets `0` and `1`. -/
noncomputable def exGad8 : Graph := mkG [.Z, .Z, .Z, .Z, .Z, .Z, .Z, .Z] [0, 0, 0, 0, 1 / 4, 1 / 4, 1 / 4, 1 / 4]
  [(0, 2, .had), (0, 3, .had), (1, 2, .had), (1, 3, .had), (0, 4, .had), (1, 5, .had), (2, 6, .had), (3, 7, .had)] [] []

private theorem leaves_sum {g : Graph} (hg : g.WF) {U : Finset ℕ} (L : List (ℕ × ℕ)) (hty : ∀ v ∈ g.verts, g.ty v = .Z)
    (hv : g.verts = U ∪ unions L (fun q => {q.2})) (hd : (L.map (·.2)).Nodup) (hU : ∀ q ∈ L, q.2 ∉ U)
    (hL : ∀ q ∈ L, q.1 ∈ U ∧ g.adj q.1 q.2 = some .had ∧ ∀ u, g.adj q.2 u ≠ none → u = q.1) (b : ℕ → Bool) :
    g.amp b = psum U (fun x => g.wOn U x * (L.map fun q => sq2⁻¹ * (1 + ph (g.phase q.2) * sgn (x q.1))).prod) b := by
  have hmem : ∀ q ∈ L, q.2 ∈ g.verts := fun q hq => by
    rw [hv, Finset.mem_union]; right; exact mem_unions.mpr ⟨q, hq, by simp⟩
  have hUv : ∀ u ∈ U, u ∈ g.verts := fun u hu => by rw [hv, Finset.mem_union]; exact Or.inl hu
  have hdis : Disjoint U (unions L (fun q : ℕ × ℕ => ({q.2} : Finset ℕ))) := by
    rw [Finset.disjoint_left]
    intro u hu hu'
    obtain ⟨q, hq, h⟩ := mem_unions.mp hu'
    rw [Finset.mem_singleton] at h
    exact hU q hq (h ▸ hu)
  have hpw : L.Pairwise fun i j => Disjoint ({i.2} : Finset ℕ) {j.2} ∧ ∀ v ∈ ({i.2} : Finset ℕ), ∀ w ∈ ({j.2} : Finset ℕ), g.adj v w = none := by
    have h1 : L.Pairwise fun i j => i.2 ≠ j.2 := List.pairwise_map.mp hd
    have h2 : L.Pairwise fun i j => i ∈ L ∧ j ∈ L := by
      rw [List.pairwise_iff_forall_sublist]
      intro a b hab
      exact ⟨hab.subset (by simp), hab.subset (by simp)⟩
    refine (h1.and h2).imp ?_
    rintro i j ⟨h, hi, hj⟩
    refine ⟨by simpa using h, fun v hv w hw => ?_⟩
    rw [Finset.mem_singleton] at hv hw
    rw [hv, hw]
    by_contra c
    have := (hL i hi).2.2 _ c
    exact hU j hj (this ▸ (hL i hi).1)
  have hint : g.interior = U ∪ unions L (fun q => {q.2}) := by
    rw [← hv]
    unfold Graph.interior
    rw [Finset.filter_eq_self]
    intro v hv'
    rw [hty v hv']; decide
  unfold amp
  rw [hint, psum_union hdis]
  refine psum_congr fun x _ => ?_
  have := psum_groups hg.symm (U := U) L (fun q => ({q.2} : Finset ℕ)) (fun _ _ => 1)
    (fun q hq => by simpa using hU q hq) hpw (by
      refine hpw.imp ?_
      intros; exact ⟨fun _ _ _ => rfl, fun _ _ _ => rfl⟩) x
  have e : (fun x => g.weight x) = fun x => g.wOn (U ∪ unions L (fun q => {q.2})) x * (L.map fun _ => (1 : ℂ)).prod := by
    funext y
    rw [weight_eq_wOn, hv]
    simp
  rw [show g.weight = fun x => g.weight x from rfl, e, this]
  congr 1
  refine congrArg List.prod (List.map_congr_left fun q hq => ?_)
  simp only [mul_one]
  exact leaf_sumOut hg.symm (hty _ (hUv _ (hL q hq).1)) (hty _ (hmem q hq)) (hL q hq).2.1 (hL q hq).2.2 (hL q hq).1 (hU q hq) x

private theorem phq : ph (1 / 4) ^ 2 = Complex.I := by
  rw [pow_two, ← ph_add]; norm_num [ph_half]

private theorem exGad8_sem (b : ℕ → Bool) : exGad8.sem b = 1 + Complex.I := by
  have hw : exGad8.WF := mkG_wf (by decide)
  have hty : ∀ v ∈ exGad8.verts, exGad8.ty v = .Z := by
    intro v hv
    have : v < 8 := by simpa [exGad8, mkG] using hv
    interval_cases v <;> simp [exGad8, mkG]
  rw [sem_eq_amp hw, leaves_sum hw (U := {0, 1, 2, 3}) [(0, 4), (1, 5), (2, 6), (3, 7)] hty
    (by ext v; simp [exGad8, mkG, unions]; omega) (by decide) (by decide) (by
      intro q hq
      simp only [List.mem_cons, List.not_mem_nil, or_false] at hq
      rcases hq with rfl | rfl | rfl | rfl <;> refine ⟨by decide, by simp [exGad8, mkG], fun u => ?_⟩ <;>
        · simp [exGad8, mkG]; exact fun h => h.symm)]
  have hp : ∀ v, 4 ≤ v → v < 8 → exGad8.phase v = 1 / 4 := by
    intro v h h'; interval_cases v <;> simp [exGad8, mkG]
  have hs : exGad8.scalar.toNumber = 1 := by simp [exGad8, mkG, Scalar.new, Scalar.toNumber]
  have hwt : ∀ x, exGad8.wOn {0, 1, 2, 3} x = hmat (x 0) (x 2) * hmat (x 0) (x 3) * (hmat (x 1) (x 2) * hmat (x 1) (x 3)) := by
    intro x
    unfold wOn
    rw [show ({0, 1, 2, 3} : Finset ℕ) = insert 0 (insert 1 (insert 2 (insert 3 ∅))) from rfl]
    rw [pairProd_insert (by simp) (edgeK_comm hw.symm x), pairProd_insert (by simp) (edgeK_comm hw.symm x),
      pairProd_insert (by simp) (edgeK_comm hw.symm x), pairProd_insert (by simp) (edgeK_comm hw.symm x), pairProd_empty]
    have e : ∀ u v, exGad8.adj u v = some .had → exGad8.edgeK x u v = hmat (x u) (x v) := by
      intro u v h
      rw [edgeK_some h]
      obtain ⟨h1, h2, -⟩ := hw.edge h
      have : exGad8.eff u v .had = true := by
        unfold eff isX
        rw [hty u h1, hty v h2]
        rfl
      rw [this]; rfl
    have h0 : ∀ v, v < 4 → exGad8.vwt v (x v) = 1 := by
      intro v hv'
      interval_cases v <;> simp [vwt, vval, exGad8, mkG]
    have e02 := e 0 2 (by simp [exGad8, mkG])
    have e03 := e 0 3 (by simp [exGad8, mkG])
    have e12 := e 1 2 (by simp [exGad8, mkG])
    have e13 := e 1 3 (by simp [exGad8, mkG])
    have e01 : exGad8.edgeK x 0 1 = 1 := edgeK_none (by simp [exGad8, mkG])
    have e23 : exGad8.edgeK x 2 3 = 1 := edgeK_none (by simp [exGad8, mkG])
    simp [e01, e12, e23, e02, e03, e13, h0 0 (by norm_num), h0 1 (by norm_num), h0 2 (by norm_num), h0 3 (by norm_num), hs]
  rw [show ({0, 1, 2, 3} : Finset ℕ) = insert 0 (insert 1 (insert 2 (insert 3 ∅))) from rfl]
  simp only [psum_insert_env (show (0 : ℕ) ∉ insert 1 (insert 2 (insert 3 (∅ : Finset ℕ))) by simp),
    psum_insert_env (show (1 : ℕ) ∉ insert 2 (insert 3 (∅ : Finset ℕ)) by simp),
    psum_insert_env (show (2 : ℕ) ∉ insert 3 (∅ : Finset ℕ) by simp), psum_insert_env (show (3 : ℕ) ∉ (∅ : Finset ℕ) by simp)]
  simp only [psum_empty]
  rw [show (insert 0 (insert 1 (insert 2 (insert 3 ∅))) : Finset ℕ) = {0, 1, 2, 3} from rfl]
  simp only [hwt, hp 4 (by norm_num) (by norm_num), hp 5 (by norm_num) (by norm_num), hp 6 (by norm_num) (by norm_num),
    hp 7 (by norm_num) (by norm_num), List.map_cons, List.map_nil, List.prod_cons, List.prod_nil]
  simp [hmat, sgn]
  have h2 := sq2_mul_self
  have h0 := sq2_ne_zero
  have hq : ph 4⁻¹ ^ 2 = Complex.I := by have := phq; rwa [one_div] at this
  generalize ph 4⁻¹ = w at *
  generalize sq2 = t at *
  have h4 : w ^ 4 = -1 := by rw [show w ^ 4 = (w ^ 2) ^ 2 by ring, hq, Complex.I_sq]
  have h8 : t ^ 8 = 16 := by rw [show t ^ 8 = (t * t) ^ 4 by ring, h2]; norm_num
  field_simp
  ring_nf
  rw [h8, h4, hq]
  ring

/-- C19 fails when axels of different groups are adjacent: one round turns the tensor `1+i` of `exGad8` into `(1+i)/√2`. -/
theorem gadget_not_exact : GadgetGraph exGad8 ∧ NbrOrder exGad8 exGad8.incOrd ∧
    ∃ g', gadgetRound exGad8 exGad8.incOrd [4, 5, 6, 7] = some g' ∧ ∀ b, exGad8.sem b = 1 + Complex.I ∧ g'.sem b = sq2⁻¹ * (1 + Complex.I) := by
  have hw : exGad8.WF := mkG_wf (by decide)
  have hty : ∀ v ∈ exGad8.verts, exGad8.ty v = .Z := by
    intro v hv
    have : v < 8 := by simpa [exGad8, mkG] using hv
    interval_cases v <;> simp [exGad8, mkG]
  have hgg : GadgetGraph exGad8 := by
    refine ⟨hw, mkG_bdeg (by decide) (by decide), fun v hv => ?_, mkG_zhad (by decide) (by decide), fun v hv hb => ?_, fun v hv hb => ?_⟩
    · have : v < 8 := by simpa [exGad8, mkG] using hv
      interval_cases v <;> simp [exGad8, mkG]
    · rw [hty v hv] at hb; exact absurd hb (by decide)
    · rw [hty v hv] at hb; exact absurd hb (by decide)
  have n0 : exGad8.nbrs 0 = {2, 3, 4} := by ext v; rw [mem_nbrs hw.toInv]; simp [exGad8, mkG]; omega
  have n1 : exGad8.nbrs 1 = {2, 3, 5} := by ext v; rw [mem_nbrs hw.toInv]; simp [exGad8, mkG]; omega
  have n2 : exGad8.nbrs 2 = {0, 1, 6} := by ext v; rw [mem_nbrs hw.toInv]; simp [exGad8, mkG]; omega
  have n3 : exGad8.nbrs 3 = {0, 1, 7} := by ext v; rw [mem_nbrs hw.toInv]; simp [exGad8, mkG]; omega
  have n4 : exGad8.nbrs 4 = {0} := by ext v; rw [mem_nbrs hw.toInv]; simp [exGad8, mkG]; omega
  have n5 : exGad8.nbrs 5 = {1} := by ext v; rw [mem_nbrs hw.toInv]; simp [exGad8, mkG]; omega
  have n6 : exGad8.nbrs 6 = {2} := by ext v; rw [mem_nbrs hw.toInv]; simp [exGad8, mkG]; omega
  have n7 : exGad8.nbrs 7 = {3} := by ext v; rw [mem_nbrs hw.toInv]; simp [exGad8, mkG]; omega
  have o4 : exGad8.incOrd 4 = [0] := by unfold incOrd; rw [n4]; simp
  have o5 : exGad8.incOrd 5 = [1] := by unfold incOrd; rw [n5]; simp
  have o6 : exGad8.incOrd 6 = [2] := by unfold incOrd; rw [n6]; simp
  have o7 : exGad8.incOrd 7 = [3] := by unfold incOrd; rw [n7]; simp
  have hp0 : ∀ v, v < 4 → exGad8.phase v = 0 := by intro v h; interval_cases v <;> simp [exGad8, mkG]
  have hp4 : ∀ v, 4 ≤ v → v < 8 → exGad8.phase v = 1 / 4 := by intro v h h'; interval_cases v <;> simp [exGad8, mkG]
  have hio : exGad8.inputs = [] ∧ exGad8.outputs = [] := ⟨rfl, rfl⟩
  have hden : (1 / 4 : ℚ).den = 4 := by rw [show (1 / 4 : ℚ) = mkRat 1 4 by norm_num [Rat.mkRat_eq_div]]; rfl
  have hnc : ∀ v, 4 ≤ v → v < 8 → nonCliff exGad8 v = true := by
    intro v h h'
    unfold nonCliff
    rw [hp4 v h h', hden]
    simp
  have hgr : gadgetGroups exGad8 exGad8.incOrd [4, 5, 6, 7] = [⟨{2, 3}, [(0, 4), (1, 5)]⟩, ⟨{0, 1}, [(2, 6), (3, 7)]⟩] := by
    have s1 : gadFindStep exGad8 exGad8.incOrd [] 4 = [⟨{2, 3}, [(0, 4)]⟩] := by
      have q : (exGad8.nbrs 0).erase 4 = {2, 3} := by rw [n0]; decide
      unfold gadFindStep
      rw [o4]
      simp [hnc 4, hp0 0, q, hio.1, hio.2, addGadget]
    have s2 : gadFindStep exGad8 exGad8.incOrd [⟨{2, 3}, [(0, 4)]⟩] 5 = [⟨{2, 3}, [(0, 4), (1, 5)]⟩] := by
      have q : (exGad8.nbrs 1).erase 5 = {2, 3} := by rw [n1]; decide
      unfold gadFindStep
      rw [o5]
      simp [hnc 5, hp0 1, q, hio.1, hio.2, addGadget]
    have ne : ({2, 3} : Finset ℕ) ≠ {0, 1} := by decide
    have s3 : gadFindStep exGad8 exGad8.incOrd [⟨{2, 3}, [(0, 4), (1, 5)]⟩] 6 = [⟨{2, 3}, [(0, 4), (1, 5)]⟩, ⟨{0, 1}, [(2, 6)]⟩] := by
      have q : (exGad8.nbrs 2).erase 6 = {0, 1} := by rw [n2]; decide
      unfold gadFindStep
      rw [o6]
      simp [hnc 6, hp0 2, q, hio.1, hio.2, addGadget, ne]
    have s4 : gadFindStep exGad8 exGad8.incOrd [⟨{2, 3}, [(0, 4), (1, 5)]⟩, ⟨{0, 1}, [(2, 6)]⟩] 7 =
        [⟨{2, 3}, [(0, 4), (1, 5)]⟩, ⟨{0, 1}, [(2, 6), (3, 7)]⟩] := by
      have q : (exGad8.nbrs 3).erase 7 = {0, 1} := by rw [n3]; decide
      unfold gadFindStep
      rw [o7]
      simp [hnc 7, hp0 3, q, hio.1, hio.2, addGadget, ne]
    unfold gadgetGroups
    rw [List.foldl_cons, s1, List.foldl_cons, s2, List.foldl_cons, s3, List.foldl_cons, s4, List.foldl_nil]
  set h1 := (exGad8.addPower (-1)).addPower (-1) with hh1
  have hph : ∀ v, h1.phase v = exGad8.phase v := fun _ => rfl
  have tot : mod2 (1 / 4 + (1 / 4 + 0)) = 1 / 2 := by rw [mod2_of_range] <;> norm_num
  have hm : matchGadgets exGad8 exGad8.incOrd [4, 5, 6, 7] = (h1, [⟨5, 1, 1 / 2, [0], [4]⟩, ⟨7, 3, 1 / 2, [2], [6]⟩]) := by
    unfold matchGadgets
    rw [hgr]
    have e1 : gadgetEmit (exGad8, []) ⟨{2, 3}, [(0, 4), (1, 5)]⟩ = (exGad8.addPower (-1), [⟨5, 1, 1 / 2, [0], [4]⟩]) := by
      simp only [gadgetEmit, gadgetScalars, totPhase, List.foldl_cons, List.foldl_nil, List.map_cons, List.map_nil, List.sum_cons, List.sum_nil,
        hp0 0 (by norm_num), hp0 1 (by norm_num), hp4 4 (by norm_num) (by norm_num), hp4 5 (by norm_num) (by norm_num), tot,
        ne_eq, not_true_eq_false, if_false, if_true]
      rfl
    have e2 : gadgetEmit (exGad8.addPower (-1), [⟨5, 1, 1 / 2, [0], [4]⟩]) ⟨{0, 1}, [(2, 6), (3, 7)]⟩ =
        (h1, [⟨5, 1, 1 / 2, [0], [4]⟩, ⟨7, 3, 1 / 2, [2], [6]⟩]) := by
      have q : ∀ v, (exGad8.addPower (-1)).phase v = exGad8.phase v := fun _ => rfl
      simp only [gadgetEmit, gadgetScalars, totPhase, List.foldl_cons, List.foldl_nil, List.map_cons, List.map_nil, List.sum_cons, List.sum_nil, q,
        hp0 2 (by norm_num), hp0 3 (by norm_num), hp4 6 (by norm_num) (by norm_num), hp4 7 (by norm_num) (by norm_num), tot,
        ne_eq, not_true_eq_false, if_false, if_true]
      rfl
    rw [List.foldl_cons, e1, List.foldl_cons, e2, List.foldl_nil]
  set h2 := (((h1.setPhase 5 (1 / 2)).setPhase 1 0).setPhase 7 (1 / 2)).setPhase 3 0 with hh2
  have hw2 : h2.WF := hw.congr (hw.toInv.congr rfl rfl rfl rfl rfl rfl) rfl rfl rfl rfl rfl
  obtain ⟨g', e⟩ := removeVertices_isSome hw2.toInv (vs := [0, 4, 2, 6]) (by decide) (by
    intro v hv
    show v ∈ exGad8.verts
    simp only [List.mem_cons, List.not_mem_nil, or_false] at hv
    rcases hv with rfl | rfl | rfl | rfl <;> simp [exGad8, mkG])
  obtain ⟨hr, -, -, hwf⟩ := removeVertices_spec e
  refine ⟨hgg, incOrd_ok _, g', ?_, fun b => ⟨exGad8_sem b, ?_⟩⟩
  · unfold gadgetRound
    rw [hm]
    exact e
  · have hv' : g'.verts = {1, 3} ∪ unions [(1, 5), (3, 7)] (fun q : ℕ × ℕ => ({q.2} : Finset ℕ)) := by
      rw [hr.verts]
      show exGad8.verts \ _ = _
      ext v
      simp [exGad8, mkG, unions]
      omega
    have hmem : ∀ v, v ∈ g'.verts → v = 1 ∨ v = 3 ∨ v = 5 ∨ v = 7 := by
      intro v hv
      rw [hv'] at hv
      simp [unions] at hv
      omega
    have hnR : ∀ v, (v = 1 ∨ v = 3 ∨ v = 5 ∨ v = 7) → v ∉ [0, 4, 2, 6].toFinset := by
      intro v h; rcases h with rfl | rfl | rfl | rfl <;> decide
    have hw' := hwf hw2
    have hty' : ∀ v ∈ g'.verts, g'.ty v = .Z := by
      intro v hv
      rw [hr.ty]
      refine hty v ?_
      rcases hmem v hv with rfl | rfl | rfl | rfl <;> simp [exGad8, mkG]
    have ha : ∀ u v, (u = 1 ∨ u = 3 ∨ u = 5 ∨ u = 7) → (v = 1 ∨ v = 3 ∨ v = 5 ∨ v = 7) → g'.adj u v = exGad8.adj u v := by
      intro u v hu hv
      rw [hr.adj u v (hnR u hu) (hnR v hv)]
      rfl
    have p5 : g'.phase 5 = 1 / 2 := by
      rw [hr.phase, hh2]
      simp only [setPhase, Function.update_apply]
      norm_num
      rw [mod2_of_range] <;> norm_num
    have p7 : g'.phase 7 = 1 / 2 := by
      rw [hr.phase, hh2]
      simp only [setPhase, Function.update_apply]
      norm_num
      rw [mod2_of_range] <;> norm_num
    have p1 : g'.phase 1 = 0 := by
      rw [hr.phase, hh2]
      simp only [setPhase, Function.update_apply]
      norm_num
    have p3 : g'.phase 3 = 0 := by
      rw [hr.phase, hh2]
      simp only [setPhase, Function.update_apply]
      norm_num
    have hs : g'.scalar.toNumber = sq2⁻¹ ^ 2 := by
      have := hr.wOn ∅ (by simp) b
      unfold wOn at this
      simp only [Finset.prod_empty, pairProd_empty, mul_one] at this
      rw [this]
      show ((exGad8.scalar.addPower (-1)).addPower (-1)).toNumber = _
      rw [Scalar.addPower_toNumber, Scalar.addPower_toNumber]
      simp [exGad8, mkG, Scalar.new, Scalar.toNumber]
      ring
    rw [sem_eq_amp hw', leaves_sum hw' (U := {1, 3}) [(1, 5), (3, 7)] hty' hv' (by decide) (by decide) (by
      intro q hq
      simp only [List.mem_cons, List.not_mem_nil, or_false] at hq
      rcases hq with rfl | rfl
      · refine ⟨by decide, by rw [ha _ _ (by simp) (by simp)]; simp [exGad8, mkG], fun u hu => ?_⟩
        obtain ⟨t, ht⟩ := Option.ne_none_iff_exists'.mp hu
        have hm := hmem u (hw'.edge ht).2.1
        rw [ha _ _ (by simp) hm] at hu
        rcases hm with rfl | rfl | rfl | rfl <;> simp [exGad8, mkG] at hu ⊢
      · refine ⟨by decide, by rw [ha _ _ (by simp) (by simp)]; simp [exGad8, mkG], fun u hu => ?_⟩
        obtain ⟨t, ht⟩ := Option.ne_none_iff_exists'.mp hu
        have hm := hmem u (hw'.edge ht).2.1
        rw [ha _ _ (by simp) hm] at hu
        rcases hm with rfl | rfl | rfl | rfl <;> simp [exGad8, mkG] at hu ⊢)]
    have hwt : ∀ x, g'.wOn {1, 3} x = sq2⁻¹ ^ 2 * hmat (x 1) (x 3) := by
      intro x
      unfold wOn
      rw [show ({1, 3} : Finset ℕ) = insert 1 (insert 3 ∅) from rfl]
      rw [pairProd_insert (by simp) (edgeK_comm hw'.symm x), pairProd_insert (by simp) (edgeK_comm hw'.symm x), pairProd_empty]
      have e13 : g'.edgeK x 1 3 = hmat (x 1) (x 3) := by
        have h13 : g'.adj 1 3 = some .had := by
          rw [ha _ _ (by simp) (by simp)]; simp [exGad8, mkG]
        rw [edgeK_some h13]
        have : g'.eff 1 3 .had = true := by
          unfold eff isX
          rw [hty' 1 (by rw [hv']; simp), hty' 3 (by rw [hv']; simp)]
          rfl
        rw [this]; rfl
      have w1 : g'.vwt 1 (x 1) = 1 := by unfold vwt vval; rw [hty' 1 (by rw [hv']; simp), p1]; simp
      have w3 : g'.vwt 3 (x 3) = 1 := by unfold vwt vval; rw [hty' 3 (by rw [hv']; simp), p3]; simp
      simp [e13, w1, w3, hs]
    rw [show ({1, 3} : Finset ℕ) = insert 1 (insert 3 ∅) from rfl]
    simp only [psum_insert_env (show (1 : ℕ) ∉ insert 3 (∅ : Finset ℕ) by simp), psum_insert_env (show (3 : ℕ) ∉ (∅ : Finset ℕ) by simp)]
    simp only [psum_empty]
    rw [show (insert 1 (insert 3 ∅) : Finset ℕ) = {1, 3} from rfl]
    simp only [hwt, p5, p7, List.map_cons, List.map_nil, List.prod_cons, List.prod_nil, ph_half]
    simp [hmat, sgn]
    have k2 := sq2_mul_self
    have k0 := sq2_ne_zero
    generalize sq2 = t at *
    have k4 : t ^ 4 = 4 := by rw [show t ^ 4 = (t * t) ^ 2 by ring, k2]; norm_num
    field_simp
    ring_nf
    rw [k4, Complex.I_sq]
    ring

end Props
end PyZX
