import Verif.Proofs.Copy
import Verif.Spec.Example

/-!
# C20: copying Pauli states through spiders
-/

namespace PyZX
namespace Props
open Graph Rules

theorem copyTry_spec {g : Graph} (hg : g.WF) (hz : ∀ v ∈ g.verts, g.ty v = .boundary ∨ g.ty v = .Z) (hh : g.ZHad) {ord : ℕ → List ℕ}
    (ho : NbrOrder g ord) {v : ℕ} (hv : v ∈ g.verts) {m : CopyMatch} (h : copyTry g ord v = some m) : m.v = v ∧ CopyOK g m := by
  unfold copyTry at h
  by_cases hc : ¬ (g.phase v = 0 ∨ g.phase v = 1) ∨ g.ty v ≠ .Z ∨ g.degree v ≠ 1
  · rw [if_pos hc] at h; simp at h
  · rw [if_neg hc] at h
    push Not at hc
    obtain ⟨c1, c2, c3⟩ := hc
    obtain ⟨o1, o2⟩ := ho v hv
    obtain ⟨w, hw⟩ := Finset.card_eq_one.mp c3
    have hov : ord v = [w] := by
      have h3 : (ord v).length = 1 := by rw [← List.toFinset_card_of_nodup o1, o2]; exact c3
      obtain ⟨a, ha⟩ := List.length_eq_one_iff.mp h3
      rw [ha, hw] at o2
      rw [ha]
      simpa using o2
    rw [hov] at h
    simp only [List.head?_cons] at h
    by_cases hwz : g.ty w ≠ .Z
    · rw [if_pos hwz] at h; simp at h
    · rw [if_neg hwz, Option.some.injEq] at h
      push Not at hwz
      rw [← h]
      have hwv : g.adj v w ≠ none := (mem_nbrs hg.toInv).mp (by rw [hw]; simp)
      have hhad : g.adj v w = some .had := hh v w c2 hwz hwv
      obtain ⟨-, hwm, -, -, -⟩ := hg.edge hhad
      obtain ⟨p1, p2⟩ := ho w hwm
      have hmem : ∀ u, u ∈ ord w ↔ g.adj w u ≠ none := by
        intro u
        rw [← List.mem_toFinset, p2, mem_nbrs hg.toInv]
      refine ⟨rfl, hv, c2, hwz, rfl, c1, rfl, hhad, fun u hu => ?_, p1.filter _, fun u => ?_, fun n hn => ?_⟩
      · by_contra h'
        have := (mem_nbrs hg.toInv).mpr h'
        rw [hw] at this
        exact hu (by simpa using this)
      · simp only [List.mem_filter, decide_eq_true_eq, hmem]
        tauto
      · simp only [List.mem_filter, decide_eq_true_eq, hmem] at hn
        have hnm : n ∈ g.verts := by
          obtain ⟨e, he⟩ := Option.ne_none_iff_exists'.mp hn.1
          exact (hg.edge he).2.1
        rcases hz n hnm with h' | h'
        · exact Or.inl h'
        · exact Or.inr ⟨h', hh w n hwz h' hn.1⟩

/-- C20: the rewrite applied to any list of valid matches no two of which are adjacent succeeds and preserves the tensor, scalar included. -/
theorem applyCopy_preserves {g : Graph} (hg : g.WF) {ms : List CopyMatch} (hok : ∀ m ∈ ms, CopyOK g m)
    (hd : ms.Pairwise fun m m' => ({m.v, m.w} : Finset ℕ) ∩ {m'.v, m'.w} = ∅ ∧ g.adj m.w m'.w = none) :
    ∃ g', applyCopy g ms = some g' ∧ Preserves g g' := by
  refine applyCopy_sound hg hok ?_
  have hmem : ms.Pairwise fun m m' => m ∈ ms ∧ m' ∈ ms := by
    rw [List.pairwise_iff_forall_sublist]
    intro a b hab
    exact ⟨hab.subset (by simp), hab.subset (by simp)⟩
  refine (hd.and hmem).imp fun {m m'} h => ?_
  obtain ⟨⟨h1, h2⟩, h3, h4⟩ := h
  have hdj : Disjoint (copyG m) (copyG m') := Finset.disjoint_iff_inter_eq_empty.mpr h1
  refine ⟨hdj, fun v hv w hw => ?_⟩
  have hvw : ∀ a, a ∈ copyG m' → a ≠ m.w := fun a ha h => Finset.disjoint_left.mp hdj (by simp [copyG]) (h ▸ ha)
  have hwv : ∀ a, a ∈ copyG m → a ≠ m'.w := fun a ha h => Finset.disjoint_right.mp hdj (by simp [copyG]) (h ▸ ha)
  have hv' : v = m.v ∨ v = m.w := by simpa [copyG] using hv
  have hw' : w = m'.v ∨ w = m'.w := by simpa [copyG] using hw
  rcases hv' with hv' | hv'
  · rw [hv']; exact (hok m h3).leaf w (hvw w hw)
  · rcases hw' with hw' | hw'
    · rw [hw', hg.symm]; exact (hok m' h4).leaf v (hwv v hv)
    · rw [hv', hw']; exact h2

/-- The matcher never uses a vertex twice. -/
theorem matchCopy_disjoint {g : Graph} (hg : g.WF) (hz : ∀ v ∈ g.verts, g.ty v = .boundary ∨ g.ty v = .Z) (hh : g.ZHad) {ord : ℕ → List ℕ}
    (ho : NbrOrder g ord) {cands : List ℕ} (hn : cands.Nodup) (hc : ∀ c ∈ cands, c ∈ g.verts) :
    (matchCopy g ord cands).Pairwise fun m m' => ({m.v, m.w} : Finset ℕ) ∩ {m'.v, m'.w} = ∅ := by
  refine greedy_pairwise hn fun c hcm c' hcm' hne m m' h h' hdisc => ?_
  obtain ⟨e, hm⟩ := copyTry_spec hg hz hh ho (hc c hcm) h
  obtain ⟨e', hm'⟩ := copyTry_spec hg hz hh ho (hc c' hcm') h'
  simp only [copyDisc, Bool.or_eq_false_iff, beq_eq_false_iff_ne, List.contains_eq_mem, decide_eq_false_iff_not] at hdisc
  obtain ⟨d1, d2⟩ := hdisc
  rw [← e'] at d1 d2
  have hvv : m.v ≠ m'.v := by rw [e, e']; exact hne
  have x1 : m.w ≠ m'.w := by
    intro heq
    refine d2 ((hm.neigh m'.v).mpr ⟨hvv.symm, ?_⟩)
    rw [heq, hg.symm, hm'.had]; simp
  have x2 : m.v ≠ m'.w := by
    intro heq
    have : g.adj m.v m'.v ≠ none := by rw [heq, hg.symm, hm'.had]; simp
    exact this (hm.leaf m'.v d1)
  ext u
  simp only [Finset.mem_inter, Finset.mem_insert, Finset.mem_singleton, Finset.notMem_empty, iff_false, not_and, not_or]
  rintro (rfl | rfl)
  · exact ⟨hvv, x2⟩
  · exact ⟨Ne.symm d1, x1⟩

/-- C20: on a diagram of green spiders with Hadamard edges (as the code assumes), `apply_copy` applied to the output of `match_copy` preserves the
tensor, scalar included, if no two of the matched spiders are connected. Missing for the full claim: the matcher may return two matches
whose spiders are connected, and then the scalar is wrong (`copy_not_exact`). -/
theorem copy_partial {g : Graph} (hg : g.WF) (hz : ∀ v ∈ g.verts, g.ty v = .boundary ∨ g.ty v = .Z) (hh : g.ZHad) {ord : ℕ → List ℕ}
    (ho : NbrOrder g ord) {cands : List ℕ} (hn : cands.Nodup) (hc : ∀ c ∈ cands, c ∈ g.verts)
    (hind : (matchCopy g ord cands).Pairwise fun m m' => g.adj m.w m'.w = none) :
    ∃ g', applyCopy g (matchCopy g ord cands) = some g' ∧ Preserves g g' := by
  refine applyCopy_preserves hg (fun m hm => ?_) ((matchCopy_disjoint hg hz hh ho hn hc).and hind)
  obtain ⟨c, h1, -, h2⟩ := greedy_mem hm
  exact (copyTry_spec hg hz hh ho (hc c h1) h2).2

/-- C20: the first match alone is always applied correctly. -/
theorem copy_first {g : Graph} (hg : g.WF) (hz : ∀ v ∈ g.verts, g.ty v = .boundary ∨ g.ty v = .Z) (hh : g.ZHad) {ord : ℕ → List ℕ}
    (ho : NbrOrder g ord) {v : ℕ} (hv : v ∈ g.verts) {m : CopyMatch} (h : copyTry g ord v = some m) :
    ∃ g', applyCopy g [m] = some g' ∧ Preserves g g' :=
  applyCopy_preserves hg (by simpa using (copyTry_spec hg hz hh ho hv h).2) (by simp)

/-- C20: when the matcher returns nothing, no candidate is a Pauli state attached to a green spider. -/
theorem matchCopy_complete {g : Graph} {ord : ℕ → List ℕ} (ho : NbrOrder g ord) {cands : List ℕ} (h : matchCopy g ord cands = []) :
    ∀ v ∈ cands, v ∈ g.verts → g.ty v = .Z → (g.phase v = 0 ∨ g.phase v = 1) → ∀ w, g.nbrs v = {w} → g.ty w ≠ .Z := by
  intro v hv hvm ht hp w hw htw
  have := greedy_nil h v hv
  obtain ⟨o1, o2⟩ := ho v hvm
  have hov : ord v = [w] := by
    have h3 : (ord v).length = 1 := by rw [← List.toFinset_card_of_nodup o1, o2, hw]; rfl
    obtain ⟨a, ha⟩ := List.length_eq_one_iff.mp h3
    rw [ha, hw] at o2
    rw [ha]
    simpa using o2
  unfold copyTry at this
  rw [if_neg (by push Not; exact ⟨hp, ht, by unfold degree; rw [hw]; rfl⟩), hov] at this
  simp only [List.head?_cons] at this
  rw [if_neg (by simpa using htw)] at this
  simp at this

/-- A π-state next to a spider with two outputs and a further spider with a phase. -/
noncomputable def exCopy : Graph := mkG [.Z, .Z, .boundary, .Z, .boundary, .boundary] [1, 1 / 4, 0, 1 / 2, 0, 0]
  [(0, 1, .had), (1, 2, .simple), (1, 3, .had), (3, 4, .simple), (3, 5, .had)] [2] [4, 5]

/-- The hypotheses of `copy_partial` are met by `exCopy`, where there is a match. -/
example : ∃ g', applyCopy exCopy (matchCopy exCopy exCopy.incOrd [0, 1, 3]) = some g' ∧ Preserves exCopy g' := by
  have hw : exCopy.WF := mkG_wf (by decide)
  have n0 : exCopy.nbrs 0 = {1} := by ext v; rw [mem_nbrs hw.toInv]; simp [exCopy, mkG]; omega
  refine copy_partial hw (fun v hv => ?_) (mkG_zhad (by decide) (by decide)) (incOrd_ok _) (by decide) (by simp [exCopy, mkG]) ?_
  · have : v < 6 := by simpa [exCopy, mkG] using hv
    interval_cases v <;> simp [exCopy, mkG]
  · have h1 : copyTry exCopy exCopy.incOrd 1 = none := by
      unfold copyTry; rw [if_pos]; left; simp [exCopy, mkG]
    have h3 : copyTry exCopy exCopy.incOrd 3 = none := by
      unfold copyTry; rw [if_pos]; left; simp [exCopy, mkG]
    unfold matchCopy
    rcases h0 : copyTry exCopy exCopy.incOrd 0 with _ | m <;> simp [greedy, h0, h1, h3]

/-- In `exCopy` the state at vertex 0 is matched. -/
example : ∃ m, copyTry exCopy exCopy.incOrd 0 = some m := by
  have hw : exCopy.WF := mkG_wf (by decide)
  have n0 : exCopy.nbrs 0 = {1} := by ext v; rw [mem_nbrs hw.toInv]; simp [exCopy, mkG]; omega
  have o0 : exCopy.incOrd 0 = [1] := by unfold incOrd; rw [n0]; simp
  unfold copyTry
  rw [if_neg (by push Not; exact ⟨by simp [exCopy, mkG], by simp [exCopy, mkG], by unfold degree; rw [n0]; rfl⟩), o0]
  simp [exCopy, mkG]

/-- A line of four Z-spiders. -/
noncomputable def exCopy4 : Graph := mkG [.Z, .Z, .Z, .Z] [0, 0, 0, 0] [(0, 1, .had), (1, 2, .had), (2, 3, .had)] [] []

theorem exCopy4_sem (b : ℕ → Bool) : exCopy4.sem b = sq2 := by
  have hw : exCopy4.WF := mkG_wf (by decide)
  rw [sem_eq_amp hw]
  have hv : exCopy4.verts = insert 0 (insert 1 (insert 2 (insert 3 ∅))) := by
    ext v; simp [exCopy4, mkG]; omega
  have hi : exCopy4.interior = insert 0 (insert 1 (insert 2 (insert 3 ∅))) := by
    ext v
    rw [Graph.interior, Finset.mem_filter, hv]
    constructor
    · exact fun h => h.1
    · intro h
      refine ⟨h, ?_⟩
      simp only [Finset.mem_insert, Finset.notMem_empty, or_false] at h
      rcases h with rfl | rfl | rfl | rfl <;> simp [exCopy4, mkG]
  unfold amp
  rw [hi]
  simp only [psum_insert_env (show (0 : ℕ) ∉ insert 1 (insert 2 (insert 3 (∅ : Finset ℕ))) by simp),
    psum_insert_env (show (1 : ℕ) ∉ insert 2 (insert 3 (∅ : Finset ℕ)) by simp),
    psum_insert_env (show (2 : ℕ) ∉ insert 3 (∅ : Finset ℕ) by simp), psum_insert_env (show (3 : ℕ) ∉ (∅ : Finset ℕ) by simp)]
  simp only [psum_empty]
  have hwt : ∀ x, exCopy4.weight x = hmat (x 0) (x 1) * hmat (x 1) (x 2) * hmat (x 2) (x 3) := by
    intro x
    rw [weight_eq_wOn, hv]
    unfold wOn
    rw [pairProd_insert (by simp) (edgeK_comm hw.symm x), pairProd_insert (by simp) (edgeK_comm hw.symm x),
      pairProd_insert (by simp) (edgeK_comm hw.symm x), pairProd_insert (by simp) (edgeK_comm hw.symm x), pairProd_empty]
    have e : ∀ u v, exCopy4.adj u v = some .had → exCopy4.edgeK x u v = hmat (x u) (x v) := by
      intro u v h
      rw [edgeK_some h]
      obtain ⟨h1, h2, -⟩ := hw.edge h
      rw [hv] at h1 h2
      have : exCopy4.eff u v .had = true := by
        have t : ∀ v ∈ insert 0 (insert 1 (insert 2 (insert 3 (∅ : Finset ℕ)))), exCopy4.isX v = false := by
          intro v hv'
          simp only [Finset.mem_insert, Finset.notMem_empty, or_false] at hv'
          rcases hv' with rfl | rfl | rfl | rfl <;> simp [isX, exCopy4, mkG]
        unfold eff
        rw [t u h1, t v h2]
        rfl
      rw [this]; rfl
    have h0 : ∀ v, v < 4 → exCopy4.vwt v (x v) = 1 := by
      intro v hv'
      interval_cases v <;> simp [vwt, vval, exCopy4, mkG]
    have hs : exCopy4.scalar.toNumber = 1 := by simp [exCopy4, mkG, Scalar.new, Scalar.toNumber]
    have e01 := e 0 1 (by simp [exCopy4, mkG])
    have e12 := e 1 2 (by simp [exCopy4, mkG])
    have e23 := e 2 3 (by simp [exCopy4, mkG])
    have e02 : exCopy4.edgeK x 0 2 = 1 := edgeK_none (by simp [exCopy4, mkG])
    have e03 : exCopy4.edgeK x 0 3 = 1 := edgeK_none (by simp [exCopy4, mkG])
    have e13 : exCopy4.edgeK x 1 3 = 1 := edgeK_none (by simp [exCopy4, mkG])
    simp [e01, e12, e23, e02, e03, e13, h0 0 (by norm_num), h0 1 (by norm_num), h0 2 (by norm_num), h0 3 (by norm_num), hs]
    ring
  simp only [hwt]
  simp [hmat]
  have := sq2_mul_self
  have h0 := sq2_ne_zero
  field_simp
  ring_nf
  rw [show sq2 ^ 4 = (sq2 ^ 2) ^ 2 by ring, sq2_sq]
  norm_num

/-- C20 fails for interacting matches: on a line of four Z-spiders `match_copy` returns two matches whose spiders are connected, and applying
them turns the tensor `√2` into `1`. -/
theorem copy_not_exact : exCopy4.WF ∧ exCopy4.ZHad ∧ NbrOrder exCopy4 exCopy4.incOrd ∧
    ∃ g', applyCopy exCopy4 (matchCopy exCopy4 exCopy4.incOrd [0, 1, 2, 3]) = some g' ∧ ∀ b, exCopy4.sem b = sq2 ∧ g'.sem b = 1 := by
  have hw : exCopy4.WF := mkG_wf (by decide)
  have n0 : exCopy4.nbrs 0 = {1} := by ext v; rw [mem_nbrs hw.toInv]; simp [exCopy4, mkG]; omega
  have n1 : exCopy4.nbrs 1 = {0, 2} := by ext v; rw [mem_nbrs hw.toInv]; simp [exCopy4, mkG]; omega
  have n2 : exCopy4.nbrs 2 = {1, 3} := by ext v; rw [mem_nbrs hw.toInv]; simp [exCopy4, mkG]; omega
  have n3 : exCopy4.nbrs 3 = {2} := by ext v; rw [mem_nbrs hw.toInv]; simp [exCopy4, mkG]; omega
  have ty : ∀ v, v < 4 → exCopy4.ty v = .Z := by intro v hv; interval_cases v <;> simp [exCopy4, mkG]
  have hp : ∀ v, v < 4 → exCopy4.phase v = 0 := by intro v hv; interval_cases v <;> simp [exCopy4, mkG]
  have o0 : exCopy4.incOrd 0 = [1] := by unfold incOrd; rw [n0]; simp
  have o3 : exCopy4.incOrd 3 = [2] := by unfold incOrd; rw [n3]; simp
  have hmem : ∀ v u, u ∈ exCopy4.incOrd v ↔ u ∈ exCopy4.nbrs v := by intro v u; unfold incOrd; simp
  have l1 : (exCopy4.incOrd 1).filter (fun n => decide (n ≠ 0)) = [2] := by
    have hnd : ((exCopy4.incOrd 1).filter (fun n => decide (n ≠ 0))).Nodup := List.Nodup.filter _ (by unfold incOrd; exact Finset.sort_nodup _ _)
    refine List.perm_singleton.mp ((List.perm_ext_iff_of_nodup hnd (by simp)).mpr fun a => ?_)
    rw [List.mem_filter, hmem, n1]; simp; omega
  have l2 : (exCopy4.incOrd 2).filter (fun n => decide (n ≠ 3)) = [1] := by
    have hnd : ((exCopy4.incOrd 2).filter (fun n => decide (n ≠ 3))).Nodup := List.Nodup.filter _ (by unfold incOrd; exact Finset.sort_nodup _ _)
    refine List.perm_singleton.mp ((List.perm_ext_iff_of_nodup hnd (by simp)).mpr fun a => ?_)
    rw [List.mem_filter, hmem, n2]; simp; omega
  have t0 : copyTry exCopy4 exCopy4.incOrd 0 = some ⟨0, 1, 0, 0, [2]⟩ := by
    unfold copyTry
    rw [if_neg (by push Not; exact ⟨Or.inl (hp 0 (by norm_num)), ty 0 (by norm_num), by unfold degree; rw [n0]; rfl⟩), o0]
    simp only [List.head?_cons]
    rw [if_neg (by simp [ty 1 (by norm_num)]), l1, hp 0 (by norm_num), hp 1 (by norm_num)]
  have t3 : copyTry exCopy4 exCopy4.incOrd 3 = some ⟨3, 2, 0, 0, [1]⟩ := by
    unfold copyTry
    rw [if_neg (by push Not; exact ⟨Or.inl (hp 3 (by norm_num)), ty 3 (by norm_num), by unfold degree; rw [n3]; rfl⟩), o3]
    simp only [List.head?_cons]
    rw [if_neg (by simp [ty 2 (by norm_num)]), l2, hp 3 (by norm_num), hp 2 (by norm_num)]
  have hm : matchCopy exCopy4 exCopy4.incOrd [0, 1, 2, 3] = [⟨0, 1, 0, 0, [2]⟩, ⟨3, 2, 0, 0, [1]⟩] := by
    unfold matchCopy
    simp [greedy, t0, t3, copyDisc]
  set h1 := (((exCopy4.addPower 0).addToPhase 2 0).addPower 0).addToPhase 1 0 with hh1
  have hfold : (matchCopy exCopy4 exCopy4.incOrd [0, 1, 2, 3]).foldlM copyStep (exCopy4, []) = some (h1, [0, 1, 3, 2]) := by
    rw [hm]
    have ty2 : exCopy4.ty 2 ≠ .boundary := by rw [ty 2 (by norm_num)]; decide
    have ty1 : exCopy4.ty 1 ≠ .boundary := by rw [ty 1 (by norm_num)]; decide
    have c2 : copyNbr 1 0 (exCopy4.addPower 0) 2 = some ((exCopy4.addPower 0).addToPhase 2 0) := by
      unfold copyNbr; rw [if_neg (show (exCopy4.addPower 0).ty 2 ≠ .boundary from ty2)]; rfl
    have c1 : copyNbr 2 0 (((exCopy4.addPower 0).addToPhase 2 0).addPower 0) 1 = some h1 := by
      unfold copyNbr; rw [if_neg (show (((exCopy4.addPower 0).addToPhase 2 0).addPower 0).ty 1 ≠ .boundary from ty1)]; rfl
    have s1 : copyStep (exCopy4, []) ⟨0, 1, 0, 0, [2]⟩ = some ((exCopy4.addPower 0).addToPhase 2 0, [0, 1]) := by
      unfold copyStep
      simp [c2]
    have s2 : copyStep ((exCopy4.addPower 0).addToPhase 2 0, [0, 1]) ⟨3, 2, 0, 0, [1]⟩ = some (h1, [0, 1, 3, 2]) := by
      unfold copyStep
      simp [c1]
    rw [List.foldlM_cons, s1]
    show List.foldlM copyStep _ _ = _
    rw [List.foldlM_cons, s2]
    rfl
  have hw1 : h1.WF := hw.congr (hw.toInv.congr rfl rfl rfl rfl rfl rfl) rfl rfl rfl rfl rfl
  obtain ⟨g', e⟩ := removeVertices_isSome hw1.toInv (vs := [0, 1, 3, 2]) (by decide) (by
    intro v hv
    show v ∈ exCopy4.verts
    simp only [List.mem_cons, List.not_mem_nil, or_false] at hv
    rcases hv with rfl | rfl | rfl | rfl <;> simp [exCopy4, mkG])
  obtain ⟨hr, -, -, hwf⟩ := removeVertices_spec e
  refine ⟨hw, mkG_zhad (by decide) (by decide), incOrd_ok _, g', ?_, fun b => ⟨exCopy4_sem b, ?_⟩⟩
  · unfold applyCopy
    rw [hfold]
    exact e
  · rw [sem_eq_amp (hwf hw1)]
    have hv : g'.verts = ∅ := by
      rw [hr.verts]
      show exCopy4.verts \ _ = _
      ext v
      simp [exCopy4, mkG]
      omega
    have hI : g'.interior = ∅ := by unfold Graph.interior; rw [hv]; rfl
    unfold amp
    rw [hI, psum_empty, weight_eq_wOn, hr.wOn _ (by rw [hv]; simp), hv]
    unfold wOn
    have : h1.scalar.toNumber = 1 := by
      show ((exCopy4.scalar.addPower 0).addPower 0).toNumber = 1
      rw [Scalar.addPower_toNumber, Scalar.addPower_toNumber]
      simp [exCopy4, mkG, Scalar.new, Scalar.toNumber]
    rw [this]
    simp

end Props
end PyZX
