import Verif.Proofs.HFuse
import Verif.Props.HRules

/-!
# C65: fusion of H-boxes

`match_connected_hboxes` and `fuse_hboxes` keep the tensor, scalar included, as long as the matched pairs are not connected to each other. Two
matches that are connected can be wrong: the connection between them is lost.
-/

namespace PyZX
namespace Props

open Graph HRules

/-- **C65.** Whenever the rewrite returns, it keeps the tensor exactly and removes one H-box of each match, for matches as in `FuseOK`. -/
theorem fuseHboxes_preserves {g : Graph} (hg : g.HWF) {ord : ℕ → List ℕ} (ho : Rules.NbrOrder g ord) {ms : List (ℕ × ℕ)}
    (h : FuseOK g (ms.map (orient g))) {g' : Graph} (hfin : (fuseHboxes g ord ms).finish = some g') :
    HPreserves g g' ∧ g'.verts = g.verts \ (ms.map fun m => (orient g m).2).toFinset :=
  HRules.fuse_sound hg ho h hfin

/-- **C65.** The matcher returns Hadamard edges between H-boxes of which at least one has phase 1, all among the candidates, no two of them with a common
vertex. -/
theorem matchConnected_disjoint {g : Graph} {cands : List (ℕ × ℕ)} (hn : cands.Nodup) :
    (∀ m ∈ matchConnected g cands, m ∈ cands ∧ g.adj m.1 m.2 = some .had ∧ g.ty m.1 = .hbox ∧ g.ty m.2 = .hbox ∧ (g.phase m.1 = 1 ∨ g.phase m.2 = 1)) ∧
    (matchConnected g cands).Pairwise fun m m' => m.1 ≠ m'.1 ∧ m.1 ≠ m'.2 ∧ m.2 ≠ m'.1 ∧ m.2 ≠ m'.2 := by
  have ht : ∀ c m, connTry g c = some m → m = c ∧ g.adj m.1 m.2 = some .had ∧ g.ty m.1 = .hbox ∧ g.ty m.2 = .hbox ∧ (g.phase m.1 = 1 ∨ g.phase m.2 = 1) := by
    intro c m h
    unfold connTry at h
    split at h
    · exact absurd h (by simp)
    · rename_i h1
      split at h
      · exact absurd h (by simp)
      · rename_i h2
        split at h
        · exact absurd h (by simp)
        · rename_i h3
          obtain rfl := Option.some.inj h
          push Not at h1 h2 h3
          refine ⟨rfl, h1, h2.1, h2.2, ?_⟩
          by_cases h4 : g.phase c.1 = 1
          · exact Or.inl h4
          · exact Or.inr (h3 h4)
  constructor
  · intro m hm
    obtain ⟨c, h1, -, h2⟩ := Rules.greedy_mem hm
    obtain ⟨rfl, h3⟩ := ht c m h2
    exact ⟨h1, h3⟩
  · refine Rules.greedy_pairwise hn fun c _ c' _ _ m m' h h' hd => ?_
    obtain ⟨rfl, -⟩ := ht _ _ h
    obtain ⟨rfl, -⟩ := ht _ _ h'
    simp only [connDisc, Bool.or_eq_false_iff, beq_eq_false_iff_ne] at hd
    exact ⟨fun e => hd.1.1.1 e.symm, fun e => hd.1.1.2 e.symm, fun e => hd.1.2 e.symm, fun e => hd.2 e.symm⟩

/-- **C65.** When the matcher returns nothing, no candidate is a Hadamard edge between H-boxes of which one has phase 1. -/
theorem matchConnected_complete {g : Graph} {cands : List (ℕ × ℕ)} (h : matchConnected g cands = []) :
    ∀ c ∈ cands, g.adj c.1 c.2 = some .had → g.ty c.1 = .hbox → g.ty c.2 = .hbox → g.phase c.1 ≠ 1 ∧ g.phase c.2 ≠ 1 := by
  intro c hc h1 h2 h3
  have := Rules.greedy_nil h c hc
  unfold connTry at this
  rw [if_neg (not_not.mpr h1), if_neg (by push Not; exact ⟨h2, h3⟩)] at this
  by_contra h4
  rw [if_neg h4] at this
  exact absurd this (by simp)

theorem orient_cases (g : Graph) (m : ℕ × ℕ) : orient g m = m ∧ g.phase m.2 = 1 ∨ orient g m = (m.2, m.1) ∧ g.phase m.2 ≠ 1 := by
  unfold orient
  by_cases h : g.phase m.2 = 1
  · left; rw [if_neg (not_not.mpr h)]; exact ⟨rfl, h⟩
  · right; rw [if_pos h]; exact ⟨rfl, h⟩

/-- Matches that are not connected to each other. -/
theorem fuseOK_of_apart {g : Graph} (hg : g.Inv) {ms : List (ℕ × ℕ)} (hn : ms.Nodup)
    (h1 : ∀ m ∈ ms, g.adj m.1 m.2 = some .had ∧ g.ty m.1 = .hbox ∧ g.ty m.2 = .hbox ∧ (g.phase m.1 = 1 ∨ g.phase m.2 = 1))
    (h2 : ∀ m ∈ ms, ∀ m' ∈ ms, m ≠ m' → m.1 ≠ m'.1 ∧ m.1 ≠ m'.2 ∧ m.2 ≠ m'.1 ∧ m.2 ≠ m'.2)
    (h3 : ∀ m ∈ ms, ∀ m' ∈ ms, m ≠ m' → g.adj m.1 m'.1 = none ∧ g.adj m.1 m'.2 = none ∧ g.adj m.2 m'.1 = none ∧ g.adj m.2 m'.2 = none) :
    FuseOK g (ms.map (orient g)) := by
  have key : ∀ o ∈ ms.map (orient g), ∃ m ∈ ms, orient g m = o := fun o ho => List.mem_map.mp ho
  have hdis : ∀ m ∈ ms, ∀ m' ∈ ms, m ≠ m' → (orient g m).1 ≠ (orient g m').1 ∧ (orient g m).1 ≠ (orient g m').2 ∧ (orient g m).2 ≠ (orient g m').1 ∧
      (orient g m).2 ≠ (orient g m').2 := by
    intro m hm m' hm' hne
    obtain ⟨a, b, c, d⟩ := h2 m hm m' hm' hne
    rcases orient_cases g m with ⟨e, -⟩ | ⟨e, -⟩ <;> rcases orient_cases g m' with ⟨e', -⟩ | ⟨e', -⟩ <;> rw [e, e'] <;> tauto
  refine ⟨?_, ?_, ?_, ?_, ?_, ?_, ?_⟩
  · rw [List.nodup_iff_pairwise_ne, List.pairwise_map]
    refine (hn.and (pairwise_mem ms)).imp fun {m m'} hx heq => ?_
    exact (hdis m hx.2.1 m' hx.2.2 hx.1).1 (by rw [heq])
  · intro o ho
    obtain ⟨m, hm, rfl⟩ := key o ho
    rcases orient_cases g m with ⟨e, -⟩ | ⟨e, -⟩ <;> rw [e]
    · exact (h1 m hm).1
    · rw [hg.symm]; exact (h1 m hm).1
  · intro o ho
    obtain ⟨m, hm, rfl⟩ := key o ho
    have := h1 m hm
    rcases orient_cases g m with ⟨e, -⟩ | ⟨e, -⟩ <;> rw [e] <;> tauto
  · intro o ho
    obtain ⟨m, hm, rfl⟩ := key o ho
    rcases orient_cases g m with ⟨e, h⟩ | ⟨e, h⟩ <;> rw [e]
    · exact h
    · exact (h1 m hm).2.2.2.resolve_right h
  · intro o ho o' ho' hne
    obtain ⟨m, hm, rfl⟩ := key o ho
    obtain ⟨m', hm', rfl⟩ := key o' ho'
    exact hdis m hm m' hm' fun e => hne (by rw [e])
  · intro o ho o' ho'
    obtain ⟨m, hm, rfl⟩ := key o ho
    obtain ⟨m', hm', rfl⟩ := key o' ho'
    by_cases hne : m = m'
    · rw [hne]; exact hg.loopless _
    · have := h3 m hm m' hm' hne
      rcases orient_cases g m with ⟨e, -⟩ | ⟨e, -⟩ <;> rcases orient_cases g m' with ⟨e', -⟩ | ⟨e', -⟩ <;> rw [e, e'] <;> tauto
  · intro o ho o' ho' hne
    obtain ⟨m, hm, rfl⟩ := key o ho
    obtain ⟨m', hm', rfl⟩ := key o' ho'
    have := h3 m hm m' hm' fun e => hne (by rw [e])
    rcases orient_cases g m with ⟨e, -⟩ | ⟨e, -⟩ <;> rcases orient_cases g m' with ⟨e', -⟩ | ⟨e', -⟩ <;> rw [e, e'] <;> tauto

/-- **C65.** Matching and rewriting. For every order of the candidates and every order `ms` in which the set of matches is listed, the rewrite returns and
keeps the tensor exactly, if no two matches are connected and the two H-boxes of a match have no common neighbour. Missing for the full claim: connected
matches, for which the rewrite can be wrong (`fuse_not_sound`), and common neighbours, for which it raises (`fuse_raises`). -/
theorem fuse_round_partial {g : Graph} (hg : g.HWF) {ord : ℕ → List ℕ} (ho : Rules.NbrOrder g ord) {cands : List (ℕ × ℕ)} (hn : cands.Nodup)
    {ms : List (ℕ × ℕ)} (hp : ms.Perm (matchConnected g cands))
    (hap : ∀ m ∈ ms, ∀ m' ∈ ms, m ≠ m' → g.adj m.1 m'.1 = none ∧ g.adj m.1 m'.2 = none ∧ g.adj m.2 m'.1 = none ∧ g.adj m.2 m'.2 = none)
    (hc : ∀ m ∈ ms, ∀ n, g.adj m.1 n ≠ none → g.adj m.2 n = none) :
    ∃ g', (fuseHboxes g ord ms).finish = some g' ∧ HPreserves g g' ∧ g'.verts = g.verts \ (ms.map fun m => (orient g m).2).toFinset := by
  obtain ⟨h1, h2⟩ := matchConnected_disjoint (g := g) hn
  have hpw : ms.Pairwise fun m m' => m.1 ≠ m'.1 ∧ m.1 ≠ m'.2 ∧ m.2 ≠ m'.1 ∧ m.2 ≠ m'.2 :=
    (hp.pairwise_iff (fun {a b} h => ⟨h.1.symm, h.2.2.1.symm, h.2.1.symm, h.2.2.2.symm⟩)).mpr h2
  have hnd : ms.Nodup := List.nodup_iff_pairwise_ne.mpr (hpw.imp fun {a b} h e => h.1 (by rw [e]))
  have h := fuseOK_of_apart hg.toInv hnd (fun m hm => (h1 m (hp.mem_iff.mp hm)).2)
    (fun m hm m' hm' hne => by
      have hsy : ∀ a b : ℕ × ℕ, (a.1 ≠ b.1 ∧ a.1 ≠ b.2 ∧ a.2 ≠ b.1 ∧ a.2 ≠ b.2) → (b.1 ≠ a.1 ∧ b.1 ≠ a.2 ∧ b.2 ≠ a.1 ∧ b.2 ≠ a.2) :=
        fun a b h => ⟨h.1.symm, h.2.2.1.symm, h.2.1.symm, h.2.2.2.symm⟩
      obtain ⟨i, hi, rfl⟩ := List.getElem_of_mem hm
      obtain ⟨j, hj, rfl⟩ := List.getElem_of_mem hm'
      rcases lt_trichotomy i j with hij | hij | hij
      · exact List.pairwise_iff_getElem.mp hpw i j hi hj hij
      · subst hij; exact absurd rfl hne
      · exact hsy _ _ (List.pairwise_iff_getElem.mp hpw j i hj hi hij)) hap
  obtain ⟨g', hg'⟩ := HRules.fuse_total hg ho h hc
  exact ⟨g', hg', HRules.fuse_sound hg ho h hg'⟩

/-- **C65.** A single match is always rewritten correctly, unless the two H-boxes have a common neighbour. -/
theorem fuse_single {g : Graph} (hg : g.HWF) {ord : ℕ → List ℕ} (ho : Rules.NbrOrder g ord) {m : ℕ × ℕ} (ha : g.adj m.1 m.2 = some .had)
    (h1 : g.ty m.1 = .hbox) (h2 : g.ty m.2 = .hbox) (hp : g.phase m.1 = 1 ∨ g.phase m.2 = 1) (hc : ∀ n, g.adj m.1 n ≠ none → g.adj m.2 n = none) :
    ∃ g', (fuseHboxes g ord [m]).finish = some g' ∧ HPreserves g g' ∧ g'.verts = g.verts \ {(orient g m).2} := by
  have h := fuseOK_of_apart hg.toInv (ms := [m]) (by simp) (by simpa using ⟨ha, h1, h2, hp⟩) (by simp) (by simp)
  obtain ⟨g', hg'⟩ := HRules.fuse_total hg ho h (by simpa using hc)
  have := HRules.fuse_sound hg ho h hg'
  exact ⟨g', hg', this.1, by simpa using this.2⟩

/-- Two H-boxes with a Hadamard edge between them, an input and two outputs. -/
noncomputable def exFuse1 : Graph :=
  mkG [.boundary, .hbox, .hbox, .boundary, .boundary] [0, 1 / 4, 1, 0, 0] [(0, 1, .simple), (1, 2, .had), (2, 3, .simple), (2, 4, .had)] [0] [3, 4]

/-- The hypotheses of `fuse_round_partial` hold for `exFuse1`, where there is a match. -/
example : exFuse1.HWF ∧ matchConnected exFuse1 [(0, 1), (1, 2), (2, 3), (2, 4)] = [(1, 2)] ∧ orient exFuse1 (1, 2) = (1, 2) ∧
    (∀ m ∈ [((1 : ℕ), (2 : ℕ))], ∀ n, exFuse1.adj m.1 n ≠ none → exFuse1.adj m.2 n = none) := by
  refine ⟨mkG_hwf (by decide) (by decide), ?_, ?_, ?_⟩
  · simp [matchConnected, Rules.greedy, connTry, connDisc, exFuse1, mkG]
  · simp [orient, exFuse1, mkG]
  · intro m hm n
    simp only [List.mem_singleton] at hm
    subst hm
    simp [exFuse1, mkG]
    omega

/-- Two matches whose removed H-boxes are connected. -/
noncomputable def exFuse4 : Graph := mkG [.hbox, .hbox, .hbox, .hbox] [0, 1, 1, 1] [(0, 1, .had), (1, 3, .simple), (2, 3, .had)] [] []

def exFuseOrd : ℕ → List ℕ
  | 0 => [1] | 1 => [0, 3] | 2 => [3] | 3 => [1, 2] | _ => []

theorem exFuse4_sem (b : ℕ → Bool) : exFuse4.sem b = 0 := by
  have hw : exFuse4.HWF := mkG_hwf (by decide) (by decide)
  rw [sem_eq_wH hw.toInv hw.noW]
  have hv : exFuse4.verts = insert 0 (insert 1 (insert 2 (insert 3 ∅))) := by
    ext v; simp [exFuse4, mkG]; omega
  have hi : exFuse4.interior = insert 0 (insert 1 (insert 2 (insert 3 ∅))) := by
    ext v
    rw [Graph.interior, Finset.mem_filter, hv]
    constructor
    · exact fun h => h.1
    · intro h
      refine ⟨h, ?_⟩
      simp only [Finset.mem_insert, Finset.notMem_empty, or_false] at h
      rcases h with rfl | rfl | rfl | rfl <;> simp [exFuse4, mkG]
  have hwt : ∀ x, exFuse4.wH exFuse4.verts x = (if x 0 then 0 else 1) * (if x 1 then -2 else 1) * (if x 2 then -2 else 1) * (if x 3 then -2 else 1) *
      contr .had (legT .hbox (x 0)) (legT .hbox (x 1)) * contr .simple (legT .hbox (x 1)) (legT .hbox (x 3)) *
      contr .had (legT .hbox (x 2)) (legT .hbox (x 3)) := by
    intro x
    rw [hv]
    unfold wH
    rw [pairProd_insert (by simp) (edgeH_comm hw.symm x), pairProd_insert (by simp) (edgeH_comm hw.symm x),
      pairProd_insert (by simp) (edgeH_comm hw.symm x), pairProd_insert (by simp) (edgeH_comm hw.symm x), pairProd_empty]
    have ty : ∀ v, v < 4 → exFuse4.ty v = .hbox := by intro v hv; interval_cases v <;> simp [exFuse4, mkG]
    have e01 : exFuse4.edgeH x 0 1 = contr .had (legT .hbox (x 0)) (legT .hbox (x 1)) := by
      rw [edgeH_some (e := .had) (by simp [exFuse4, mkG]), ty 0 (by norm_num), ty 1 (by norm_num)]
    have e13 : exFuse4.edgeH x 1 3 = contr .simple (legT .hbox (x 1)) (legT .hbox (x 3)) := by
      rw [edgeH_some (e := .simple) (by simp [exFuse4, mkG]), ty 1 (by norm_num), ty 3 (by norm_num)]
    have e23 : exFuse4.edgeH x 2 3 = contr .had (legT .hbox (x 2)) (legT .hbox (x 3)) := by
      rw [edgeH_some (e := .had) (by simp [exFuse4, mkG]), ty 2 (by norm_num), ty 3 (by norm_num)]
    have e02 : exFuse4.edgeH x 0 2 = 1 := edgeH_none (by simp [exFuse4, mkG])
    have e03 : exFuse4.edgeH x 0 3 = 1 := edgeH_none (by simp [exFuse4, mkG])
    have e12 : exFuse4.edgeH x 1 2 = 1 := edgeH_none (by simp [exFuse4, mkG])
    have hs : exFuse4.scalar.toNumber = 1 := by simp [exFuse4, mkG, Scalar.new, Scalar.toNumber]
    have w0 : exFuse4.wtH 0 (x 0) = if x 0 then 0 else 1 := by
      unfold wtH wtT; rw [ty 0 (by norm_num)]; simp [exFuse4, mkG]
    have w1 : ∀ v, 0 < v → v < 4 → exFuse4.wtH v (x v) = if x v then -2 else 1 := by
      intro v h0 h4
      unfold wtH wtT; rw [ty v h4]
      have : exFuse4.phase v = 1 := by interval_cases v <;> simp [exFuse4, mkG]
      rw [this, ph_one]
      norm_num
    simp [e01, e13, e23, e02, e03, e12, w0, w1 1 (by norm_num) (by norm_num), w1 2 (by norm_num) (by norm_num), w1 3 (by norm_num) (by norm_num), hs]
    ring_nf
  rw [hi]
  simp only [psum_insert_env (show (0 : ℕ) ∉ insert 1 (insert 2 (insert 3 (∅ : Finset ℕ))) by simp),
    psum_insert_env (show (1 : ℕ) ∉ insert 2 (insert 3 (∅ : Finset ℕ)) by simp),
    psum_insert_env (show (2 : ℕ) ∉ insert 3 (∅ : Finset ℕ) by simp), psum_insert_env (show (3 : ℕ) ∉ (∅ : Finset ℕ) by simp)]
  simp only [psum_empty, hwt]
  have hs : sq2⁻¹ * sq2⁻¹ = (1 / 2 : ℂ) := by
    rw [← mul_inv, sq2_mul_self]; norm_num
  simp [contr, legT, edgeMat, hmat, dmat]
  ring_nf

theorem exFuse4_ord : Rules.NbrOrder exFuse4 exFuseOrd := by
  intro v hv
  have hv : v < 4 := Finset.mem_range.mp hv
  interval_cases v <;> refine ⟨by decide, ?_⟩ <;> simp only [exFuse4, mkG, Graph.nbrs, exFuseOrd] <;> decide

/-- **C65 is false for connected matches.** In a line of four H-boxes the matcher returns the first and the last edge, and the rewrite drops the edge
between them: the tensor 0 becomes −2. -/
theorem fuse_not_sound : exFuse4.HWF ∧ Rules.NbrOrder exFuse4 exFuseOrd ∧ matchConnected exFuse4 [(0, 1), (1, 3), (2, 3)] = [(0, 1), (2, 3)] ∧
    ∃ g', (fuseHboxes exFuse4 exFuseOrd [(0, 1), (2, 3)]).finish = some g' ∧ ∀ b, exFuse4.sem b = 0 ∧ g'.sem b = -2 := by
  have hw : exFuse4.HWF := mkG_hwf (by decide) (by decide)
  have hm : matchConnected exFuse4 [(0, 1), (1, 3), (2, 3)] = [(0, 1), (2, 3)] := by
    simp [matchConnected, Rules.greedy, connTry, connDisc, exFuse4, mkG]
  have hf : fuseHboxes exFuse4 exFuseOrd [(0, 1), (2, 3)] =
      ⟨exFuse4.addPower 2, [((0, 3), (1, 0)), ((1, 2), (1, 0))], [1, 3], []⟩ := by
    have h1 : exFuse4.phase 1 = 1 := by simp [exFuse4, mkG]
    have h3 : exFuse4.phase 3 = 1 := by simp [exFuse4, mkG]
    have a13 : exFuse4.adj 1 3 = some .simple := by simp [exFuse4, mkG]
    have a31 : exFuse4.adj 3 1 = some .simple := by simp [exFuse4, mkG]
    simp [fuseHboxes, fuseStep, orient, h1, h3, exFuseOrd, fuseNbr, a13, a31, PyZX.ETab.upd, upair, RewriteState.start, addPower_addPower]
  have hi0 : (exFuse4.addPower 2).Inv := hw.toInv.congr rfl rfl rfl rfl rfl rfl
  obtain ⟨g1, h1⟩ : ∃ g1, (exFuse4.addPower 2).addEdge 0 3 .simple = some g1 :=
    addEdge_isSomeH (g := exFuse4.addPower 2) (fun u v => hw.noWio u v) (by simp [exFuse4, mkG, addPower]) (by simp [exFuse4, mkG, addPower]) (by decide) (by decide)
      (Or.inl (by simp [exFuse4, mkG, addPower]))
  have e1 : g1 = { (exFuse4.addPower 2).setAdj 0 3 (some .simple) with nedges := (exFuse4.addPower 2).nedges + 1 } := by
    obtain ⟨-, ⟨-, -, h⟩ | ⟨e, h, -⟩⟩ := addEdge_cases h1
    · exact h
    · exact absurd h (by simp [exFuse4, mkG, addPower])
  have i1 : g1.Inv := hi0.addEdge h1 (by decide)
  have f1 := addEdge_frame h1
  have n1 : g1.adj 1 2 = none := by rw [e1]; simp [exFuse4, mkG, addPower, setAdj]
  obtain ⟨g2, h2⟩ : ∃ g2, g1.addEdge 1 2 .simple = some g2 :=
    addEdge_isSomeH (addEdgeN_noWio (g := exFuse4.addPower 2) (s := 0) (t := 3) (n := 1) (e := .simple) (by decide) (by simp [addEdgeN, h1]) (fun u v => hw.noWio u v))
      (by rw [f1.verts]; simp [exFuse4, mkG, addPower]) (by rw [f1.verts]; simp [exFuse4, mkG, addPower]) (by decide) (by decide) (Or.inl n1)
  have e2 : g2 = { g1.setAdj 1 2 (some .simple) with nedges := g1.nedges + 1 } := by
    obtain ⟨-, ⟨-, -, h⟩ | ⟨e, h, -⟩⟩ := addEdge_cases h2
    · exact h
    · rw [n1] at h; exact absurd h (by simp)
  have i2 : g2.Inv := i1.addEdge h2 (by decide)
  have f2 := f1.trans (addEdge_frame h2)
  obtain ⟨g', h3⟩ := removeVertices_isSome i2 (vs := [1, 3]) (by decide) (by
    intro v hv
    rw [f2.verts]
    simp only [List.mem_cons, List.not_mem_nil, or_false] at hv
    rcases hv with rfl | rfl <;> simp [exFuse4, mkG, addPower])
  refine ⟨hw, exFuse4_ord, hm, g', ?_, fun b => ⟨exFuse4_sem b, ?_⟩⟩
  · rw [hf]
    simp [RewriteState.finish, addEdgeTable, addEdgeN, h1, h2, removeEdges, h3]
  · obtain ⟨hr, -, hi, -⟩ := removeVertices_spec h3
    have hv : g'.verts = insert 0 (insert 2 ∅) := by
      rw [hr.verts, f2.verts]
      ext v; simp [exFuse4, mkG, addPower]; omega
    have ty : ∀ v, v < 4 → g'.ty v = .hbox := by
      intro v hv
      rw [hr.ty, f2.ty]
      interval_cases v <;> simp [exFuse4, mkG, addPower]
    have hint : g'.interior = insert 0 (insert 2 ∅) := by
      ext v
      rw [Graph.interior, Finset.mem_filter, hv]
      constructor
      · exact fun h => h.1
      · intro h
        refine ⟨h, ?_⟩
        simp only [Finset.mem_insert, Finset.notMem_empty, or_false] at h
        rcases h with rfl | rfl <;> rw [ty _ (by norm_num)] <;> decide
    have hnw : ∀ v ∈ g'.verts, g'.ty v ≠ .winput ∧ g'.ty v ≠ .woutput := by
      intro v h
      rw [hv] at h
      simp only [Finset.mem_insert, Finset.notMem_empty, or_false] at h
      rcases h with rfl | rfl <;> rw [ty _ (by norm_num)] <;> decide
    have a02 : g'.adj 0 2 = none := by
      rw [hr.adj 0 2 (by simp) (by simp), e2, e1]
      simp [exFuse4, mkG, addPower, setAdj]
    have hsc : g'.scalar.toNumber = 2 := by
      rw [removeVertices_scalar h3, e2, e1]
      show ((exFuse4.scalar).addPower 2).toNumber = 2
      rw [Scalar.addPower_toNumber]
      have : exFuse4.scalar.toNumber = 1 := by simp [exFuse4, mkG, Scalar.new, Scalar.toNumber]
      rw [this, one_mul]
      have := sq2_mul_self
      rw [show (2 : ℤ) = ((2 : ℕ) : ℤ) from rfl, zpow_natCast, sq]
      exact this
    have p0 : g'.phase 0 = 0 := by rw [hr.phase, e2, e1]; simp [exFuse4, mkG, addPower, setAdj]
    have p2 : g'.phase 2 = 1 := by rw [hr.phase, e2, e1]; simp [exFuse4, mkG, addPower, setAdj]
    rw [sem_eq_wH (hi i2) hnw, hint]
    have hwt : ∀ x, g'.wH g'.verts x = 2 * (if x 0 then 0 else 1) * (if x 2 then -2 else 1) := by
      intro x
      rw [hv]
      unfold wH
      rw [pairProd_insert (by simp) (edgeH_comm (hi i2).symm x), pairProd_insert (by simp) (edgeH_comm (hi i2).symm x), pairProd_empty]
      have e02 : g'.edgeH x 0 2 = 1 := edgeH_none a02
      have w0 : g'.wtH 0 (x 0) = if x 0 then 0 else 1 := by
        unfold wtH wtT; rw [ty 0 (by norm_num), p0]; simp
      have w2 : g'.wtH 2 (x 2) = if x 2 then -2 else 1 := by
        unfold wtH wtT; rw [ty 2 (by norm_num), p2, ph_one]; norm_num
      simp [e02, w0, w2, hsc]
    simp only [psum_insert_env (show (0 : ℕ) ∉ insert 2 (∅ : Finset ℕ) by simp), psum_insert_env (show (2 : ℕ) ∉ (∅ : Finset ℕ) by simp)]
    simp only [psum_empty, hwt]
    simp
    norm_num

/-- Two H-boxes with a common neighbour. -/
noncomputable def exFuseRaise : Graph := mkG [.hbox, .hbox, .Z] [1, 1, 0] [(0, 1, .had), (0, 2, .simple), (1, 2, .simple)] [] []

/-- The condition on common neighbours in `fuse_round_partial` and `fuse_single` is needed: `add_edge` raises on the parallel edge. -/
theorem fuse_raises : exFuseRaise.HWF ∧ matchConnected exFuseRaise [(0, 1), (0, 2), (1, 2)] = [(0, 1)] ∧
    ∃ ord, Rules.NbrOrder exFuseRaise ord ∧ (fuseHboxes exFuseRaise ord [(0, 1)]).finish = none := by
  refine ⟨mkG_hwf (by decide) (by decide), ?_, fun v => match v with | 0 => [1, 2] | 1 => [0, 2] | 2 => [0, 1] | _ => [], ?_, ?_⟩
  · simp [matchConnected, Rules.greedy, connTry, connDisc, exFuseRaise, mkG]
  · intro v hv
    have hv : v < 3 := Finset.mem_range.mp hv
    interval_cases v <;> refine ⟨by decide, ?_⟩ <;> simp only [exFuseRaise, mkG, Graph.nbrs] <;> decide
  · simp [fuseHboxes, fuseStep, fuseNbr, orient, RewriteState.finish, RewriteState.start, addEdgeTable, PyZX.ETab.upd, upair, addEdgeN, addEdge,
      exFuseRaise, mkG, addPower, VType.zxLike, VType.zLike]

end Props
end PyZX
