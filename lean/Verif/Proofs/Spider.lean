import Verif.Sem.Frame
import Verif.Sem.Total
import Verif.Spec.Match

/-! # Spider fusion: helper lemmas -/

namespace PyZX
open Finset

namespace ETab

theorem nodup_upd {t : Graph.ETab} (h : (t.map Prod.fst).Nodup) (k : ℕ × ℕ) (f : ℕ × ℕ → ℕ × ℕ) :
    ((upd t k f).map Prod.fst).Nodup ∧ ∀ e ∈ upd t k f, e.1 = k ∨ e ∈ t := by
  induction t with
  | nil => simp [upd]
  | cons e t ih =>
    obtain ⟨k', p⟩ := e
    rw [List.map_cons, List.nodup_cons] at h
    simp only [upd]
    split
    · next hk =>
      refine ⟨by rw [List.map_cons, List.nodup_cons]; exact h, fun e he => ?_⟩
      rcases List.mem_cons.mp he with rfl | he
      · exact Or.inl hk
      · exact Or.inr (by simp [he])
    · next hk =>
      obtain ⟨h1, h2⟩ := ih h.2
      refine ⟨?_, fun e he => ?_⟩
      · rw [List.map_cons, List.nodup_cons]
        refine ⟨fun hin => ?_, h1⟩
        obtain ⟨e, he, hek⟩ := List.mem_map.mp hin
        rcases h2 e he with h3 | h3
        · exact hk (hek.symm.trans h3)
        · exact h.1 (List.mem_map.mpr ⟨e, h3, hek⟩)
      · rcases List.mem_cons.mp he with rfl | he
        · exact Or.inr (by simp)
        · rcases h2 e he with h3 | h3
          · exact Or.inl h3
          · exact Or.inr (by simp [h3])

theorem upd_val {t : Graph.ETab} (h : (t.map Prod.fst).Nodup) {k : ℕ × ℕ} {f : ℕ × ℕ → ℕ × ℕ} {e : (ℕ × ℕ) × (ℕ × ℕ)}
    (he : e ∈ upd t k f) (hk : e.1 = k) : e.2 = f (get t k) := by
  induction t with
  | nil =>
    simp only [upd, List.mem_singleton] at he
    rw [he]; rfl
  | cons e' t ih =>
    obtain ⟨k', p⟩ := e'
    rw [List.map_cons, List.nodup_cons] at h
    simp only [upd] at he
    simp only [get]
    by_cases hk' : k' = k
    · rw [if_pos hk'] at he ⊢
      rcases List.mem_cons.mp he with rfl | he
      · rfl
      · exact absurd (List.mem_map.mpr ⟨e, he, hk.trans hk'.symm⟩) h.1
    · rw [if_neg hk'] at he ⊢
      rcases List.mem_cons.mp he with rfl | he
      · exact absurd hk hk'
      · exact ih h.2 he

end ETab

namespace Graph

theorem spiderPhase_spec (g : Graph) {v0 v1 : ℕ} (hne : v0 ≠ v1)
    (hty : (g.ty v0 = .X ∧ g.ty v1 = .X) ∨ ((g.ty v0).zLike ∧ (g.ty v1).zLike)) :
    let g' := Rules.spiderPhase g v0 v1
    g'.verts = g.verts ∧ g'.adj = g.adj ∧ g'.vindex = g.vindex ∧ g'.nedges = g.nedges ∧ g'.inputs = g.inputs ∧
    g'.outputs = g.outputs ∧ (∀ v, g'.ty v = g.ty v ∨ (g.ty v = .Z ∧ g'.ty v = .zbox)) ∧
    (∀ v, v ≠ v0 → v ≠ v1 → g'.ty v = g.ty v ∧ g'.phase v = g.phase v ∧ g'.label v = g.label v) ∧
    ∀ (S : Finset ℕ), v0 ∈ S → v1 ∉ S → ∀ x, g'.wOn S x = g.wOn S x * (if x v0 then g.vval v1 else 1) := by
  intro g'
  have hX : (∀ v, g'.ty v = g.ty v ∨ (g.ty v = .Z ∧ g'.ty v = .zbox)) → ∀ v, g'.isX v = g.isX v := by
    intro h v
    unfold isX
    rcases h v with h | ⟨h1, h2⟩
    · rw [h]
    · rw [h1, h2]; rfl
  by_cases hz : g.ty v0 = .zbox ∨ g.ty v1 = .zbox
  · have hzz : (g.ty v0).zLike ∧ (g.ty v1).zLike := by
      rcases hty with ⟨h1, h2⟩ | h
      · rw [h1, h2] at hz; simp at hz
      · exact h
    have c0 : g.ty v0 = .Z ∨ g.ty v0 = .zbox := by
      have := hzz.1; revert this; cases g.ty v0 <;> simp [VType.zLike]
    have c1 : g.ty v1 = .Z ∨ g.ty v1 = .zbox := by
      have := hzz.2; revert this; cases g.ty v1 <;> simp [VType.zLike]
    have hg' : g' = _ := if_pos hz
    rcases c0 with c0 | c0 <;> rcases c1 with c1 | c1
    · rw [c0, c1] at hz; simp at hz
    all_goals
      simp only [c0, c1, Rules.zToZBox, setType, setLabel, setPhase, if_true, reduceCtorEq, if_false,
        Function.update_of_ne hne.symm] at hg'
      have hall : ∀ v, g'.ty v = g.ty v ∨ (g.ty v = .Z ∧ g'.ty v = .zbox) := by
        intro v
        rw [hg']
        by_cases h0 : v = v0
        · subst h0; simp [c0, hne]
        · by_cases h1 : v = v1
          · subst h1; simp [c1, h0]
          · simp [h0, h1]
      refine ⟨by rw [hg'], by rw [hg'], by rw [hg'], by rw [hg'], by rw [hg'], by rw [hg'], hall, ?_, ?_⟩
      · intro v h0 h1
        rw [hg']; simp [h0, h1]
      · intro S h0 h1 x
        refine wOn_vval_mul h0 (by rw [hg']) (by rw [hg']) (hX hall) ?_ ?_
        · unfold vval
          rw [hg']
          simp [c0, c1, hne]
        · intro v hv hv0
          have hv1 : v ≠ v1 := by rintro rfl; exact h1 hv
          unfold vval
          rw [hg']
          simp [hv0, hv1]
  · have hg' : g' = g.addToPhase v0 (g.phase v1) := if_neg hz
    push Not at hz
    refine ⟨by rw [hg']; rfl, by rw [hg']; rfl, by rw [hg']; rfl, by rw [hg']; rfl, by rw [hg']; rfl, by rw [hg']; rfl,
      fun v => Or.inl (by rw [hg']; rfl), ?_, ?_⟩
    · intro v h0 h1
      rw [hg']; simp [addToPhase, h0]
    · intro S h0 h1 x
      rw [hg', wOn_addToPhase g h0 _ hz.1]
      · congr 2
        unfold vval
        rcases hty with ⟨-, h⟩ | ⟨-, h⟩
        · rw [h]
        · revert h hz; cases g.ty v1 <;> simp [VType.zLike]
      · rcases hty with ⟨h, -⟩ | ⟨h, -⟩
        · rw [h]; simp
        · intro h2; rw [h2] at h; simp [VType.zLike] at h

/-- Invariant of the edge table of `spider`. -/
def SpTab (S : Finset ℕ) (t : ETab) : Prop :=
  (t.map Prod.fst).Nodup ∧ ∀ e ∈ t, (e.1.1 ∈ S ∧ e.1.2 ∈ S ∧ e.1.1 ≠ e.1.2) ∨ (e.1.1 = e.1.2 ∧ e.2 = (0, 0))

theorem spiderTab_spec {g : Graph} {S : Finset ℕ} {v0 v1 : ℕ} (h0 : v0 ∈ S) {ns : List ℕ} (hS : ∀ w ∈ ns, w ∈ S)
    (hsome : ∀ w ∈ ns, ∃ e, g.adj v1 w = some e ∧ e ≠ .wio) (hsimp : g.adj v1 v0 = some .simple) {t : ETab}
    (ht : SpTab S t) :
    SpTab S (Rules.spiderTab g v0 v1 ns t) ∧
    ∀ x, g.tableK x (Rules.spiderTab g v0 v1 ns t) =
      g.tableK x t * ((ns.filter (· ≠ v0)).map fun w => kern (g.eff v0 w ((g.adj v1 w).getD .simple)) (x v0) (x w)).prod := by
  have hself : ∀ x : ℕ → Bool, kern (g.eff v0 v0 .simple) (x v0) (x v0) = 1 := by
    intro (x : ℕ → Bool); simp [eff, kern, dmat]
  have key : ∀ (t : ETab), (t.map Prod.fst).Nodup → (∀ e ∈ t, (e.1.1 ∈ S ∧ e.1.2 ∈ S ∧ e.1.1 ≠ e.1.2) ∨
      (e.1 = (v0, v0) ∧ e.2.2 = 0) ∨ (e.1.1 = e.1.2 ∧ e.2 = (0, 0))) →
      let t' := ns.foldl (fun t w => ETab.incr t (v0, w) ((g.adj v1 w).getD .simple)) t
      (t'.map Prod.fst).Nodup ∧ (∀ e ∈ t', (e.1.1 ∈ S ∧ e.1.2 ∈ S ∧ e.1.1 ≠ e.1.2) ∨
      (e.1 = (v0, v0) ∧ e.2.2 = 0) ∨ (e.1.1 = e.1.2 ∧ e.2 = (0, 0))) ∧
      ∀ x, g.tableK x t' = g.tableK x t *
        ((ns.filter (· ≠ v0)).map fun w => kern (g.eff v0 w ((g.adj v1 w).getD .simple)) (x v0) (x w)).prod := by
    clear ht
    induction ns with
    | nil => intro t h1 h2; exact ⟨h1, h2, fun x => by simp⟩
    | cons w ns ih =>
      intro t h1 h2
      obtain ⟨e, he, hw⟩ := hsome w (by simp)
      have hincr : (ETab.incr t (v0, w) ((g.adj v1 w).getD .simple)) = ETab.incr t (v0, w) e := by rw [he]; rfl
      obtain ⟨i1, i2, i3⟩ := ih (fun w hw => hS w (by simp [hw])) (fun w hw => hsome w (by simp [hw]))
        (ETab.incr t (v0, w) e) (ETab.nodup_upd h1 _ _).1 (by
          refine forall_upd (P := fun k p => (k.1 ∈ S ∧ k.2 ∈ S ∧ k.1 ≠ k.2) ∨
            (k = (v0, v0) ∧ p.2 = 0) ∨ (k.1 = k.2 ∧ p = (0, 0))) h2 ?_ ?_
          · by_cases hwv : w = v0
            · subst hwv
              rw [hsimp] at he
              obtain rfl := Option.some.inj he
              simp
            · exact Or.inl ⟨h0, hS w (by simp), fun h => hwv h.symm⟩
          · intro p hp
            by_cases hwv : w = v0
            · subst hwv
              rw [hsimp] at he
              obtain rfl := Option.some.inj he
              rcases hp with hp | hp | hp
              · exact absurd rfl hp.2.2
              · exact Or.inr (Or.inl ⟨rfl, hp.2⟩)
              · exact Or.inr (Or.inl ⟨rfl, by simp [hp.2]⟩)
            · exact Or.inl ⟨h0, hS w (by simp), fun h => hwv h.symm⟩)
      simp only [List.foldl_cons, hincr]
      refine ⟨i1, i2, fun x => ?_⟩
      rw [i3, tableK_incr g x t (v0, w) hw]
      by_cases hwv : w = v0
      · subst hwv
        rw [hsimp] at he
        obtain rfl := Option.some.inj he
        simp [hself]
      · rw [List.filter_cons_of_pos (by simpa using hwv), List.map_cons, List.prod_cons, he]
        simp only [Option.getD_some]
        ring
  obtain ⟨k1, k2, k3⟩ := key t ht.1 (fun e he => by rcases ht.2 e he with h | h <;> tauto)
  unfold Rules.spiderTab
  refine ⟨⟨(ETab.nodup_upd k1 _ _).1, ?_⟩, fun x => ?_⟩
  · intro e he
    rcases (ETab.nodup_upd k1 _ _).2 e he with h | h
    · right
      refine ⟨by rw [h], ?_⟩
      rw [ETab.upd_val k1 he h]
      have := get_of_forall (P := fun k p => k = (v0, v0) → p.2 = 0) (fun e he hk => by
        rcases k2 e he with h | h | h
        · rw [hk] at h; exact absurd rfl h.2.2
        · exact h.2
        · rw [h.2]) (v0, v0) (fun _ => rfl)
      rw [this rfl]
    · by_cases hk : e.1 = (v0, v0)
      · right
        refine ⟨by rw [hk], ?_⟩
        rw [ETab.upd_val k1 he hk]
        have := get_of_forall (P := fun k p => k = (v0, v0) → p.2 = 0) (fun e he hk => by
          rcases k2 e he with h | h | h
          · rw [hk] at h; exact absurd rfl h.2.2
          · exact h.2
          · rw [h.2]) (v0, v0) (fun _ => rfl)
        rw [this rfl]
      · rcases k2 e h with h | h | h
        · exact Or.inl h
        · exact absurd h.1 hk
        · exact Or.inr h
  · rw [tableK_upd g x _ (v0, v0) _ (c := 1), mul_one, k3]
    unfold keyK
    simp [hself]

/-- The factor that replaces a removed vertex. -/
noncomputable def spiderF (g : Graph) (p : ℕ × ℕ) (x : ℕ → Bool) : ℂ :=
  (if x p.1 then g.vval p.2 else 1) *
    ∏ w ∈ (g.nbrs p.2).erase p.1, kern (g.eff p.1 w ((g.adj p.2 w).getD .simple)) (x p.1) (x w)

theorem spider_local {g : Graph} (hg : g.WF) {p : ℕ × ℕ} (hadj : g.adj p.1 p.2 = some .simple)
    (hX : g.isX p.1 = g.isX p.2) (x : ℕ → Bool) : psum {p.2} (g.localW p.2) x = spiderF g p x := by
  have hne : p.1 ≠ p.2 := by
    intro h; rw [h, hg.loopless] at hadj; simp at hadj
  have hmem : p.1 ∈ g.nbrs p.2 := by rw [mem_nbrs hg.toInv, hg.symm, hadj]; simp
  have hloc : ∀ c, g.localW p.2 (Function.update x p.2 c) = (if x p.1 = c then 1 else 0) * (if c then g.vval p.2 else 1) *
      ∏ w ∈ (g.nbrs p.2).erase p.1, kern (g.eff p.1 w ((g.adj p.2 w).getD .simple)) c (x w) := by
    intro c
    unfold localW
    rw [← Finset.mul_prod_erase _ _ hmem, edgeK_some (by rw [hg.symm]; exact hadj)]
    have he : g.eff p.2 p.1 .simple = false := by simp [eff, hX]
    have : ∏ w ∈ (g.nbrs p.2).erase p.1, g.edgeK (Function.update x p.2 c) p.2 w =
        ∏ w ∈ (g.nbrs p.2).erase p.1, kern (g.eff p.1 w ((g.adj p.2 w).getD .simple)) c (x w) := by
      refine Finset.prod_congr rfl fun w hw => ?_
      have hw' := (Finset.mem_erase.mp hw).2
      rw [mem_nbrs hg.toInv] at hw'
      obtain ⟨e, he⟩ := Option.ne_none_iff_exists'.mp hw'
      have hwne : w ≠ p.2 := by rintro rfl; rw [hg.loopless] at he; simp at he
      rw [edgeK_some he, Function.update_self, Function.update_of_ne hwne, he]
      simp only [Option.getD_some, eff, hX]
    rw [this, he]
    simp only [Function.update_self, Function.update_of_ne hne, kern, vwt, dmat]
    simp only [Bool.false_eq_true, if_false, eq_comm (a := c)]
    ring
  have hset : ({p.2} : Finset ℕ) = insert p.2 ∅ := by simp
  rw [hset, psum_insert (by simp), psum_empty, hloc, hloc]
  unfold spiderF
  cases x p.1 <;> simp

theorem spider_fold {g : Graph} (hg : g.WF) {ord : ℕ → List ℕ} (hord : Rules.NbrOrder g ord) (ps : List (ℕ × ℕ))
    (h : SpiderOK g ps) :
    let s := ps.foldl (Rules.spiderStep ord) (RewriteState.start g)
    s.g.WF ∧ s.g.verts = g.verts ∧ s.g.inputs = g.inputs ∧ s.g.outputs = g.outputs ∧
    (∀ v, s.g.ty v = g.ty v ∨ (g.ty v = .Z ∧ s.g.ty v = .zbox)) ∧
    s.remVerts = ps.map (·.2) ∧ s.remEdges = [] ∧
    KeysIn s.etab (g.verts \ (ps.map (·.2)).toFinset) ∧
    ∀ x, s.g.wOn (g.verts \ (ps.map (·.2)).toFinset) x * g.tableK x s.etab =
      g.wOn (g.verts \ (ps.map (·.2)).toFinset) x * (ps.map fun m => spiderF g m x).prod := by
  intro s
  set S := g.verts \ (ps.map (·.2)).toFinset with hSdef
  have hcross : ∀ p ∈ ps, ∀ q ∈ ps, p.1 ≠ q.2 ∧ g.adj p.2 q.2 = none := by
    intro p hp q hq
    by_cases hpq : p = q
    · subst hpq
      refine ⟨fun e => ?_, hg.loopless _⟩
      have := h.adj p hp
      rw [e, hg.loopless] at this; simp at this
    · have := h.indep p hp q hq hpq
      exact ⟨this.2.1, this.2.2.2⟩
  have := fold_sound (Rules.spiderStep ord)
    (fun s rest => s.g.verts = g.verts ∧ s.g.adj = g.adj ∧ s.g.vindex = g.vindex ∧ s.g.nedges = g.nedges ∧
      s.g.inputs = g.inputs ∧ s.g.outputs = g.outputs ∧
      (∀ v, s.g.ty v = g.ty v ∨ (g.ty v = .Z ∧ s.g.ty v = .zbox)) ∧
      s.remVerts ++ rest.map (·.2) = ps.map (·.2) ∧ s.remEdges = [] ∧ rest.Nodup ∧ (∀ p ∈ rest, p ∈ ps) ∧
      (∀ p ∈ rest, ∀ v, v = p.1 ∨ v = p.2 →
        s.g.ty v = g.ty v ∧ s.g.phase v = g.phase v ∧ s.g.label v = g.label v) ∧ SpTab S s.etab)
    (fun s x => s.g.wOn S x * g.tableK x s.etab) (fun m x => spiderF g m x) ?_ ps
    (RewriteState.start g) ⟨rfl, rfl, rfl, rfl, rfl, rfl, fun _ => Or.inl rfl, rfl, rfl, h.nodup, fun _ h => h,
      fun _ _ _ _ => ⟨rfl, rfl, rfl⟩, by simp [RewriteState.start, SpTab]⟩
  · obtain ⟨⟨i1, i2, i3, i4, i5, i6, i7, i8, i9, -, -, -, i10⟩, h5⟩ := this
    have hinv : s.g.Inv := hg.toInv.congr i1 i2 i3 i4 i5 i6
    refine ⟨{ hinv with noWio := ?_, types := ?_, io := ?_ }, i1, i5, i6, i7, ?_, i9, ?_, ?_⟩
    · show ∀ u v, s.g.adj u v ≠ _
      rw [show s.g.adj = g.adj from i2]; exact hg.noWio
    · intro v hv
      rw [show s.g.verts = g.verts from i1] at hv
      rcases i7 v with e | ⟨-, e⟩
      · rw [show s.g.ty v = g.ty v from e]; exact hg.types v hv
      · rw [show s.g.ty v = .zbox from e]; simp
    · intro v hv
      rw [show s.g.inputs = g.inputs from i5, show s.g.outputs = g.outputs from i6] at hv
      have hb := hg.io v hv
      rcases i7 v with e | ⟨e, -⟩
      · rw [show s.g.ty v = g.ty v from e]; exact hb
      · rw [hb] at e; simp at e
    · rw [List.map_nil, List.append_nil] at i8; exact i8
    · intro e he hne
      rcases i10.2 e he with h | h
      · exact h
      · exact absurd h.2 hne
    · intro x
      have := h5 x
      rw [show (RewriteState.start g).etab = [] from rfl, tableK_nil, mul_one] at this
      exact this
  · rintro s p rest ⟨i1, i2, i3, i4, i5, i6, i7, i8, i9, i11, i12, i13, i10⟩
    have hp : p ∈ ps := i12 p (by simp)
    have hadj := h.adj p hp
    have hne : p.1 ≠ p.2 := (hcross p hp p hp).1
    have hm1 : p.1 ∈ g.verts := hg.mem _ _ (by rw [hadj]; simp)
    have hm2 : p.2 ∈ g.verts := hg.toInv.mem' (u := p.1) (by rw [hadj]; simp)
    have t0 := i13 p (by simp) p.1 (Or.inl rfl)
    have t1 := i13 p (by simp) p.2 (Or.inr rfl)
    have hSmem : ∀ w ∈ g.verts, (∀ q ∈ ps, w ≠ q.2) → w ∈ S := by
      intro w hw hq
      simp only [hSdef, Finset.mem_sdiff, List.mem_toFinset, List.mem_map, not_exists, not_and]
      exact ⟨hw, fun q hqp e => hq q hqp e.symm⟩
    have h1S : p.1 ∈ S := hSmem _ hm1 fun q hq => (hcross p hp q hq).1
    have h2S : p.2 ∉ S := by
      simp only [hSdef, Finset.mem_sdiff, List.mem_toFinset, not_and, not_not]
      intro _; exact List.mem_map_of_mem hp
    have hord2 := hord p.2 hm2
    have hin : ∀ w, w ∈ ord p.2 ↔ g.adj p.2 w ≠ none := by
      intro w
      rw [← mem_nbrs hg.toInv, ← hord2.2, List.mem_toFinset]
    obtain ⟨s1, s2, s3, s4, s5, s6, s7, s8, s9⟩ := spiderPhase_spec s.g hne (by rw [t0.1, t1.1]; exact h.ty p hp)
    have htab := spiderTab_spec (g := s.g) (v0 := p.1) (v1 := p.2) h1S (ns := ord p.2)
      (fun w hw => hSmem w (hg.toInv.mem' ((hin w).mp hw)) (by
        rintro q hq rfl
        exact (hin _).mp hw (hcross p hp q hq).2))
      (fun w hw => by
        rw [i2]
        obtain ⟨e, he⟩ := Option.ne_none_iff_exists'.mp ((hin w).mp hw)
        exact ⟨e, he, by rintro rfl; exact hg.noWio _ _ he⟩)
      (by rw [i2, hg.symm]; exact hadj) i10
    have hXs : ∀ v, s.g.isX v = g.isX v := by
      intro v; unfold isX
      rcases i7 v with e | ⟨e1, e2⟩
      · rw [e]
      · rw [e1, e2]; rfl
    refine ⟨⟨s1.trans i1, s2.trans i2, s3.trans i3, s4.trans i4, s5.trans i5, s6.trans i6, ?_, ?_, i9,
      (List.nodup_cons.mp i11).2, fun q hq => i12 q (by simp [hq]), ?_, htab.1⟩, ?_⟩
    · intro v
      show (Rules.spiderPhase s.g p.1 p.2).ty v = _ ∨ _ ∧ (Rules.spiderPhase s.g p.1 p.2).ty v = _
      rcases s7 v with e | ⟨e1, e2⟩
      · rw [e]; exact i7 v
      · right
        refine ⟨?_, e2⟩
        rcases i7 v with e | ⟨e, -⟩
        · rw [← e]; exact e1
        · exact e
    · simpa [Rules.spiderStep] using i8
    · intro q hq v hv
      have hpq : p ≠ q := by rintro rfl; exact (List.nodup_cons.mp i11).1 hq
      have hqp := i12 q (by simp [hq])
      have hi := h.indep p hp q hqp hpq
      have hv0 : v ≠ p.1 := by
        rcases hv with rfl | rfl
        · exact hi.1.symm
        · exact hi.2.1.symm
      have hv1 : v ≠ p.2 := by
        rcases hv with rfl | rfl
        · exact (hcross q hqp p hp).1
        · exact hi.2.2.1.symm
      have a := s8 v hv0 hv1
      have b := i13 q (by simp [hq]) v hv
      exact ⟨a.1.trans b.1, a.2.1.trans b.2.1, a.2.2.trans b.2.2⟩
    · intro x
      show (Rules.spiderPhase s.g p.1 p.2).wOn S x * g.tableK x (Rules.spiderTab s.g p.1 p.2 (ord p.2) s.etab) = _
      rw [s9 S h1S h2S x, ← tableK_congr_ty hXs, htab.2 x, tableK_congr_ty hXs]
      have hv : s.g.vval p.2 = g.vval p.2 := by unfold vval; rw [t1.1, t1.2.1, t1.2.2]
      rw [hv]
      unfold spiderF
      have hprod : (((ord p.2).filter (· ≠ p.1)).map fun w =>
          kern (s.g.eff p.1 w ((s.g.adj p.2 w).getD .simple)) (x p.1) (x w)).prod =
          ∏ w ∈ (g.nbrs p.2).erase p.1, kern (g.eff p.1 w ((g.adj p.2 w).getD .simple)) (x p.1) (x w) := by
        have : (g.nbrs p.2).erase p.1 = ((ord p.2).filter (· ≠ p.1)).toFinset := by
          ext w
          rw [← hord2.2]
          simp only [Finset.mem_erase, List.mem_toFinset, List.mem_filter, decide_eq_true_eq]
          tauto
        rw [this, List.prod_toFinset _ (hord2.1.filter _)]
        congr 1
        refine List.map_congr_left fun w _ => ?_
        rw [i2]; unfold eff; rw [hXs, hXs]
      rw [hprod]
      ring

theorem spider_sound {g g' : Graph} (hg : g.WF) {ord : ℕ → List ℕ} (hord : Rules.NbrOrder g ord) {row0 : ℕ → Bool}
    {ms : List (ℕ × ℕ)} (h : SpiderOK g (ms.map (Rules.spiderPair row0)))
    (hfin : (Rules.spider row0 ord g ms).finish = some g') :
    Preserves g g' ∧ g'.verts = g.verts \ (ms.map fun m => (Rules.spiderPair row0 m).2).toFinset := by
  set ps := ms.map (Rules.spiderPair row0) with hps
  obtain ⟨h0, h1, h2, h3, h4, h5, h6, h7, h8⟩ := spider_fold hg hord ps h
  have hmap : (ms.map fun m => (Rules.spiderPair row0 m).2) = ps.map (·.2) := by rw [hps, List.map_map]; rfl
  have hX : ∀ p ∈ ps, g.isX p.1 = g.isX p.2 := by
    intro p hp
    unfold isX
    rcases h.ty p hp with ⟨e1, e2⟩ | ⟨e1, e2⟩
    · rw [e1, e2]
    · revert e1 e2; cases g.ty p.1 <;> cases g.ty p.2 <;> simp [VType.zLike]
  have := rule_sound hg hfin h0 h1 ?_ h2 h3 ?_ ?_ ?_ ?_
  · rw [show (Rules.spider row0 ord g ms).remVerts = _ from h5] at this
    rw [hmap]; exact this
  · intro v _
    rcases h4 v with e | ⟨e1, e2⟩
    · rw [show (Rules.spider row0 ord g ms).g.ty v = _ from e]
    · rw [show (Rules.spider row0 ord g ms).g.ty v = _ from e2, e1]; simp
  · rw [show (Rules.spider row0 ord g ms).remVerts = _ from h5]
    intro v hv
    obtain ⟨p, hp, rfl⟩ := List.mem_map.mp (List.mem_toFinset.mp hv)
    simp only [interior, Finset.mem_filter]
    refine ⟨hg.toInv.mem' (u := p.1) (by rw [h.adj p hp]; simp), ?_⟩
    rcases h.ty p hp with ⟨-, e⟩ | ⟨-, e⟩
    · rw [e]; simp
    · revert e; cases g.ty p.2 <;> simp [VType.zLike]
  · rw [show (Rules.spider row0 ord g ms).remVerts = _ from h5]; exact h7
  · rw [show (Rules.spider row0 ord g ms).remEdges = _ from h6]; simp
  · intro x
    have hXs : ∀ v, (Rules.spider row0 ord g ms).g.isX v = g.isX v := by
      intro v; unfold isX
      rcases h4 v with e | ⟨e1, e2⟩
      · rw [show (Rules.spider row0 ord g ms).g.ty v = _ from e]
      · rw [e1, show (Rules.spider row0 ord g ms).g.ty v = _ from e2]; rfl
    rw [show (Rules.spider row0 ord g ms).remVerts = _ from h5, tableK_congr_ty hXs]
    refine Eq.trans ?_ (h8 x).symm
    rw [psum_singles hg ps (·.2)]
    · congr 2
      exact List.map_congr_left fun p hp => spider_local hg (h.adj p hp) (hX p hp) x
    · refine (List.nodup_map_iff_inj_on h.nodup).mpr fun p hp q hq e => ?_
      by_contra hpq
      exact (h.indep p hp q hq hpq).2.2.1 e
    · intro p hp; exact hg.toInv.mem' (u := p.1) (by rw [h.adj p hp]; simp)
    · intro p hp q hq hin
      rw [mem_nbrs hg.toInv] at hin
      by_cases hpq : p = q
      · rw [hpq, hg.loopless] at hin; exact hin rfl
      · exact hin (h.indep p hp q hq hpq).2.2.2

theorem tcount_spiderTab {g : Graph} {v0 v1 b : ℕ} {ns : List ℕ} (hn : ns.Nodup) (hb : b ≠ v0) (t : ETab) :
    tcount (Rules.spiderTab g v0 v1 ns t) b ≤ tcount t b + (if b ∈ ns then 1 else 0) := by
  unfold Rules.spiderTab
  rw [tcount_upd_other _ _ (by simp [touch, hb])]
  induction ns generalizing t with
  | nil => simp
  | cons w ns ih =>
    rw [List.nodup_cons] at hn
    rw [List.foldl_cons]
    refine (ih hn.2 _).trans ?_
    by_cases hw : b = w
    · subst hw
      simp only [hn.1, if_false, List.mem_cons, true_or, if_true]
      exact tcount_upd_le _ _ (fun p => by split <;> simp <;> omega) b
    · have : tcount (ETab.incr t (v0, w) ((g.adj v1 w).getD .simple)) b = tcount t b :=
        tcount_upd_other _ _ (by simp [touch, hb, hw])
      rw [this]
      simp [hw]

theorem zToZBox_adj (g : Graph) (v : ℕ) : (Rules.zToZBox g v).adj = g.adj := rfl

theorem spiderPhase_adj (g : Graph) (v0 v1 : ℕ) : (Rules.spiderPhase g v0 v1).adj = g.adj := by
  have h1 : ∀ (g : Graph) v c, (g.setLabel v c).adj = g.adj := fun _ _ _ => rfl
  have h2 : ∀ (g : Graph) v c, (g.setPhase v c).adj = g.adj := fun _ _ _ => rfl
  have h3 : ∀ (g : Graph) v c, (g.addToPhase v c).adj = g.adj := fun _ _ _ => rfl
  simp only [Rules.spiderPhase, apply_ite Graph.adj, h1, h2, h3, zToZBox_adj, ite_self]

theorem spider_total {g : Graph} (hg : g.WF) (hb : g.BDeg) {ord : ℕ → List ℕ} (hord : Rules.NbrOrder g ord) {row0 : ℕ → Bool}
    {ms : List (ℕ × ℕ)} (h : SpiderOK g (ms.map (Rules.spiderPair row0))) :
    ∃ g', (Rules.spider row0 ord g ms).finish = some g' ∧ Preserves g g' ∧ g'.BDeg ∧
      g'.verts = g.verts \ (ms.map fun m => (Rules.spiderPair row0 m).2).toFinset := by
  set ps := ms.map (Rules.spiderPair row0) with hps
  obtain ⟨h0, h1, h2, h3, h4, h5, h6, h7, -⟩ := spider_fold hg hord ps h
  have hnd : (ps.map (·.2)).Nodup := by
    rw [List.nodup_map_iff_inj_on h.nodup]
    intro p hp q hq e
    by_contra hne
    exact (h.indep p hp q hq hne).2.2.1 e
  have hmv : ∀ p ∈ ps, p.2 ∈ g.verts := fun p hp => hg.toInv.mem' (u := p.1) (by rw [h.adj p hp]; simp)
  have hadj : (Rules.spider row0 ord g ms).g.adj = g.adj := by
    have key : ∀ (qs : List (ℕ × ℕ)) (s : RewriteState), (∀ p ∈ qs, p ∈ ps) → s.g.adj = g.adj →
        (qs.foldl (Rules.spiderStep ord) s).g.adj = g.adj := by
      intro qs
      induction qs with
      | nil => intro s _ hs; exact hs
      | cons q qs ih =>
        intro s hq hs
        refine ih _ (fun p hp => hq p (by simp [hp])) ?_
        exact (spiderPhase_adj s.g q.1 q.2).trans hs
    exact key ps _ (fun _ h => h) rfl
  obtain ⟨g', hfin, hbd⟩ := finish_total (s := Rules.spider row0 ord g ms) hg hb h0 h1 hadj (by
      intro v _
      rcases h4 v with e | ⟨e1, e2⟩
      · exact (Eq.to_iff (by rw [← e]; rfl))
      · rw [e1]; simp [show (Rules.spider row0 ord g ms).g.ty v = .zbox from e2])
    (by rw [show (Rules.spider row0 ord g ms).remVerts = _ from h5]; exact h7) (by
      intro b hbv hbt
      have hbne : ∀ p ∈ ps, b ≠ p.1 := by
        intro p hp e
        rw [e] at hbt
        rcases h.ty p hp with ⟨q, -⟩ | ⟨q, -⟩ <;> rw [hbt] at q <;> simp [VType.zLike] at q
      have hle := tcount_fold (step := Rules.spiderStep ord) (b := b) (c := fun p => if b ∈ ord p.2 then 1 else 0) ps (by
        intro p hp s
        exact tcount_spiderTab (hord p.2 (hmv p hp)).1 (hbne p hp) _) (RewriteState.start g)
      rw [show tcount (RewriteState.start g).etab b = 0 from rfl, zero_add] at hle
      obtain ⟨c1, c2⟩ := touch_bound hb hbv hbt (ms := ps) (f := fun p => p.2)
        (c := fun p => if b ∈ ord p.2 then 1 else 0) hnd (fun m _ => by split <;> simp) (by
        intro p hp hne
        have : b ∈ ord p.2 := by simpa using hne
        rw [hg.symm, ← mem_nbrs hg.toInv, ← (hord p.2 (hmv p hp)).2]
        simpa using this) hle
      refine ⟨c1, fun hne z hz => ?_⟩
      obtain ⟨m, hm, -, hz'⟩ := c2 hne
      left
      rw [show (Rules.spider row0 ord g ms).remVerts = _ from h5, hz' z hz]
      exact List.mem_map.mpr ⟨m, hm, rfl⟩)
    (by rw [show (Rules.spider row0 ord g ms).remEdges = _ from h6]; simp)
    (by rw [show (Rules.spider row0 ord g ms).remEdges = _ from h6]; exact List.Pairwise.nil)
    (by rw [show (Rules.spider row0 ord g ms).remEdges = _ from h6]; simp)
    (by rw [show (Rules.spider row0 ord g ms).remVerts = _ from h5]; exact hnd) (by
      rw [show (Rules.spider row0 ord g ms).remVerts = _ from h5]; intro v hv
      obtain ⟨p, hp, rfl⟩ := List.mem_map.mp hv
      exact hmv p hp)
  obtain ⟨hp, hv⟩ := spider_sound hg hord h hfin
  exact ⟨g', hfin, hp, hbd hp, hv⟩

end Graph
end PyZX
