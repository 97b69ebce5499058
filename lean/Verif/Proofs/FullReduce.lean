import Verif.Proofs.SimpGadgetFuse
import Verif.Proofs.SimpClifford

/-!
# `full_reduce`
-/

namespace PyZX
namespace Simplify

open Graph Rules Props

variable {P : ℚ → Prop}

/-! ### On a normal form the passes of `interior_clifford_simp` do nothing -/

theorem idRound_nf {o : Orders} (ho : o.OK) {g : Graph} (hg : g.ZX P) (h : g.InteriorNF) : idRound o g = some (false, g) := by
  have hok := matchIds_ok hg.wf (ho.nbr g) (ho.vcand g).1 (ho.vcand g).2 (-1)
  unfold idRound
  simp only
  rw [if_pos]
  by_contra hm
  obtain ⟨m, hmm⟩ := List.exists_mem_of_ne_nil _ hm
  have hty : g.ty m.v = .Z := by
    rcases hok.ty m hmm with e | e
    · exact e
    · rcases h.types _ (hok.mem m hmm) with q | q <;> rw [e] at q <;> simp at q
  refine h.ids m.v (hok.mem m hmm) hty (hok.phase m hmm) ?_
  rw [hok.nbrs m hmm]
  exact Finset.card_pair (hok.ne m hmm)

theorem lcompRound_nf {o : Orders} (ho : o.OK) {g : Graph} (hg : g.ZX P) (h : g.InteriorNF) : lcompRound o g = some (false, g) := by
  have hok := matchLcomp_ok hg.wf (ho.nbr g) (ho.vcand g).1 (ho.vcand g).2 (-1)
  unfold lcompRound
  simp only
  rw [if_pos]
  by_contra hm
  obtain ⟨m, hmm⟩ := List.exists_mem_of_ne_nil _ hm
  obtain ⟨w, hw, hb⟩ := h.half m.v (hok.mem m hmm) (hok.ty m hmm) (hok.phase m hmm)
  have : w ∈ m.vn := by
    rw [← List.mem_toFinset, (hok.nbrs m hmm).2]
    exact (mem_nbrs hg.wf.toInv).mpr hw
  have := (hok.nty m hmm w this).1
  rw [hb] at this; simp at this

theorem spiderRound_nf {o : Orders} (ho : o.OK) {g : Graph} (hg : g.ZX P) (h : g.InteriorNF) : spiderRound o g = some (false, g) := by
  have hok := matchSpider_ok hg.wf (ho.ecand g).1 (-1) (o.row0 g)
  unfold spiderRound
  simp only
  rw [if_pos]
  by_contra hm
  obtain ⟨m, hmm⟩ := List.exists_mem_of_ne_nil _ hm
  have hadj := hok.adj _ (List.mem_map_of_mem hmm)
  have hty := hok.ty _ (List.mem_map_of_mem hmm)
  set p := spiderPair (o.row0 g) m
  have t1 := h.types _ (hg.wf.mem _ p.2 (by rw [hadj]; simp))
  have t2 := h.types _ (hg.wf.toInv.mem' (u := p.1) (v := p.2) (by rw [hadj]; simp))
  have z : g.ty p.1 = .Z ∧ g.ty p.2 = .Z := by
    rcases hty with ⟨a, b⟩ | ⟨a, b⟩ <;> rcases t1 with e | e <;> rcases t2 with f | f <;> rw [e] at a <;> rw [f] at b <;>
      simp [VType.zLike] at a b <;> exact ⟨e, f⟩
  have := h.had p.1 p.2 (by rw [hadj]; simp) z.1 z.2
  rw [hadj] at this; simp at this

theorem pivotRound_nf {o : Orders} (ho : o.OK) {g : Graph} (hg : g.ZX P) (h : g.InteriorNF) : pivotRound o g = some (false, g) := by
  have hok := matchPivot_ok hg.wf (ho.nbr g) (ho.ecand g).1 (-1)
  unfold pivotRound
  simp only
  rw [if_pos]
  by_contra hm
  obtain ⟨m, hmm⟩ := List.exists_mem_of_ne_nil _ hm
  have k := hok.each m hmm
  have h2 := h.pauli m.v0 m.v1 (by rw [k.adj]; simp) k.ty0 k.ty1 k.ph0 k.ph1
  have c0 : ∀ w, w ∈ g.bnds m.v0 → m.b0 = some w := by
    intro w hw
    unfold bnds at hw
    rw [Finset.mem_filter, mem_nbrs hg.wf.toInv] at hw
    rcases k.n0 w hw.1 with e | ⟨e, -⟩
    · exact e
    · rw [hw.2] at e; simp at e
  have c1 : ∀ w, w ∈ g.bnds m.v1 → m.b1 = some w := by
    intro w hw
    unfold bnds at hw
    rw [Finset.mem_filter, mem_nbrs hg.wf.toInv] at hw
    rcases k.n1 w hw.1 with e | ⟨e, -⟩
    · exact e
    · rw [hw.2] at e; simp at e
  have d0 : (g.bnds m.v0).card ≤ 1 := Finset.card_le_one.mpr fun a ha b hb => by
    have := (c0 a ha).symm.trans (c0 b hb); simpa using this
  have d1 : (g.bnds m.v1).card ≤ 1 := Finset.card_le_one.mpr fun a ha b hb => by
    have := (c1 a ha).symm.trans (c1 b hb); simpa using this
  rcases k.one with e | e
  · have : g.bnds m.v0 = ∅ := Finset.eq_empty_of_forall_notMem fun w hw => by
      have := c0 w hw; rw [e] at this; simp at this
    rw [this] at h2; simp at h2; omega
  · have : g.bnds m.v1 = ∅ := Finset.eq_empty_of_forall_notMem fun w hw => by
      have := c1 w hw; rw [e] at this; simp at this
    rw [this] at h2; simp at h2; omega

theorem toGH_nf {g : Graph} (ord : ℕ → List ℕ) (vs : List ℕ) (h : ∀ v, v ∈ vs → g.ty v ≠ .X) : toGH g ord vs = g := by
  unfold toGH
  induction vs with
  | nil => rfl
  | cons v vs ih =>
    rw [List.foldl_cons]
    have : toGHStep ord g v = g := by
      unfold toGHStep
      rw [if_neg (h v (by simp))]
    rw [this]
    exact ih fun w hw => h w (by simp [hw])

theorem simp_false {r : Orders → Graph → Option (Bool × Graph)} {ω : ℕ → Orders} {g : Graph} (h : ∀ t, r (ω t) g = some (false, g))
    (fuel t : ℕ) : simp r ω (fuel + 1) t g = .done g (t + 1) 0 := by
  unfold simp; rw [h t]

theorem interior_nf {ω : ℕ → Orders} (ho : ∀ t, (ω t).OK) (fuel t : ℕ) {g : Graph} (hg : g.ZX P) (h : g.InteriorNF) :
    interiorCliffordSimp ω fuel t g = .running ∨ ∃ t', interiorCliffordSimp ω fuel t g = .done g t' 0 := by
  cases fuel with
  | zero => exact Or.inl rfl
  | succ fuel =>
    right
    have hX : ∀ t v, v ∈ (ω t).all g → g.ty v ≠ .X := by
      intro t v hv
      have : v ∈ g.verts := by rw [← ((ho t).all g).2]; simpa using hv
      rcases h.types v this with e | e <;> rw [e] <;> simp
    have s1 : ∀ t, spiderSimp ω (fuel + 1) t g = .done g (t + 1) 0 := fun t => simp_false (fun t => spiderRound_nf (ho t) hg h) fuel t
    have s2 : ∀ t, idSimp ω (fuel + 1) t g = .done g (t + 1) 0 := fun t => simp_false (fun t => idRound_nf (ho t) hg h) fuel t
    have s3 : ∀ t, pivotSimp ω (fuel + 1) t g = .done g (t + 1) 0 := fun t => simp_false (fun t => pivotRound_nf (ho t) hg h) fuel t
    have s4 : ∀ t, lcompSimp ω (fuel + 1) t g = .done g (t + 1) 0 := fun t => simp_false (fun t => lcompRound_nf (ho t) hg h) fuel t
    simp only [interiorCliffordSimp, s1, Run.bind, toGH_nf _ _ (hX _), interiorLoop, s2, s3, s4, add_zero, if_true]
    exact ⟨_, rfl⟩

/-! ### `full_reduce` -/

theorem Keeps.plainBnd {g g' : Graph} (h : Keeps P g g') (hb : g.PlainBnd) : g'.PlainBnd := by
  constructor
  · intro v hv ht
    obtain ⟨a, b⟩ := (h.upTo.boundary v).mp ⟨hv, ht⟩
    rw [h.bphase v a b]; exact hb.phase v a b
  · intro v hv ht
    obtain ⟨a, b⟩ := (h.upTo.boundary v).mp ⟨hv, ht⟩
    rw [h.upTo.inputs, h.upTo.outputs]; exact hb.io v a b

theorem InteriorNF.axelSep {g : Graph} (hg : g.ZX P) (h : g.InteriorNF) : g.AxelSep := by
  have hz : ∀ n n', IsAxel g n → IsAxel g n' → g.adj n n' ≠ none → g.ty n = .Z := by
    rintro n n' ⟨hp, v, hv, hd⟩ ⟨hp', -⟩ hne
    have hnv := hg.wf.mem _ _ hne
    rcases h.types n hnv with e | e
    · have hvn : g.adj n v ≠ none := by
        rw [hg.wf.symm]; exact (mem_nbrs hg.wf.toInv).mp (by rw [hv]; simp)
      have := hg.bdeg n hnv e v n' hvn hne
      rw [this, den_pauli hp'] at hd
      omega
    · exact e
  intro n n' hn hn' hne
  have z := hz n n' hn hn' hne
  have z' := hz n' n hn' hn (by rw [hg.wf.symm]; exact hne)
  have h2 := h.pauli n n' hne z z' hn.1 hn'.1
  by_cases c : (g.bnds n).card = 0
  · obtain ⟨b, hb⟩ := Finset.card_pos.mp (show 0 < (g.bnds n').card by omega)
    unfold bnds at hb
    rw [Finset.mem_filter, mem_nbrs hg.wf.toInv] at hb
    exact ⟨b, Or.inr hb.1, hb.2⟩
  · obtain ⟨b, hb⟩ := Finset.card_pos.mp (show 0 < (g.bnds n).card by omega)
    unfold bnds at hb
    rw [Finset.mem_filter, mem_nbrs hg.wf.toInv] at hb
    exact ⟨b, Or.inl hb.1, hb.2⟩

theorem fullLoop_any (hP : PhaseSet P) {ω : ℕ → Orders} (ho : ∀ t, (ω t).OK) (hfu : ∀ t, (ω t).Full) (fuel : ℕ) :
    ∀ (n t : ℕ) (g : Graph), g.ZX P → g.PlainBnd → fullLoop ω fuel n t g = .running ∨
      ∃ g' t', fullLoop ω fuel n t g = .done g' t' 0 ∧ g'.ZX P ∧ Keeps P g g' ∧ g'.InteriorNF ∧ g'.NoBoundaryPivot ∧
        g'.NoGadgetPivot ∧ g'.NoGadgetFuse := by
  intro n
  induction n with
  | zero => intro t g _ _; exact Or.inl rfl
  | succ n ih =>
    intro t g hg hb
    rcases cliffordSimp_any hP ho hfu fuel fuel t g hg with hr | ⟨g1, t1, i1, a1, a2, a3, a4, a5⟩
    · exact Or.inl (by simp only [fullLoop, hr, Run.bind])
    have hb1 := Keeps.plainBnd a3 hb
    rcases simp_end (fun t => gadgetFuseRound_ok hP (ho t)) presB_trans fuel t1 g1
      ⟨a2, InteriorNF.zHad a4, a4.types, hb1, InteriorNF.axelSep a2 a4⟩ with ⟨hr, -⟩ | ⟨g2, t2, i2, b1, b2, b3', -, b5, b6⟩
    · exact Or.inl (by simp only [fullLoop, gadgetSimp, a1, hr, Run.bind])
    have b3 : Keeps P g1 g2 := b3'.1.keeps b3'.2
    rcases interiorCliffordSimp_any hP ho fuel t2 g2 b2.zx with hr | ⟨g3, t3, i3, c1, c2, c3, c4, c5⟩
    · exact Or.inl (by simp only [fullLoop, gadgetSimp, a1, b1, hr, Run.bind])
    rcases simp_end (fun t => pivotGadgetRound_ok hP (ho t)) (fun _ _ _ => Keeps.trans) fuel t3 g3 ⟨c2, InteriorNF.zHad (c5 hfu)⟩ with
      ⟨hr, -⟩ | ⟨g4, t4, i4, d1, d2, d3, -, d5, d6⟩
    · exact Or.inl (by simp only [fullLoop, gadgetSimp, pivotGadgetSimp, a1, b1, c1, hr, Run.bind])
    have hrun : fullLoop ω fuel (n + 1) t g = if i2 + i4 = 0 then .done g4 t4 0 else fullLoop ω fuel n t4 g4 := by
      simp only [fullLoop, gadgetSimp, pivotGadgetSimp, a1, b1, c1, d1, Run.bind]
    rw [hrun]
    by_cases hi : i2 + i4 = 0
    · rw [if_pos hi]
      have e2 := b5 (by omega)
      have e4 := d5 (by omega)
      have e3 : g3 = g1 := by
        rw [e2] at c1
        rcases interior_nf ho fuel t2 a2 a4 with hr | ⟨t', hr⟩ <;> rw [hr] at c1
        · simp at c1
        · simp only [Run.done.injEq] at c1; exact c1.1.symm
      have h2 := b6 hfu
      have h4 := d6 hfu
      rw [e2] at h2
      rw [e4, e3] at h4 ⊢
      exact Or.inr ⟨g1, t4, rfl, a2, a3, a4, a5, h4, h2⟩
    · rw [if_neg hi]
      have hk := ((a3.trans b3).trans c3).trans d3
      rcases ih t4 g4 d2.1 (Keeps.plainBnd hk hb) with hr | ⟨g5, t5, e1, e2, e3, e4⟩
      · exact Or.inl hr
      · exact Or.inr ⟨g5, t5, e1, e2, hk.trans e3, e4⟩

theorem fullReduce_any (hP : PhaseSet P) {ω : ℕ → Orders} (ho : ∀ t, (ω t).OK) (hfu : ∀ t, (ω t).Full) (fuel t : ℕ) {g : Graph}
    (hg : g.ZX P) (hb : g.PlainBnd) : fullReduce ω fuel t g = .running ∨
      ∃ g' t', fullReduce ω fuel t g = .done g' t' 0 ∧ g'.ZX P ∧ Keeps P g g' ∧ g'.InteriorNF ∧ g'.NoBoundaryPivot ∧
        g'.NoGadgetPivot ∧ g'.NoGadgetFuse := by
  have hh : ¬ ∃ v ∈ g.verts, g.ty v = .hbox := by
    rintro ⟨v, hv, e⟩
    rcases hg.types v hv with h | h | h <;> rw [h] at e <;> simp at e
  unfold fullReduce
  rw [if_neg hh]
  rcases interiorCliffordSimp_any hP ho fuel t g hg with hr | ⟨g1, t1, i1, a1, a2, a3, a4, a5⟩
  · exact Or.inl (by simp only [hr, Run.bind])
  rcases simp_end (fun t => pivotGadgetRound_ok hP (ho t)) (fun _ _ _ => Keeps.trans) fuel t1 g1 ⟨a2, InteriorNF.zHad (a5 hfu)⟩ with
    ⟨hr, -⟩ | ⟨g2, t2, i2, b1, b2, b3, -, b5, b6⟩
  · exact Or.inl (by simp only [pivotGadgetSimp, a1, hr, Run.bind])
  have hk := a3.trans b3
  rcases fullLoop_any hP ho hfu fuel fuel t2 g2 b2.1 (Keeps.plainBnd hk hb) with hr | ⟨g5, t5, e1, e2, e3, e4⟩
  · exact Or.inl (by simp only [pivotGadgetSimp, a1, b1, hr, Run.bind])
  · exact Or.inr ⟨g5, t5, by simp only [pivotGadgetSimp, a1, b1, e1, Run.bind], e2, hk.trans e3, e4⟩

/-! ### A normal form is left as it is -/

theorem pivotGadgetRound_nf (hP : PhaseSet P) {o : Orders} (ho : o.OK) {g : Graph} (hg : g.ZX P) (hz : g.ZHad) (h : g.NoGadgetPivot) :
    pivotGadgetRound o g = some (false, g) := by
  obtain ⟨s, hs, hfold, hm, hb, hok⟩ := matchPivotGadget_ok hg.wf hg.bdeg hz (ho.ecand g).2
  have hn : s.ms = [] := by
    by_contra hm
    obtain ⟨m, hmm⟩ := List.exists_mem_of_ne_nil _ hm
    obtain ⟨v, k⟩ := hs.each m hmm
    rcases h m.v0 m.v1 k.adj k.ty0 k.ty1 k.ph0 k.ph1 with e | ⟨v, n, e | e, e1, e2⟩ | ⟨n, e1, e2, e3⟩
    · exact k.deg e
    · subst e; exact e2 (k.n0 n e1).1
    · subst e; exact e2 (k.n1 n e1)
    · exact (k.n0 n e1).2 ⟨e3, e2⟩
  obtain ⟨c, g', e1, -, -, -, e2⟩ := pivotGadgetRound_ok hP ho g ⟨hg, hz⟩
  cases c with
  | false => rw [e1, (e2 rfl).1]
  | true =>
    exfalso
    unfold pivotGadgetRound at e1
    rw [hm] at e1
    simp [hn] at e1

theorem pivotBoundaryRound_nf (hP : PhaseSet P) {o : Orders} (ho : o.OK) {g : Graph} (hg : g.ZX P) (hz : g.ZHad) (h : g.NoBoundaryPivot) :
    pivotBoundaryRound o g = some (false, g) := by
  obtain ⟨s, ns, hs, hfold, hm, hb, hok⟩ := matchPivotBoundary_ok hg.wf hg.bdeg hz (ho.nbr g) (ho.vcand g).2
  have hn : s.ms = [] := by
    by_contra hmn
    obtain ⟨m, hmm⟩ := List.exists_mem_of_ne_nil _ hmn
    rw [hs.ms] at hmm
    obtain ⟨n, hn, rfl⟩ := List.mem_map.mp hmm
    obtain ⟨b, k⟩ := hs.each n hn
    have hbn : g.bnds n.1.v1 = {b} := by
      ext w
      unfold bnds
      rw [Finset.mem_filter, mem_nbrs hg.wf.toInv, Finset.mem_singleton]
      constructor
      · rintro ⟨a1, a2⟩
        rcases k.n1 w a1 with e | e
        · exact e
        · rw [a2] at e; simp at e
      · rintro rfl
        exact ⟨k.badj, k.bty⟩
    obtain ⟨u, u1, u2, u3⟩ := h n.1.v0 (hg.wf.mem _ _ k.adj) k.ty0 k.ph0 k.n0 n.1.v1 k.adj (by rw [hbn]; rfl)
    rcases k.n1 u u1 with e | e
    · rw [e] at u2; exact u2 k.bty
    · exact u3 e
  obtain ⟨c, g', e1, -, -, -, e2⟩ := pivotBoundaryRound_ok hP ho g ⟨hg, hz⟩
  cases c with
  | false => rw [e1, (e2 rfl).1]
  | true =>
    exfalso
    unfold pivotBoundaryRound at e1
    rw [hm] at e1
    simp [hn] at e1

theorem interior_nf' {ω : ℕ → Orders} (ho : ∀ t, (ω t).OK) (fuel t : ℕ) {g : Graph} (hg : g.ZX P) (h : g.InteriorNF) :
    ∃ t', interiorCliffordSimp ω (fuel + 1) t g = .done g t' 0 := by
  rcases interior_nf ho (fuel + 1) t hg h with hr | hr
  · exfalso
    have hX : ∀ t v, v ∈ (ω t).all g → g.ty v ≠ .X := by
      intro t v hv
      have : v ∈ g.verts := by rw [← ((ho t).all g).2]; simpa using hv
      rcases h.types v this with e | e <;> rw [e] <;> simp
    have s1 : ∀ t, spiderSimp ω (fuel + 1) t g = .done g (t + 1) 0 := fun t => simp_false (fun t => spiderRound_nf (ho t) hg h) fuel t
    have s2 : ∀ t, idSimp ω (fuel + 1) t g = .done g (t + 1) 0 := fun t => simp_false (fun t => idRound_nf (ho t) hg h) fuel t
    have s3 : ∀ t, pivotSimp ω (fuel + 1) t g = .done g (t + 1) 0 := fun t => simp_false (fun t => pivotRound_nf (ho t) hg h) fuel t
    have s4 : ∀ t, lcompSimp ω (fuel + 1) t g = .done g (t + 1) 0 := fun t => simp_false (fun t => lcompRound_nf (ho t) hg h) fuel t
    simp only [interiorCliffordSimp, s1, Run.bind, toGH_nf _ _ (hX _), interiorLoop, s2, s3, s4, add_zero, if_true] at hr
    simp at hr
  · exact hr

theorem cliffordSimp_nf (hP : PhaseSet P) {ω : ℕ → Orders} (ho : ∀ t, (ω t).OK) (fuel n t : ℕ) {g : Graph} (hg : g.ZX P) (h : g.InteriorNF)
    (hb : g.NoBoundaryPivot) : ∃ t', cliffordSimp ω (fuel + 1) (n + 1) t g = .done g t' 0 := by
  obtain ⟨t1, h1⟩ := interior_nf' ho fuel t hg h
  have h2 : pivotBoundarySimp ω (fuel + 1) t1 g = .done g (t1 + 1) 0 :=
    simp_false (fun t => pivotBoundaryRound_nf hP (ho t) hg (InteriorNF.zHad h) hb) fuel t1
  exact ⟨t1 + 1, by simp only [cliffordSimp, h1, h2, Run.bind, if_true]⟩

theorem fullReduce_nf (hP : PhaseSet P) {ω : ℕ → Orders} (ho : ∀ t, (ω t).OK) (fuel t : ℕ) {g : Graph} (hg : g.ZX P) (hpb : g.PlainBnd)
    (h : g.InteriorNF) (hb : g.NoBoundaryPivot) (hp : g.NoGadgetPivot) (hf : g.NoGadgetFuse) :
    ∃ t', fullReduce ω (fuel + 1) t g = .done g t' 0 := by
  have hh : ¬ ∃ v ∈ g.verts, g.ty v = .hbox := by
    rintro ⟨v, hv, e⟩
    rcases hg.types v hv with h | h | h <;> rw [h] at e <;> simp at e
  have gp : ∀ t, pivotGadgetSimp ω (fuel + 1) t g = .done g (t + 1) 0 := fun t =>
    simp_false (fun t => pivotGadgetRound_nf hP (ho t) hg (InteriorNF.zHad h) hp) fuel t
  have gf : ∀ t, gadgetSimp ω (fuel + 1) t g = .done g (t + 1) 0 := fun t =>
    simp_false (fun t => gadgetFuseRound_nf (ho t) ⟨hg, InteriorNF.zHad h, h.types, hpb, InteriorNF.axelSep hg h⟩ hf) fuel t
  obtain ⟨t1, h1⟩ := interior_nf' ho fuel t hg h
  obtain ⟨t2, h2⟩ := cliffordSimp_nf hP ho fuel fuel (t1 + 1) hg h hb
  obtain ⟨t3, h3⟩ := interior_nf' ho fuel (t2 + 1) hg h
  unfold fullReduce
  rw [if_neg hh]
  exact ⟨t3 + 1, by simp only [h1, gp, fullLoop, h2, gf, h3, Run.bind, add_zero, if_true]⟩

end Simplify
end PyZX
