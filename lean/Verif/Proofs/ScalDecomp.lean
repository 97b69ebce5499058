import Verif.Proofs.ScalMagic

/-!
# `find_stabilizer_decomp`
-/

namespace PyZX
namespace Magic
open Graph Simplify Props

theorem quarter_den {p : ℚ} (h : Quarter p) : p.den = 4 ↔ 2 < p.den := by
  have h1 : (4 * p).den = 1 := by simpa [Rat.isInt] using h.2
  have e1 : p = (4 * p).num / 4 := by
    have : ((4 * p).num : ℚ) = 4 * p := by
      conv_rhs => rw [← Rat.num_div_den (4 * p), h1]
      simp
    rw [this]; ring
  have h2 : p.den ∣ 4 := by
    have := Rat.den_dvd (4 * p).num 4
    rw [Rat.divInt_eq_div] at this
    have h3 : ((((4 * p).num : ℤ) : ℚ) / ((4 : ℤ) : ℚ)) = p := by exact_mod_cast e1.symm
    rw [h3] at this
    exact_mod_cast this
  have h3 : p.den ≤ 4 := Nat.le_of_dvd (by norm_num) h2
  constructor
  · omega
  · intro h4
    interval_cases hd : p.den
    · norm_num at h2
    · rfl

theorem tcount_nonClifford (g : Graph) : Simplify.tcount g = nonClifford g := by
  unfold Simplify.tcount nonClifford
  congr 1
  refine Finset.filter_congr fun v _ => ⟨fun h => h.2, fun h => ⟨fun h0 => ?_, h⟩⟩
  rw [h0] at h
  exact absurd h (by decide)

theorem tSpiders_card {g : Graph} (h : ∀ v ∈ g.verts, Quarter (g.phase v)) : (tSpiders g).card = Simplify.tcount g := by
  rw [tcount_nonClifford]
  unfold tSpiders nonClifford
  congr 1
  exact Finset.filter_congr fun v hv => quarter_den (h v hv)

/-- The class of the diagrams. -/
theorem replaceMagic_ext {g : Graph} (hg : ZXZ Quarter g) (hb : g.PlainBnd) {vs : List ℕ} {es : List (ℕ × ℕ)} (hvs : VertOrder g vs)
    (hes : EdgeOrder g es) {es' : Graph → List (ℕ × ℕ)} (hes' : ∀ g', g'.WF → EdgeOrder g' (es' g')) {pick : Graph → List ℕ → ℕ → List ℕ}
    (hp : PickLaw pick) {hs : List Graph} (hr : replaceMagic g vs es es' pick = some hs) :
    ∃ n, numReplace (Simplify.tcount g) = some n ∧ hs.length = (if n = 6 then 7 else 2) ∧
      ∀ h ∈ hs, h.WF → (ZXZ Quarter h ∧ h.PlainBnd) ∧ h.verts.card ≤ g.verts.card + n := by
  obtain ⟨ρ, g1, c1, w1, -, R1, i1, o1, -, -, M1⟩ := copy_spec hg.1.wf hvs hes
  have v1 : g1.verts = Finset.range g.verts.card := copy_consecutive false hvs c1
  have hcard : g1.verts.card = g.verts.card := by rw [v1, Finset.card_range]
  have hv1 : VertOrder g1 (List.range g1.verts.card) := ⟨List.nodup_range, fun v => by rw [List.mem_range, hcard, v1, Finset.mem_range]⟩
  obtain ⟨ρ', h, c2, w2, hidx, R2, i2, o2, -, -, M2⟩ := copy_spec w1 hv1 (hes' g1 w1)
  have hρ : ∀ v ∈ g1.verts, ρ' v = v := fun v hv => by
    have hm := (hv1.2 v).mpr hv
    rw [hidx v hm]
    exact ToGraph.idxOf_range (List.mem_range.mp hm)
  obtain ⟨z1, b1⟩ := cls_renamed hg hb R1 w1 i1 o1
  obtain ⟨z2, b2⟩ := cls_renamed z1 b1 R2 w2 i2 o2
  have hcard2 : h.verts.card = g.verts.card := by rw [R2.verts, Finset.card_image_of_injective _ R2.inj, hcard]
  have ht1 : ∀ v, v ∈ tLike g1 (List.range g1.verts.card) ↔ v ∈ tSpiders g1 := fun v => by
    unfold tLike tSpiders
    rw [List.mem_filter, hv1.2 v, Finset.mem_filter]
    simp only [decide_eq_true_eq]
    refine and_congr_right fun _ => ⟨fun hh => hh.2, fun hh => ⟨fun h0 => ?_, hh⟩⟩
    rw [h0] at hh
    exact absurd hh (by decide)
  have hnd : (tLike g1 (List.range g1.verts.card)).Nodup := List.nodup_range.filter _
  have hlen : (tLike g1 (List.range g1.verts.card)).length = (tSpiders g).card := by
    rw [← List.toFinset_card_of_nodup hnd, show (tLike g1 (List.range g1.verts.card)).toFinset = tSpiders g1 by
      ext v; rw [List.mem_toFinset, ht1]]
    exact renamed_count R1 (· = 4)
  unfold replaceMagic at hr
  rw [c1] at hr
  change (numReplace (tLike g1 (List.range g1.verts.card)).length).bind _ = _ at hr
  obtain ⟨n, hn, hr⟩ := Option.bind_eq_some_iff.mp hr
  change (functions n).mapM (fun f => (g1.copy false (List.range g1.verts.card) (es' g1)).bind fun h => f h
      (pick g1 (tLike g1 (List.range g1.verts.card)) n)) = _ at hr
  rw [c2] at hr
  have hl := mapM_length _ _ hr
  rw [functions_length] at hl
  have h621 : (n = 6 ∨ n = 2 ∨ n = 1) ∧ n ≤ (tLike g1 (List.range g1.verts.card)).length := by
    generalize (tLike g1 (List.range g1.verts.card)).length = t at hn
    unfold numReplace at hn
    split at hn
    · simp only [Option.some.injEq] at hn; omega
    · split at hn
      · simp only [Option.some.injEq] at hn; omega
      · split at hn
        · simp only [Option.some.injEq] at hn; omega
        · simp at hn
  obtain ⟨p1, p2, p3⟩ := hp g1 _ n hnd h621.2
  have hc : ∀ v ∈ pick g1 (tLike g1 (List.range g1.verts.card)) n, NB h v := fun v hv => by
    have hm := (ht1 v).mp (p3 v hv)
    unfold tSpiders at hm
    rw [Finset.mem_filter] at hm
    rintro ⟨-, hy⟩
    have e := hρ v hm.1
    have := R2.ty v hm.1
    rw [e, hy] at this
    have := b1.phase v hm.1 this.symm
    rw [this] at hm
    exact absurd hm.2 (by decide)
  refine ⟨n, ?_, hl, fun h' hh' w' => ?_⟩
  · rw [← tSpiders_card hg.1.phases, ← hlen]; exact hn
  · obtain ⟨f, hf, hfe⟩ := mapM_mem _ _ hr h' hh'
    have e := ext_functions w2 h621.1 hc (Ext.refl z2.1.phases) hf hfe
    exact ⟨e.cls z2 b2 w', by rw [← hcard2]; exact e.card⟩

/-- What the choices of `replace_magic_states` must satisfy. -/
structure MagicChoice.OK (κ : MagicChoice) : Prop where
  vs : ∀ g, g.WF → VertOrder g (κ.vs g)
  es : ∀ g, g.WF → EdgeOrder g (κ.es g)
  es' : ∀ g, g.WF → EdgeOrder g (κ.es' g)
  pick : PickLaw κ.pick

theorem zero_mat {g : Graph} (h : g.scalar.isZero = true) (x y : ℕ → Bool) : g.mat x y = 0 := by
  unfold Graph.mat Graph.sem Scalar.toNumber
  simp [h]

/-- The class of diagrams, with the bound of the sizes. -/
structure Cls (C : ℕ) (g : Graph) : Prop where
  zx : ZXZ Quarter g
  bnd : g.PlainBnd
  le : g.verts.card + Simplify.tcount g ≤ C

theorem reduceTerms_end {ω : ℕ → Orders} (ho : ∀ t, (ω t).OK) (hfu : ∀ t, (ω t).Full) {fuel C : ℕ} (hf : scalarFuel C ≤ fuel) {T i o : ℕ} (hs : List Graph) :
    ∀ t, (∀ h ∈ hs, Cls C h ∧ Simplify.tcount h ≤ T ∧ h.inputs.length = i ∧ h.outputs.length = o) → reduceTerms ω fuel hs t = .raised ∨ ∃ gs t', reduceTerms ω fuel hs t = .done gs t' ∧
      gs.length ≤ hs.length ∧ (∀ h ∈ gs, (Cls C h ∧ h.InteriorNF) ∧ Simplify.tcount h ≤ T ∧ h.inputs.length = i ∧ h.outputs.length = o) ∧
      ∀ x y, (gs.map fun h => h.mat x y).sum = (hs.map fun h => h.mat x y).sum := by
  induction hs with
  | nil => intro t _; exact Or.inr ⟨[], t, rfl, le_rfl, by simp, fun _ _ => rfl⟩
  | cons h hs ih =>
    intro t hh
    obtain ⟨hc, h1, h2, h3⟩ := hh h (by simp)
    have hle := hc.le
    unfold reduceTerms
    rcases reduceScalar_end phaseSet_quarter ho hfu (i := 0) (t := t) hc.zx hc.bnd (show h.verts.card ≤ C by omega) hf with e | ⟨g', t', j, e, z, K, nf, ht, hv⟩
    · rw [e]; exact Or.inl rfl
    · rw [e]
      have kp := K.exact fun _ hp => hp
      have hm : ∀ x y, g'.mat x y = h.mat x y := fun x y => by
        unfold Graph.mat Graph.bval
        rw [kp.inputs, kp.outputs, kp.sem]
      rcases ih t' (fun u hu => hh u (List.mem_cons_of_mem _ hu)) with e2 | ⟨gs, t2, e2, l2, c2, s2⟩
      · simp only [e2]; exact Or.inl rfl
      · simp only [e2]
        refine Or.inr ⟨_, _, rfl, ?_, ?_, fun x y => ?_⟩
        · split
          · rw [List.length_cons]; omega
          · rw [List.length_cons, List.length_cons]; omega
        · have hg' : (Cls C g' ∧ g'.InteriorNF) ∧ Simplify.tcount g' ≤ T ∧ g'.inputs.length = i ∧ g'.outputs.length = o :=
            ⟨⟨⟨z, Keeps.plainBnd K hc.bnd, by omega⟩, nf.interior⟩, by omega, by rw [kp.inputs]; exact h2, by rw [kp.outputs]; exact h3⟩
          intro u hu
          split at hu
          · exact c2 u hu
          · rcases List.mem_cons.mp hu with rfl | hu
            · exact hg'
            · exact c2 u hu
        · rw [List.map_cons, List.sum_cons, ← s2, ← hm]
          split
          · next hz => rw [zero_mat hz, zero_add]
          · rw [List.map_cons, List.sum_cons]

/-- The result for one diagram. -/
structure Decomp (g : Graph) (B : ℕ) (rs : List Graph) : Prop where
  terms : ∀ r ∈ rs, (ZXZ Quarter r ∧ r.PlainBnd) ∧ Simplify.tcount r = 0 ∧ r.inputs.length = g.inputs.length ∧ r.outputs.length = g.outputs.length
  nf : g.InteriorNF ∨ Simplify.tcount g ≠ 0 → ∀ r ∈ rs, r.InteriorNF
  length : rs.length ≤ B
  sum : ∀ x y, (rs.map fun h => h.mat x y).sum = g.mat x y

theorem collect_end {f : ℕ → Graph → DRun} {B i o : ℕ} (gs : List Graph) :
    (∀ g ∈ gs, g.InteriorNF ∧ g.inputs.length = i ∧ g.outputs.length = o ∧ ∀ t, f t g = .raised ∨ ∃ rs t', f t g = .done rs t' ∧ Decomp g B rs) →
    ∀ t, collect f gs t = .raised ∨ ∃ rs t', collect f gs t = .done rs t' ∧ rs.length ≤ gs.length * B ∧
      (∀ r ∈ rs, ((ZXZ Quarter r ∧ r.PlainBnd) ∧ r.InteriorNF) ∧ Simplify.tcount r = 0 ∧ r.inputs.length = i ∧ r.outputs.length = o) ∧
      ∀ x y, (rs.map fun h => h.mat x y).sum = (gs.map fun h => h.mat x y).sum := by
  induction gs with
  | nil => intro _ t; exact Or.inr ⟨[], t, rfl, by simp, by simp, fun _ _ => rfl⟩
  | cons g gs ih =>
    intro hh t
    have hr := ih fun u hu => hh u (List.mem_cons_of_mem _ hu)
    obtain ⟨hnf, hi, ho, hg⟩ := hh g (by simp)
    have hlen : (g :: gs).length * B = B + gs.length * B := by rw [List.length_cons]; ring
    unfold collect
    split
    · next hz =>
      rcases hr t with e | ⟨rs, t', e, l, c, s⟩
      · exact Or.inl e
      · refine Or.inr ⟨rs, t', e, by rw [hlen]; omega, c, fun x y => ?_⟩
        rw [List.map_cons, List.sum_cons, zero_mat hz, zero_add, s]
    · rcases hg t with e | ⟨rs, t', e, d⟩
      · rw [e]; exact Or.inl rfl
      · rw [e]
        simp only [DRun.bind]
        rcases hr t' with e2 | ⟨rs2, t2, e2, l, c, s⟩
        · rw [e2]; exact Or.inl rfl
        · rw [e2]
          refine Or.inr ⟨_, _, rfl, ?_, ?_, fun x y => ?_⟩
          · rw [List.length_append, hlen]
            have := d.length
            omega
          · intro r hr'
            rcases List.mem_append.mp hr' with h | h
            · obtain ⟨a, b, c', d'⟩ := d.terms r h
              exact ⟨⟨a, d.nf (Or.inl hnf) r h⟩, b, c'.trans hi, d'.trans ho⟩
            · exact c r h
          · rw [List.map_append, List.sum_append, d.sum, s, List.map_cons, List.sum_cons]

/-- The largest value of `max_terms_needed` up to a T-count. -/
def termBound (T : ℕ) : ℕ := (Finset.range (T + 1)).sup maxTerms

theorem maxTerms_six (v : ℕ) : maxTerms (v + 6) = 7 * maxTerms v := by
  unfold maxTerms
  have h1 : (v + 6) / 6 = v / 6 + 1 := by omega
  have h2 : v + 6 - 6 * (v / 6 + 1) = v - 6 * (v / 6) := by omega
  simp only [h1, h2, pow_succ]
  split
  · ring
  · split
    · ring
    · split <;> ring

theorem termBound_mono {a b : ℕ} (h : a ≤ b) : termBound a ≤ termBound b :=
  Finset.sup_mono fun x hx => by rw [Finset.mem_range] at hx ⊢; omega

theorem one_le_termBound (T : ℕ) : 1 ≤ termBound T := by
  have : maxTerms 0 ≤ termBound T := Finset.le_sup (f := maxTerms) (Finset.mem_range.mpr (by omega))
  exact le_trans (by decide) this

theorem seven_mul_termBound (T : ℕ) : 7 * termBound T ≤ termBound (T + 6) := by
  obtain ⟨u, hu, e⟩ := Finset.exists_mem_eq_sup (Finset.range (T + 1)) ⟨0, by simp⟩ maxTerms
  unfold termBound
  rw [e, ← maxTerms_six]
  rw [Finset.mem_range] at hu
  exact Finset.le_sup (f := maxTerms) (Finset.mem_range.mpr (by omega))

/-- The number of terms. -/
theorem termBound_step {T n : ℕ} (h : numReplace T = some n) : (if n = 6 then 7 else 2) * termBound (T - n) ≤ termBound T := by
  unfold numReplace at h
  by_cases h6 : 6 ≤ T
  · rw [if_pos h6] at h
    simp only [Option.some.injEq] at h
    subst h
    have := seven_mul_termBound (T - 6)
    rw [show T - 6 + 6 = T by omega] at this
    exact this
  · have hT : T < 6 := by omega
    interval_cases T <;> simp at h <;> subst h <;> decide

/-- The bound of the number of terms. -/
def decompBound (T : ℕ) : ℕ := if T < 12 then maxTerms T else termBound T

theorem maxTerms_le (T : ℕ) : maxTerms T ≤ termBound T := Finset.le_sup (f := maxTerms) (Finset.mem_range.mpr (by omega))

theorem decompBound_le (T : ℕ) : decompBound T ≤ termBound T := by
  unfold decompBound
  split
  · exact maxTerms_le T
  · exact le_rfl

theorem one_le_decompBound (T : ℕ) : 1 ≤ decompBound T := by
  unfold decompBound
  split
  · next h => interval_cases T <;> decide
  · exact one_le_termBound T

theorem decompBound_step {T n : ℕ} (h : numReplace T = some n) : (if n = 6 then 7 else 2) * termBound (T - n) ≤ decompBound T := by
  by_cases h12 : T < 12
  · unfold numReplace at h
    interval_cases T <;> simp at h <;> subst h <;> decide
  · unfold decompBound
    rw [if_neg h12]
    exact termBound_step h

theorem numReplace_le {T n : ℕ} (h : numReplace T = some n) : 1 ≤ n ∧ n ≤ T := by
  unfold numReplace at h
  split at h
  · simp only [Option.some.injEq] at h; omega
  · split at h
    · simp only [Option.some.injEq] at h; omega
    · split at h
      · simp only [Option.some.injEq] at h; omega
      · simp at h

theorem findDecomp_end {κ : ℕ → MagicChoice} (hκ : ∀ t, (κ t).OK) {ω : ℕ → Orders} (ho : ∀ t, (ω t).OK) (hfu : ∀ t, (ω t).Full) {fuel C : ℕ}
    (hf : scalarFuel C ≤ fuel) : ∀ (n t : ℕ) (g : Graph), Cls C g → Simplify.tcount g < n →
      findDecomp κ ω fuel n t g = .raised ∨ ∃ gs t', findDecomp κ ω fuel n t g = .done gs t' ∧ Decomp g (decompBound (Simplify.tcount g)) gs := by
  intro n
  induction n with
  | zero => intro t g _ h; omega
  | succ n ih =>
    intro t g hg hn
    unfold findDecomp
    by_cases h0 : Simplify.tcount g = 0
    · rw [if_pos h0]
      refine Or.inr ⟨[g], t, rfl, ?_, fun hnf r hr => ?_, ?_, fun x y => by simp⟩
      · intro r hr
        rw [List.mem_singleton] at hr
        subst hr
        exact ⟨⟨hg.zx, hg.bnd⟩, h0, rfl, rfl⟩
      · rw [List.mem_singleton] at hr
        subst hr
        exact hnf.resolve_right fun hne => hne h0
      · exact one_le_decompBound _
    · rw [if_neg h0]
      have hwf := hg.zx.1.wf
      have hcT := tSpiders_card hg.zx.1.phases
      obtain ⟨hs, m, hr, hm, k6, k2, k1, hsum⟩ := replaceMagic_sound hwf ((hκ t).vs g hwf) ((hκ t).es g hwf) (hκ t).es' (hκ t).pick
        (fun v hv => by
          unfold tSpiders at hv
          rw [Finset.mem_filter] at hv
          refine (hg.zx.2 v hv.1).resolve_left fun hbd => ?_
          have := hg.bnd.phase v hv.1 hbd
          rw [this] at hv
          exact absurd hv.2 (by decide)) (Finset.card_pos.mp (by omega))
      obtain ⟨q, hq, hl, hcl⟩ := replaceMagic_ext hg.zx hg.bnd ((hκ t).vs g hwf) ((hκ t).es g hwf) (hκ t).es' (hκ t).pick hr
      have hmq : m = q := by
        rw [← hcT] at hq
        unfold numReplace at hq
        split at hq
        · next a => simp only [Option.some.injEq] at hq; rw [← hq]; exact (k6 a).1
        · split at hq
          · next a b => simp only [Option.some.injEq] at hq; rw [← hq]; exact (k2 b (by omega)).1
          · split at hq
            · next a b c => simp only [Option.some.injEq] at hq; rw [← hq]; exact (k1 c).1
            · simp at hq
      subst hmq
      rw [hr]
      simp only
      obtain ⟨m1, m2⟩ := numReplace_le hq
      have hh : ∀ h ∈ hs, Cls C h ∧ Simplify.tcount h ≤ Simplify.tcount g - m ∧ h.inputs.length = g.inputs.length ∧
          h.outputs.length = g.outputs.length := fun h hm' => by
        obtain ⟨a, b, c, d⟩ := hm h hm'
        obtain ⟨⟨z, p⟩, e⟩ := hcl h hm' a
        rw [← tcount_nonClifford, ← tcount_nonClifford] at d
        have := hg.le
        exact ⟨⟨z, p, by omega⟩, by omega, b, c⟩
      rcases reduceTerms_end ho hfu hf hs (t + 1) hh with e | ⟨gs, t', e, l, c, s⟩
      · rw [e]; exact Or.inl rfl
      · rw [e]
        simp only [DRun.bind]
        have hc : ∀ u ∈ gs, u.InteriorNF ∧ u.inputs.length = g.inputs.length ∧ u.outputs.length = g.outputs.length ∧ ∀ t, findDecomp κ ω fuel n t u = .raised ∨
            ∃ rs t', findDecomp κ ω fuel n t u = .done rs t' ∧ Decomp u (termBound (Simplify.tcount g - m)) rs := fun u hu => by
          obtain ⟨⟨a, a'⟩, b, c1, c2⟩ := c u hu
          refine ⟨a', c1, c2, fun t => ?_⟩
          rcases ih t u a (by omega) with e | ⟨rs, t', e, d⟩
          · exact Or.inl e
          · exact Or.inr ⟨rs, t', e, d.terms, d.nf, (d.length.trans (decompBound_le _)).trans (termBound_mono b), d.sum⟩
        rcases collect_end gs hc t' with e | ⟨rs, t2, e, l2, c2, s2⟩
        · exact Or.inl e
        · refine Or.inr ⟨rs, t2, e, fun r hr => ⟨(c2 r hr).1.1, (c2 r hr).2⟩, fun _ r hr => (c2 r hr).1.2, ?_, fun x y => by rw [s2, s, hsum]⟩
          refine l2.trans (le_trans ?_ (decompBound_step hq))
          rw [hl] at l
          exact Nat.mul_le_mul_right _ l

/-- A Clifford diagram without boundary in the form left by the interior rules consists of isolated spiders with phase 0 or π. -/
theorem closed_nf {g : Graph} (hg : ZXZ Quarter g) (hb : g.PlainBnd) (hn : g.InteriorNF) (ht : Simplify.tcount g = 0)
    (hi : g.inputs.length = 0) (ho : g.outputs.length = 0) :
    (∀ v ∈ g.verts, g.ty v = .Z ∧ (g.phase v = 0 ∨ g.phase v = 1)) ∧ ∀ a b, g.adj a b = none := by
  have nob : ∀ v ∈ g.verts, g.ty v = .Z := fun v hv => (hg.2 v hv).resolve_left fun hbd => by
    have := hb.io v hv hbd
    rw [List.length_eq_zero_iff.mp hi, List.length_eq_zero_iff.mp ho] at this
    simp at this
  have cl : ∀ v ∈ g.verts, g.phase v = 0 ∨ g.phase v = 1 := fun v hv => by
    have hd : ¬ 2 < (g.phase v).den := fun h2 => by
      rw [tcount_nonClifford] at ht
      unfold nonClifford at ht
      rw [Finset.card_eq_zero, Finset.filter_eq_empty_iff] at ht
      exact ht hv h2
    obtain ⟨⟨p0, p2⟩, -⟩ := hg.1.phases v hv
    have hh : ¬ (g.phase v = 1 / 2 ∨ g.phase v = 3 / 2) := fun h => by
      obtain ⟨w, hw, hwb⟩ := hn.half v hv (nob v hv) h
      rw [nob w (hg.1.wf.toInv.mem' hw)] at hwb
      simp at hwb
    have e : g.phase v = (g.phase v).num / (g.phase v).den := (Rat.num_div_den _).symm
    have hpos := (g.phase v).den_pos
    generalize (g.phase v).num = n at e
    have h12 : (g.phase v).den = 1 ∨ (g.phase v).den = 2 := by omega
    generalize g.phase v = p at *
    have key : p = (n : ℚ) ∨ p = (n : ℚ) / 2 := by
      rcases h12 with h | h <;> rw [h] at e
      · left; simpa using e
      · right; simpa using e
    rcases key with k | k
    · rw [k] at p0 p2
      have a : (0 : ℤ) ≤ n := by exact_mod_cast p0
      have b : n < 2 := by exact_mod_cast p2
      rw [k]
      interval_cases n <;> simp
    · rw [k] at p0 p2
      have a : (0 : ℤ) ≤ n := by
        have : (0 : ℚ) ≤ n := by linarith
        exact_mod_cast this
      have b : n < 4 := by
        have : (n : ℚ) < 4 := by linarith
        exact_mod_cast this
      rw [k] at hh ⊢
      interval_cases n
      · left; norm_num
      · exact absurd (Or.inl (by norm_num)) hh
      · right; norm_num
      · exact absurd (Or.inr (by norm_num)) hh
  refine ⟨fun v hv => ⟨nob v hv, cl v hv⟩, fun a b => ?_⟩
  by_contra hne
  have ha := hg.1.wf.mem _ _ hne
  have hb' := hg.1.wf.toInv.mem' hne
  have hz : ∀ v, g.bnds v = ∅ := fun v => by
    unfold bnds
    rw [Finset.filter_eq_empty_iff]
    intro w hw h
    have := (Finset.mem_filter.mp hw).1
    rw [nob w this] at h
    simp at h
  have := hn.pauli a b hne (nob a ha) (nob b hb') (cl a ha) (cl b hb')
  rw [hz, hz] at this
  simp at this

/-- The value of a diagram of isolated Z-spiders. -/
theorem isolated_mat {g : Graph} (hz : ∀ v ∈ g.verts, g.ty v = .Z) (hn : ∀ a b, g.adj a b = none) (x y : ℕ → Bool) :
    g.mat x y = g.scalar.toNumber * ∏ v ∈ g.verts, (1 + ph (g.phase v)) := by
  unfold Graph.mat Graph.sem
  have h1 : g.halfEdges = ∅ := by
    unfold halfEdges
    rw [Finset.filter_eq_empty_iff]
    intro p _
    simp [hn]
  have h2 : ∀ v, g.nbrs v = ∅ := fun v => by
    unfold nbrs
    rw [Finset.filter_eq_empty_iff]
    intro p _
    simp [hn]
  rw [h1, psum_empty]
  simp only [hn, edgeT]
  rw [pairProd_one, mul_one]
  refine congrArg _ (Finset.prod_congr rfl fun v hv => ?_)
  unfold nodeTensor
  rw [hz v hv, h2]
  simp [zTensor]

end Magic
end PyZX
