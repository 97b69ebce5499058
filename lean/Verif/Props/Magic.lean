import Verif.Proofs.MagicId
import Verif.Props.ComposeEx

/-!
# Properties of `replace_magic_states` (C35)
-/

namespace PyZX
namespace Props

open Graph Magic

/-- What the choice of the candidates must satisfy: `n` different elements of the list. -/
def PickLaw (pick : Graph → List ℕ → ℕ → List ℕ) : Prop :=
  ∀ g l n, l.Nodup → n ≤ l.length → (pick g l n).length = n ∧ (pick g l n).Nodup ∧ ∀ v ∈ pick g l n, v ∈ l

/-- The spiders with a phase that is an odd multiple of pi/4. -/
def tSpiders (g : Graph) : Finset ℕ := g.verts.filter fun v => (g.phase v).den = 4

/-- The number of spiders with a phase that is not a multiple of pi/2. -/
def nonClifford (g : Graph) : ℕ := (g.verts.filter fun v => 2 < (g.phase v).den).card

/-- The choice by rank obeys the law. -/
theorem pickRanked_law (rk : Graph → ℕ → ℕ) : PickLaw fun g => pickRanked (rk g) := by
  intro g l n hn hl
  have hp := List.mergeSort_perm l fun a b => decide (rk g b ≤ rk g a)
  unfold pickRanked
  refine ⟨?_, ?_, fun v hv => hp.subset (List.mem_of_mem_take hv)⟩
  · rw [List.length_take, hp.length_eq]; omega
  · exact (hp.nodup_iff.mpr hn).sublist (List.take_sublist _ _)

theorem mod2_den (q : ℚ) : (mod2 q).den = q.den := by
  obtain ⟨k, hk⟩ := mod2_shift q
  rw [hk, Rat.add_intCast_den]

/-- Renaming does not change a count that depends on the phase modulo 2. -/
theorem renamed_count {g g' : Graph} {ρ : ℕ → ℕ} (h : Renamed g g' ρ) (P : ℕ → Prop) [DecidablePred P] :
    (g'.verts.filter fun v => P (g'.phase v).den).card = (g.verts.filter fun v => P (g.phase v).den).card := by
  rw [h.verts, Finset.filter_image, Finset.card_image_of_injective _ h.inj]
  refine congrArg _ (Finset.filter_congr fun v hv => ?_)
  rw [h.phase v hv, mod2_den]

theorem forall₂_left {α β : Type*} {R : α → β → Prop} {l : List α} {m : List β} (h : List.Forall₂ R l m) : ∀ a ∈ l, ∃ b, R a b := by
  induction h with
  | nil => intro a ha; simp at ha
  | cons hr _ ih =>
    intro a ha
    rcases List.mem_cons.mp ha with rfl | ha
    · exact ⟨_, hr⟩
    · exact ih a ha

theorem functions_length (n : ℕ) : (functions n).length = if n = 6 then 7 else 2 := by
  unfold functions
  by_cases h6 : n = 6
  · subst h6; rfl
  · by_cases h2 : n = 2
    · subst h2; rfl
    · rw [if_neg h6, if_neg h2, if_neg h6]; rfl

theorem mapM_length {α β : Type*} (f : α → Option β) (l : List α) : ∀ {m : List β}, l.mapM f = some m → m.length = l.length := by
  induction l with
  | nil => intro m h; simp at h; subst h; rfl
  | cons a r ih =>
    intro m h
    rw [List.mapM_cons] at h
    simp only [Option.bind_eq_bind, Option.bind_eq_some_iff] at h
    obtain ⟨b, -, bs, hb, h⟩ := h
    simp only [Option.pure_def, Option.some.injEq] at h
    subst h
    rw [List.length_cons, List.length_cons, ih hb]

/-- C35: for a diagram whose spiders with a phase that is an odd multiple of pi/4 are Z-spiders, with at least one such spider,
`replace_magic_states` returns diagrams that add up to the original, for every order of the vertices and edges and every choice of
candidates. Each has the inputs and outputs of the original and fewer non-Clifford spiders: 7 diagrams with 6 fewer if there are at least six, 2
diagrams with 2 fewer if there are at least two, 2 diagrams with 1 fewer if there is only one. -/
theorem replaceMagic_sound {g : Graph} (hg : g.WF) {vs : List ℕ} {es : List (ℕ × ℕ)} (hvs : VertOrder g vs) (hes : EdgeOrder g es)
    {es' : Graph → List (ℕ × ℕ)} (hes' : ∀ g', g'.WF → EdgeOrder g' (es' g')) {pick : Graph → List ℕ → ℕ → List ℕ} (hp : PickLaw pick)
    (hz : ∀ v ∈ tSpiders g, g.ty v = .Z) (hT : (tSpiders g).Nonempty) :
    ∃ hs n, replaceMagic g vs es es' pick = some hs ∧
      (∀ h ∈ hs, h.WF ∧ h.inputs.length = g.inputs.length ∧ h.outputs.length = g.outputs.length ∧ nonClifford h + n = nonClifford g) ∧
      (6 ≤ (tSpiders g).card → n = 6 ∧ hs.length = 7) ∧ (2 ≤ (tSpiders g).card → (tSpiders g).card < 6 → n = 2 ∧ hs.length = 2) ∧
      ((tSpiders g).card = 1 → n = 1 ∧ hs.length = 2) ∧ ∀ x y, (hs.map fun h => h.mat x y).sum = g.mat x y := by
  obtain ⟨ρ, g1, c1, w1, -, R1, i1, o1, -, -, M1⟩ := copy_spec hg hvs hes
  have v1 : g1.verts = Finset.range g.verts.card := copy_consecutive false hvs c1
  have hcard : g1.verts.card = g.verts.card := by rw [v1, Finset.card_range]
  have hv1 : VertOrder g1 (List.range g1.verts.card) := ⟨List.nodup_range, fun v => by rw [List.mem_range, hcard, v1, Finset.mem_range]⟩
  obtain ⟨ρ', h, c2, w2, hidx, R2, i2, o2, -, -, M2⟩ := copy_spec w1 hv1 (hes' g1 w1)
  have hρ : ∀ v ∈ g1.verts, ρ' v = v := fun v hv => by
    have hm := (hv1.2 v).mpr hv
    rw [hidx v hm]
    exact ToGraph.idxOf_range (List.mem_range.mp hm)
  have ht1 : ∀ v, v ∈ tLike g1 (List.range g1.verts.card) ↔ v ∈ tSpiders g1 := fun v => by
    unfold tLike tSpiders
    rw [List.mem_filter, hv1.2 v, Finset.mem_filter]
    simp only [decide_eq_true_eq]
    refine and_congr_right fun _ => ⟨fun hh => hh.2, fun hh => ⟨fun h0 => ?_, hh⟩⟩
    rw [h0] at hh
    exact absurd hh (by decide)
  have hnd : (tLike g1 (List.range g1.verts.card)).Nodup := List.nodup_range.filter _
  have hlen : (tLike g1 (List.range g1.verts.card)).length = (tSpiders g).card := by
    rw [← List.toFinset_card_of_nodup hnd, show (tLike g1 (List.range g1.verts.card)).toFinset = tSpiders g1 by
      ext v; rw [List.mem_toFinset, ht1]]
    exact renamed_count R1 (· = 4)
  have hpos := Finset.card_pos.mpr hT
  obtain ⟨n, hn, hle, h621, k6, k2, k1⟩ : ∃ n, numReplace (tSpiders g).card = some n ∧ n ≤ (tSpiders g).card ∧ (n = 6 ∨ n = 2 ∨ n = 1) ∧
      (6 ≤ (tSpiders g).card → n = 6) ∧ (2 ≤ (tSpiders g).card → (tSpiders g).card < 6 → n = 2) ∧ ((tSpiders g).card = 1 → n = 1) := by
    generalize (tSpiders g).card = t at hpos
    unfold numReplace
    by_cases a6 : 6 ≤ t
    · exact ⟨6, by rw [if_pos a6], a6, Or.inl rfl, fun _ => rfl, fun _ _ => by omega, fun _ => by omega⟩
    · by_cases a2 : 2 ≤ t
      · exact ⟨2, by rw [if_neg a6, if_pos a2], a2, Or.inr (Or.inl rfl), fun _ => by omega, fun _ _ => rfl, fun _ => by omega⟩
      · exact ⟨1, by rw [if_neg a6, if_neg a2, if_pos (by omega)], by omega, Or.inr (Or.inr rfl), fun _ => by omega, fun _ _ => by omega, fun _ => rfl⟩
  obtain ⟨p1, p2, p3⟩ := hp g1 _ n hnd (by rw [hlen]; exact hle)
  have hc1 : ∀ v ∈ pick g1 (tLike g1 (List.range g1.verts.card)) n, v ∈ g1.verts ∧ g1.ty v = .Z ∧ (g1.phase v).den = 4 := fun v hv => by
    have hm := (ht1 v).mp (p3 v hv)
    unfold tSpiders at hm
    rw [Finset.mem_filter] at hm
    refine ⟨hm.1, ?_, hm.2⟩
    have hm1 := hm.1
    rw [R1.verts, Finset.mem_image] at hm1
    obtain ⟨u, hu, rfl⟩ := hm1
    rw [R1.ty u hu]
    refine hz u ?_
    unfold tSpiders
    rw [Finset.mem_filter]
    refine ⟨hu, ?_⟩
    have := hm.2
    rw [R1.phase u hu, mod2_den] at this
    exact this
  have hc2 : ∀ v ∈ pick g1 (tLike g1 (List.range g1.verts.card)) n, v ∈ h.verts ∧ h.ty v = .Z ∧ (h.phase v).den = 4 := fun v hv => by
    obtain ⟨a, b, c⟩ := hc1 v hv
    have e := hρ v a
    refine ⟨by rw [R2.verts, ← e]; exact Finset.mem_image_of_mem _ a, ?_, ?_⟩
    · have := R2.ty v a
      rw [e] at this
      rw [this, b]
    · have := R2.phase v a
      rw [e] at this
      rw [this, mod2_den, c]
  obtain ⟨hs, Φs, f1, f2, f3⟩ := splits_of w2 p2 (fun v hv => ⟨(hc2 v hv).1, (hc2 v hv).2.1⟩) p1 h621
  have hl := mapM_length _ _ f1
  rw [functions_length] at hl
  refine ⟨hs, n, ?_, fun h' hh' => ?_, fun a => ?_, fun a b => ?_, fun a => ?_, fun x y => ?_⟩
  · unfold replaceMagic
    rw [c1]
    show (numReplace (tLike g1 (List.range g1.verts.card)).length).bind _ = _
    rw [hlen, hn]
    show (functions n).mapM (fun f => (g1.copy false (List.range g1.verts.card) (es' g1)).bind fun h => f h
      (pick g1 (tLike g1 (List.range g1.verts.card)) n)) = _
    rw [c2]
    exact f1
  · obtain ⟨Φ, t⟩ := forall₂_left f2 h' hh'
    refine ⟨t.wf, ?_, ?_, ?_⟩
    · rw [t.ins, i2, i1, List.length_map, List.length_map]
    · rw [t.outs, o2, o1, List.length_map, List.length_map]
    · have := t.phs.tcount p2 fun v hv => ⟨(hc2 v hv).1, (hc2 v hv).2.2⟩
      rw [p1] at this
      unfold nonClifford
      rw [this, renamed_count R2 (2 < ·), renamed_count R1 (2 < ·)]
  · rw [hl, k6 a]; exact ⟨rfl, rfl⟩
  · rw [hl, k2 a b]; exact ⟨rfl, rfl⟩
  · rw [hl, k1 a]; exact ⟨rfl, rfl⟩
  · rw [← M1, ← M2]
    have hm : hs.map (fun h' => h'.mat x y) = hs.map fun h' => h'.sem (h.bval x y) := List.map_congr_left fun h' hh' => by
      obtain ⟨Φ, t⟩ := forall₂_left f2 h' hh'
      unfold mat bval
      rw [t.ins, t.outs]
    rw [hm, sum_opn h w2 _ f2]
    refine (ToGraph.opn_congr (fun z => f3 z) _).trans ?_
    exact opn_one w2 _

/-- Without a spider to replace the function raises. -/
theorem replaceMagic_raises {g : Graph} (hg : g.WF) {vs : List ℕ} {es : List (ℕ × ℕ)} (hvs : VertOrder g vs) (hes : EdgeOrder g es)
    (es' : Graph → List (ℕ × ℕ)) (pick : Graph → List ℕ → ℕ → List ℕ) (hT : tSpiders g = ∅) : replaceMagic g vs es es' pick = none := by
  obtain ⟨ρ, g1, c1, w1, -, R1, -⟩ := copy_spec hg hvs hes
  have v1 : g1.verts = Finset.range g.verts.card := copy_consecutive false hvs c1
  have hcard : g1.verts.card = g.verts.card := by rw [v1, Finset.card_range]
  have h0 : tLike g1 (List.range g1.verts.card) = [] := by
    unfold tLike
    rw [List.filter_eq_nil_iff]
    intro v hv
    simp only [decide_eq_true_eq]
    rintro ⟨-, h4⟩
    have : v ∈ tSpiders g1 := by
      unfold tSpiders
      rw [Finset.mem_filter, v1]
      rw [hcard] at hv
      exact ⟨Finset.mem_range.mpr (List.mem_range.mp hv), h4⟩
    have hc : (tSpiders g1).card = (tSpiders g).card := renamed_count R1 (· = 4)
    rw [hT, Finset.card_empty, Finset.card_eq_zero] at hc
    rw [hc] at this
    simp at this
  unfold replaceMagic
  rw [c1]
  show (numReplace (tLike g1 (List.range g1.verts.card)).length).bind _ = _
  rw [h0]
  rfl

/-- The edges of a diagram in some order. -/
noncomputable def someEdges (g : Graph) : List (ℕ × ℕ) :=
  ((g.verts ×ˢ g.verts).filter fun p => p.1 < p.2 ∧ g.adj p.1 p.2 ≠ none).toList

theorem someEdges_ok {g : Graph} (h : g.WF) : EdgeOrder g (someEdges g) := by
  refine ⟨Finset.nodup_toList _, fun p => ?_⟩
  unfold someEdges
  rw [Finset.mem_toList, Finset.mem_filter, Finset.mem_product]
  exact ⟨fun hh => hh.2, fun hh => ⟨⟨h.mem _ _ hh.2, h.mem _ _ (by rw [h.symm]; exact hh.2)⟩, hh⟩⟩

/-- Seven T-spiders in a row between an input and an output. -/
noncomputable def exT7 : Graph :=
  mkG [.boundary, .Z, .Z, .Z, .Z, .Z, .Z, .Z, .boundary] [0, 1/4, 3/4, 1/4, 7/4, 1/4, 5/4, 1/4, 0]
    [(0, 1, .simple), (1, 2, .had), (2, 3, .had), (3, 4, .had), (4, 5, .had), (5, 6, .had), (6, 7, .had), (7, 8, .simple)] [0] [8]

theorem exT7_wf : exT7.WF := mkG_wf (by decide)

theorem exT7_tSpiders : tSpiders exT7 = {1, 2, 3, 4, 5, 6, 7} := by
  have hd : ∀ n : ℕ, n < 9 → ((([0, 1/4, 3/4, 1/4, 7/4, 1/4, 5/4, 1/4, 0] : List ℚ).getD n 0).den = 4 ↔ 1 ≤ n ∧ n ≤ 7) := by
    intro n hn
    interval_cases n <;> norm_num
  ext v
  unfold tSpiders
  rw [Finset.mem_filter]
  show v ∈ Finset.range 9 ∧ _ ↔ _
  rw [Finset.mem_range]
  constructor
  · rintro ⟨h1, h2⟩
    have := (hd v h1).mp h2
    simp only [Finset.mem_insert, Finset.mem_singleton]
    omega
  · intro hv
    simp only [Finset.mem_insert, Finset.mem_singleton] at hv
    have h1 : v < 9 := by omega
    exact ⟨h1, (hd v h1).mpr (by omega)⟩

/-- The hypotheses of `replaceMagic_sound` hold for it, with candidates chosen by degree: seven diagrams that add up to it. -/
example : exT7.WF ∧ VertOrder exT7 (List.range 9) ∧ EdgeOrder exT7 (someEdges exT7) ∧ (∀ g', g'.WF → EdgeOrder g' (someEdges g')) ∧
    PickLaw (fun g => pickRanked (rank g (incOrd g))) ∧ (∀ v ∈ tSpiders exT7, exT7.ty v = .Z) ∧ (tSpiders exT7).card = 7 := by
  refine ⟨exT7_wf, ⟨List.nodup_range, fun v => ?_⟩, someEdges_ok exT7_wf, fun _ h => someEdges_ok h, pickRanked_law _, ?_, ?_⟩
  · rw [List.mem_range]
    show _ ↔ v ∈ Finset.range 9
    rw [Finset.mem_range]
  · rw [exT7_tSpiders]
    intro v hv
    simp only [Finset.mem_insert, Finset.mem_singleton] at hv
    rcases hv with rfl | rfl | rfl | rfl | rfl | rfl | rfl <;> rfl
  · rw [exT7_tSpiders]; rfl

/-- The hypothesis of `replaceMagic_raises`. -/
example : tSpiders exZ1 = ∅ := by
  have hd : ∀ n : ℕ, n < 3 → ¬ (([0, 1/3, 0] : List ℚ).getD n 0).den = 4 := by
    intro n hn
    interval_cases n <;> norm_num
  unfold tSpiders
  rw [Finset.filter_eq_empty_iff]
  intro v hv
  exact hd v (Finset.mem_range.mp hv)

end Props
end PyZX
