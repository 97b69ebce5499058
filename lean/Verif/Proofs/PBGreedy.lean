import Verif.Proofs.PBBehind

/-!
# Helper lemmas for `phase_block_optimize`: `greedy_consume_gates`
-/

namespace PyZX
namespace PhaseBlock

open Optimize ToddSpec
open scoped List

variable {n : ℕ} {gates gates' : ℕ → List SG} {L L' : List SG} {g : SG}

/-- The T-count. -/
def tcs (l : List Gate) : ℕ := (l.map Gate.tcount).sum

theorem tcs_append (a b : List Gate) : tcs (a ++ b) = tcs a + tcs b := by simp [tcs]
theorem tcs_cons (a : Gate) (b : List Gate) : tcs (a :: b) = a.tcount + tcs b := by simp [tcs]
theorem tcs_perm {a b : List Gate} (h : a.Perm b) : tcs a = tcs b := (h.map _).sum_eq

theorem tcs_erase (h : g ∈ L) : tcs (gs L) = g.gate.tcount + tcs (gs (L.erase g)) := by
  rw [← tcs_cons]
  exact tcs_perm ((List.perm_cons_erase h).map _)

theorem isHad_tcount (h : isHad g = true) : g.gate.tcount = 0 := by
  obtain ⟨t, e⟩ := isHad_gate h
  rw [e]; rfl

/-- No qubit has two Hadamard gates. -/
def NoDouble (L : List SG) : Prop := ∀ x ∈ L, ∀ y ∈ L, ∀ q, x.gate = .had q → y.gate = .had q → x = y

theorem NoDouble.sub (h : NoDouble L) (hs : List.Sublist L' L) : NoDouble L' := fun x hx y hy => h x (hs.subset hx) y (hs.subset hy)

/-- A step. -/
structure GStep (n : ℕ) (L : List SG) (block : List Gate) (gates' : ℕ → List SG) (L' : List SG) (block' : List Gate) : Prop where
  flt : Flt n gates' L'
  sub : List.Sublist L' L
  sem : ∀ ψ, semGates (block' ++ gs L') ψ = semGates (block ++ gs L) ψ
  tc : tcs block' + tcs (gs L') = tcs block + tcs (gs L)
  blk : ∀ b ∈ block', b ∈ block ∨ PhaseGate n b
  hads : NoDouble L → L'.filter isHad = L.filter isHad

theorem GStep.refl (h : Flt n gates L) (block : List Gate) : GStep n L block gates L block :=
  ⟨h, List.Sublist.refl _, fun _ => rfl, rfl, fun _ hb => Or.inl hb, fun _ => rfl⟩

theorem GStep.trans {L1 L2 : List SG} {b b1 b2 : List Gate} {gates1 gates2 : ℕ → List SG} (h1 : GStep n L b gates1 L1 b1) (h2 : GStep n L1 b1 gates2 L2 b2) :
    GStep n L b gates2 L2 b2 := by
  refine ⟨h2.flt, h2.sub.trans h1.sub, fun ψ => (h2.sem ψ).trans (h1.sem ψ), h2.tc.trans h1.tc, fun x hx => ?_, fun hd => ?_⟩
  · rcases h2.blk x hx with h | h
    · exact h1.blk x h
    · exact Or.inr h
  · rw [h2.hads (hd.sub h1.sub), h1.hads hd]

theorem filter_had_erase (hn : L.Nodup) (hh : isHad g = false) : (L.erase g).filter isHad = L.filter isHad := by
  rw [hn.erase_eq_filter, List.filter_filter]
  refine List.filter_congr fun x _ => ?_
  by_cases e : x = g
  · subst e; simp [hh]
  · simp [e]

theorem two_not_had (h : isTwo g = true) : isHad g = false := by
  unfold isTwo at h; unfold isHad
  cases hg : g.gate <;> simp_all

theorem app_spec (hF : Flt n gates L) : ∀ {app : List SG} {gates : ℕ → List SG} {L1 : List SG} {block : List Gate}, GStep n L [] gates L1 block → app.Nodup →
    (∀ g ∈ app, g ∈ L1 ∧ isHad g = false ∧ ∀ r ∈ g.gate.qubits, Free L r g) →
    ∃ gates' L', app.foldlM takeOut gates = some gates' ∧ GStep n L [] gates' L' (block ++ app.map SG.gate) ∧ L'.length + app.length = L1.length
  | [], gates, L1, block, h, _, _ => ⟨gates, L1, rfl, by simpa using h, rfl⟩
  | g :: app, gates, L1, block, h, hn, ha => by
    obtain ⟨hg, hn'⟩ := List.nodup_cons.mp hn
    obtain ⟨h1, h2, h3⟩ := ha g (by simp)
    obtain ⟨gates1, e1, hF1⟩ := h.flt.takeOut h1
    have hs : GStep n L1 block gates1 (L1.erase g) (block ++ [g.gate]) := by
      refine ⟨hF1, List.erase_sublist, fun ψ => ?_, ?_, fun b hb => ?_, fun _ => filter_had_erase h.flt.nodup h2⟩
      · rw [List.append_assoc, semGates_append, semGates_append block, h.flt.first h1 fun r hr => (h3 r hr).sub h.sub]
        rfl
      · rw [tcs_append, tcs_erase h1, tcs_cons, show tcs [] = 0 from rfl]
        omega
      · rcases List.mem_append.mp hb with hb | hb
        · exact Or.inl hb
        · rw [List.mem_singleton.mp hb]
          exact Or.inr ((h.flt.lg g h1).phase h2)
    obtain ⟨gates2, L2, e2, h4, h5⟩ := app_spec hF (h.trans hs) hn' (fun g' hg' => by
      obtain ⟨a1, a2, a3⟩ := ha g' (by simp [hg'])
      exact ⟨(List.mem_erase_of_ne (fun e => hg (by rw [← e]; exact hg'))).mpr a1, a2, a3⟩)
    refine ⟨gates2, L2, by rw [List.foldlM_cons, e1]; exact e2, by simpa using h4, ?_⟩
    rw [List.length_erase_of_mem h1] at h5
    have : 0 < L1.length := List.length_pos_of_mem h1
    rw [List.length_cons]
    omega

theorem pulls_spec {s : Front} : ∀ {cs : List SG} {gates : ℕ → List SG} {L : List SG} {block : List Gate}, Flt n gates L → cs.Nodup → (∀ g ∈ cs, Cand L s g) →
    ∃ gates' block' L', cs.foldlM (pull s) (gates, block) = some (gates', block') ∧ GStep n L block gates' L' block' ∧ L'.length + block'.length = L.length + block.length
  | [], gates, L, block, h, _, _ => ⟨gates, block, L, rfl, GStep.refl h block, rfl⟩
  | g :: cs, gates, L, block, h, hn, hc => by
    obtain ⟨hg, hn'⟩ := List.nodup_cons.mp hn
    have hcg := hc g (by simp)
    rcases pull_spec (st := (gates, block)) h hcg with e1 | ⟨gates1, b, e1, hF1, hb1, hb2, hb3⟩
    · obtain ⟨gates', block', L', e2, h2, h3⟩ := pulls_spec (block := block) h hn' fun g' hg' => hc g' (by simp [hg'])
      exact ⟨gates', block', L', by rw [List.foldlM_cons, e1]; exact e2, h2, h3⟩
    · have hh := two_not_had hcg.two
      have hs : GStep n L block gates1 (L.erase g) (block ++ [b]) := by
        refine ⟨hF1, List.erase_sublist, fun ψ => ?_, ?_, fun b' hb' => ?_, fun _ => filter_had_erase h.nodup hh⟩
        · rw [List.append_assoc, semGates_append, semGates_append block, hb3]
          rfl
        · rw [tcs_append, tcs_erase hcg.mem, tcs_cons, show tcs [] = 0 from rfl, hb2, tcount_two hcg.two]
          omega
        · rcases List.mem_append.mp hb' with hb' | hb'
          · exact Or.inl hb'
          · rw [List.mem_singleton.mp hb']
            exact Or.inr hb1
      obtain ⟨gates', block', L', e2, h2, h3⟩ := pulls_spec (block := block ++ [b]) hF1 hn' (fun g' hg' => by
        have hne : g' ≠ g := fun e => hg (e ▸ hg')
        have hc' := hc g' (by simp [hg'])
        refine hc'.sub List.erase_sublist ((List.mem_erase_of_ne hne).mpr hc'.mem) fun h' hm hh' => ?_
        refine (List.mem_erase_of_ne ?_).mpr hm
        rintro rfl
        rw [hh] at hh'; cases hh')
      refine ⟨gates', block', L', by rw [List.foldlM_cons, e1]; exact e2, hs.trans h2, ?_⟩
      rw [List.length_erase_of_mem hcg.mem] at h3
      have : 0 < L.length := List.length_pos_of_mem hcg.mem
      rw [List.length_append, List.length_singleton] at h3
      omega

theorem double_spec (hF : Flt n gates L) {q : ℕ} {h g : SG} {gates' : ℕ → List SG} (hd : Double gates L q h g gates') (block : List Gate) :
    GStep n L block gates' ((L.erase h).erase g) block ∧ ((L.erase h).erase g).length + 2 = L.length := by
  obtain ⟨A, B, e⟩ := hd.eq
  have e0 : gates q = (A ++ [h]) ++ g :: B := by rw [e]; simp
  obtain ⟨hgL, -⟩ := hF.at e0
  obtain ⟨hhL, -⟩ := hF.at e
  have hlt : h.idx < g.idx := hF.pre_lt e0 (by simp)
  have hne : g ≠ h := fun e => by rw [e] at hlt; exact lt_irrefl _ hlt
  have hg1 : g ∈ L.erase h := (List.mem_erase_of_ne hne).mpr hgL
  have hF1 : Flt n (fun r => (gates r).erase h) (L.erase h) := hF.erase h fun _ => rfl
  have hF2 : Flt n gates' ((L.erase h).erase g) := hF1.erase g hd.upd
  have th : h.gate.tcount = 0 := by rw [hd.hh]; rfl
  have tg : g.gate.tcount = 0 := by rw [hd.hg]; rfl
  refine ⟨⟨hF2, List.erase_sublist.trans List.erase_sublist, fun ψ => ?_, ?_, fun b hb => Or.inl hb, fun hn => ?_⟩, ?_⟩
  · rw [semGates_append, semGates_append]
    generalize semGates block ψ = φ
    obtain ⟨a, r, e1, e2, ha, hr⟩ := split_at hF.sorted hhL
    have hgr : g ∈ r := by
      rw [e1] at hgL
      rcases List.mem_append.mp hgL with h' | h'
      · exact absurd (ha g h') (by omega)
      · rcases List.mem_cons.mp h' with h' | h'
        · exact absurd h' hne
        · exact h'
    have hsr : r.Pairwise fun a b => a.idx < b.idx := by
      have := hF.sorted
      rw [e1] at this
      exact (List.pairwise_cons.mp (List.pairwise_append.mp this).2.1).2
    obtain ⟨b, c, e3, e4, hb, -⟩ := split_at hsr hgr
    have hga : g ∉ a := fun h' => absurd (ha g h') (by omega)
    rw [e2, List.erase_append_right _ hga, e4, e1, e3]
    have e5 : gs (a ++ h :: (b ++ g :: c)) = gs a ++ (h.gate :: gs b) ++ (g.gate :: gs c) := by simp [gs]
    have e6 : gs (a ++ (b ++ c)) = gs a ++ gs b ++ gs c := by simp [gs]
    rw [e5, e6, semGates_append, semGates_append, semGates_append, semGates_append, move_right (hF.stored hhL).placed, semGates_append, hd.hh, hd.hg]
    · change _ = semGates (gs c) ((Gate.had q).sem ((Gate.had q).sem _))
      rw [had_had]
    · intro y' hy'
      obtain ⟨y, hy, rfl⟩ := List.mem_map.mp hy'
      have hyL : y ∈ L := by rw [e1, e3]; simp [hy]
      refine ⟨(hF.stored hyL).placed, fun w hdep => ?_⟩
      obtain ⟨w1, w2⟩ := hdep.mem (hF.stored hhL).placed (hF.stored hyL).placed
      rw [hd.hh] at w1
      simp only [Gate.qubits, List.mem_singleton] at w1
      subst w1
      have := hF.before e0 hyL w2 (hb y hy)
      have h1 : h.idx < y.idx := hr y (by rw [e3]; simp [hy])
      rcases List.mem_append.mp this with h2 | h2
      · exact absurd (hF.pre_lt e h2) (by omega)
      · rw [List.mem_singleton.mp h2] at h1; omega
  · rw [tcs_erase hhL, tcs_erase hg1, th, tg]
    omega
  · exact absurd (hn g hgL h hhL q hd.hg hd.hh) hne
  · rw [List.length_erase_of_mem hg1, List.length_erase_of_mem hhL]
    have h1 := List.length_pos_of_mem hg1
    rw [List.length_erase_of_mem hhL] at h1
    omega

/-- The loop of `greedy_consume_gates`. -/
theorem greedy_spec : ∀ {fuel : ℕ} {gates : ℕ → List SG} {block : List Gate} {L : List SG}, Flt n gates L → L.length < fuel →
    ∃ gates' block' L', greedy n fuel gates block = some (gates', block') ∧ GStep n L block gates' L' block' ∧ ∀ g l, L' = g :: l → isHad g = true
  | 0, _, _, _, _, h => by omega
  | fuel + 1, gates, block, L, hF, hl => by
    have hV := front_spec hF
    rw [greedy]
    by_cases c1 : (front n gates).app ≠ []
    · simp only [c1, ne_eq, not_false_eq_true, if_true]
      obtain ⟨gates1, L1, e1, h1, h2⟩ := app_spec hF (GStep.refl hF []) hV.nd (fun g hg => ⟨(hV.ap g hg).1, (hV.ap g hg).2.1, fun r hr => ((hV.ap g hg).2.2 r hr).2⟩)
      have h1' : GStep n L block gates1 L1 (block ++ (front n gates).app.map SG.gate) := by
        rw [List.nil_append] at h1
        refine ⟨h1.flt, h1.sub, fun ψ => ?_, ?_, fun b hb => ?_, h1.hads⟩
        · rw [List.append_assoc, semGates_append, semGates_append block, h1.sem]; rfl
        · have := h1.tc
          rw [show tcs [] = 0 from rfl] at this
          rw [tcs_append]; omega
        · rcases List.mem_append.mp hb with hb | hb
          · exact Or.inl hb
          · rcases h1.blk b hb with hb | hb
            · simp at hb
            · exact Or.inr hb
      have hp : 0 < (front n gates).app.length := List.length_pos_iff.mpr c1
      obtain ⟨gates', block', L', e2, h3, h4⟩ := greedy_spec (fuel := fuel) (block := block ++ (front n gates).app.map SG.gate) h1.flt (by omega)
      refine ⟨gates', block', L', ?_, h1'.trans h3, h4⟩
      rw [e1]; exact e2
    · simp only [c1, if_false]
      rw [ne_eq, not_not] at c1
      have hB : ∀ q, BI L (front n gates) (fun _ => False) q [] ((front n gates).avail, []) := by
        intro q
        refine ⟨fun i hi => ?_, by simp, by simp⟩
        obtain ⟨g, a1, a2, r, a3, a4, a5⟩ := hV.av i hi
        refine ⟨g, a1, a2, r, a3, Or.inl ⟨a5, ?_⟩⟩
        cases eb : (front n gates).blocked r with
        | none => simp [isBehind, eb]
        | some h =>
          rw [isBehind_some eb]
          have := a4.2 h eb
          rw [decide_eq_false_iff_not]
          omega
      rcases behind_spec hF hV List.nodup_range (by simp) hB with ⟨gates1, q, h, g, e1, hd⟩ | ⟨a, e1, hc, hn⟩
      · obtain ⟨h1, h2⟩ := double_spec hF hd block
        obtain ⟨gates', block', L', e2, h3, h4⟩ := greedy_spec (fuel := fuel) (block := block) h1.flt (by omega)
        exact ⟨gates', block', L', by rw [e1]; exact e2, h1.trans h3, h4⟩
      · obtain ⟨gates1, block1, L1, e2, h1, h2⟩ := pulls_spec (block := block) hF hn hc
        rw [e1]
        simp only [Option.bind_some, e2]
        by_cases c2 : block1.length ≠ block.length
        · rw [if_pos c2]
          have := h1.sub.length_le
          obtain ⟨gates', block', L', e3, h3, h4⟩ := greedy_spec (fuel := fuel) (block := block1) h1.flt (by omega)
          exact ⟨gates', block', L', e3, h1.trans h3, h4⟩
        · rw [if_neg c2]
          refine ⟨gates1, block1, L1, rfl, h1, fun g l el => ?_⟩
          have eL : L1 = L := h1.sub.eq_of_length (by omega)
          rw [eL] at el
          by_contra hh
          have hh' : isHad g = false := by simpa using hh
          have hgL : g ∈ L := by rw [el]; simp
          refine front_progress (n := n) (gates := gates) (hF.stored hgL) hh' (fun q hq => (hF.lg g hgL).lt hq) (fun q hq => ?_) c1
          rw [hF.eq, el, List.filter_cons_of_pos (by simpa using hq)]
          exact ⟨_, rfl⟩

/-! ### The Hadamard gates at the end -/

/-- The first gate of the qubit is a Hadamard gate. -/
def headHad (gates : ℕ → List SG) (q : ℕ) : Bool := ((gates q).head?.map isHad).getD false

theorem pops_spec : ∀ {qs : List ℕ} {gates : ℕ → List SG} {L : List SG} {hs : List ℕ}, Flt n gates L → qs.Nodup →
    ∃ gates' L', qs.foldl popHad (gates, hs) = (gates', hs ++ qs.filter (headHad gates)) ∧ Flt n gates' L' ∧ List.Sublist L' L ∧
      (∀ ψ, semGates (gs L) ψ = semGates ((qs.filter (headHad gates)).map Gate.had ++ gs L') ψ) ∧ tcs (gs L') = tcs (gs L) ∧
      L'.length + (qs.filter (headHad gates)).length = L.length
  | [], gates, L, hs, h, _ => ⟨gates, L, by simp, h, List.Sublist.refl _, fun _ => rfl, rfl, rfl⟩
  | q :: qs, gates, L, hs, h, hn => by
    obtain ⟨hq, hn'⟩ := List.nodup_cons.mp hn
    rw [List.foldl_cons]
    have skip : headHad gates q = false → popHad (gates, hs) q = (gates, hs) → ∃ gates' L', qs.foldl popHad (popHad (gates, hs) q) = (gates', hs ++ (q :: qs).filter (headHad gates)) ∧ Flt n gates' L' ∧ List.Sublist L' L ∧
      (∀ ψ, semGates (gs L) ψ = semGates (((q :: qs).filter (headHad gates)).map Gate.had ++ gs L') ψ) ∧ tcs (gs L') = tcs (gs L) ∧
      L'.length + ((q :: qs).filter (headHad gates)).length = L.length := by
      intro e1 e2
      rw [e2, List.filter_cons_of_neg (by simp [e1])]
      exact pops_spec h hn'
    cases e : gates q with
    | nil => exact skip (by simp [headHad, e]) (by simp [popHad, e])
    | cons g r =>
      by_cases c1 : isHad g = true
      · obtain ⟨hL, hqg⟩ := h.at (pre := []) e
        have hh := had_at c1 hqg
        have ep : popHad (gates, hs) q = (Function.update gates q r, hs ++ [q]) := by simp [popHad, e, c1]
        have hF1 : Flt n (Function.update gates q r) (L.erase g) := by
          refine h.erase g fun w => ?_
          by_cases hw : w = q
          · subst hw; rw [Function.update_self, e, List.erase_cons_head]
          · rw [Function.update_of_ne hw, List.erase_of_not_mem]
            intro h'
            have := (h.mem.mp h').2
            rw [hh] at this
            simp only [Gate.qubits, List.mem_singleton] at this
            exact hw this
        obtain ⟨gates', L', e1, h1, h2, h3, h4, h5⟩ := pops_spec (hs := hs ++ [q]) hF1 hn'
        have ef : qs.filter (headHad (Function.update gates q r)) = qs.filter (headHad gates) := by
          refine List.filter_congr fun w hw => ?_
          have : w ≠ q := fun e => hq (e ▸ hw)
          simp [headHad, Function.update_of_ne this]
        rw [ef] at e1 h3 h5
        rw [ep, List.filter_cons_of_pos (by simp [headHad, e, c1])]
        refine ⟨gates', L', by rw [e1]; simp, h1, h2.trans List.erase_sublist, fun ψ => ?_, ?_, ?_⟩
        · obtain ⟨a, b, e2, e3, ha, -⟩ := split_at h.sorted hL
          have e4 : semGates (gs L) ψ = semGates (gs (L.erase g)) (g.gate.sem ψ) := by
            rw [e3, e2, gs_append, gs_append, semGates_append, semGates_append]
            change semGates (gs b) (g.gate.sem (semGates (gs a) ψ)) = _
            congr 1
            have := move_right (x := g.gate) (h.stored hL).placed (gs a) (fun y' hy' => by
              obtain ⟨y, hy, rfl⟩ := List.mem_map.mp hy'
              have hyL : y ∈ L := by rw [e2]; simp [hy]
              refine ⟨(h.stored hyL).placed, fun w hdep => ?_⟩
              obtain ⟨w1, w2⟩ := hdep.mem (h.stored hL).placed (h.stored hyL).placed
              rw [hh] at w1
              simp only [Gate.qubits, List.mem_singleton] at w1
              subst w1
              have := h.before (pre := []) e hyL w2 (ha y hy)
              simp at this) ψ
            rw [semGates_append] at this
            exact this.symm
          rw [e4, h3, hh]
          rfl
        · rw [h4, tcs_erase hL, isHad_tcount c1, Nat.zero_add]
        · rw [List.length_cons]
          rw [List.length_erase_of_mem hL] at h5
          have := List.length_pos_of_mem hL
          omega
      · exact skip (by simp [headHad, e]; simpa using c1) (by simp [popHad, e, c1])

theorem length_le_sum : ∀ {L : List SG}, (∀ x ∈ L, LGate n x.gate) → L.length ≤ ((List.range n).map fun q => (L.filter fun x => decide (q ∈ x.gate.qubits)).length).sum
  | [], _ => by simp
  | x :: L, h => by
    have ih := length_le_sum (L := L) fun y hy => h y (by simp [hy])
    obtain ⟨q, hq⟩ := stored_qubit (h x (by simp)).stored
    have hqn : q ∈ List.range n := List.mem_range.mpr ((h x (by simp)).lt hq)
    obtain ⟨l1, l2, el⟩ := List.append_of_mem hqn
    rw [el] at ih ⊢
    have key : ∀ l : List ℕ, (l.map fun q => (L.filter fun x => decide (q ∈ x.gate.qubits)).length).sum ≤ (l.map fun q => ((x :: L).filter fun x => decide (q ∈ x.gate.qubits)).length).sum := by
      intro l
      refine List.sum_le_sum fun q _ => ?_
      exact (List.Sublist.filter _ (List.sublist_cons_self x L)).length_le
    have k1 := key l1
    have k2 := key l2
    simp only [List.map_append, List.map_cons, List.sum_append, List.sum_cons] at ih ⊢
    have k3 : ((x :: L).filter fun x => decide (q ∈ x.gate.qubits)).length = (L.filter fun x => decide (q ∈ x.gate.qubits)).length + 1 := by
      rw [List.filter_cons_of_pos (by simpa using hq), List.length_cons]
    rw [k3, List.length_cons]
    omega

/-- `greedy_consume_gates`. -/
theorem greedyConsume_spec (hF : Flt n gates L) : ∃ block gates1 L1 gates' L', greedyConsume n gates = some (block, (List.range n).filter (headHad gates1), gates') ∧
    GStep n L [] gates1 L1 block ∧ Flt n gates' L' ∧ List.Sublist L' L1 ∧
    (∀ ψ, semGates (gs L1) ψ = semGates (((List.range n).filter (headHad gates1)).map Gate.had ++ gs L') ψ) ∧ tcs (gs L') = tcs (gs L1) ∧ (L ≠ [] → L'.length < L.length) := by
  have hl : L.length < ((List.range n).map fun q => (gates q).length).sum + 1 := by
    have := length_le_sum (n := n) hF.lg
    have e : ((List.range n).map fun q => (gates q).length) = (List.range n).map fun q => (L.filter fun x => decide (q ∈ x.gate.qubits)).length := by
      refine List.map_congr_left fun q _ => ?_
      rw [hF.eq]
    rw [e]
    omega
  obtain ⟨gates1, block, L1, e1, h1, h2⟩ := greedy_spec (block := []) hF hl
  obtain ⟨gates', L', e3, h3, h4, h5, h6, h7⟩ := pops_spec (hs := []) (qs := List.range n) h1.flt List.nodup_range
  refine ⟨block, gates1, L1, gates', L', ?_, h1, h3, h4, h5, h6, fun hne => ?_⟩
  · rw [greedyConsume, e1]
    simp only [Option.bind_eq_bind, Option.bind_some, e3, List.nil_append]
    rfl
  · have h8 := h1.sub.length_le
    cases el : L1 with
    | nil =>
      rw [el] at h4
      rw [List.sublist_nil.mp h4]
      exact List.length_pos_iff.mpr hne
    | cons g l =>
      have hh := h2 g l el
      have hgL : g ∈ L1 := by rw [el]; simp
      obtain ⟨q, hq⟩ := stored_qubit (h1.flt.stored hgL)
      have : q ∈ (List.range n).filter (headHad gates1) := by
        rw [List.mem_filter]
        refine ⟨List.mem_range.mpr ((h1.flt.lg g hgL).lt hq), ?_⟩
        rw [headHad, h1.flt.eq, el, List.filter_cons_of_pos (by simpa using hq)]
        simpa using hh
      have := List.length_pos_of_mem this
      omega

end PhaseBlock
end PyZX
