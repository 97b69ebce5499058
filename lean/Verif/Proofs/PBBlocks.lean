import Verif.Proofs.PBGreedy
import Verif.Proofs.OptRounds
import Verif.Props.Todd

/-!
# Helper lemmas for `phase_block_optimize`: the main loop
-/

namespace PyZX
namespace PhaseBlock

open Optimize ToddSpec Todd Mat2
open scoped List ComplexConjugate

variable {n : ℕ} {gates gates' : ℕ → List SG} {L L' : List SG} {g : SG}

/-! ### The reverse of a circuit -/

theorem LGate.accepted {g : Gate} (h : LGate n g) : Accepted n g := by
  rcases h with ⟨t, ht, rfl⟩ | h
  · exact ht
  · cases g <;> simp only [PhaseGate] at h <;> simp only [Accepted]
    · exact h.1
    · exact ⟨h.2.2, h.1, h.2.1⟩
    · exact ⟨h.2.2, h.1, h.2.1⟩

/-- Circuits with the same map have the same map when they are reversed. -/
theorem sem_reverse {a b : List Gate} (ha : ∀ g ∈ a, LGate n g) (hb : ∀ g ∈ b, LGate n g) (h : ∀ ψ, semGates a ψ = semGates b ψ) (ψ : QState) :
    semGates a.reverse ψ = semGates b.reverse ψ := by
  have key : ∀ {l : List Gate}, (∀ g ∈ l, LGate n g) → ∀ ψ, semGates l.reverse ψ = cj (semGates (l.reverse.map Gate.toAdjoint) (cj ψ)) := by
    intro l hl ψ
    rw [sems_conj (n := n) (fun g hg => (hl g (by simpa using hg)).accepted), cj_cj]
  have inv : ∀ φ, semGates (a.reverse.map Gate.toAdjoint) φ = semGates (b.reverse.map Gate.toAdjoint) φ := by
    intro φ
    have e1 : semGates a (semGates (b.reverse.map Gate.toAdjoint) φ) = φ := by
      rw [h, (sems_inv (n := n) (fun g hg => (hb g hg).accepted) φ).2]
    have e2 := (sems_inv (n := n) (fun g hg => (ha g hg).accepted) (semGates (b.reverse.map Gate.toAdjoint) φ)).1
    rw [e1] at e2
    exact e2
  rw [key ha, key hb, inv]

theorem hads_cons (a : ℕ) : ∀ (l : List ℕ) (ψ : QState), semGates (l.map Gate.had) ((Gate.had a).sem ψ) = (Gate.had a).sem (semGates (l.map Gate.had) ψ)
  | [], _ => rfl
  | b :: l, ψ => by
    rw [List.map_cons, semGates_cons, semGates_cons, ← comm_hads a b, hads_cons a l]

theorem hads_reverse : ∀ (l : List ℕ) (ψ : QState), semGates (l.reverse.map Gate.had) ψ = semGates (l.map Gate.had) ψ
  | [], _ => rfl
  | a :: l, ψ => by
    rw [List.reverse_cons, List.map_append, semGates_append, hads_reverse l, List.map_cons (l := l), semGates_cons, hads_cons]
    rfl

/-! ### The lists of the qubits of a circuit -/

/-- The gates with their positions. -/
def numb (l : List Gate) : List SG := l.zipIdx.map fun p => ⟨p.2, p.1⟩

theorem gs_numb (l : List Gate) : gs (numb l) = l := by
  rw [gs, numb, List.map_map]
  exact List.zipIdx_map_fst 0 l

theorem numb_sorted (l : List Gate) : (numb l).Pairwise fun a b => a.idx < b.idx := by
  have : ((numb l).map SG.idx).Pairwise (· < ·) := by
    rw [numb, List.map_map, show (SG.idx ∘ fun p : Gate × ℕ => (⟨p.2, p.1⟩ : SG)) = Prod.snd from rfl, List.zipIdx_map_snd]
    exact List.pairwise_lt_range'
  exact List.pairwise_map.mp this

theorem numb_gate {l : List Gate} {x : SG} (h : x ∈ numb l) : x.gate ∈ l := by
  rw [← gs_numb l]
  exact List.mem_map_of_mem h

theorem split_flt {l : List Gate} (h : ∀ g ∈ l, LGate n g) : Flt n (split l) (numb l) := by
  refine ⟨numb_sorted l, fun x hx => h _ (numb_gate hx), fun q => ?_⟩
  rw [split, ← numb]
  refine List.filter_congr fun x hx => ?_
  rw [places_eq (h _ (numb_gate hx)).stored]

/-! ### The gates that are left -/

theorem collect_spec : ∀ (m : List SG) {l : List SG}, (l.map SG.idx).Nodup →
    ((m.foldl collect l).map SG.idx).Nodup ∧ (∀ x ∈ m.foldl collect l, x ∈ l ∨ x ∈ m) ∧ (∀ x ∈ l, x ∈ m.foldl collect l) ∧ ∀ x ∈ m, x.idx ∈ (m.foldl collect l).map SG.idx
  | [], l, h => ⟨h, fun x hx => Or.inl hx, fun _ hx => hx, by simp⟩
  | g :: m, l, h => by
    rw [List.foldl_cons]
    have h1 : ((collect l g).map SG.idx).Nodup := by
      unfold collect
      split
      · exact h
      · rename_i hn
        rw [List.map_append, List.nodup_append]
        refine ⟨h, by simp, ?_⟩
        intro a ha b hb
        simp only [List.map_cons, List.map_nil, List.mem_singleton] at hb
        subst hb
        exact fun e => hn (e ▸ ha)
    have h2 : ∀ x ∈ collect l g, x ∈ l ∨ x = g := by
      intro x hx
      unfold collect at hx
      split at hx
      · exact Or.inl hx
      · simpa using hx
    have h3 : ∀ x ∈ l, x ∈ collect l g := by
      intro x hx
      unfold collect
      split
      · exact hx
      · simp [hx]
    have h4 : g.idx ∈ (collect l g).map SG.idx := by
      unfold collect
      split
      · assumption
      · simp
    obtain ⟨k1, k2, k3, k4⟩ := collect_spec m h1
    refine ⟨k1, fun x hx => ?_, fun x hx => k3 x (h3 x hx), fun x hx => ?_⟩
    · rcases k2 x hx with h | h
      · rcases h2 x h with h | rfl
        · exact Or.inl h
        · exact Or.inr (by simp)
      · exact Or.inr (by simp [h])
    · rcases List.mem_cons.mp hx with rfl | hx
      · obtain ⟨y, hy, e⟩ := List.mem_map.mp h4
        exact List.mem_map.mpr ⟨y, k3 y hy, e⟩
      · exact k4 x hx

theorem notParsed_spec (hF : Flt n gates L) : notParsed n gates = (gs L).reverse := by
  obtain ⟨k1, k2, -, k4⟩ := collect_spec ((List.range n).flatMap gates) (l := []) (by simp)
  set C := ((List.range n).flatMap gates).foldl collect [] with hC
  have kL : ∀ x ∈ C, x ∈ L := by
    intro x hx
    rcases k2 x hx with h | h
    · simp at h
    · obtain ⟨q, -, hq⟩ := List.mem_flatMap.mp h
      exact (hF.mem.mp hq).1
  have hperm : C.Perm L := by
    refine (List.perm_ext_iff_of_nodup (List.Nodup.of_map _ k1) hF.nodup).mpr fun x => ⟨kL x, fun hx => ?_⟩
    obtain ⟨q, hq⟩ := stored_qubit (hF.stored hx)
    have hm : x ∈ (List.range n).flatMap gates := List.mem_flatMap.mpr ⟨q, List.mem_range.mpr ((hF.lg x hx).lt hq), hF.mem.mpr ⟨hx, hq⟩⟩
    obtain ⟨y, hy, e⟩ := List.mem_map.mp (k4 x hm)
    rwa [← hF.inj (kL y hy) hx e]
  haveI t1 : Std.Total (fun a b : SG => b.idx ≤ a.idx) := ⟨fun a b => le_total _ _⟩
  haveI t2 : IsTrans SG (fun a b : SG => b.idx ≤ a.idx) := ⟨fun a b c h1 h2 => h2.trans h1⟩
  have : C.insertionSort (fun a b => b.idx ≤ a.idx) = L.reverse := by
    refine List.Perm.eq_of_pairwise (le := fun a b => b.idx ≤ a.idx) ?_ ?_ ?_ ?_
    · intro a b ha hb h1 h2
      refine hF.inj ?_ (by simpa using hb) (le_antisymm h2 h1)
      exact kL a ((List.perm_insertionSort _ _).subset ha)
    · exact List.pairwise_insertionSort _ C
    · rw [List.pairwise_reverse]
      exact hF.sorted.imp fun h => h.le
    · exact (List.perm_insertionSort _ _).trans (hperm.trans L.reverse_perm.symm)
  rw [notParsed, ← hC, this, List.map_reverse, gs]

/-! ### The main loop -/

/-- The invariant of the block and the Hadamard gates. -/
structure BlockOK (n : ℕ) (block : List Gate) (hads : List ℕ) : Prop where
  blk : ∀ g ∈ block, PhaseGate n g
  lt : ∀ q ∈ hads, q < n
  nd : hads.Nodup

theorem BlockOK.rev {block : List Gate} {hads : List ℕ} (h : BlockOK n block hads) : ∀ g ∈ hads.map Gate.had ++ block.reverse, LGate n g := by
  intro g hg
  rcases List.mem_append.mp hg with hg | hg
  · obtain ⟨q, hq, rfl⟩ := List.mem_map.mp hg
    exact Or.inl ⟨q, h.lt q hq, rfl⟩
  · exact Or.inr (h.blk g (by simpa using hg))

theorem phase_not_had {q : ℕ} : ¬ PhaseGate n (.had q) := id

theorem headHad_iff (hF : Flt n gates L) {q : ℕ} : headHad gates q = true ↔ ∃ x r, gates q = x :: r ∧ x.gate = .had q := by
  unfold headHad
  cases e : gates q with
  | nil => simp
  | cons x r =>
    simp only [List.head?_cons, Option.map_some, Option.getD_some, List.cons.injEq, exists_and_right]
    constructor
    · intro h
      exact ⟨x, ⟨r, rfl, rfl⟩, had_at h (hF.at (pre := []) e).2⟩
    · rintro ⟨y, ⟨r', rfl, rfl⟩, h⟩
      simp [isHad, h]

/-- What is left of the last block, and the Hadamard gates. -/
theorem rev_spec {block : List Gate} {hads : List ℕ} (h : BlockOK n block hads) : ∃ block1 hads2 gates' L', greedyConsume n (split (hads.map Gate.had ++ block.reverse)) = some (block1, hads2, gates') ∧
    hads2.length = hads.length ∧ BlockOK n block1 hads2 ∧ Flt n gates' L' ∧
    (∀ ψ, semGates (block ++ hads.map Gate.had) ψ = semGates (notParsed n gates' ++ hads2.map Gate.had ++ block1.reverse) ψ) ∧
    tcs block1 + tcs (notParsed n gates') = tcs block := by
  have hR := split_flt h.rev
  set R := hads.map Gate.had ++ block.reverse with hRd
  obtain ⟨block1, gates1, L1, gates', L', e1, h1, h2, h3, h4, h5, -⟩ := greedyConsume_spec hR
  have hb1 : ∀ g ∈ block1, PhaseGate n g := fun g hg => by
    rcases h1.blk g hg with h | h
    · simp at h
    · exact h
  -- the Hadamard gates of the reversed circuit
  have hnum : numb R = (hads.zipIdx.map fun p => (⟨p.2, .had p.1⟩ : SG)) ++ (block.reverse.zipIdx hads.length).map fun p => (⟨p.2, p.1⟩ : SG) := by
    rw [numb, hRd, List.zipIdx_append, List.map_append, List.zipIdx_map, List.map_map, List.length_map, Nat.zero_add]
    rfl
  have hadR : ∀ x ∈ numb R, ∀ q, x.gate = .had q → q ∈ hads ∧ x.idx < hads.length ∧ hads[x.idx]? = some q := by
    intro x hx q hq
    rw [hnum] at hx
    rcases List.mem_append.mp hx with hx | hx
    · obtain ⟨p, hp, rfl⟩ := List.mem_map.mp hx
      have := List.mem_zipIdx' hp
      simp only [Gate.had.injEq] at hq
      refine ⟨?_, this.1, ?_⟩
      · rw [← hq, this.2]; exact List.getElem_mem _
      · rw [List.getElem?_eq_getElem this.1, ← this.2, hq]
    · obtain ⟨p, hp, rfl⟩ := List.mem_map.mp hx
      have := List.fst_mem_of_mem_zipIdx hp
      have := h.blk p.1 (by simpa using this)
      simp only at hq
      rw [hq] at this
      exact (phase_not_had this).elim
  have nd : NoDouble (numb R) := by
    intro x hx y hy q hxq hyq
    obtain ⟨-, a1, a2⟩ := hadR x hx q hxq
    obtain ⟨-, b1, b2⟩ := hadR y hy q hyq
    refine hR.inj hx hy ?_
    exact (List.getElem?_inj a1 h.nd).mp (a2.trans b2.symm)
  have hfil := h1.hads nd
  have hmem : ∀ q, headHad gates1 q = true ↔ q ∈ hads := by
    intro q
    rw [headHad_iff h1.flt]
    constructor
    · rintro ⟨x, r, e, hx⟩
      exact (hadR x (h1.sub.subset (h1.flt.at (pre := []) e).1) q hx).1
    · intro hq
      obtain ⟨i, hi, e⟩ := List.mem_iff_getElem.mp hq
      set x : SG := ⟨i, .had q⟩ with hx
      have hxR : x ∈ numb R := by
        rw [hnum]
        refine List.mem_append_left _ (List.mem_map.mpr ⟨(q, i), ?_, rfl⟩)
        rw [List.mk_mem_zipIdx_iff_getElem?, List.getElem?_eq_getElem hi, e]
      have hx1 : x ∈ L1 := by
        have : x ∈ (numb R).filter isHad := List.mem_filter.mpr ⟨hxR, rfl⟩
        rw [← hfil] at this
        exact (List.mem_filter.mp this).1
      have hxq : x ∈ gates1 q := h1.flt.mem.mpr ⟨hx1, by simp [hx, Gate.qubits]⟩
      obtain ⟨pre, r, e2⟩ := List.append_of_mem hxq
      cases pre with
      | nil => exact ⟨x, r, e2, rfl⟩
      | cons y pre =>
        exfalso
        have hy := h1.flt.pre_lt e2 (y := y) (by simp)
        have hyL := h1.flt.at (pre := []) (g := y) (r := pre ++ x :: r) e2
        have hyR := h1.sub.subset hyL.1
        have hyl : y.idx < hads.length := lt_trans hy hi
        -- a gate with a small position is a Hadamard gate
        have : y.gate = .had (hads[y.idx]) := by
          have hm : (⟨y.idx, .had hads[y.idx]⟩ : SG) ∈ numb R := by
            rw [hnum]
            refine List.mem_append_left _ (List.mem_map.mpr ⟨(hads[y.idx], y.idx), ?_, rfl⟩)
            rw [List.mk_mem_zipIdx_iff_getElem?, List.getElem?_eq_getElem hyl]
          exact congrArg SG.gate (hR.inj hyR hm rfl)
        have hqy := hyL.2
        rw [this] at hqy
        simp only [Gate.qubits, List.mem_singleton] at hqy
        have := nd y hyR x hxR q (by rw [this, ← hqy]) rfl
        rw [this] at hy
        exact lt_irrefl _ hy
  have hP : ((List.range n).filter (headHad gates1)).Perm hads := by
    refine (List.perm_ext_iff_of_nodup (List.nodup_range.filter _) h.nd).mpr fun q => ?_
    rw [List.mem_filter, hmem, List.mem_range]
    exact ⟨fun hq => hq.2, fun hq => ⟨h.lt q hq, hq⟩⟩
  set hads2 := (List.range n).filter (headHad gates1) with hh2
  have hok : BlockOK n block1 hads2 := ⟨hb1, fun q hq => List.mem_range.mp (List.mem_filter.mp hq).1, List.nodup_range.filter _⟩
  refine ⟨block1, hads2, gates', L', e1, hP.length_eq, hok, h2, fun ψ => ?_, ?_⟩
  · rw [notParsed_spec h2]
    have e3 : ∀ ψ, semGates R ψ = semGates (block1 ++ hads2.map Gate.had ++ gs L') ψ := by
      intro ψ
      have := h1.sem ψ
      rw [List.nil_append, gs_numb] at this
      rw [List.append_assoc, semGates_append block1, ← h4, ← semGates_append, this]
    have e4 := sem_reverse h.rev (fun g hg => by
      rcases List.mem_append.mp hg with hg | hg
      · rcases List.mem_append.mp hg with hg | hg
        · exact Or.inr (hb1 g hg)
        · obtain ⟨q, hq, rfl⟩ := List.mem_map.mp hg
          exact Or.inl ⟨q, hok.lt q hq, rfl⟩
      · obtain ⟨x, hx, rfl⟩ := List.mem_map.mp hg
        exact h2.lg x hx) e3 ψ
    rw [List.reverse_append, List.reverse_reverse, ← List.map_reverse, semGates_append, hads_reverse, ← semGates_append] at e4
    rw [e4, List.reverse_append, List.reverse_append, ← List.map_reverse (f := Gate.had), ← List.append_assoc, semGates_append, semGates_append, hads_reverse, ← semGates_append, ← semGates_append, ← List.append_assoc]
  · have t1 := h1.tc
    rw [notParsed_spec h2, tcs_perm (gs L').reverse_perm, h5]
    rw [gs_numb, show tcs [] = 0 from rfl, hRd, tcs_append, tcs_perm block.reverse_perm] at t1
    have : tcs (hads.map Gate.had) = 0 := by
      unfold tcs
      rw [List.map_map]
      exact List.sum_eq_zero fun v hv => by
        obtain ⟨q, -, rfl⟩ := List.mem_map.mp hv
        rfl
    omega

theorem tcs_hads (hads : List ℕ) : tcs (hads.map Gate.had) = 0 := by
  unfold tcs
  rw [List.map_map]
  exact List.sum_eq_zero fun v hv => by
    obtain ⟨q, -, rfl⟩ := List.mem_map.mp hv
    rfl

theorem done_iff (hF : Flt n gates L) : (∀ q ∈ List.range n, gates q = []) ↔ L = [] := by
  constructor
  · intro h
    cases e : L with
    | nil => rfl
    | cons x l =>
      exfalso
      have hx : x ∈ L := by rw [e]; simp
      obtain ⟨q, hq⟩ := stored_qubit (hF.stored hx)
      have := hF.mem.mpr ⟨hx, hq⟩
      rw [h q (List.mem_range.mpr ((hF.lg x hx).lt hq))] at this
      simp at this
  · rintro rfl q -
    rw [hF.eq]; rfl

/-- The main loop. -/
theorem blocks_spec {shuffle : ℕ → Data → Data} (hs : ∀ k d, (shuffle k d).Perm d) (hn : 0 < n) : ∀ {fuel : ℕ} {consumed block : List Gate} {hads : List ℕ} {gates : ℕ → List SG} {L : List SG},
    Flt n gates L → BlockOK n block hads → (∀ g ∈ consumed, LGate n g) →
    (∀ out, blocks shuffle n fuel consumed block hads gates = some out → (∀ g ∈ out, LGate n g) ∧
      (∀ ψ, semGates out ψ = semGates (consumed ++ block ++ hads.map Gate.had ++ gs L) ψ) ∧ tcs out ≤ tcs consumed + tcs block + tcs (gs L)) ∧
    (2 ≤ n → n < 500 → L.length < fuel → (blocks shuffle n fuel consumed block hads gates).isSome) ∧
    (n = 1 → L ≠ [] → blocks shuffle n fuel consumed block hads gates = none)
  | 0, consumed, block, hads, gates, L, hF, hB, hc => ⟨fun out h => by simp [blocks] at h, fun _ _ h => by omega, fun _ _ => rfl⟩
  | fuel + 1, consumed, block, hads, gates, L, hF, hB, hc => by
    rw [blocks]
    by_cases c1 : L = []
    · rw [if_pos ((done_iff hF).mpr c1)]
      subst c1
      refine ⟨fun out h => ?_, fun _ _ _ => rfl, fun _ h => absurd rfl h⟩
      cases h
      refine ⟨fun g hg => ?_, fun ψ => ?_, ?_⟩
      · rcases List.mem_append.mp hg with hg | hg
        · rcases List.mem_append.mp hg with hg | hg
          · exact hc g hg
          · exact Or.inr (hB.blk g hg)
        · obtain ⟨q, hq, rfl⟩ := List.mem_map.mp hg
          exact Or.inl ⟨q, hB.lt q hq, rfl⟩
      · rw [show gs [] = [] from rfl, List.append_nil]
      · rw [tcs_append, tcs_append, tcs_hads]
        simp
    · rw [if_neg (fun h => c1 ((done_iff hF).mp h))]
      obtain ⟨block1, hads2, gatesR, LR, e1, hl, hB1, hFR, hsem, htc⟩ := rev_spec hB
      obtain ⟨blockF, gates1, L1, gates', L', e2, h1, h2, h3, h4, h5, h6⟩ := greedyConsume_spec hF
      have hbF : ∀ g ∈ block1.reverse ++ blockF, PhaseGate n g := fun g hg => by
        rcases List.mem_append.mp hg with hg | hg
        · exact hB1.blk g (by simpa using hg)
        · rcases h1.blk g hg with h | h
          · simp at h
          · exact h
      have hc' : ∀ g ∈ consumed ++ notParsed n gatesR ++ hads2.map Gate.had, LGate n g := fun g hg => by
        rcases List.mem_append.mp hg with hg | hg
        · rcases List.mem_append.mp hg with hg | hg
          · exact hc g hg
          · rw [notParsed_spec hFR, List.mem_reverse] at hg
            obtain ⟨x, hx, rfl⟩ := List.mem_map.mp hg
            exact hFR.lg x hx
        · obtain ⟨q, hq, rfl⟩ := List.mem_map.mp hg
          exact Or.inl ⟨q, hB1.lt q hq, rfl⟩
      simp only [e1, e2, Option.bind_eq_bind, Option.bind_some]
      rw [if_neg (by rw [hl]; simp)]
      have key : ∀ b, toddSimp (shuffle fuel) n (block1.reverse ++ blockF) = some b → BlockOK n b ((List.range n).filter (headHad gates1)) ∧
          (∀ ψ, semGates (consumed ++ notParsed n gatesR ++ hads2.map Gate.had ++ b ++ ((List.range n).filter (headHad gates1)).map Gate.had ++ gs L') ψ = semGates (consumed ++ block ++ hads.map Gate.had ++ gs L) ψ) ∧
          tcs (consumed ++ notParsed n gatesR ++ hads2.map Gate.had) + tcs b + tcs (gs L') ≤ tcs consumed + tcs block + tcs (gs L) := by
        intro b hb
        obtain ⟨b1, b2, b3⟩ := Props.toddSimp_sound (hs fuel) hn hbF hb
        refine ⟨⟨b1, fun q hq => List.mem_range.mp (List.mem_filter.mp hq).1, List.nodup_range.filter _⟩, fun ψ => ?_, ?_⟩
        · have e3 : ∀ φ, semGates (((List.range n).filter (headHad gates1)).map Gate.had ++ gs L') (semGates blockF φ) = semGates (gs L) φ := by
            intro φ
            rw [← h4, ← semGates_append, h1.sem]; rfl
          have e4 := hsem (semGates consumed ψ)
          simp only [semGates_append] at e3 e4 ⊢
          rw [b2, semGates_append, e3, ← e4]
        · have t1 := h1.tc
          rw [show tcs [] = 0 from rfl] at t1
          change tcs b ≤ tcs (block1.reverse ++ blockF) at b3
          rw [tcs_append, tcs_perm block1.reverse_perm] at b3
          rw [tcs_append, tcs_append, tcs_hads]
          omega
      refine ⟨fun out h => ?_, fun n1 n2 hf => ?_, fun n1 _ => ?_⟩
      · cases ht : toddSimp (shuffle fuel) n (block1.reverse ++ blockF) with
        | none => rw [ht] at h; cases h
        | some b =>
          rw [ht] at h
          obtain ⟨k1, k2, k3⟩ := key b ht
          obtain ⟨m1, m2, m3⟩ := (blocks_spec hs hn (fuel := fuel) h2 k1 hc').1 out h
          exact ⟨m1, fun ψ => (m2 ψ).trans (k2 ψ), m3.trans k3⟩
      · obtain ⟨b, ht⟩ := Option.isSome_iff_exists.mp (Props.toddSimp_returns (hs fuel) n1 n2 hbF)
        rw [ht]
        exact (blocks_spec hs hn (fuel := fuel) h2 (key b ht).1 hc').2.1 n1 n2 (by have := h6 c1; omega)
      · subst n1
        rw [Props.toddSimp_raises (hs fuel) hbF]
        rfl

theorem allowed_lgate {g : Gate} (h : allowed n g = true) (hd : g.qubits.Nodup) : LGate n g := by
  cases g <;> simp only [allowed, Bool.and_eq_true, decide_eq_true_eq, Bool.false_eq_true] at h
  case zrot cls t p adj =>
    refine Or.inr ⟨h.1, ?_⟩
    have hp := Rat.num_div_den p
    simp only [List.mem_cons, List.not_mem_nil, or_false] at h
    rcases h.2 with e | e | e
    · rw [e] at hp
      exact ⟨4 * p.num, by push_cast at hp ⊢; linarith⟩
    · rw [e] at hp
      exact ⟨2 * p.num, by push_cast at hp ⊢; linarith⟩
    · rw [e] at hp
      exact ⟨p.num, by push_cast at hp ⊢; linarith⟩
  case had t => exact Or.inl ⟨t, h, rfl⟩
  case cz c t => exact Or.inr ⟨h.1, h.2, by simpa [Gate.qubits] using hd⟩
  case cnot c t => exact Or.inr ⟨h.1, h.2, by simpa [Gate.qubits] using hd⟩

theorem lgate_allowed {g : Gate} (h : LGate n g) : allowed n g = true := by
  rcases h with ⟨t, ht, rfl⟩ | h
  · simpa [allowed] using ht
  · cases g <;> simp only [PhaseGate] at h <;> simp only [allowed, Bool.and_eq_true, decide_eq_true_eq]
    · refine ⟨h.1, ?_⟩
      obtain ⟨k, hk⟩ := h.2
      rename_i p _
      have e : p = Rat.divInt k 4 := by rw [Rat.divInt_eq_div]; push_cast; linarith
      have hdv : (p.den : ℤ) ∣ 4 := by rw [e]; exact Rat.den_dvd k 4
      have hdv' : p.den ∣ 4 := by exact_mod_cast hdv
      have hle := Nat.le_of_dvd (by norm_num) hdv'
      generalize p.den = d at hdv' hle
      interval_cases d <;> simp_all
    · exact ⟨h.1, h.2.1⟩
    · exact ⟨h.1, h.2.1⟩

/-- `phase_block_optimize` without `pre_optimize`, for the gates. -/
theorem blockGates_spec {shuffle : ℕ → Data → Data} (hs : ∀ k d, (shuffle k d).Perm d) {l : List Gate} (hd : ∀ g ∈ l, g.qubits.Nodup) :
    (∀ out, blockGates shuffle n l = some out → (∀ g ∈ l, LGate n g) ∧ (∀ g ∈ out, LGate n g) ∧ (∀ ψ, semGates out ψ = semGates l ψ) ∧ tcs out ≤ tcs l) ∧
    ((∀ g ∈ l, LGate n g) → 2 ≤ n → n < 500 → (blockGates shuffle n l).isSome) ∧
    (n = 1 → l ≠ [] → blockGates shuffle n l = none) := by
  have hB : BlockOK n [] [] := ⟨by simp, by simp, List.nodup_nil⟩
  have main : (∀ g ∈ l, LGate n g) → l ≠ [] → 0 < n := by
    intro h hl
    obtain ⟨g, hg⟩ := List.exists_mem_of_ne_nil l hl
    obtain ⟨q, hq⟩ := stored_qubit (h g hg).stored
    have := (h g hg).lt hq
    omega
  rw [blockGates]
  by_cases ha : l.all (allowed n) = true
  · rw [if_pos ha]
    have hl : ∀ g ∈ l, LGate n g := fun g hg => allowed_lgate (List.all_eq_true.mp ha g hg) (hd g hg)
    have hF := split_flt hl
    have hlen : (numb l).length = l.length := by rw [numb, List.length_map, List.length_zipIdx]
    rcases Nat.eq_zero_or_pos n with rfl | hn
    · have : l = [] := by
        by_contra h
        exact absurd (main hl h) (by simp)
      subst this
      refine ⟨fun out h => ?_, fun _ h => by omega, fun h => by omega⟩
      cases h
      exact ⟨by simp, by simp, fun _ => rfl, le_rfl⟩
    · obtain ⟨k1, k2, k3⟩ := blocks_spec hs hn (fuel := l.length + 1) hF hB (consumed := []) (by simp)
      refine ⟨fun out h => ?_, fun _ n1 n2 => k2 n1 n2 (by omega), fun n1 hne => k3 n1 fun e => hne ?_⟩
      · obtain ⟨m1, m2, m3⟩ := k1 out h
        refine ⟨hl, m1, fun ψ => ?_, ?_⟩
        · rw [m2, gs_numb]; rfl
        · rw [gs_numb] at m3
          simpa [tcs] using m3
      · rw [← gs_numb l, e]; rfl
  · rw [if_neg ha]
    refine ⟨fun out h => (by cases h), fun h => ?_, fun _ _ => rfl⟩
    exact absurd (List.all_eq_true.mpr fun g hg => lgate_allowed (h g hg)) ha

end PhaseBlock
end PyZX
