import Verif.Proofs.OptPlace3
import Verif.Proofs.OptLayer2

/-!
# Helper lemmas for `basic_optimization`: parsing a gate
-/

namespace PyZX
namespace Optimize

open scoped List

/-- The gates that are to be placed later. -/
def later (s : State) : List Gate := Hd s.hads ++ P s.zs s.nots

/-- The circuit of a state, without the permutation. -/
def eff (s : State) (L : List SG) : List Gate := gs L ++ later s

/-- The map of a state. -/
noncomputable def out (s : State) (L : List SG) (ψ : QState) : QState := permSem s.perm (semGates (eff s L) ψ)

/-- The invariant of a pass. -/
structure FInv (n : ℕ) (E : ℕ → ℕ → Prop) (s : State) (L : List SG) : Prop where
  p : PInv n E s L
  hn : s.hads.Nodup
  nn : s.nots.Nodup
  zn : s.zs.Nodup
  hlt : ∀ q ∈ s.hads, q < n
  nlt : ∀ q ∈ s.nots, q < n
  zlt : ∀ q ∈ s.zs, q < n
  perm : IsPerm s.perm
  len : s.perm.length = n

theorem FInv.init (n : ℕ) (E : ℕ → ℕ → Prop) : FInv n E (init n) [] :=
  ⟨PInv.init n E, by simp [Optimize.init], by simp [Optimize.init], by simp [Optimize.init], by simp [Optimize.init], by simp [Optimize.init],
    by simp [Optimize.init], ⟨List.nodup_range, by simp [Optimize.init]⟩, by simp [Optimize.init]⟩

variable {k n : ℕ} {E : ℕ → ℕ → Prop} {s s' s0 : State} {L L' L0 : List SG}

/-- A gate has been parsed. -/
structure Step (k n : ℕ) (E : ℕ → ℕ → Prop) (ds : Bool) (s : State) (L : List SG) (g : Gate) (s' : State) (L' : List SG) : Prop where
  inv : FInv n E s' L'
  sem : EqUpToPhase (fun ψ => permSem s.perm (g.sem (semGates (eff s L) ψ))) (out s' L')
  tc : tc k (gs L') ≤ tc k (gs L) + wg k g
  perm : ds = false → s'.perm = s.perm

theorem eqUp_permSem {l : List ℕ} {a b : List Gate} (h : Eqv a b) : EqUpToPhase (fun ψ => permSem l (semGates a ψ)) (fun ψ => permSem l (semGates b ψ)) := by
  obtain ⟨z, hz, h⟩ := h
  exact ⟨z, hz, fun ψ x => h ψ _⟩

/-- A step that keeps the permutation. -/
theorem Step.mk' {ds : Bool} {g : Gate} (inv : FInv n E s' L') (hp : s'.perm = s.perm) (h : Eqv (eff s L ++ [g]) (eff s' L'))
    (ht : Optimize.tc k (gs L') ≤ Optimize.tc k (gs L) + wg k g) : Step k n E ds s L g s' L' := by
  refine ⟨inv, ?_, ht, fun _ => hp⟩
  have := eqUp_permSem (l := s.perm) h
  unfold out
  rw [hp]
  simpa only [semGates_append, semGates_cons, semGates_nil] using this

theorem FInv.setZs (h : FInv n E s L) {zs : List ℕ} (h1 : zs.Nodup) (h2 : ∀ q ∈ zs, q < n) : FInv n E { s with zs := zs } L :=
  ⟨⟨h.p.core, h.p.av⟩, h.hn, h.nn, h1, h.hlt, h.nlt, h2, h.perm, h.len⟩

theorem FInv.setNots (h : FInv n E s L) {nots : List ℕ} (h1 : nots.Nodup) (h2 : ∀ q ∈ nots, q < n) : FInv n E { s with nots := nots } L :=
  ⟨⟨h.p.core, h.p.av⟩, h.hn, h1, h.zn, h.hlt, h2, h.zlt, h.perm, h.len⟩

theorem FInv.setHads (h : FInv n E s L) {hads : List ℕ} (h1 : hads.Nodup) (h2 : ∀ q ∈ hads, q < n) : FInv n E { s with hads := hads } L :=
  ⟨⟨h.p.core, h.p.av⟩, h1, h.nn, h.zn, h2, h.nlt, h.zlt, h.perm, h.len⟩

theorem FInv.of_same (h : FInv n E s L) (hp : PInv n E s' L') (hs : SameL s s') : FInv n E s' L' :=
  ⟨hp, by rw [hs.hads]; exact h.hn, by rw [hs.nots]; exact h.nn, by rw [hs.zs]; exact h.zn, by rw [hs.hads]; exact h.hlt, by rw [hs.nots]; exact h.nlt,
    by rw [hs.zs]; exact h.zlt, by rw [hs.perm]; exact h.perm, by rw [hs.perm]; exact h.len⟩

theorem SameL.later (h : SameL s s') : later s' = later s := by unfold Optimize.later; rw [h.hads, h.zs, h.nots]

/-- `add_hadamard` moves a Hadamard gate to the circuit. -/
theorem FInv.addHad (h : FInv n E s L) {t : ℕ} (ht : t ∈ s.hads) :
    FInv n E (addHad s t) (L ++ [⟨s.count, .had t⟩]) ∧ Eqv (eff s L) (eff (Optimize.addHad s t) (L ++ [⟨s.count, .had t⟩])) ∧
      tc k (gs (L ++ [⟨s.count, .had t⟩])) = tc k (gs L) := by
  refine ⟨⟨h.p.addHad (h.hlt t ht), h.hn.erase t, h.nn, h.zn, fun q hq => h.hlt q (List.mem_of_mem_erase hq), h.nlt, h.zlt, h.perm, h.len⟩, ?_, ?_⟩
  · unfold eff Optimize.later
    rw [gs_append, List.append_assoc]
    refine Eqv.left ?_ _
    exact (Hd_front ht).right _
  · rw [gs_append, tc_append]; simp [tc, wg_had]

/-- `parse_gate` for `HAD`. -/
theorem FInv.parseHad (h : FInv n E s L) (ds : Bool) {t : ℕ} (ht : t < n) : ∃ L', Step k n E ds s L (.had t) (parseHad s t) L' := by
  have e1 : (if t ∈ s.nots ∧ t ∉ s.zs then { s with nots := s.nots.erase t, zs := s.zs ++ [t] }
    else if t ∈ s.zs ∧ t ∉ s.nots then { s with zs := s.zs.erase t, nots := s.nots ++ [t] }
    else s) = { s with nots := hadX s.zs s.nots t, zs := hadZ s.zs s.nots t } := by
    unfold hadX hadZ
    by_cases h1 : t ∈ s.nots ∧ t ∉ s.zs
    · simp only [if_pos h1]
    · by_cases h2 : t ∈ s.zs ∧ t ∉ s.nots
      · simp only [if_neg h1, if_pos h2]
      · simp only [if_neg h1, if_neg h2]
  unfold Optimize.parseHad
  rw [e1]
  set s1 : State := { s with nots := hadX s.zs s.nots t, zs := hadZ s.zs s.nots t } with hs1
  have hf : FInv n E s1 L := by
    refine (h.setZs (zs := hadZ s.zs s.nots t) ?_ ?_).setNots ?_ ?_
    · rw [hadZ_eq]; split; exact toggle_nodup h.zn t; exact h.zn
    · rw [hadZ_eq]; split; exact toggle_lt h.zlt ht; exact h.zlt
    · rw [hadX_eq]; split; exact toggle_nodup h.nn t; exact h.nn
    · rw [hadX_eq]; split; exact toggle_lt h.nlt ht; exact h.nlt
  have e2 : Eqv (eff s L ++ [.had t]) (gs L ++ (Hd s.hads ++ [.had t] ++ P s1.zs s1.nots)) := by
    have := (P_had h.nn h.zn t).left (gs L ++ Hd s.hads)
    unfold eff later
    simpa only [List.append_assoc, List.cons_append, List.nil_append, List.singleton_append] using this
  have e3 : Eqv (Hd s.hads ++ [.had t]) (.had t :: Hd s.hads) := by
    have := Hd_perm (List.perm_append_singleton t s.hads)
    rwa [Hd, List.map_append] at this
  simp only
  cases hr : hadSHad s1 t with
  | none =>
    refine ⟨L, ?_⟩
    simp only
    refine Step.mk' (L' := L) (hf.setHads (toggle_nodup h.hn t) (toggle_lt h.hlt ht)) rfl (e2.trans ?_) (Nat.le_add_right _ _)
    unfold eff later
    exact ((Hd_toggle s.hads t).right _).left _
  | some s' =>
    obtain ⟨L', k1, k2, k3, k4⟩ := hf.p.hadSHad hr
    refine ⟨L', Step.mk' (hf.of_same k1 k2) k2.perm (e2.trans (((e3.right _).left _).trans ?_)) (le_trans k4 (Nat.le_add_right _ _))⟩
    unfold eff
    rw [k2.later]
    have h4 := k3.right (later s1)
    unfold later at h4 ⊢
    simpa only [List.append_assoc, List.cons_append, List.nil_append, List.singleton_append] using h4

/-- `parse_gate` for `NOT`. -/
theorem FInv.parseNot (h : FInv n E s L) (ds : Bool) {t : ℕ} (ht : t < n) : Step k n E ds s L (.mkNOT t) { s with nots := toggle s.nots t } L := by
  refine Step.mk' (h.setNots (toggle_nodup h.nn t) (toggle_lt h.nlt ht)) rfl ?_ (Nat.le_add_right _ _)
  have := (P_not (zs := s.zs) h.nn t).left (gs L ++ Hd s.hads)
  unfold eff later
  simpa only [List.append_assoc] using this

theorem tcount_shift {p p1 p2 : ℚ} {a b : Prop} [Decidable a] [Decidable b] (h1 : p1 = if a then mod2 (p + 1) else p) (h2 : p2 = if b then mod2 (-p1) else p1)
    (x y : ZCls) (t u : ℕ) (i j : Bool) : wg k (Gate.zrot x t p2 i) = wg k (Gate.zrot y u p j) := by
  have e1 : p1.den = p.den := by
    rw [h1]; split
    · rw [mod2_den']; exact_mod_cast Rat.add_intCast_den p 1
    · rfl
  have e2 : p2.den = p1.den := by
    rw [h2]; split
    · rw [mod2_den', Rat.neg_den]
    · rfl
  rw [wg_zrot, wg_zrot, e2, e1]

/-- `parse_gate` for phase gates. -/
theorem FInv.parseZ (h : FInv n E s L) (ds : Bool) {t : ℕ} (ht : t < n) (cls : ZCls) (p : ℚ) (adj : Bool) :
    ∃ s' L', parseZ s t p = some s' ∧ Step k n E ds s L (.zrot cls t p adj) s' L' := by
  unfold Optimize.parseZ
  simp only
  obtain ⟨p1, h1⟩ : ∃ p1, p1 = if t ∈ s.zs then mod2 (p + 1) else p := ⟨_, rfl⟩
  obtain ⟨p2, h2⟩ : ∃ p2, p2 = if t ∈ s.nots then mod2 (-p1) else p1 := ⟨_, rfl⟩
  rw [← h1, ← h2]
  set s1 : State := { s with zs := s.zs.erase t } with hs1
  have hf : FInv n E s1 L := h.setZs (h.zn.erase t) fun q hq => h.zlt q (List.mem_of_mem_erase hq)
  have e1 : Eqv (eff s L ++ [.zrot cls t p adj]) (gs L ++ Hd s1.hads ++ (.mkZPhase t p2 :: P s1.zs s1.nots)) := by
    have := (P_zrot (zs := s.zs) h.nn h1 h2 cls .zphase adj false).left (gs L ++ Hd s.hads)
    unfold eff later
    rw [← List.append_assoc (gs L), List.append_assoc (gs L ++ Hd s.hads)]
    exact this
  by_cases hp1 : p1 = 0
  · rw [if_pos hp1]
    refine ⟨_, L, rfl, Step.mk' hf rfl (e1.trans ?_) (Nat.le_add_right _ _)⟩
    have hp2 : p2 = 0 := by rw [h2, hp1]; split <;> simp [mod2]
    unfold eff later
    rw [← List.append_assoc]
    refine Eqv.left (.of_eq fun ψ => ?_) _
    rw [semGates_cons, hp2]
    exact congrArg _ (zrot_zero _ _ _ _)
  · rw [if_neg hp1]
    by_cases hp2 : p2 = 1
    · rw [if_pos hp2]
      refine ⟨_, L, rfl, Step.mk' (hf.setZs (toggle_nodup hf.zn t) (toggle_lt hf.zlt ht)) rfl (e1.trans ?_) (Nat.le_add_right _ _)⟩
      unfold eff later
      rw [← List.append_assoc]
      refine Eqv.left ?_ _
      rw [hp2]
      exact Eqv.trans (.of_eq fun ψ => rfl) (P_zfront h.nn t)
    · rw [if_neg hp2]
      -- place a pending Hadamard gate
      obtain ⟨s2, L2, e2, hf2, hperm, hnots, hzs, ht2, htc, e3⟩ : ∃ s2 L2, (if t ∈ s1.hads then Optimize.addHad s1 t else s1) = s2 ∧ FInv n E s2 L2 ∧ s2.perm = s.perm ∧
          s2.nots = s1.nots ∧ s2.zs = s1.zs ∧ t ∉ s2.hads ∧ tc k (gs L2) = tc k (gs L) ∧ Eqv (gs L ++ Hd s1.hads) (gs L2 ++ Hd s2.hads) := by
        by_cases hm : t ∈ s1.hads
        · obtain ⟨a1, a2, a3⟩ := hf.addHad (k := k) hm
          refine ⟨_, _, if_pos hm, a1, rfl, rfl, rfl, fun h' => (hf.hn.mem_erase_iff.mp h').1 rfl, a3, ?_⟩
          rw [gs_append, List.append_assoc]
          exact (Hd_front hm).left _
        · exact ⟨s1, L, if_neg hm, hf, rfl, rfl, rfl, hm, rfl, Eqv.refl _⟩
      rw [e2]
      obtain ⟨s', L', e, hp, k1, k2, k3, k4, k5⟩ := hf2.p.placeZ (k := k) ht p2
      have hpass : Eqv (Hd s2.hads ++ [.mkZPhase t p2]) (.mkZPhase t p2 :: Hd s2.hads) := Hd_pass trivial fun q hq hm => by
        rw [show (Gate.mkZPhase t p2).qubits = [t] from rfl, List.mem_singleton] at hm
        exact ht2 (hm ▸ hq)
      have e4 : Eqv (eff s L ++ [.zrot cls t p adj]) (gs L2 ++ [.mkZPhase t p2] ++ (Hd s2.hads ++ P s2.zs s2.nots)) := by
        refine e1.trans ((e3.right _).trans ?_)
        have := (hpass.right (P s2.zs s2.nots)).left (gs L2)
        rw [hnots, hzs] at this ⊢
        simpa only [List.append_assoc, List.cons_append, List.nil_append, List.singleton_append] using this
      have htc' : Optimize.tc k (gs L') ≤ Optimize.tc k (gs L) + wg k (Gate.zrot cls t p adj) := by
        have e5 := tcount_shift (k := k) h1 h2 .zphase cls t t false adj
        unfold Gate.mkZPhase at k4
        rw [e5] at k4
        omega
      rcases k5 with ⟨k5, k6⟩ | ⟨k5, k6⟩
      · refine ⟨s', L', e, Step.mk' (hf2.of_same hp ⟨k1, k2, k5, k3⟩) (k3.trans hperm) (e4.trans ?_) htc'⟩
        unfold eff later
        rw [k1, k2, k5]
        exact k6.right _
      · refine ⟨s', L', e, Step.mk' ?_ (k3.trans hperm) (e4.trans ?_) htc'⟩
        · exact (hf2.setZs (toggle_nodup hf2.zn t) (toggle_lt hf2.zlt ht)).of_same hp ⟨k1, k2, k5, k3⟩
        · refine (k6.right _).trans ?_
          unfold eff later
          rw [k1, k2, k5]
          have hpass' : Eqv (.mkZ t :: Hd s2.hads) (Hd s2.hads ++ [.mkZ t]) := (Hd_pass (g := .mkZ t) trivial fun q hq hm => by
            rw [show (Gate.mkZ t).qubits = [t] from rfl, List.mem_singleton] at hm
            exact ht2 (hm ▸ hq)).symm
          have r1 := (hpass'.right (P s2.zs s2.nots)).left (gs L')
          have r2 := (P_zfront (zs := s2.zs) hf2.nn t).left (gs L' ++ Hd s2.hads)
          simp only [List.append_assoc, List.cons_append, List.nil_append] at r1 r2 ⊢
          exact r1.trans r2

/-- A CZ in front of the pending gates. -/
theorem FInv.finishCz (h : FInv n E s L) (min ds : Bool) {a b : ℕ} (hab : a ≠ b) (ha : a < n) (hb : b < n) (hl : E a b) {g : Gate} (hw : wg k g = k)
    (hp : s.perm = s0.perm) (he : Eqv (eff s0 L0 ++ [g]) (gs L ++ .cz a b :: later s)) (ht : tc k (gs L) ≤ tc k (gs L0)) :
    ∃ s' L', addCz min s a b = some s' ∧ Step k n E ds s0 L0 g s' L' := by
  obtain ⟨s', L', e, h1, h2, h3, h4⟩ := h.p.addCz (k := k) min hab ha hb hl
  refine ⟨s', L', e, Step.mk' (h.of_same h1 h2) (h2.perm.trans hp) (he.trans ?_) (by omega)⟩
  unfold eff
  rw [h2.later]
  have := h3.right (later s)
  simpa only [List.append_assoc, List.cons_append, List.nil_append] using this

/-- A CNOT in front of the pending gates. -/
theorem FInv.finishCnot (h : FInv n E s L) (ds : Bool) {c t : ℕ} (hct : c ≠ t) (hc : c < n) (ht : t < n) (hl : E c t) {g : Gate} (hw : wg k g = k)
    (hp : s.perm = s0.perm) (he : Eqv (eff s0 L0 ++ [g]) (gs L ++ .cnot c t :: later s)) (htc : tc k (gs L) ≤ tc k (gs L0)) :
    ∃ s' L', addCnot ds s c t = some s' ∧ Step k n E ds s0 L0 g s' L' := by
  obtain ⟨s', L', e, h1, h2, h3⟩ := h.p.addCnot (k := k) ds hct hc ht hl
  rcases h3 with ⟨h3, h4⟩ | ⟨h0, h3, h4⟩
  · refine ⟨s', L', e, Step.mk' (h.of_same h1 h3) (h3.perm.trans hp) (he.trans ?_) (by omega)⟩
    unfold eff
    rw [h3.later]
    have := h4.right (later s)
    simpa only [List.append_assoc, List.cons_append, List.nil_append] using this
  · have hc' : c < s.perm.length := by rw [h.len]; exact hc
    have ht' : t < s.perm.length := by rw [h.len]; exact ht
    refine ⟨s', L', e, ⟨⟨h1, ?_, ?_, ?_, ?_, ?_, ?_, ?_, ?_⟩, ?_, by omega, fun hd => by rw [h0] at hd; cases hd⟩⟩
    · rw [h3.hads]; exact swapEl_nodup h.hn c t
    · rw [h3.nots]; exact swapEl_nodup h.nn c t
    · rw [h3.zs]; exact swapEl_nodup h.zn c t
    · rw [h3.hads]; exact swapEl_lt h.hn h.hlt hc ht
    · rw [h3.nots]; exact swapEl_lt h.nn h.nlt hc ht
    · rw [h3.zs]; exact swapEl_lt h.zn h.zlt hc ht
    · rw [h3.perm]; exact isPerm_swap h.perm hc' ht'
    · rw [h3.perm]; simpa using h.len
    · have e2 : Eqv (eff s0 L0 ++ [g]) (eff s' L' ++ [.swap c t]) := by
        refine he.trans ?_
        have r1 := h4.right (later s)
        have r2 := (swap_eff c t h.hn h.zn h.nn).left (gs L')
        unfold eff later at *
        rw [h3.hads, h3.zs, h3.nots]
        simp only [List.append_assoc, List.cons_append, List.nil_append] at r1 r2 ⊢
        exact r1.trans r2
      have := eqUp_permSem (l := s0.perm) e2
      rw [← hp] at this
      simp only [semGates_append, semGates_cons, semGates_nil] at this
      unfold out
      rw [h3.perm, ← hp]
      simp only [← permSem_swap hc' ht']
      exact this

/-- `parse_gate` for `CZ`. -/
theorem FInv.parseCz (h : FInv n E s L) (min ds : Bool) {a b : ℕ} (hab : a ≠ b) (ha : a < n) (hb : b < n) (hl : E a b) (hl' : E b a) :
    ∃ s' L', parseCz min ds s a b = some s' ∧ Step k n E ds s L (.cz a b) s' L' := by
  set zs' := if b ∈ s.nots then toggle (if a ∈ s.nots then toggle s.zs b else s.zs) a else if a ∈ s.nots then toggle s.zs b else s.zs with hzs'
  have e1 : (if b ∈ (if a ∈ s.nots then { s with zs := toggle s.zs b } else s).nots then
      { (if a ∈ s.nots then { s with zs := toggle s.zs b } else s) with zs := toggle (if a ∈ s.nots then { s with zs := toggle s.zs b } else s).zs a }
      else (if a ∈ s.nots then { s with zs := toggle s.zs b } else s)) = { s with zs := zs' } := by
    rw [hzs']
    by_cases h1 : a ∈ s.nots <;> by_cases h2 : b ∈ s.nots <;> simp [h1, h2]
  unfold Optimize.parseCz
  simp only
  rw [e1]
  set s1 : State := { s with zs := zs' } with hs1
  have hz1 : (if a ∈ s.nots then toggle s.zs b else s.zs).Nodup := by split; exact toggle_nodup h.zn b; exact h.zn
  have hz2 : ∀ q ∈ (if a ∈ s.nots then toggle s.zs b else s.zs), q < n := by split; exact toggle_lt h.zlt hb; exact h.zlt
  have hf : FInv n E s1 L := by
    refine h.setZs ?_ ?_
    · rw [hzs']; split; exact toggle_nodup hz1 a; exact hz1
    · rw [hzs']; split; exact toggle_lt hz2 ha; exact hz2
  have e2 : Eqv (eff s L ++ [.cz a b]) (gs L ++ (Hd s1.hads ++ [.cz a b] ++ P s1.zs s1.nots)) := by
    have := (P_cz (zs := s.zs) h.nn a b).left (gs L ++ Hd s.hads)
    unfold eff later
    simpa only [List.append_assoc, List.cons_append, List.nil_append] using this
  -- the order of the two qubits
  have fin : ∀ {s2 : State} {L2 : List SG}, FInv n E s2 L2 → s2.perm = s.perm → Eqv (eff s L ++ [.cz a b]) (gs L2 ++ .cz a b :: later s2) →
      tc k (gs L2) ≤ tc k (gs L) → ∃ s' L', (if a > b then addCz min s2 b a else addCz min s2 a b) = some s' ∧ Step k n E ds s L (.cz a b) s' L' := by
    intro s2 L2 hf2 hp he ht
    by_cases hgt : a > b
    · rw [if_pos hgt]
      refine hf2.finishCz min ds hab.symm hb ha hl' (wg_cz _ _) hp (he.trans (.of_eq fun ψ => ?_)) ht
      rw [semGates_append, semGates_append, semGates_cons, semGates_cons, cz_comm]
    · rw [if_neg hgt]
      exact hf2.finishCz min ds hab ha hb hl (wg_cz _ _) hp he ht
  have pass : ∀ {l : List ℕ}, a ∉ l → b ∉ l → Eqv (Hd l ++ [.cz a b]) (.cz a b :: Hd l) := by
    intro l hal hbl
    refine Hd_pass (g := .cz a b) hab fun q hq hm => ?_
    simp only [Gate.qubits, List.mem_cons, List.not_mem_nil, or_false] at hm
    rcases hm with rfl | rfl
    · exact hal hq
    · exact hbl hq
  by_cases hA : a ∈ s1.hads
  · by_cases hB : b ∈ s1.hads
    · rw [if_pos (show a ∈ s1.hads ∧ b ∈ s1.hads from ⟨hA, hB⟩)]
      obtain ⟨a1, a2, a3⟩ := hf.addHad (k := k) hA
      have hB' : b ∈ (Optimize.addHad s1 a).hads := (mem_erase_ne hab.symm).mpr hB
      obtain ⟨b1, b2, b3⟩ := a1.addHad (k := k) hB'
      set s2 := Optimize.addHad (Optimize.addHad s1 a) b
      have hA2 : a ∉ s2.hads := fun h' => (hf.hn.mem_erase_iff.mp (List.mem_of_mem_erase h')).1 rfl
      have hB2 : b ∉ s2.hads := fun h' => (a1.hn.mem_erase_iff.mp h').1 rfl
      rw [if_pos ⟨hA2, hB2⟩]
      refine fin b1 rfl (e2.trans ?_) (by omega)
      have r0 : Eqv (Hd s1.hads) (.had a :: .had b :: Hd s2.hads) := (Hd_front hA).trans ((Hd_front hB').left [.had a])
      have r1 := ((r0.right ([.cz a b] ++ P s1.zs s1.nots)).left (gs L))
      have r2 := ((pass hA2 hB2).right (P s1.zs s1.nots)).left (gs L ++ [.had a, .had b])
      unfold later
      rw [gs_append, gs_append, gs_one, gs_one]
      simp only [List.append_assoc, List.cons_append, List.nil_append] at r1 r2 ⊢
      exact r1.trans r2
    · rw [if_neg (show ¬ (a ∈ s1.hads ∧ b ∈ s1.hads) from fun h' => hB h'.2), if_neg (fun h' => h'.1 hA), if_pos hA]
      refine hf.finishCnot ds hab.symm hb ha hl' (wg_cz _ _) rfl (e2.trans ?_) le_rfl
      have := ((Hd_cz hf.hn hab hA hB).right (P s1.zs s1.nots)).left (gs L)
      unfold later
      simpa only [List.append_assoc, List.cons_append, List.nil_append] using this
  · rw [if_neg (show ¬ (a ∈ s1.hads ∧ b ∈ s1.hads) from fun h' => hA h'.1)]
    by_cases hB : b ∈ s1.hads
    · rw [if_neg (fun h' => h'.2 hB), if_neg hA]
      refine hf.finishCnot ds hab ha hb hl (wg_cz _ _) rfl (e2.trans ?_) le_rfl
      have := ((Hd_cz' hf.hn hab hA hB).right (P s1.zs s1.nots)).left (gs L)
      unfold later
      simpa only [List.append_assoc, List.cons_append, List.nil_append] using this
    · rw [if_pos ⟨hA, hB⟩]
      refine fin hf rfl (e2.trans ?_) le_rfl
      have := ((pass hA hB).right (P s1.zs s1.nots)).left (gs L)
      unfold later
      simpa only [List.append_assoc, List.cons_append, List.nil_append] using this

/-- `parse_gate` for `CNOT`. -/
theorem FInv.parseCnot (h : FInv n E s L) (min ds : Bool) {c t : ℕ} (hct : c ≠ t) (hc : c < n) (ht : t < n) (hl : E c t) (hl' : E t c) :
    ∃ s' L', parseCnot min ds s c t = some s' ∧ Step k n E ds s L (.cnot c t) s' L' := by
  have e1 : (if t ∈ (if c ∈ s.nots then { s with nots := toggle s.nots t } else s).zs then
      { (if c ∈ s.nots then { s with nots := toggle s.nots t } else s) with zs := toggle (if c ∈ s.nots then { s with nots := toggle s.nots t } else s).zs c }
      else (if c ∈ s.nots then { s with nots := toggle s.nots t } else s)) =
      { s with zs := if t ∈ s.zs then toggle s.zs c else s.zs, nots := if c ∈ s.nots then toggle s.nots t else s.nots } := by
    by_cases h1 : c ∈ s.nots <;> by_cases h2 : t ∈ s.zs <;> simp [h1, h2]
  unfold Optimize.parseCnot
  simp only
  rw [e1]
  set s1 : State := { s with zs := if t ∈ s.zs then toggle s.zs c else s.zs, nots := if c ∈ s.nots then toggle s.nots t else s.nots } with hs1
  have hf : FInv n E s1 L := by
    refine (h.setZs (zs := if t ∈ s.zs then toggle s.zs c else s.zs) ?_ ?_).setNots ?_ ?_
    · split; exact toggle_nodup h.zn c; exact h.zn
    · split; exact toggle_lt h.zlt hc; exact h.zlt
    · split; exact toggle_nodup h.nn t; exact h.nn
    · split; exact toggle_lt h.nlt ht; exact h.nlt
  have e2 : Eqv (eff s L ++ [.cnot c t]) (gs L ++ (Hd s1.hads ++ [.cnot c t] ++ P s1.zs s1.nots)) := by
    have := (P_cnot h.nn h.zn hct).left (gs L ++ Hd s.hads)
    unfold eff later
    simpa only [List.append_assoc, List.cons_append, List.nil_append] using this
  have pass : ∀ {l : List ℕ}, c ∉ l → t ∉ l → Eqv (Hd l ++ [.cnot c t]) (.cnot c t :: Hd l) := by
    intro l hal hbl
    refine Hd_pass (g := .cnot c t) hct fun q hq hm => ?_
    simp only [Gate.qubits, List.mem_cons, List.not_mem_nil, or_false] at hm
    rcases hm with rfl | rfl
    · exact hal hq
    · exact hbl hq
  by_cases hC : c ∈ s1.hads
  · by_cases hT : t ∈ s1.hads
    · rw [if_pos ⟨hC, hT⟩]
      refine hf.finishCnot ds hct.symm ht hc hl' (wg_cnot _ _) rfl (e2.trans ?_) le_rfl
      have := ((Hd_cnot2 hf.hn hct hC hT).right (P s1.zs s1.nots)).left (gs L)
      unfold later
      simpa only [List.append_assoc, List.cons_append, List.nil_append] using this
    · rw [if_neg (fun h' => hT h'.2), if_neg (fun h' => h'.1 hC), if_neg hT]
      obtain ⟨a1, a2, a3⟩ := hf.addHad (k := k) hC
      set s2 := Optimize.addHad s1 c
      have hC2 : c ∉ s2.hads := fun h' => (hf.hn.mem_erase_iff.mp h').1 rfl
      have hT2 : t ∉ s2.hads := fun h' => hT (List.mem_of_mem_erase h')
      refine a1.finishCnot ds hct hc ht hl (wg_cnot _ _) rfl (e2.trans ?_) (by omega)
      have r1 := ((Hd_front hC).right ([.cnot c t] ++ P s1.zs s1.nots)).left (gs L)
      have r2 := ((pass hC2 hT2).right (P s1.zs s1.nots)).left (gs L ++ [.had c])
      unfold later
      rw [gs_append, gs_one]
      simp only [List.append_assoc, List.cons_append, List.nil_append] at r1 r2 ⊢
      exact r1.trans r2
  · rw [if_neg (fun h' => hC h'.1)]
    by_cases hT : t ∈ s1.hads
    · rw [if_neg (fun h' => h'.2 hT), if_pos hT]
      have r : Eqv (eff s L ++ [.cnot c t]) (gs L ++ .cz c t :: later s1) := by
        refine e2.trans ?_
        have := ((Hd_cnot hf.hn hct hC hT).right (P s1.zs s1.nots)).left (gs L)
        unfold later
        simpa only [List.append_assoc, List.cons_append, List.nil_append] using this
      by_cases hlt : c < t
      · rw [if_pos hlt, if_neg (by omega)]
        exact hf.finishCz min ds hct hc ht hl (wg_cnot _ _) rfl r le_rfl
      · rw [if_neg hlt, if_pos (by omega)]
        refine hf.finishCz min ds hct.symm ht hc hl' (wg_cnot _ _) rfl (r.trans (.of_eq fun ψ => ?_)) le_rfl
        rw [semGates_append, semGates_append, semGates_cons, semGates_cons, cz_comm]
    · rw [if_pos ⟨hC, hT⟩]
      refine hf.finishCnot ds hct hc ht hl (wg_cnot _ _) rfl (e2.trans ?_) le_rfl
      have := ((pass hC hT).right (P s1.zs s1.nots)).left (gs L)
      unfold later
      simpa only [List.append_assoc, List.cons_append, List.nil_append] using this

end Optimize
end PyZX
