import Verif.Proofs.PBFlt

/-!
# Helper lemmas for `phase_block_optimize`: the gates that can be taken at once
-/

namespace PyZX
namespace PhaseBlock

open Optimize ToddSpec
open scoped List

variable {n : ℕ} {gates gates' : ℕ → List SG} {L : List SG} {g : SG}

theorem kind_typeOf {q : ℕ} (hs : Stored g.gate) (hq : q ∈ g.gate.qubits) (hh : isHad g = false) : kind g.gate q = some (kd (typeOf q g)) := by
  unfold typeOf
  by_cases h2 : isTwo g = true
  · rw [kind_isZAt hs h2 hq]
    have : isZPhase g = false := by
      unfold isTwo at h2; unfold isZPhase
      cases hg : g.gate <;> rw [hg] at h2 <;> simp at h2 ⊢
    rw [this, Bool.false_or]
  · cases hg : g.gate <;> simp [isTwo, isHad, hg, Stored] at h2 hh hs
    rw [hg] at hq
    simp only [Gate.qubits, List.mem_singleton] at hq
    simp [kind, hq, isZPhase, hg, kd]

theorem isTwo_of (hs : Stored g.gate) (hh : isHad g = false) (hz : isZPhase g = false) : isTwo g = true := by
  cases hg : g.gate <;> simp [isTwo, isHad, isZPhase, hg, Stored] at hs hh hz ⊢

theorem had_at {q : ℕ} (hh : isHad g = true) (hq : q ∈ g.gate.qubits) : g.gate = .had q := by
  obtain ⟨t, e⟩ := isHad_gate hh
  rw [e] at hq ⊢
  simp only [Gate.qubits, List.mem_singleton] at hq
  rw [hq]

/-- The invariant of the loop over the gates of a qubit `q`, of which `pre` have been passed. -/
structure SI (L : List SG) (D : ℕ → Prop) (B : ℕ → Option SG) (q : ℕ) (pre : List SG) (s : List ℕ × List SG) : Prop where
  av : ∀ i ∈ s.1, ∃ g ∈ L, g.idx = i ∧ ∃ r ∈ g.gate.qubits, ((D r ∧ ∀ h, B r = some h → g.idx < h.idx) ∨ (r = q ∧ g ∈ pre)) ∧ Free L r g
  ap : ∀ g ∈ s.2, g ∈ L ∧ isHad g = false ∧ ∀ r ∈ g.gate.qubits, (D r ∨ (r = q ∧ g ∈ pre)) ∧ Free L r g
  nd : s.2.Nodup

variable {D : ℕ → Prop} {B : ℕ → Option SG} {q : ℕ} {pre l r : List SG} {s : List ℕ × List SG}

theorem SI.grow (h : SI L D B q pre s) (g : SG) : SI L D B q (pre ++ [g]) s := by
  refine ⟨fun i hi => ?_, fun g' hg' => ?_, h.nd⟩
  · obtain ⟨g', a1, a2, r, a3, a4, a5⟩ := h.av i hi
    refine ⟨g', a1, a2, r, a3, ?_, a5⟩
    rcases a4 with a4 | ⟨a4, a6⟩
    · exact Or.inl a4
    · exact Or.inr ⟨a4, by simp [a6]⟩
  · obtain ⟨a1, a2, a3⟩ := h.ap g' hg'
    refine ⟨a1, a2, fun r hr => ⟨?_, (a3 r hr).2⟩⟩
    rcases (a3 r hr).1 with a4 | ⟨a4, a6⟩
    · exact Or.inl a4
    · exact Or.inr ⟨a4, by simp [a6]⟩

theorem SI.not_app (h : SI L D B q pre s) (hD : ¬ D q) (hq : q ∈ g.gate.qubits) (hp : g ∉ pre) : g ∉ s.2 := by
  intro hm
  rcases ((h.ap g hm).2.2 q hq).1 with h' | ⟨-, h'⟩
  · exact hD h'
  · exact hp h'

theorem SI.add (h : SI L D B q pre s) (hD : ¬ D q) (hL : g ∈ L) (hq : q ∈ g.gate.qubits) (hh : isHad g = false) (hp : g ∉ pre)
    (hf : ∀ r ∈ g.gate.qubits, (D r ∨ r = q) ∧ Free L r g) : SI L D B q (pre ++ [g]) (s.1, s.2 ++ [g]) := by
  have h' := h.grow g
  refine ⟨h'.av, fun g' hg' => ?_, ?_⟩
  · rcases List.mem_append.mp hg' with hg' | hg'
    · exact h'.ap g' hg'
    · rw [List.mem_singleton.mp hg']
      refine ⟨hL, hh, fun r hr => ⟨?_, (hf r hr).2⟩⟩
      rcases (hf r hr).1 with a | a
      · exact Or.inl a
      · exact Or.inr ⟨a, by simp⟩
  · rw [List.nodup_append]
    refine ⟨h.nd, by simp, ?_⟩
    rintro a ha b hb rfl
    rw [List.mem_singleton] at hb
    subst hb
    exact h.not_app hD hq hp ha

theorem SI.note (h : SI L D B q pre s) (hL : g ∈ L) (hq : q ∈ g.gate.qubits) (hf : Free L q g) : SI L D B q (pre ++ [g]) (s.1 ++ [g.idx], s.2) := by
  have h' := h.grow g
  refine ⟨fun i hi => ?_, h'.ap, h.nd⟩
  rcases List.mem_append.mp hi with hi | hi
  · exact h'.av i hi
  · rw [List.mem_singleton.mp hi]
    exact ⟨g, hL, rfl, q, hq, Or.inr ⟨rfl, by simp⟩, hf⟩

/-- The loop over the gates of a qubit. -/
theorem scanFront_spec (hF : Flt n gates L) (hD : ¬ D q) {x : Bool} : ∀ {l pre : List SG} {s : List ℕ × List SG}, gates q = pre ++ l →
    (∀ y ∈ pre, kind y.gate q = some (kd x)) → SI L D B q pre s →
    ∃ pre' l', gates q = pre' ++ l' ∧ SI L D B q pre' (scanFront q x l s).1 ∧ (∀ y ∈ pre', kind y.gate q = some (kd x)) ∧
      (∀ h, (scanFront q x l s).2 = some h → isHad h = true ∧ ∃ l'', l' = h :: l'')
  | [], pre, s, e, hk, h => ⟨pre, [], e, h, hk, by simp [scanFront]⟩
  | g :: r, pre, s, e, hk, h => by
    obtain ⟨hL, hq⟩ := hF.at e
    have hs := hF.stored hL
    have hnp : g ∉ pre := fun hm => lt_irrefl _ (hF.pre_lt e hm)
    have e' : gates q = pre ++ [g] ++ r := by rw [e]; simp
    by_cases c1 : isHad g = true
    · have e1 : scanFront q x (g :: r) s = (s, some g) := by rw [scanFront, if_pos c1]
      rw [e1]
      refine ⟨pre, g :: r, e, h, hk, ?_⟩
      intro h' eh
      cases eh
      exact ⟨c1, r, rfl⟩
    have c1' : isHad g = false := by simpa using c1
    have hty := kind_typeOf hs hq c1'
    have free : typeOf q g = x → Free L q g := by
      intro et
      refine ⟨x, fun y hy hyq hi => ?_⟩
      rcases lt_or_eq_of_le hi with hi | hi
      · exact hk y (hF.before e hy hyq hi)
      · rw [hF.inj hy hL hi, hty, et]
    have grow : typeOf q g = x → ∀ y ∈ pre ++ [g], kind y.gate q = some (kd x) := by
      intro et y hy
      rcases List.mem_append.mp hy with hy | hy
      · exact hk y hy
      · rw [List.mem_singleton.mp hy, hty, et]
    by_cases c2 : isZPhase g = true
    · by_cases cx : x = true
      · have e1 : scanFront q x (g :: r) s = (s, none) := by rw [scanFront, if_neg c1, if_pos c2, if_pos cx]
        rw [e1]
        exact ⟨pre, g :: r, e, h, hk, by simp⟩
      · have e1 : scanFront q x (g :: r) s = scanFront q x r (s.1, s.2 ++ [g]) := by rw [scanFront, if_neg c1, if_pos c2, if_neg cx]
        rw [e1]
        have et : typeOf q g = x := by
          unfold typeOf
          rw [c2]
          simp only [Bool.not_eq_true] at cx
          rw [cx]; rfl
        refine scanFront_spec hF hD e' (grow et) (h.add hD hL hq c1' hnp fun w hw => ?_)
        obtain ⟨a, t, p, i, hg⟩ := isZPhase_gate c2
        rw [hg] at hw hq
        simp only [Gate.qubits, List.mem_singleton] at hw hq
        rw [hw, ← hq]
        exact ⟨Or.inr rfl, free et⟩
    · by_cases c3 : typeOf q g ≠ x
      · have e1 : scanFront q x (g :: r) s = (s, none) := by rw [scanFront, if_neg c1, if_neg c2, if_pos c3]
        rw [e1]
        exact ⟨pre, g :: r, e, h, hk, by simp⟩
      · have et : typeOf q g = x := not_not.mp c3
        have h2 : isTwo g = true := isTwo_of hs c1' (by simpa using c2)
        by_cases c4 : g.idx ∈ s.1
        · have e1 : scanFront q x (g :: r) s = scanFront q x r (s.1, s.2 ++ [g]) := by rw [scanFront, if_neg c1, if_neg c2, if_neg c3, if_pos c4]
          rw [e1]
          refine scanFront_spec hF hD e' (grow et) (h.add hD hL hq c1' hnp ?_)
          obtain ⟨g', a1, a2, w, a3, a4, a5⟩ := h.av _ c4
          have eg := hF.inj a1 hL a2
          subst eg
          have hw : w ≠ q := by
            rintro rfl
            rcases a4 with a4 | a4
            · exact hD a4.1
            · exact hnp a4.2
          obtain ⟨-, hall⟩ := isTwo_other hs h2 hq a3 hw
          intro w' hw'
          rcases hall w' hw' with rfl | rfl
          · exact ⟨Or.inr rfl, free et⟩
          · refine ⟨?_, a5⟩
            rcases a4 with a4 | a4
            · exact Or.inl a4.1
            · exact absurd a4.1 hw
        · have e1 : scanFront q x (g :: r) s = scanFront q x r (s.1 ++ [g.idx], s.2) := by rw [scanFront, if_neg c1, if_neg c2, if_neg c3, if_neg c4]
          rw [e1]
          exact scanFront_spec hF hD e' (grow et) (h.note hL hq (free et))

/-- The invariant between visits of qubits. -/
structure VI (L : List SG) (D : ℕ → Prop) (s : Front) : Prop where
  av : ∀ i ∈ s.avail, ∃ g ∈ L, g.idx = i ∧ ∃ r ∈ g.gate.qubits, (D r ∧ ∀ h, s.blocked r = some h → g.idx < h.idx) ∧ Free L r g
  ap : ∀ g ∈ s.app, g ∈ L ∧ isHad g = false ∧ ∀ r ∈ g.gate.qubits, D r ∧ Free L r g
  nd : s.app.Nodup
  blk : ∀ r h, s.blocked r = some h → D r ∧ h ∈ L ∧ h.gate = .had r ∧
    ∀ y ∈ L, r ∈ y.gate.qubits → y.idx < h.idx → ∃ x, s.type r = some x ∧ kind y.gate r = some (kd x)

theorem VI.init : VI L (fun _ => False) {} := ⟨by simp, by simp, by simp, by simp⟩

/-- The visit of a qubit. -/
theorem VI.visit (hF : Flt n gates L) {s : Front} (h : VI L D s) (hD : ¬ D q) : VI L (fun r => D r ∨ r = q) (visitFront gates s q) := by
  have hbn : s.blocked q = none := by
    cases e : s.blocked q with
    | none => rfl
    | some h' => exact absurd (h.blk q h' e).1 hD
  cases e : gates q with
  | nil =>
    have e1 : visitFront gates s q = s := by simp only [visitFront, e]
    rw [e1]
    refine ⟨fun i hi => ?_, fun g hg => ?_, h.nd, fun r h' eh => ?_⟩
    · obtain ⟨g, a1, a2, r, a3, a4, a5⟩ := h.av i hi
      exact ⟨g, a1, a2, r, a3, ⟨Or.inl a4.1, a4.2⟩, a5⟩
    · obtain ⟨a1, a2, a3⟩ := h.ap g hg
      exact ⟨a1, a2, fun r hr => ⟨Or.inl (a3 r hr).1, (a3 r hr).2⟩⟩
    · obtain ⟨a1, a2⟩ := h.blk r h' eh
      exact ⟨Or.inl a1, a2⟩
  | cons g r =>
    obtain ⟨hL, hq⟩ := hF.at (pre := []) e
    have hs := hF.stored hL
    by_cases c1 : isHad g = true
    · have e1 : visitFront gates s q = { s with blocked := Function.update s.blocked q (some g) } := by simp only [visitFront, e, if_pos c1]
      rw [e1]
      refine ⟨fun i hi => ?_, fun g hg => ?_, h.nd, fun r h' eh => ?_⟩
      · obtain ⟨g', a1, a2, w, a3, a4, a5⟩ := h.av i hi
        refine ⟨g', a1, a2, w, a3, ⟨Or.inl a4.1, ?_⟩, a5⟩
        have hw : w ≠ q := fun e => hD (e ▸ a4.1)
        simp only [Function.update_of_ne hw]
        exact a4.2
      · obtain ⟨a1, a2, a3⟩ := h.ap g hg
        exact ⟨a1, a2, fun r hr => ⟨Or.inl (a3 r hr).1, (a3 r hr).2⟩⟩
      · simp only at eh ⊢
        by_cases hr : r = q
        · subst hr
          rw [Function.update_self, Option.some.injEq] at eh
          subst eh
          refine ⟨Or.inr rfl, hL, had_at c1 hq, fun y hy hyq hi => ?_⟩
          have := hF.before (pre := []) e hy hyq hi
          simp at this
        · rw [Function.update_of_ne hr] at eh
          obtain ⟨a1, a2⟩ := h.blk r h' eh
          exact ⟨Or.inl a1, a2⟩
    · have c1' : isHad g = false := by simpa using c1
      have h0 : SI L D s.blocked q [] (s.avail, s.app) := by
        refine ⟨fun i hi => ?_, fun g hg => ?_, h.nd⟩
        · obtain ⟨g, a1, a2, r, a3, a4, a5⟩ := h.av i hi
          exact ⟨g, a1, a2, r, a3, Or.inl a4, a5⟩
        · obtain ⟨a1, a2, a3⟩ := h.ap g hg
          exact ⟨a1, a2, fun r hr => ⟨Or.inl (a3 r hr).1, (a3 r hr).2⟩⟩
      obtain ⟨pre', l', e2, h1, hk, hb⟩ := scanFront_spec hF hD (x := typeOf q g) (l := g :: r) (pre := []) e (by simp) h0
      have e1 : visitFront gates s q = ⟨(scanFront q (typeOf q g) (g :: r) (s.avail, s.app)).1.1, (scanFront q (typeOf q g) (g :: r) (s.avail, s.app)).1.2,
          match (scanFront q (typeOf q g) (g :: r) (s.avail, s.app)).2 with
          | some h => Function.update s.blocked q (some h)
          | none => s.blocked, Function.update s.type q (some (typeOf q g))⟩ := by
        simp only [visitFront, e, if_neg c1]
        rfl
      rw [e1]
      generalize scanFront q (typeOf q g) (g :: r) (s.avail, s.app) = t at h1 hb
      have hbl : ∀ r h', (match t.2 with
          | some h => Function.update s.blocked q (some h)
          | none => s.blocked) r = some h' → (r ≠ q ∧ s.blocked r = some h') ∨ (r = q ∧ t.2 = some h') := by
        intro r h' eh
        by_cases hr : r = q
        · subst hr
          right
          refine ⟨rfl, ?_⟩
          cases et : t.2 with
          | none => simp only [et] at eh; rw [hbn] at eh; cases eh
          | some h'' => simp only [et, Function.update_self] at eh; exact eh
        · left
          refine ⟨hr, ?_⟩
          cases et : t.2 with
          | none => simp only [et] at eh; exact eh
          | some h'' => simp only [et, Function.update_of_ne hr] at eh; exact eh
      refine ⟨fun i hi => ?_, fun g' hg' => ?_, h1.nd, fun r h' eh => ?_⟩
      · obtain ⟨g', a1, a2, w, a3, a4, a5⟩ := h1.av i hi
        refine ⟨g', a1, a2, w, a3, ⟨?_, fun h' eh => ?_⟩, a5⟩
        · rcases a4 with a4 | a4
          · exact Or.inl a4.1
          · exact Or.inr a4.1
        · rcases hbl w h' eh with ⟨b1, b2⟩ | ⟨b1, b2⟩
          · rcases a4 with a4 | a4
            · exact a4.2 h' b2
            · exact absurd a4.1 b1
          · rcases a4 with a4 | a4
            · rw [b1] at a4
              exact absurd a4.1 hD
            · obtain ⟨-, l'', el⟩ := hb h' b2
              rw [el] at e2
              exact hF.pre_lt e2 a4.2
      · obtain ⟨a1, a2, a3⟩ := h1.ap g' hg'
        refine ⟨a1, a2, fun w hw => ⟨?_, (a3 w hw).2⟩⟩
        rcases (a3 w hw).1 with a4 | a4
        · exact Or.inl a4
        · exact Or.inr a4.1
      · rcases hbl r h' eh with ⟨b1, b2⟩ | ⟨b1, b2⟩
        · obtain ⟨a1, a2, a3, a4⟩ := h.blk r h' b2
          refine ⟨Or.inl a1, a2, a3, fun y hy hyq hi => ?_⟩
          simp only [Function.update_of_ne b1]
          exact a4 y hy hyq hi
        · subst b1
          obtain ⟨b3, l'', el⟩ := hb h' b2
          rw [el] at e2
          obtain ⟨b4, b5⟩ := hF.at e2
          refine ⟨Or.inr rfl, b4, had_at b3 b5, fun y hy hyq hi => ?_⟩
          simp only [Function.update_self]
          exact ⟨_, rfl, hk y (hF.before e2 hy hyq hi)⟩

theorem VI.mono {D' : ℕ → Prop} {s : Front} (h : VI L D s) (hd : ∀ r, D r → D' r) : VI L D' s := by
  refine ⟨fun i hi => ?_, fun g hg => ?_, h.nd, fun r h' eh => ?_⟩
  · obtain ⟨g, a1, a2, r, a3, a4, a5⟩ := h.av i hi
    exact ⟨g, a1, a2, r, a3, ⟨hd _ a4.1, a4.2⟩, a5⟩
  · obtain ⟨a1, a2, a3⟩ := h.ap g hg
    exact ⟨a1, a2, fun r hr => ⟨hd _ (a3 r hr).1, (a3 r hr).2⟩⟩
  · obtain ⟨a1, a2⟩ := h.blk r h' eh
    exact ⟨hd _ a1, a2⟩

theorem VI.sweep (hF : Flt n gates L) : ∀ {qs : List ℕ} {D : ℕ → Prop} {s : Front}, VI L D s → qs.Nodup → (∀ q ∈ qs, ¬ D q) →
    VI L (fun r => D r ∨ r ∈ qs) (qs.foldl (visitFront gates) s)
  | [], D, s, h, _, _ => h.mono (fun r hr => Or.inl hr)
  | q :: qs, D, s, h, hn, hD => by
    obtain ⟨hq, hn'⟩ := List.nodup_cons.mp hn
    have := VI.sweep hF (h.visit hF (hD q (by simp))) hn' (by
      rintro r hr (h' | h')
      · exact hD r (by simp [hr]) h'
      · exact hq (h' ▸ hr))
    refine this.mono fun r hr => ?_
    simp only [List.mem_cons]
    tauto

/-- The invariant after all visits. -/
theorem front_spec (hF : Flt n gates L) : VI L (fun r => r < n) (front n gates) :=
  (VI.sweep hF VI.init List.nodup_range (by simp)).mono fun r hr => by
    rcases hr with hr | hr
    · exact hr.elim
    · exact List.mem_range.mp hr

/-! ### Progress -/

theorem scanFront_mono (q : ℕ) (x : Bool) : ∀ (l : List SG) (s : List ℕ × List SG), (∀ i ∈ s.1, i ∈ (scanFront q x l s).1.1) ∧ (s.2 ≠ [] → (scanFront q x l s).1.2 ≠ [])
  | [], s => ⟨fun _ h => h, fun h => h⟩
  | g :: r, s => by
    rw [scanFront]
    by_cases c1 : isHad g = true
    · rw [if_pos c1]; exact ⟨fun _ h => h, fun h => h⟩
    rw [if_neg c1]
    have a1 := scanFront_mono q x r (s.1, s.2 ++ [g])
    have a2 := scanFront_mono q x r (s.1 ++ [g.idx], s.2)
    by_cases c2 : isZPhase g = true
    · rw [if_pos c2]
      by_cases cx : x = true
      · rw [if_pos cx]; exact ⟨fun _ h => h, fun h => h⟩
      · rw [if_neg cx]; exact ⟨a1.1, fun _ => a1.2 (by simp)⟩
    rw [if_neg c2]
    by_cases c3 : typeOf q g ≠ x
    · rw [if_pos c3]; exact ⟨fun _ h => h, fun h => h⟩
    rw [if_neg c3]
    by_cases c4 : g.idx ∈ s.1
    · rw [if_pos c4]; exact ⟨a1.1, fun _ => a1.2 (by simp)⟩
    · rw [if_neg c4]; exact ⟨fun i hi => a2.1 i (by simp [hi]), a2.2⟩

theorem visitFront_mono (gates : ℕ → List SG) (s : Front) (q : ℕ) : (∀ i ∈ s.avail, i ∈ (visitFront gates s q).avail) ∧ (s.app ≠ [] → (visitFront gates s q).app ≠ []) := by
  unfold visitFront
  cases e : gates q with
  | nil => exact ⟨fun _ h => h, fun h => h⟩
  | cons g r =>
    by_cases c1 : isHad g = true
    · simp only [if_pos c1]; exact ⟨fun _ h => h, fun h => h⟩
    · simp only [if_neg c1]
      exact scanFront_mono q _ (g :: r) (s.avail, s.app)

theorem sweep_mono (gates : ℕ → List SG) : ∀ (qs : List ℕ) (s : Front), (∀ i ∈ s.avail, i ∈ (qs.foldl (visitFront gates) s).avail) ∧ (s.app ≠ [] → (qs.foldl (visitFront gates) s).app ≠ [])
  | [], s => ⟨fun _ h => h, fun h => h⟩
  | q :: qs, s => by
    have a := visitFront_mono gates s q
    have b := sweep_mono gates qs (visitFront gates s q)
    exact ⟨fun i hi => b.1 i (a.1 i hi), fun h => b.2 (a.2 h)⟩

/-- A visit takes the first gate of a qubit, or notes it. -/
theorem visit_head (e : gates q = g :: r) (hs : Stored g.gate) (hh : isHad g = false) (s : Front) : (visitFront gates s q).app ≠ [] ∨ (isTwo g = true ∧ g.idx ∉ s.avail ∧ g.idx ∈ (visitFront gates s q).avail) := by
  unfold visitFront
  simp only [e, hh, Bool.false_eq_true, if_false]
  rw [scanFront, if_neg (by simp [hh])]
  by_cases c2 : isZPhase g = true
  · left
    rw [if_pos c2, if_neg (by simp [typeOf, c2])]
    exact (scanFront_mono q _ r (s.avail, s.app ++ [g])).2 (by simp)
  · rw [if_neg c2, if_neg (by simp)]
    by_cases c4 : g.idx ∈ s.avail
    · left
      rw [if_pos c4]
      exact (scanFront_mono q _ r (s.avail, s.app ++ [g])).2 (by simp)
    · right
      rw [if_neg c4]
      exact ⟨isTwo_of hs hh (by simpa using c2), c4, (scanFront_mono q _ r (s.avail ++ [g.idx], s.app)).1 _ (by simp)⟩

/-- A gate that is the first one on all its qubits is taken. -/
theorem front_progress (hs : Stored g.gate) (hh : isHad g = false) (hn : ∀ q ∈ g.gate.qubits, q < n) (hg : ∀ q ∈ g.gate.qubits, ∃ r, gates q = g :: r) :
    (front n gates).app ≠ [] := by
  have one : ∀ (qs : List ℕ) (s : Front) (q : ℕ), q ∈ qs → q ∈ g.gate.qubits → (qs.foldl (visitFront gates) s).app ≠ [] ∨ (isTwo g = true ∧ ∃ qs1 qs2 s1, qs = qs1 ++ q :: qs2 ∧
      s1 = (qs1 ++ [q]).foldl (visitFront gates) s ∧ g.idx ∈ s1.avail) := by
    intro qs s q hq hqg
    obtain ⟨qs1, qs2, rfl⟩ := List.append_of_mem hq
    obtain ⟨r, e⟩ := hg q hqg
    rcases visit_head e hs hh (qs1.foldl (visitFront gates) s) with h | ⟨h1, -, h2⟩
    · left
      rw [List.foldl_append, List.foldl_cons]
      exact (sweep_mono gates qs2 _).2 h
    · right
      exact ⟨h1, qs1, qs2, _, rfl, rfl, by rw [List.foldl_append]; exact h2⟩
  rcases stored_cases hs with ⟨q, e⟩ | ⟨c, t, hct, e⟩
  · rw [e] at hn hg
    rcases one (List.range n) {} q (List.mem_range.mpr (hn q (by simp))) (by rw [e]; simp) with h | ⟨h, -⟩
    · exact h
    · exfalso
      obtain ⟨a, b, hab, ha, hb⟩ := two_qubits h hs
      rw [e, List.mem_singleton] at ha hb
      exact hab (ha.trans hb.symm)
  · rw [e] at hn
    -- the smaller qubit first
    have key : ∀ a b, a < b → b < n → a ∈ g.gate.qubits → b ∈ g.gate.qubits → (front n gates).app ≠ [] := by
      intro a b hab hb ha' hb'
      have hr : List.range n = List.range b ++ (List.range' b (n - b)) := by
        rw [List.range_eq_range', List.range_eq_range']
        have := @List.range'_append 0 b (n - b) 1
        simp only [one_mul, zero_add] at this
        rw [this]
        congr 1
        omega
      have hr2 : List.range' b (n - b) = b :: List.range' (b + 1) (n - b - 1) := by
        obtain ⟨m, hm⟩ : ∃ m, n - b = m + 1 := ⟨n - b - 1, by omega⟩
        rw [hm]
        rfl
      unfold front
      rw [hr, hr2, List.foldl_append, List.foldl_cons]
      refine (sweep_mono gates _ _).2 ?_
      rcases one (List.range b) {} a (List.mem_range.mpr hab) ha' with h | ⟨-, qs1, qs2, s1, e1, e2, e3⟩
      · exact (visitFront_mono gates _ b).2 h
      · have h3 : g.idx ∈ ((List.range b).foldl (visitFront gates) {}).avail := by
          rw [e1, List.append_cons, List.foldl_append, ← e2]
          exact (sweep_mono gates qs2 s1).1 _ e3
        obtain ⟨r, e4⟩ := hg b hb'
        rcases visit_head e4 hs hh ((List.range b).foldl (visitFront gates) {}) with h | ⟨-, h, -⟩
        · exact h
        · exact absurd h3 h
    rcases lt_or_gt_of_ne hct with h | h
    · exact key c t h (hn t (by simp)) (by rw [e]; simp) (by rw [e]; simp)
    · exact key t c h (hn c (by simp)) (by rw [e]; simp) (by rw [e]; simp)

end PhaseBlock
end PyZX
