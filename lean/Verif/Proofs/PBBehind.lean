import Verif.Proofs.PBFront

/-!
# Helper lemmas for `phase_block_optimize`: the gates behind a Hadamard gate
-/

namespace PyZX
namespace PhaseBlock

open Optimize ToddSpec
open scoped List

variable {n : ℕ} {gates gates' : ℕ → List SG} {L : List SG} {g : SG}

/-- The gate is behind the Hadamard gate `h` on the qubit, with gates of its own type between them and gates of the other type before `h`. -/
structure Bhd (L : List SG) (r : ℕ) (g h : SG) (x : Bool) : Prop where
  mem : h ∈ L
  had : h.gate = .had r
  lt : h.idx < g.idx
  pre : ∀ y ∈ L, r ∈ y.gate.qubits → y.idx < h.idx → kind y.gate r = some (kd !x)
  mid : ∀ y ∈ L, r ∈ y.gate.qubits → h.idx < y.idx → y.idx ≤ g.idx → kind y.gate r = some (kd x)

theorem Bhd.sub {r : ℕ} {h : SG} {x : Bool} {L' : List SG} (hb : Bhd L r g h x) (hs : List.Sublist L' L) (hh : h ∈ L') : Bhd L' r g h x :=
  ⟨hh, hb.had, hb.lt, fun y hy => hb.pre y (hs.subset hy), fun y hy => hb.mid y (hs.subset hy)⟩

theorem flip_kd (x : Bool) : flipK (kd x) = kd !x := by cases x <;> rfl

theorem flagged_none (a : List SG) : flagged none a = false := by
  simp [flagged]

theorem flagged_some (h : SG) (a : List SG) : flagged (some h) a = decide (h ∈ a) := by
  rw [Bool.eq_iff_iff]
  simp [flagged]

theorem Free.way {r : ℕ} {a b : List SG} (hf : Free L r g) (e : L = a ++ g :: b) (ha : ∀ y ∈ a, y.idx < g.idx) {k : Kd} (hr : r ∈ g.gate.qubits)
    (hk : kind g.gate r = some k) : Way r k none a := by
  obtain ⟨x, hx⟩ := hf
  have := hx g (by rw [e]; simp) hr le_rfl
  rw [hk, Option.some.injEq] at this
  subst this
  intro a1 y a2 e1 hy
  rw [if_neg (by simp), flagged_none]
  exact hx y (by rw [e, e1]; simp) hy (ha y (by rw [e1]; simp)).le

theorem Bhd.way {r : ℕ} {a b : List SG} {h : SG} {x : Bool} (hb : Bhd L r g h x) (hs : L.Pairwise fun a b => a.idx < b.idx) (e : L = a ++ g :: b) (ha : ∀ y ∈ a, y.idx < g.idx)
    {k : Kd} (hr : r ∈ g.gate.qubits) (hk : kind g.gate r = some k) : Way r k (some h) a := by
  have := hb.mid g (by rw [e]; simp) hr hb.lt le_rfl
  rw [hk, Option.some.injEq] at this
  subst this
  intro a1 y a2 e1 hy
  have hyL : y ∈ L := by rw [e, e1]; simp
  rw [e, e1, List.append_assoc] at hs
  have hs1 := (List.pairwise_append.mp hs).2.1
  have hs2 := (List.pairwise_cons.mp hs1).1
  have hs3 := (List.pairwise_append.mp hs).2.2
  rw [flagged_some]
  by_cases c : some h = some y
  · rw [if_pos c]
    cases c
    refine ⟨hb.had, ?_⟩
    rw [decide_eq_false_iff_not]
    intro hm
    exact lt_irrefl _ (hs2 h (List.mem_append_left _ hm))
  · rw [if_neg c]
    by_cases hm : h ∈ a2
    · rw [if_pos (by simpa using hm), flip_kd]
      exact hb.pre y hyL hy (hs2 h (List.mem_append_left _ hm))
    · rw [if_neg (by simpa using hm)]
      have hy1 : y.idx < g.idx := ha y (by rw [e1]; simp)
      refine hb.mid y hyL hy ?_ hy1.le
      have hh := hb.mem
      rw [e, e1, List.append_assoc] at hh
      rcases List.mem_append.mp hh with hh | hh
      · exact hs3 h hh y (by simp)
      · rcases List.mem_cons.mp hh with rfl | hh
        · exact absurd rfl c
        · rcases List.mem_append.mp hh with hh | hh
          · exact absurd hh hm
          · have hlt := hb.lt
            have : g.idx ≤ h.idx := by
              rcases List.mem_cons.mp hh with rfl | hh
              · exact le_rfl
              · have h5 := (List.pairwise_append.mp hs1).2.1
                exact ((List.pairwise_cons.mp h5).1 h hh).le
            omega

/-- What is known about a gate on a qubit. -/
def At (L : List SG) (s : Front) (r : ℕ) (g : SG) : Prop :=
  (Free L r g ∧ isBehind s r g = false) ∨ ∃ h x, s.blocked r = some h ∧ Bhd L r g h x

theorem At.sub {s : Front} {r : ℕ} {L' : List SG} (h : At L s r g) (hs : List.Sublist L' L) (hh : ∀ h ∈ L, isHad h = true → h ∈ L') : At L' s r g := by
  rcases h with ⟨h1, h2⟩ | ⟨h', x, h1, h2⟩
  · exact Or.inl ⟨h1.sub hs, h2⟩
  · exact Or.inr ⟨h', x, h1, h2.sub hs (hh h' h2.mem (by rw [isHad, h2.had]))⟩

theorem isBehind_some {s : Front} {r : ℕ} {h : SG} (e : s.blocked r = some h) : isBehind s r g = decide (h.idx < g.idx) := by
  simp [isBehind, e]

/-- The Hadamard gate to pass. -/
def hadOf (s : Front) (r : ℕ) (g : SG) : Option SG := if isBehind s r g then s.blocked r else none

theorem At.way {s : Front} {r : ℕ} {a b : List SG} (h : At L s r g) (hs : L.Pairwise fun a b => a.idx < b.idx) (e : L = a ++ g :: b) (ha : ∀ y ∈ a, y.idx < g.idx)
    {k : Kd} (hr : r ∈ g.gate.qubits) (hk : kind g.gate r = some k) :
    Way r k (hadOf s r g) a ∧ flagged (hadOf s r g) a = isBehind s r g ∧ ∀ y, hadOf s r g = some y → y.gate = .had r := by
  rcases h with ⟨h1, h2⟩ | ⟨h', x, h1, h2⟩
  · rw [hadOf, h2, if_neg (by simp), flagged_none]
    exact ⟨h1.way e ha hr hk, rfl, by simp⟩
  · have hb : isBehind s r g = true := by rw [isBehind_some h1]; simpa using h2.lt
    rw [hadOf, hb, if_pos rfl, h1, flagged_some]
    refine ⟨h2.way hs e ha hr hk, ?_, ?_⟩
    · rw [decide_eq_true_eq]
      have hh := h2.mem
      rw [e] at hh hs
      rcases List.mem_append.mp hh with hh | hh
      · exact hh
      · exfalso
        have hlt := h2.lt
        rcases List.mem_cons.mp hh with rfl | hh
        · omega
        · have := (List.pairwise_cons.mp (List.pairwise_append.mp hs).2.1).1 h' hh
          omega
    · intro y hy
      cases hy
      exact h2.had

/-- A candidate. -/
structure Cand (L : List SG) (s : Front) (g : SG) : Prop where
  mem : g ∈ L
  two : isTwo g = true
  cond : ∀ r ∈ g.gate.qubits, At L s r g
  cz : ∀ c t, g.gate = .cz c t → (isBehind s c g = true ∧ isBehind s t g = false) ∨ (isBehind s c g = false ∧ isBehind s t g = true)

theorem Cand.sub {s : Front} {L' : List SG} (h : Cand L s g) (hs : List.Sublist L' L) (hg : g ∈ L') (hh : ∀ h ∈ L, isHad h = true → h ∈ L') : Cand L' s g :=
  ⟨hg, h.two, fun r hr => (h.cond r hr).sub hs hh, h.cz⟩

theorem two_shape (h2 : isTwo g = true) (hs : Stored g.gate) : ∃ c t, c ≠ t ∧ IsTwo g.gate c t ∧ g.gate.qubits = [c, t] := by
  unfold isTwo at h2
  cases hg : g.gate <;> rw [hg] at h2 hs <;> simp only [Bool.false_eq_true] at h2
  · exact ⟨_, _, hs, Or.inr rfl, rfl⟩
  · exact ⟨_, _, hs, Or.inl rfl, rfl⟩

/-- Move a candidate to the front. -/
theorem Cand.move {s : Front} (hF : Flt n gates L) (h : Cand L s g) {c t : ℕ} (hct : c ≠ t) (hg : IsTwo g.gate c t) (ψ : QState) :
    semGates (gs L) ψ = semGates (gs (L.erase g)) (op g.gate c t (isBehind s c g) (isBehind s t g) ψ) := by
  have hq : c ∈ g.gate.qubits ∧ t ∈ g.gate.qubits := by
    rcases hg with e | e <;> rw [e] <;> simp [Gate.qubits]
  obtain ⟨a, b, e, e', ha, -⟩ := split_at hF.sorted h.mem
  obtain ⟨k, hk⟩ : ∃ k, kind g.gate t = some k := by
    rcases hg with e | e <;> rw [e]
    · exact ⟨.z, by simp [kind]⟩
    · exact ⟨.x, by simp [kind, hct.symm]⟩
  obtain ⟨c1, c2, c3⟩ := (h.cond c hq.1).way hF.sorted e ha hq.1 hg.kind_c
  obtain ⟨t1, t2, t3⟩ := (h.cond t hq.2).way hF.sorted e ha hq.2 hk
  have key := PhaseBlock.move hg hct hk c3 t3 (a := a) (fun y hy => hF.stored (by rw [e]; simp [hy])) c1 t1 ψ
  rw [c2, t2] at key
  have e1 : gs L = (gs a ++ [g.gate]) ++ gs b := by rw [e]; simp [gs]
  rw [e', e1, semGates_append, key, gs_append, semGates_append]

/-- The map of a phase gate or CNOT in a block. -/
theorem pull_spec {s : Front} {st : (ℕ → List SG) × List Gate} (hF : Flt n st.1 L) (h : Cand L s g) :
    (pull s st g = some st) ∨ ∃ gates' b, pull s st g = some (gates', st.2 ++ [b]) ∧ Flt n gates' (L.erase g) ∧ PhaseGate n b ∧ b.tcount = 0 ∧
      ∀ ψ, semGates (gs L) ψ = semGates (b :: gs (L.erase g)) ψ := by
  obtain ⟨gates', e, hF'⟩ := hF.takeOut h.mem
  have hl := hF.lg g h.mem
  have h2 := h.two
  unfold pull
  unfold isTwo at h2
  cases hg : g.gate <;> rw [hg] at h2 hl <;> simp only [Bool.false_eq_true] at h2
  case cnot c t =>
    obtain ⟨t', -, h'⟩ | hl := hl
    · cases h'
    obtain ⟨lc, lt', hct⟩ := hl
    have hm := h.move hF hct (Or.inr hg)
    rw [hg] at hm
    simp only
    cases bt : isBehind s t g <;> cases bc : isBehind s c g <;> rw [bt, bc] at hm <;> simp only [Bool.and_true, Bool.and_false, Bool.false_eq_true, if_false, if_true]
    · exact Or.inl trivial
    · exact Or.inl trivial
    · right
      exact ⟨gates', .cz c t, by rw [e]; rfl, hF', ⟨lc, lt', hct⟩, rfl, fun ψ => by rw [hm, op_cnot_t hct]; rfl⟩
    · right
      exact ⟨gates', .cnot t c, by rw [e]; rfl, hF', ⟨lt', lc, hct.symm⟩, rfl, fun ψ => by rw [hm, op_cnot_ct hct]; rfl⟩
  case cz c t =>
    obtain ⟨t', -, h'⟩ | hl := hl
    · cases h'
    obtain ⟨lc, lt', hct⟩ := hl
    have hm := h.move hF hct (Or.inl hg)
    rw [hg] at hm
    simp only
    right
    rcases h.cz c t hg with ⟨bc, bt⟩ | ⟨bc, bt⟩
    · rw [bc, bt] at hm
      have e0 : isBehind s (if c = if isBehind s t g then t else c then t else c) g = false := by rw [bt]; simpa using bt
      refine ⟨gates', .cnot t c, ?_, hF', ⟨lt', lc, hct.symm⟩, rfl, fun ψ => by rw [hm, op_cz_c hct]; rfl⟩
      rw [e0, e, bt]
      simp
    · rw [bc, bt] at hm
      have e0 : isBehind s (if c = if isBehind s t g then t else c then t else c) g = false := by rw [bt]; simpa [hct] using bc
      refine ⟨gates', .cnot c t, ?_, hF', ⟨lc, lt', hct⟩, rfl, fun ψ => by rw [hm, op_cz_t hct]; rfl⟩
      rw [e0, e, bt]
      simp [hct]

/-! ### The search for candidates -/

/-- The invariant of the search: the gates behind the Hadamard gate of `q` that have been passed are `pre`. -/
structure BI (L : List SG) (s : Front) (D : ℕ → Prop) (q : ℕ) (pre : List SG) (a : List ℕ × List SG) : Prop where
  av : ∀ i ∈ a.1, ∃ g ∈ L, g.idx = i ∧ ∃ r ∈ g.gate.qubits, (Free L r g ∧ isBehind s r g = false) ∨
    ((D r ∨ (r = q ∧ g ∈ pre)) ∧ (∃ c t, g.gate = .cnot c t) ∧ ∃ h x, s.blocked r = some h ∧ Bhd L r g h x)
  ca : ∀ g ∈ a.2, Cand L s g
  nd : a.2.Nodup

variable {s : Front} {D : ℕ → Prop} {q : ℕ} {pre : List SG} {a : List ℕ × List SG}

theorem BI.grow (h : BI L s D q pre a) (g : SG) : BI L s D q (pre ++ [g]) a := by
  refine ⟨fun i hi => ?_, h.ca, h.nd⟩
  obtain ⟨g', a1, a2, r, a3, a4⟩ := h.av i hi
  refine ⟨g', a1, a2, r, a3, ?_⟩
  rcases a4 with a4 | ⟨a4, a5⟩
  · exact Or.inl a4
  · refine Or.inr ⟨?_, a5⟩
    rcases a4 with a4 | ⟨a4, a6⟩
    · exact Or.inl a4
    · exact Or.inr ⟨a4, by simp [a6]⟩

theorem scanBehind_spec (hF : Flt n gates L) (hD : ¬ D q) {h : SG} (hb : s.blocked q = some h) (hhL : h ∈ L) (hhg : h.gate = .had q) {x : Bool}
    (hpre : ∀ y ∈ L, q ∈ y.gate.qubits → y.idx < h.idx → kind y.gate q = some (kd !x)) :
    ∀ {l pre A : List SG} {a : List ℕ × List SG}, gates q = A ++ h :: (pre ++ l) → (∀ y ∈ pre, kind y.gate q = some (kd x)) → BI L s D q pre a →
      ∃ pre', BI L s D q pre' (scanBehind q x l a)
  | [], pre, A, a, e, hk, hi => ⟨pre, hi⟩
  | g :: r, pre, A, a, e, hk, hi => by
    have e0 : gates q = (A ++ h :: pre) ++ g :: r := by rw [e]; simp
    have e' : gates q = A ++ h :: ((pre ++ [g]) ++ r) := by rw [e]; simp
    obtain ⟨hL, hq⟩ := hF.at e0
    have hs := hF.stored hL
    have hnp : g ∉ pre := fun hm => lt_irrefl _ (hF.pre_lt e0 (by simp [hm]))
    have hlt : h.idx < g.idx := hF.pre_lt e0 (by simp)
    rw [scanBehind]
    by_cases c1 : isHad g = true
    · rw [if_pos c1]; exact ⟨pre, hi⟩
    rw [if_neg c1]
    have c1' : isHad g = false := by simpa using c1
    have hty := kind_typeOf hs hq c1'
    have bhd : typeOf q g = x → Bhd L q g h x := by
      intro et
      refine ⟨hhL, hhg, hlt, hpre, fun y hy hyq h1 h2 => ?_⟩
      rcases lt_or_eq_of_le h2 with h2 | h2
      · have := hF.before e0 hy hyq h2
        rcases List.mem_append.mp this with h3 | h3
        · exact absurd (hF.pre_lt e h3) (by omega)
        · rcases List.mem_cons.mp h3 with rfl | h3
          · exact absurd h1 (lt_irrefl _)
          · exact hk y h3
      · rw [hF.inj hy hL h2, hty, et]
    have grow : typeOf q g = x → ∀ y ∈ pre ++ [g], kind y.gate q = some (kd x) := by
      intro et y hy
      rcases List.mem_append.mp hy with hy | hy
      · exact hk y hy
      · rw [List.mem_singleton.mp hy, hty, et]
    by_cases c2 : isZPhase g = true
    · rw [if_pos c2]
      by_cases cx : x = true
      · rw [if_pos cx]; exact ⟨pre, hi⟩
      · rw [if_neg cx]
        have et : typeOf q g = x := by
          unfold typeOf
          rw [c2]
          simp only [Bool.not_eq_true] at cx
          rw [cx]; rfl
        exact scanBehind_spec hF hD hb hhL hhg hpre e' (grow et) (hi.grow g)
    rw [if_neg c2]
    by_cases c3 : typeOf q g ≠ x
    · rw [if_pos c3]; exact ⟨pre, hi⟩
    rw [if_neg c3]
    have et : typeOf q g = x := not_not.mp c3
    have h2 : isTwo g = true := isTwo_of hs c1' (by simpa using c2)
    have hbq : isBehind s q g = true := by rw [isBehind_some hb]; simpa using hlt
    by_cases c4 : g.idx ∈ a.1
    · rw [if_pos c4]
      obtain ⟨g', a1, a2, w, a3, a4⟩ := hi.av _ c4
      have eg := hF.inj a1 hL a2
      subst eg
      have hw : w ≠ q := by
        rintro rfl
        rcases a4 with a4 | ⟨a4 | a4, -⟩
        · rw [hbq] at a4; exact absurd a4.2 (by simp)
        · exact hD a4
        · exact hnp a4.2
      obtain ⟨-, hall⟩ := isTwo_other hs h2 hq a3 hw
      have hcand : Cand L s g' := by
        refine ⟨hL, h2, fun r hr => ?_, fun c t hg => ?_⟩
        · rcases hall r hr with rfl | rfl
          · exact Or.inr ⟨h, x, hb, bhd et⟩
          · rcases a4 with a4 | ⟨-, -, a4⟩
            · exact Or.inl a4
            · exact Or.inr a4
        · have hwf : isBehind s w g' = false := by
            rcases a4 with a4 | ⟨-, ⟨c', t', a4⟩, -⟩
            · exact a4.2
            · rw [hg] at a4; cases a4
          rw [hg] at hq a3
          simp only [Gate.qubits, List.mem_cons, List.not_mem_nil, or_false] at hq a3
          rcases hq with rfl | rfl <;> rcases a3 with rfl | rfl
          · exact absurd rfl hw
          · exact Or.inl ⟨hbq, hwf⟩
          · exact Or.inr ⟨hwf, hbq⟩
          · exact absurd rfl hw
      refine scanBehind_spec hF hD hb hhL hhg hpre e' (grow et) ?_
      have hi' := hi.grow g'
      refine ⟨hi'.av, fun g'' hg'' => ?_, ?_⟩
      · simp only at hg''
        by_cases c5 : g' ∈ a.2
        · rw [if_pos c5] at hg''; exact hi.ca g'' hg''
        · rw [if_neg c5] at hg''
          rcases List.mem_append.mp hg'' with hg'' | hg''
          · exact hi.ca g'' hg''
          · rw [List.mem_singleton.mp hg'']; exact hcand
      · simp only
        by_cases c5 : g' ∈ a.2
        · rw [if_pos c5]; exact hi.nd
        · rw [if_neg c5, List.nodup_append]
          refine ⟨hi.nd, by simp, ?_⟩
          rintro u hu v hv rfl
          rw [List.mem_singleton] at hv
          exact c5 (hv ▸ hu)
    · rw [if_neg c4]
      refine scanBehind_spec hF hD hb hhL hhg hpre e' (grow et) ?_
      have hi' := hi.grow g
      cases hg : g.gate with
      | cnot c t =>
        refine ⟨fun i hi'' => ?_, hi.ca, hi.nd⟩
        simp only at hi''
        rcases List.mem_append.mp hi'' with hi'' | hi''
        · exact hi'.av i hi''
        · rw [List.mem_singleton.mp hi'']
          exact ⟨g, hL, rfl, q, hq, Or.inr ⟨Or.inr ⟨rfl, by simp⟩, ⟨c, t, hg⟩, h, x, hb, bhd et⟩⟩
      | _ => exact ⟨hi'.av, hi.ca, hi.nd⟩


theorem BI.done {pre : List SG} (h : BI L s D q pre a) : ∀ q', BI L s (fun r => D r ∨ r = q) q' [] a := fun q' => by
  refine ⟨fun i hi => ?_, h.ca, h.nd⟩
  obtain ⟨g', a1, a2, r, a3, a4⟩ := h.av i hi
  refine ⟨g', a1, a2, r, a3, ?_⟩
  rcases a4 with a4 | ⟨a4, a5⟩
  · exact Or.inl a4
  · refine Or.inr ⟨Or.inl ?_, a5⟩
    rcases a4 with a4 | a4
    · exact Or.inl a4
    · exact Or.inr a4.1

/-- Two Hadamard gates next to each other. -/
structure Double (gates : ℕ → List SG) (L : List SG) (q : ℕ) (h g : SG) (gates' : ℕ → List SG) : Prop where
  eq : ∃ A B, gates q = A ++ h :: g :: B
  hh : h.gate = .had q
  hg : g.gate = .had q
  upd : ∀ r, gates' r = ((gates r).erase h).erase g

theorem behind_spec (hF : Flt n gates L) (hV : VI L (fun r => r < n) s) : ∀ {qs : List ℕ} {D : ℕ → Prop} {a : List ℕ × List SG}, qs.Nodup → (∀ q ∈ qs, ¬ D q) →
    (∀ q, BI L s D q [] a) → (∃ gates' q h g, behind gates s qs a = some (.inl gates') ∧ Double gates L q h g gates') ∨
      ∃ a', behind gates s qs a = some (.inr a') ∧ (∀ g ∈ a'.2, Cand L s g) ∧ a'.2.Nodup
  | [], D, a, _, _, h => Or.inr ⟨a, rfl, (h 0).ca, (h 0).nd⟩
  | q :: qs, D, a, hn, hD, h => by
    obtain ⟨hq, hn'⟩ := List.nodup_cons.mp hn
    have hD0 : ¬ D q := hD q (by simp)
    have hD' : ∀ r ∈ qs, ¬ (D r ∨ r = q) := by
      rintro r hr (h' | h')
      · exact hD r (by simp [hr]) h'
      · exact hq (h' ▸ hr)
    have skip := behind_spec hF hV hn' hD' (h q).done
    rw [behind]
    cases eb : s.blocked q with
    | none => exact skip
    | some hd =>
      obtain ⟨-, b2, b3, b4⟩ := hV.blk q hd eb
      have hm : hd ∈ gates q := hF.mem.mpr ⟨b2, by rw [b3]; simp [Gate.qubits]⟩
      simp only [hm, not_true_eq_false, if_false]
      obtain ⟨A, B, e, e', hA, hB⟩ := split_mem hm (hF.nodupq q)
      have ed : (gates q).drop ((gates q).idxOf hd + 1) = B := by
        rw [e, List.idxOf_append_of_notMem hA, List.idxOf_cons_self]
        simp
      rw [ed]
      cases B with
      | nil => exact skip
      | cons g r =>
        simp only
        have e0 : gates q = (A ++ [hd]) ++ g :: r := by rw [e]; simp
        obtain ⟨hL, hqg⟩ := hF.at e0
        by_cases c1 : isHad g = true
        · rw [if_pos c1]
          left
          have hne : hd ≠ g := fun e => hB (by rw [e]; simp)
          have hgm : g ∈ (gates q).erase hd := by rw [e']; simp
          refine ⟨Function.update gates q (((gates q).erase hd).erase g), q, hd, g, ?_, ⟨A, r, e⟩, b3, had_at c1 hqg, fun w => ?_⟩
          · rw [remove_of_mem hm]
            simp only [Option.bind_eq_bind, Option.bind_some]
            rw [remove_of_mem hgm]
            rfl
          · by_cases hw : w = q
            · subst hw; rw [Function.update_self]
            · rw [Function.update_of_ne hw]
              have n1 : hd ∉ gates w := by
                intro h'
                have := (hF.mem.mp h').2
                rw [b3] at this
                simp only [Gate.qubits, List.mem_singleton] at this
                exact hw this
              have n2 : g ∉ gates w := by
                intro h'
                have := (hF.mem.mp h').2
                rw [had_at c1 hqg] at this
                simp only [Gate.qubits, List.mem_singleton] at this
                exact hw this
              rw [List.erase_of_not_mem n1, List.erase_of_not_mem n2]
        · rw [if_neg c1]
          by_cases c2 : s.type q = some (typeOf q g)
          · rw [if_pos c2]; exact skip
          · rw [if_neg c2]
            obtain ⟨pre', hp⟩ := scanBehind_spec hF hD0 eb b2 b3 (x := typeOf q g) (fun y hy hyq hi => by
              obtain ⟨x, h1, h2⟩ := b4 y hy hyq hi
              rw [h2]
              rw [h1, Option.some.injEq] at c2
              have : x = !typeOf q g := by
                cases x <;> cases ht : typeOf q g <;> simp_all
              rw [this]) (l := g :: r) (pre := []) (A := A) (a := a) (by rw [e]; rfl) (by simp) (h q)
            exact behind_spec hF hV hn' hD' hp.done

end PhaseBlock
end PyZX
