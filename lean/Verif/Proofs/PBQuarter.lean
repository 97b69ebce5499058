import Verif.Proofs.OptRounds
import Verif.Model.PhaseBlock

/-!
# Helper lemmas for `phase_block_optimize`: a pass of the optimiser keeps multiples of `π/4`
-/

namespace PyZX
namespace PhaseBlock

open Optimize

/-- A multiple of `1/4`. -/
def Qr (p : ℚ) : Prop := ∃ k : ℤ, 4 * p = k

theorem Qr.add {p q : ℚ} (hp : Qr p) (hq : Qr q) : Qr (p + q) := by
  obtain ⟨a, ha⟩ := hp
  obtain ⟨b, hb⟩ := hq
  exact ⟨a + b, by push_cast; linarith⟩

theorem Qr.neg {p : ℚ} (hp : Qr p) : Qr (-p) := by
  obtain ⟨a, ha⟩ := hp
  exact ⟨-a, by push_cast; linarith⟩

theorem Qr.one : Qr 1 := ⟨4, by norm_num⟩
theorem Qr.zero : Qr 0 := ⟨0, by norm_num⟩

theorem Qr.mod2 {p : ℚ} (hp : Qr p) : Qr (PyZX.mod2 p) := by
  obtain ⟨a, ha⟩ := hp
  exact ⟨a - 8 * ⌊p / 2⌋, by unfold PyZX.mod2; push_cast; linarith⟩

/-- If the gate is a phase gate, then the phase is a multiple of `π/4`. -/
def QIn : Gate → Prop
  | .zrot _ _ p _ => Qr p
  | _ => True

/-- The gates that are placed: the phase is a multiple of `π/4`. -/
def QGate : Gate → Prop
  | .zrot _ _ p _ => Qr p
  | .had _ => True
  | .cz _ _ => True
  | .cnot _ _ => True
  | _ => False

theorem QGate.inp {g : Gate} (h : QGate g) : QIn g := by
  cases g <;> first | exact h | trivial

/-- All gates in the lists. -/
def QAll (gates : ℕ → List SG) : Prop := ∀ q, ∀ g ∈ gates q, QGate g.gate

variable {s s' : State}

theorem QAll.update {gates : ℕ → List SG} (h : QAll gates) {t : ℕ} {l : List SG} (hl : ∀ g ∈ l, QGate g.gate) : QAll (Function.update gates t l) := by
  intro q g hg
  by_cases e : q = t
  · subst e; rw [Function.update_self] at hg; exact hl g hg
  · rw [Function.update_of_ne e] at hg; exact h q g hg

theorem QAll.app {gates : ℕ → List SG} (h : QAll gates) {t : ℕ} {x : SG} (hx : QGate x.gate) : QAll (Function.update gates t (gates t ++ [x])) :=
  h.update fun g hg => by
    rcases List.mem_append.mp hg with hg | hg
    · exact h t g hg
    · rw [List.mem_singleton.mp hg]; exact hx

theorem remove_some {l l' : List SG} {g : SG} (h : Optimize.remove l g = some l') : g ∈ l ∧ l' = l.erase g := by
  unfold Optimize.remove at h
  by_cases hg : g ∈ l
  · rw [if_pos hg] at h; exact ⟨hg, (Option.some.inj h).symm⟩
  · rw [if_neg hg] at h; cases h

theorem QAll.addHad (h : QAll s.gates) (t : ℕ) : QAll (addHad s t).gates := h.app trivial
theorem QAll.addGate (h : QAll s.gates) (t : ℕ) {g : Gate} (hg : QGate g) : QAll (addGate s t g).gates := h.app hg
theorem QAll.reset (h : QAll s.gates) (t : ℕ) (x : Bool) : QAll (reset s t x).gates := h

theorem QAll.addTwo (h : QAll s.gates) (a b : ℕ) {g : Gate} (hg : QGate g) : QAll (addTwo s a b g).gates :=
  QAll.addGate (s := { Optimize.addGate s a g with count := s.count }) (QAll.addGate h a hg) b hg

theorem QAll.cancel (h : QAll s.gates) {a b : ℕ} {g : SG} (e : cancel s a b g = some s') : QAll s'.gates := by
  simp only [Optimize.cancel, Option.bind_eq_bind, Option.bind_eq_some_iff] at e
  obtain ⟨aa, -, ga, h1, ab, -, gb, h2, e⟩ := e
  cases e
  obtain ⟨-, rfl⟩ := remove_some h1
  obtain ⟨-, rfl⟩ := remove_some h2
  exact (h.update fun x hx => h a x (List.mem_of_mem_erase hx)).update fun x hx => h b x (List.mem_of_mem_erase hx)

theorem qs (t : ℕ) (adj : Bool) : QGate (.mkS t adj) := by
  cases adj
  · exact ⟨2, by norm_num⟩
  · exact ⟨-2, by norm_num⟩

theorem QAll.cnotCz (h : QAll s.gates) {c t : ℕ} {g : SG} (e : cnotCz s c t g = some s') : QAll s'.gates := by
  simp only [Optimize.cnotCz, Option.bind_eq_bind, Option.bind_eq_some_iff] at e
  obtain ⟨gt, h1, gc, h2, ac, -, e⟩ := e
  cases e
  obtain ⟨hg, rfl⟩ := remove_some h1
  obtain ⟨-, rfl⟩ := remove_some h2
  have h3 : ∀ x ∈ (s.gates t).erase g, QGate x.gate := fun x hx => h t x (List.mem_of_mem_erase hx)
  refine (h.update fun x hx => ?_).update fun x hx => ?_
  · simp only [List.append_assoc, List.mem_append, List.mem_cons, List.not_mem_nil, or_false] at hx
    rcases hx with hx | (rfl | rfl) | hx | rfl
    · exact h3 x (List.mem_of_mem_take hx)
    · exact qs _ _
    · exact h t _ hg
    · exact h3 x (List.mem_of_mem_drop hx)
    · exact qs _ _
  · simp only [List.mem_append, List.mem_cons, List.not_mem_nil, or_false] at hx
    rcases hx with hx | rfl | rfl
    · exact h c x (List.mem_of_mem_erase hx)
    · exact h t _ hg
    · exact qs _ _

theorem QAll.addCzPlain (h : QAll s.gates) {a b : ℕ} (e : addCzPlain s a b = some s') : QAll s'.gates := by
  unfold Optimize.addCzPlain at e
  have k1 : QAll (if s.xtype a then Optimize.reset s a false else s).gates := by split <;> exact h
  generalize (if s.xtype a then Optimize.reset s a false else s) = s1 at e k1
  have k2 : QAll (if s1.xtype b then Optimize.reset s1 b false else s1).gates := by split <;> exact k1
  dsimp only at e
  generalize (if s1.xtype b then Optimize.reset s1 b false else s1) = s2 at e k2
  split at e
  · split at e
    · exact k2.cancel e
    · cases e; exact k2.addTwo a b trivial
  · cases e; exact k2.addTwo a b trivial

theorem QAll.addCz (h : QAll s.gates) {min : Bool} {a b : ℕ} (e : addCz min s a b = some s') : QAll s'.gates := by
  unfold Optimize.addCz at e
  split at e
  · split at e
    · exact h.cnotCz e
    · split at e
      · exact h.cnotCz e
      · exact h.addCzPlain e
  · exact h.addCzPlain e

theorem QAll.swapRule (h : QAll s.gates) {c t : ℕ} {g : SG} (e : swapRule s c t g = some s') : QAll s'.gates := by
  simp only [Optimize.swapRule, Option.bind_eq_bind, Option.bind_eq_some_iff] at e
  obtain ⟨gc, h1, gt, h2, e⟩ := e
  cases e
  obtain ⟨-, rfl⟩ := remove_some h1
  obtain ⟨-, rfl⟩ := remove_some h2
  refine (h.update fun x hx => ?_).update fun x hx => ?_
  · rcases List.mem_append.mp hx with hx | hx
    · exact h c x (List.mem_of_mem_erase hx)
    · rw [List.mem_singleton.mp hx]; trivial
  · rcases List.mem_append.mp hx with hx | hx
    · exact h t x (List.mem_of_mem_erase hx)
    · rw [List.mem_singleton.mp hx]; trivial

theorem QAll.addCnotPlain (h : QAll s.gates) {c t : ℕ} (e : addCnotPlain s c t = some s') : QAll s'.gates := by
  unfold Optimize.addCnotPlain at e
  have k1 : QAll (if s.xtype c then Optimize.reset s c false else s).gates := by split <;> exact h
  generalize (if s.xtype c then Optimize.reset s c false else s) = s1 at e k1
  have k2 : QAll (if s1.xtype t then s1 else Optimize.reset s1 t true).gates := by split <;> exact k1
  dsimp only at e
  generalize (if s1.xtype t then s1 else Optimize.reset s1 t true) = s2 at e k2
  split at e
  · split at e
    · exact k2.cancel e
    · cases e; exact k2.addTwo c t trivial
  · cases e; exact k2.addTwo c t trivial

theorem QAll.addCnot (h : QAll s.gates) {ds : Bool} {c t : ℕ} (e : addCnot ds s c t = some s') : QAll s'.gates := by
  unfold Optimize.addCnot at e
  split at e
  · split at e
    · split at e
      · exact h.swapRule e
      · exact h.addCnotPlain e
    · exact h.addCnotPlain e
  · exact h.addCnotPlain e

theorem QAll.hadSHad (h : QAll s.gates) {t : ℕ} (e : hadSHad s t = some s') : QAll s'.gates := by
  unfold Optimize.hadSHad at e
  split at e
  · rename_i g2 hd r er
    split at e
    · rename_i cls t2 p adj eg
      split at e
      · cases e
        have hm : ∀ x ∈ g2 :: hd :: r, QGate x.gate := fun x hx => h t x (by rw [← er] at hx; simpa using hx)
        have hp : Qr p := by
          have := hm g2 (by simp)
          rw [eg] at this
          exact this
        refine h.update fun x hx => ?_
        simp only [List.mem_append, List.mem_reverse, List.mem_cons, List.not_mem_nil, or_false] at hx
        rcases hx with hx | rfl | rfl | rfl
        · exact hm x (by simp [hx])
        · exact hp.neg.mod2
        · exact hm _ (by simp)
        · exact hp.neg.mod2
      · cases e
    · cases e
  · cases e

theorem QAll.parseHad (h : QAll s.gates) (t : ℕ) : QAll (parseHad s t).gates := by
  unfold Optimize.parseHad
  have k1 : QAll (if t ∈ s.nots ∧ t ∉ s.zs then { s with nots := s.nots.erase t, zs := s.zs ++ [t] } else if t ∈ s.zs ∧ t ∉ s.nots then { s with zs := s.zs.erase t, nots := s.nots ++ [t] } else s).gates := by
    split
    · exact h
    · split <;> exact h
  dsimp only
  generalize (if t ∈ s.nots ∧ t ∉ s.zs then { s with nots := s.nots.erase t, zs := s.zs ++ [t] } else if t ∈ s.zs ∧ t ∉ s.nots then { s with zs := s.zs.erase t, nots := s.nots ++ [t] } else s) = s1 at k1 ⊢
  split
  · exact k1.hadSHad ‹_›
  · exact k1

theorem QAll.placeZ (h : QAll s.gates) {t : ℕ} {p : ℚ} (hp : Qr p) (e : placeZ s t p = some s') : QAll s'.gates := by
  unfold Optimize.placeZ at e
  split at e
  · rename_i g2 _
    simp only [Option.bind_eq_bind, Option.bind_eq_some_iff] at e
    obtain ⟨gt, h1, e⟩ := e
    obtain ⟨hg, rfl⟩ := remove_some h1
    have hq : Qr (phaseOf g2) := by
      have := h t g2 hg
      unfold phaseOf
      split
      · rename_i e2; rw [e2] at this; exact this
      · exact Qr.zero
    have k1 : QAll (Function.update s.gates t ((s.gates t).erase g2)) := h.update fun x hx => h t x (List.mem_of_mem_erase hx)
    split at e
    · cases e; exact k1
    · split at e
      · cases e
        exact QAll.addGate (s := { s with avail := Function.update s.avail t ((s.avail t).eraseP isZPhase), gates := Function.update s.gates t ((s.gates t).erase g2) }) k1 t (hp.add hq).mod2
      · cases e; exact k1
  · cases e
    refine QAll.addGate ?_ t hp
    split <;> exact h

theorem QAll.parseZ (h : QAll s.gates) {t : ℕ} {p : ℚ} (hp : Qr p) (e : parseZ s t p = some s') : QAll s'.gates := by
  unfold Optimize.parseZ at e
  have k1 : Qr (if t ∈ s.zs then mod2 (p + 1) else p) := by
    split
    · exact (hp.add Qr.one).mod2
    · exact hp
  dsimp only at e
  generalize (if t ∈ s.zs then mod2 (p + 1) else p) = p1 at e k1
  split at e
  · cases e; exact h
  · have k2 : Qr (if t ∈ s.nots then mod2 (-p1) else p1) := by
      split
      · exact k1.neg.mod2
      · exact k1
    generalize (if t ∈ s.nots then mod2 (-p1) else p1) = p2 at e k2
    split at e
    · cases e; exact h
    · refine QAll.placeZ ?_ k2 e
      split
      · exact QAll.addHad (s := { s with zs := s.zs.erase t }) h t
      · exact h

theorem QAll.parseCz (h : QAll s.gates) {min ds : Bool} {a b : ℕ} (e : parseCz min ds s a b = some s') : QAll s'.gates := by
  unfold Optimize.parseCz at e
  have k1 : QAll (if a ∈ s.nots then { s with zs := toggle s.zs b } else s).gates := by split <;> exact h
  dsimp only at e
  generalize (if a ∈ s.nots then { s with zs := toggle s.zs b } else s) = s1 at e k1
  have k2 : QAll (if b ∈ s1.nots then { s1 with zs := toggle s1.zs a } else s1).gates := by split <;> exact k1
  generalize (if b ∈ s1.nots then { s1 with zs := toggle s1.zs a } else s1) = s2 at e k2
  have k3 : QAll (if a ∈ s2.hads ∧ b ∈ s2.hads then Optimize.addHad (Optimize.addHad s2 a) b else s2).gates := by
    split
    · exact (k2.addHad a).addHad b
    · exact k2
  generalize (if a ∈ s2.hads ∧ b ∈ s2.hads then Optimize.addHad (Optimize.addHad s2 a) b else s2) = s3 at e k3
  split at e
  · split at e <;> exact k3.addCz e
  · split at e <;> exact k3.addCnot e

theorem QAll.parseCnot (h : QAll s.gates) {min ds : Bool} {c t : ℕ} (e : parseCnot min ds s c t = some s') : QAll s'.gates := by
  unfold Optimize.parseCnot at e
  have k1 : QAll (if c ∈ s.nots then { s with nots := toggle s.nots t } else s).gates := by split <;> exact h
  dsimp only at e
  generalize (if c ∈ s.nots then { s with nots := toggle s.nots t } else s) = s1 at e k1
  have k2 : QAll (if t ∈ s1.zs then { s1 with zs := toggle s1.zs c } else s1).gates := by split <;> exact k1
  generalize (if t ∈ s1.zs then { s1 with zs := toggle s1.zs c } else s1) = s2 at e k2
  split at e
  · exact k2.addCnot e
  · split at e
    · exact k2.addCnot e
    · split at e
      · exact k2.addCz e
      · exact (k2.addHad c).addCnot e

theorem QAll.parseGate (h : QAll s.gates) {min ds : Bool} {g : Gate} (hg : QIn g) (e : parseGate min ds s g = some s') : QAll s'.gates := by
  cases g with
  | had t =>
    simp only [Optimize.parseGate, Option.map_eq_some_iff] at e
    obtain ⟨t', -, rfl⟩ := e
    exact h.parseHad t'
  | xrot cls t p adj =>
    cases cls with
    | not =>
      simp only [Optimize.parseGate, Option.map_eq_some_iff] at e
      obtain ⟨t', -, rfl⟩ := e
      exact h
    | _ => simp [Optimize.parseGate] at e
  | zrot cls t p adj =>
    simp only [Optimize.parseGate, Option.bind_eq_some_iff] at e
    obtain ⟨t', -, e⟩ := e
    exact h.parseZ hg e
  | cz c t =>
    simp only [Optimize.parseGate, Option.bind_eq_bind, Option.bind_eq_some_iff] at e
    obtain ⟨c', -, t', -, e⟩ := e
    exact h.parseCz e
  | cnot c t =>
    simp only [Optimize.parseGate, Option.bind_eq_bind, Option.bind_eq_some_iff] at e
    obtain ⟨c', -, t', -, e⟩ := e
    exact h.parseCnot e
  | _ => simp [Optimize.parseGate] at e

theorem QAll.parseGates {min ds : Bool} : ∀ {l : List Gate} {s s' : State}, QAll s.gates → (∀ g ∈ l, QIn g) → l.foldlM (Optimize.parseGate min ds) s = some s' → QAll s'.gates
  | [], s, s', h, _, e => by cases e; exact h
  | g :: l, s, s', h, hl, e => by
    simp only [List.foldlM_cons, Option.bind_eq_bind, Option.bind_eq_some_iff] at e
    obtain ⟨s1, e1, e⟩ := e
    exact QAll.parseGates (h.parseGate (hl g (by simp)) e1) (fun g hg => hl g (by simp [hg])) e

theorem QAll.hads : ∀ {l : List ℕ} {s : State}, QAll s.gates → QAll (l.foldl Optimize.addHad s).gates
  | [], _, h => h
  | t :: l, _, h => QAll.hads (l := l) (h.addHad t)

theorem QAll.zs : ∀ {l : List ℕ} {s : State}, QAll s.gates → QAll (l.foldl placePauliZ s).gates
  | [], _, h => h
  | t :: l, s, h => QAll.zs (l := l) (s := placePauliZ s t) (QAll.app h Qr.one)

/-! ### Sorting -/

/-- All gates of the state. -/
def QTop (s : TopState) : Prop := QAll s.gates ∧ ∀ g ∈ s.out, QGate g.gate

theorem QTop.emit {s s' : TopState} (h : QTop s) {q : ℕ} {g : SG} (e : emitTwo s q g = some s') : QTop s' := by
  simp only [emitTwo, Option.bind_eq_bind, Option.bind_eq_some_iff] at e
  obtain ⟨l, h1, e⟩ := e
  cases e
  obtain ⟨hg, rfl⟩ := remove_some h1
  refine ⟨h.1.update fun x hx => h.1 _ x (List.mem_of_mem_erase hx), fun x hx => ?_⟩
  rcases List.mem_append.mp hx with hx | hx
  · exact h.2 x hx
  · rw [List.mem_singleton.mp hx]; exact h.1 _ g hg

theorem QTop.out {s : TopState} (h : QTop s) {g : SG} (hg : QGate g.gate) : QTop { s with out := s.out ++ [g] } :=
  ⟨h.1, fun x hx => by
    rcases List.mem_append.mp hx with hx | hx
    · exact h.2 x hx
    · rw [List.mem_singleton.mp hx]; exact hg⟩

theorem QTop.scan {q : ℕ} {x : Bool} : ∀ {l : List SG} {s : TopState} {r : List SG × TopState}, QTop s → (∀ g ∈ l, QGate g.gate) → scan q x l s = some r → QTop r.2 ∧ ∀ g ∈ r.1, QGate g.gate
  | [], s, r, h, hl, e => by cases e; exact ⟨h, by simp⟩
  | g :: l, s, r, h, hl, e => by
    have hg := hl g (by simp)
    have hl' : ∀ g ∈ l, QGate g.gate := fun g hg => hl g (by simp [hg])
    rw [Optimize.scan] at e
    split at e
    · exact QTop.scan (h.out hg) hl' e
    · split at e
      · cases e; exact ⟨h, hl⟩
      · split at e
        · split at e
          · simp only [Option.bind_eq_some_iff] at e
            obtain ⟨s1, e1, e⟩ := e
            exact QTop.scan (h.emit e1) hl' e
          · simp only [Option.map_eq_some_iff] at e
            obtain ⟨p, e1, rfl⟩ := e
            obtain ⟨k1, k2⟩ := QTop.scan (s := { s with avail := g.idx :: s.avail }) h hl' e1
            refine ⟨k1, fun x hx => ?_⟩
            rcases List.mem_cons.mp hx with rfl | hx
            · exact hg
            · exact k2 x hx
        · cases e; exact ⟨h, hl⟩

theorem QTop.visit {q : ℕ} : ∀ {l : List SG} {s : TopState} {r : List SG × TopState}, QTop s → (∀ g ∈ l, QGate g.gate) → visit q l s = some r → QTop r.2 ∧ ∀ g ∈ r.1, QGate g.gate
  | [], s, r, h, hl, e => by cases e; exact ⟨h, by simp⟩
  | g :: l, s, r, h, hl, e => by
    have hg := hl g (by simp)
    have hl' : ∀ g ∈ l, QGate g.gate := fun g hg => hl g (by simp [hg])
    rw [Optimize.visit] at e
    split at e
    · exact QTop.visit (h.out hg) hl' e
    · split at e
      · simp only [Option.bind_eq_some_iff] at e
        obtain ⟨s1, e1, e⟩ := e
        exact QTop.visit (h.emit e1) hl' e
      · simp only [Option.map_eq_some_iff] at e
        obtain ⟨p, e1, rfl⟩ := e
        obtain ⟨k1, k2⟩ := QTop.scan (s := { s with avail := g.idx :: s.avail }) h hl' e1
        refine ⟨k1, fun x hx => ?_⟩
        rcases List.mem_cons.mp hx with rfl | hx
        · exact hg
        · exact k2 x hx

theorem QTop.visits : ∀ {qs : List ℕ} {s s' : TopState}, QTop s → qs.foldlM visitQubit s = some s' → QTop s'
  | [], s, s', h, e => by cases e; exact h
  | q :: qs, s, s', h, e => by
    simp only [List.foldlM_cons, Option.bind_eq_bind, Option.bind_eq_some_iff] at e
    obtain ⟨s1, e1, e⟩ := e
    simp only [visitQubit, Option.map_eq_some_iff] at e1
    obtain ⟨p, e1, rfl⟩ := e1
    obtain ⟨k1, k2⟩ := h.visit (h.1 q) e1
    exact QTop.visits (qs := qs) (s := { p.2 with gates := Function.update p.2.gates q p.1 }) ⟨k1.1.update k2, k1.2⟩ e

theorem sortLoop_q {n : ℕ} : ∀ {fuel : ℕ} {gates : ℕ → List SG} {out r : List SG}, QAll gates → (∀ g ∈ out, QGate g.gate) → sortLoop n fuel gates out = some r → ∀ g ∈ r, QGate g.gate
  | 0, _, _, _, _, _, e => by cases e
  | fuel + 1, gates, out, r, h, ho, e => by
    rw [sortLoop] at e
    split at e
    · cases e; exact ho
    · simp only [Option.bind_eq_some_iff] at e
      obtain ⟨s, e1, e⟩ := e
      have := QTop.visits (s := ⟨gates, [], out⟩) ⟨h, ho⟩ e1
      exact sortLoop_q this.1 this.2 e

/-- A pass keeps multiples of `π/4`. -/
theorem parseForward_q {n : ℕ} {min ds : Bool} {l : List Gate} {r : List Gate × List Gate} (hl : ∀ g ∈ l, QIn g) (e : parseForward n min ds l = some r) : ∀ g ∈ r.1, QGate g := by
  simp only [parseForward, Option.bind_eq_bind, Option.bind_eq_some_iff] at e
  obtain ⟨s, e1, M, e2, e⟩ := e
  cases e
  have k1 : QAll s.gates := QAll.parseGates (s := init n) (fun q g hg => by simp [init] at hg) hl e1
  have k2 := sortLoop_q ((k1.hads (l := s.hads)).zs) (by simp) e2
  intro g hg
  obtain ⟨x, hx, rfl⟩ := List.mem_map.mp hg
  exact k2 x hx

theorem withCorrection_q {n : ℕ} {min ds : Bool} {l : List Gate} {r : List Gate × List Gate} (hl : ∀ g ∈ l, QIn g) (e : parseForward n min ds l = some r) : ∀ g ∈ withCorrection r, QIn g := by
  have h1 := parseForward_q hl e
  simp only [parseForward, Option.bind_eq_bind, Option.bind_eq_some_iff] at e
  obtain ⟨s, -, M, -, e⟩ := e
  cases e
  intro g hg
  rcases List.mem_append.mp hg with hg | hg
  · exact (h1 g hg).inp
  · rw [List.flatMap_append, List.mem_append] at hg
    rcases hg with hg | hg
    · obtain ⟨g', h1, h2⟩ := List.mem_flatMap.mp hg
      obtain ⟨q, -, rfl⟩ := List.mem_map.mp h1
      rw [show (Gate.mkNOT q).toBasic = [.mkNOT q] from rfl, List.mem_singleton] at h2
      subst h2; trivial
    · obtain ⟨g', h1, h2⟩ := List.mem_flatMap.mp hg
      obtain ⟨p, -, rfl⟩ := List.mem_map.mp h1
      simp only [Gate.toBasic, List.mem_cons, List.not_mem_nil, or_false] at h2
      rcases h2 with rfl | rfl | rfl <;> trivial

theorem rounds_q {n maxIter : ℕ} {ds : Bool} : ∀ {fuel i : ℕ} {min : Bool} {l r : List Gate} {cnt : ℕ × ℕ × ℕ}, (∀ g ∈ l, QIn g) → rounds n maxIter ds fuel i min l cnt = some r → ∀ g ∈ r, QIn g
  | 0, _, _, _, _, _, _, e => by cases e
  | fuel + 1, i, min, l, r, cnt, hl, e => by
    simp only [rounds, Option.bind_eq_bind, Option.bind_eq_some_iff] at e
    obtain ⟨r1, e1, r2, e2, e⟩ := e
    have k1 := withCorrection_q (fun g hg => hl g (by simpa using hg)) e1
    have k2 := withCorrection_q (fun g hg => k1 g (by simpa using hg)) e2
    split at e
    · cases e; exact k2
    · exact rounds_q k2 e

/-- The optimiser keeps multiples of `π/4`. -/
theorem parseCircuit_q {n maxIter : ℕ} {ds : Bool} {l r : List Gate} (hl : ∀ g ∈ l, QIn g) (e : parseCircuit n maxIter ds l = some r) : ∀ g ∈ r, QIn g := by
  simp only [parseCircuit, Option.bind_eq_bind, Option.bind_eq_some_iff] at e
  obtain ⟨r1, e1, e⟩ := e
  exact rounds_q (withCorrection_q hl e1) e

end PhaseBlock
end PyZX
