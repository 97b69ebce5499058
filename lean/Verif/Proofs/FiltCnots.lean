import Verif.Model.Choose
import Verif.Spec.Clifford
import Verif.Props.Optimize
import Verif.Props.Linalg

/-!
# `filter_duplicate_cnots` gives CNOTs with the same effect
-/

namespace PyZX
namespace Optimize

open Mat2

/-! ### The optimiser keeps circuits of CNOTs -/

/-- The gate is a CNOT. -/
def IsCnot (g : Gate) : Prop := ∃ c t, g = .cnot c t

/-- Only CNOTs, and nothing pending. -/
structure CnotInv (n : ℕ) (s : State) : Prop where
  hads : s.hads = []
  nots : s.nots = []
  zs : s.zs = []
  perm : s.perm = List.range n
  gates : ∀ q, ∀ g ∈ s.gates q, IsCnot g.gate

theorem mem_remove {l l' : List SG} {g x : SG} (h : remove l g = some l') (hx : x ∈ l') : x ∈ l := by
  unfold remove at h
  split at h
  · obtain rfl := Option.some.inj h; exact List.mem_of_mem_erase hx
  · simp at h

variable {n : ℕ} {s s' : State}

theorem CnotInv.addTwo (h : CnotInv n s) (c t : ℕ) : CnotInv n (Optimize.addTwo s c t (.cnot c t)) := by
  refine ⟨h.hads, h.nots, h.zs, h.perm, fun q g hg => ?_⟩
  simp only [Optimize.addTwo, addGate, Function.update_apply] at hg
  have hn : IsCnot (.cnot c t) := ⟨c, t, rfl⟩
  split_ifs at hg
  · rcases List.mem_append.mp hg with hg | hg
    · rcases List.mem_append.mp hg with hg | hg
      · exact h.gates _ _ hg
      · rw [List.mem_singleton.mp hg]; exact hn
    · rw [List.mem_singleton.mp hg]; exact hn
  · rcases List.mem_append.mp hg with hg | hg
    · exact h.gates _ _ hg
    · rw [List.mem_singleton.mp hg]; exact hn
  · rcases List.mem_append.mp hg with hg | hg
    · exact h.gates _ _ hg
    · rw [List.mem_singleton.mp hg]; exact hn
  · exact h.gates _ _ hg

theorem CnotInv.cancel (h : CnotInv n s) {c t : ℕ} {g : SG} (e : Optimize.cancel s c t g = some s') : CnotInv n s' := by
  unfold Optimize.cancel at e
  obtain ⟨aa, h1, e⟩ := Option.bind_eq_some_iff.mp e
  obtain ⟨ga, h2, e⟩ := Option.bind_eq_some_iff.mp e
  obtain ⟨ab, h3, e⟩ := Option.bind_eq_some_iff.mp e
  obtain ⟨gb, h4, e⟩ := Option.bind_eq_some_iff.mp e
  obtain rfl := Option.some.inj e
  refine ⟨h.hads, h.nots, h.zs, h.perm, fun q x hx => ?_⟩
  simp only [Function.update_apply] at hx
  split_ifs at hx
  · exact h.gates t x (mem_remove h4 hx)
  · exact h.gates c x (mem_remove h2 hx)
  · exact h.gates q x hx

theorem CnotInv.reset (h : CnotInv n s) (q : ℕ) (x : Bool) : CnotInv n (Optimize.reset s q x) := ⟨h.hads, h.nots, h.zs, h.perm, h.gates⟩

theorem CnotInv.plain (h : CnotInv n s) {c t : ℕ} (e : addCnotPlain s c t = some s') : CnotInv n s' := by
  unfold addCnotPlain at e
  have h1 : CnotInv n (if s.xtype c then Optimize.reset s c false else s) := by
    split
    · exact h.reset _ _
    · exact h
  generalize (if s.xtype c then Optimize.reset s c false else s) = s1 at e h1
  simp only at e
  have h2 : CnotInv n (if s1.xtype t then s1 else Optimize.reset s1 t true) := by
    split
    · exact h1
    · exact h1.reset _ _
  generalize (if s1.xtype t then s1 else Optimize.reset s1 t true) = s2 at e h2
  split at e
  · split at e
    · exact h2.cancel e
    · obtain rfl := Option.some.inj e; exact h2.addTwo c t
  · obtain rfl := Option.some.inj e; exact h2.addTwo c t

theorem CnotInv.cnot (h : CnotInv n s) {c t : ℕ} (e : addCnot false s c t = some s') : CnotInv n s' := by
  unfold addCnot at e
  split at e
  · split at e
    · simp only [Bool.false_and, Bool.false_eq_true, if_false] at e
      exact h.plain e
    · exact h.plain e
  · exact h.plain e

theorem CnotInv.gate (h : CnotInv n s) {min : Bool} {g : Gate} (hg : IsCnot g) (e : parseGate min false s g = some s') : CnotInv n s' := by
  obtain ⟨c, t, rfl⟩ := hg
  unfold parseGate at e
  obtain ⟨c', -, e⟩ := Option.bind_eq_some_iff.mp e
  obtain ⟨t', -, e⟩ := Option.bind_eq_some_iff.mp e
  unfold parseCnot at e
  simp only [h.nots, h.zs, h.hads, List.not_mem_nil, if_false, not_false_eq_true, and_self, if_true] at e
  exact h.cnot e

theorem CnotInv.run {min : Bool} : ∀ (gs : List Gate) {s s' : State}, CnotInv n s → (∀ g ∈ gs, IsCnot g) →
    gs.foldlM (parseGate min false) s = some s' → CnotInv n s'
  | [], s, s', h, _, e => by
    simp only [List.foldlM_nil, Option.pure_def, Option.some.injEq] at e
    subst e
    exact h
  | g :: gs, s, s', h, hgs, e => by
    rw [List.foldlM_cons] at e
    obtain ⟨s1, h1, e⟩ := Option.bind_eq_some_iff.mp e
    exact CnotInv.run gs (h.gate (hgs g (by simp)) h1) (fun g hg => hgs g (by simp [hg])) e

/-- A property of all gates in the lists and the output. -/
def TopAll (p : SG → Prop) (s : TopState) : Prop := (∀ q, ∀ g ∈ s.gates q, p g) ∧ ∀ g ∈ s.out, p g

variable {p : SG → Prop}

theorem TopAll.emit {s s' : TopState} (h : TopAll p s) {q : ℕ} {g : SG} (hg : p g) (e : emitTwo s q g = some s') : TopAll p s' := by
  unfold emitTwo at e
  obtain ⟨l, h1, e⟩ := Option.bind_eq_some_iff.mp e
  obtain rfl := Option.some.inj e
  refine ⟨fun r x hx => ?_, fun x hx => ?_⟩
  · simp only [Function.update_apply] at hx
    split_ifs at hx
    · exact h.1 _ x (mem_remove h1 hx)
    · exact h.1 _ x hx
  · rcases List.mem_append.mp hx with hx | hx
    · exact h.2 x hx
    · rw [List.mem_singleton.mp hx]; exact hg

theorem TopAll.put {s : TopState} (h : TopAll p s) {g : SG} (hg : p g) : TopAll p { s with out := s.out ++ [g] } := by
  refine ⟨h.1, fun x hx => ?_⟩
  rcases List.mem_append.mp hx with hx | hx
  · exact h.2 x hx
  · rw [List.mem_singleton.mp hx]; exact hg

theorem TopAll.scan {q : ℕ} {x : Bool} : ∀ (l : List SG) {s : TopState} {r : List SG × TopState}, TopAll p s → (∀ g ∈ l, p g) →
    Optimize.scan q x l s = some r → TopAll p r.2 ∧ ∀ g ∈ r.1, p g
  | [], s, r, h, hl, e => by
    simp only [Optimize.scan, Option.some.injEq] at e
    subst e
    exact ⟨h, by simp⟩
  | g :: l, s, r, h, hl, e => by
    have hg := hl g (by simp)
    have hl' : ∀ g ∈ l, p g := fun g hg => hl g (by simp [hg])
    rw [Optimize.scan] at e
    split at e
    · exact TopAll.scan l (h.put hg) hl' e
    · split at e
      · obtain rfl := Option.some.inj e; exact ⟨h, hl⟩
      · split at e
        · split at e
          · obtain ⟨s1, h1, e⟩ := Option.bind_eq_some_iff.mp e
            exact TopAll.scan l (h.emit hg h1) hl' e
          · obtain ⟨r1, h1, rfl⟩ := Option.map_eq_some_iff.mp e
            obtain ⟨a, b⟩ := TopAll.scan l (s := { s with avail := g.idx :: s.avail }) ⟨h.1, h.2⟩ hl' h1
            exact ⟨a, by simpa using ⟨hg, b⟩⟩
        · obtain rfl := Option.some.inj e; exact ⟨h, hl⟩

theorem TopAll.visit {q : ℕ} : ∀ (l : List SG) {s : TopState} {r : List SG × TopState}, TopAll p s → (∀ g ∈ l, p g) →
    Optimize.visit q l s = some r → TopAll p r.2 ∧ ∀ g ∈ r.1, p g
  | [], s, r, h, hl, e => by
    simp only [Optimize.visit, Option.some.injEq] at e
    subst e
    exact ⟨h, by simp⟩
  | g :: l, s, r, h, hl, e => by
    have hg := hl g (by simp)
    have hl' : ∀ g ∈ l, p g := fun g hg => hl g (by simp [hg])
    rw [Optimize.visit] at e
    split at e
    · exact TopAll.visit l (h.put hg) hl' e
    · split at e
      · obtain ⟨s1, h1, e⟩ := Option.bind_eq_some_iff.mp e
        exact TopAll.visit l (h.emit hg h1) hl' e
      · obtain ⟨r1, h1, rfl⟩ := Option.map_eq_some_iff.mp e
        obtain ⟨a, b⟩ := TopAll.scan l (s := { s with avail := g.idx :: s.avail }) ⟨h.1, h.2⟩ hl' h1
        exact ⟨a, by simpa using ⟨hg, b⟩⟩

theorem TopAll.visitQubit {s s' : TopState} (h : TopAll p s) {q : ℕ} (e : Optimize.visitQubit s q = some s') : TopAll p s' := by
  unfold Optimize.visitQubit at e
  obtain ⟨r, h1, rfl⟩ := Option.map_eq_some_iff.mp e
  obtain ⟨a, b⟩ := TopAll.visit _ h (h.1 q) h1
  refine ⟨fun r' x hx => ?_, a.2⟩
  simp only [Function.update_apply] at hx
  split_ifs at hx
  · exact b x hx
  · exact a.1 _ x hx

theorem TopAll.round : ∀ (qs : List ℕ) {s s' : TopState}, TopAll p s → qs.foldlM Optimize.visitQubit s = some s' → TopAll p s'
  | [], s, s', h, e => by
    simp only [List.foldlM_nil, Option.pure_def, Option.some.injEq] at e
    subst e
    exact h
  | q :: qs, s, s', h, e => by
    rw [List.foldlM_cons] at e
    obtain ⟨s1, h1, e⟩ := Option.bind_eq_some_iff.mp e
    exact TopAll.round qs (h.visitQubit h1) e

theorem sortLoop_all : ∀ (fuel : ℕ) {gates : ℕ → List SG} {out l : List SG}, (∀ q, ∀ g ∈ gates q, p g) → (∀ g ∈ out, p g) →
    sortLoop n fuel gates out = some l → ∀ g ∈ l, p g
  | 0, gates, out, l, _, _, e => by simp [sortLoop] at e
  | fuel + 1, gates, out, l, h1, h2, e => by
    rw [sortLoop] at e
    split at e
    · obtain rfl := Option.some.inj e; exact h2
    · obtain ⟨s, h3, e⟩ := Option.bind_eq_some_iff.mp e
      have := TopAll.round (p := p) _ ⟨h1, h2⟩ h3
      exact sortLoop_all fuel this.1 this.2 e

theorem parseForward_cnot {min : Bool} {gs : List Gate} {r : List Gate × List Gate} (hgs : ∀ g ∈ gs, IsCnot g)
    (e : parseForward n min false gs = some r) : (∀ g ∈ r.1, IsCnot g) ∧ r.2 = [] := by
  unfold parseForward at e
  obtain ⟨s, h1, e⟩ := Option.bind_eq_some_iff.mp e
  have h := CnotInv.run (n := n) gs (s := init n) ⟨rfl, rfl, rfl, rfl, by simp [init]⟩ hgs h1
  simp only [h.hads, h.zs, h.nots, h.perm, List.foldl_nil, swaps_id, List.map_nil, List.append_nil] at e
  obtain ⟨out, h2, e⟩ := Option.bind_eq_some_iff.mp e
  obtain rfl := Option.some.inj e
  refine ⟨fun g hg => ?_, rfl⟩
  obtain ⟨x, hx, rfl⟩ := List.mem_map.mp hg
  exact sortLoop_all (p := fun x => IsCnot x.gate) _ h.gates (by simp) h2 x hx

theorem correction_cnot {r : List Gate × List Gate} (h : (∀ g ∈ r.1, IsCnot g) ∧ r.2 = []) : ∀ g ∈ withCorrection r, IsCnot g := by
  unfold withCorrection
  rw [h.2]
  simpa using h.1

theorem rounds_cnot {m : ℕ} : ∀ (fuel i : ℕ) (min : Bool) {gs out : List Gate} {ct : ℕ × ℕ × ℕ}, (∀ g ∈ gs, IsCnot g) →
    rounds n m false fuel i min gs ct = some out → ∀ g ∈ out, IsCnot g
  | 0, i, min, gs, out, ct, _, e => by simp [rounds] at e
  | fuel + 1, i, min, gs, out, ct, h, e => by
    rw [rounds] at e
    obtain ⟨r1, h1, e⟩ := Option.bind_eq_some_iff.mp e
    obtain ⟨r2, h2, e⟩ := Option.bind_eq_some_iff.mp e
    have k1 := correction_cnot (parseForward_cnot (by simpa using h) h1)
    have k2 := correction_cnot (parseForward_cnot (by simpa using k1) h2)
    simp only at e
    split at e
    · obtain rfl := Option.some.inj e; exact k2
    · exact rounds_cnot fuel _ _ k2 e

theorem basicOptimization_cnot {c c' : Circuit} (h : ∀ g ∈ c.gates, IsCnot g) (e : basicOptimization c false = some c') : ∀ g ∈ c'.gates, IsCnot g := by
  unfold basicOptimization parseCircuit at e
  obtain ⟨gs, h1, rfl⟩ := Option.map_eq_some_iff.mp e
  obtain ⟨r, h2, h3⟩ := Option.bind_eq_some_iff.mp h1
  exact rounds_cnot _ _ _ (correction_cnot (parseForward_cnot h h2)) h3

/-! ### Circuits of CNOTs with the same map -/

/-- The effect of a CNOT on the values of the qubits. -/
def flip (g : ℕ × ℕ) (x : ℕ → Bool) : ℕ → Bool := Function.update x g.2 (xor (x g.2) (x g.1))

theorem flip_flip {g : ℕ × ℕ} (h : g.1 ≠ g.2) (x : ℕ → Bool) : flip g (flip g x) = x := by
  funext q
  unfold flip
  by_cases c : q = g.2
  · subst c; rw [Function.update_self, Function.update_self, Function.update_of_ne h]; simp
  · rw [Function.update_of_ne c, Function.update_of_ne c]

theorem sem_cnot {c t : ℕ} (ψ : QState) (x : ℕ → Bool) : (Gate.cnot c t).sem ψ x = ψ (flip (c, t) x) := by
  show ctrl (mat2 0 1 1 0) c t ψ x = _
  unfold ctrl on1 flip
  by_cases h : x c = true
  · rw [if_pos h]
    cases ht : x t <;> simp [mat2, h]
  · rw [if_neg h]
    simp only [Bool.not_eq_true] at h
    rw [h, Bool.xor_false, Function.update_eq_self]

theorem semGates_cnots : ∀ (cs : List (ℕ × ℕ)) (ψ : QState) (x : ℕ → Bool),
    semGates (cs.map fun c => .cnot c.1 c.2) ψ x = ψ (cs.foldr flip x)
  | [], ψ, x => rfl
  | c :: cs, ψ, x => by
    show semGates (cs.map fun c => .cnot c.1 c.2) ((Gate.cnot c.1 c.2).sem ψ) x = _
    rw [semGates_cnots cs, sem_cnot]
    rfl

theorem foldl_foldr : ∀ (cs : List (ℕ × ℕ)) (x : ℕ → Bool), (∀ c ∈ cs, c.1 ≠ c.2) → cs.foldl (fun x c => flip c x) (cs.foldr flip x) = x
  | [], x, _ => rfl
  | c :: cs, x, h => by
    rw [List.foldl_cons, List.foldr_cons, flip_flip (h c (by simp))]
    exact foldl_foldr cs x fun c hc => h c (by simp [hc])

theorem foldr_foldl : ∀ (cs : List (ℕ × ℕ)) (x : ℕ → Bool), (∀ c ∈ cs, c.1 ≠ c.2) → cs.foldr flip (cs.foldl (fun x c => flip c x) x) = x
  | [], x, _ => rfl
  | c :: cs, x, h => by
    rw [List.foldl_cons, List.foldr_cons, foldr_foldl cs _ fun c hc => h c (by simp [hc]), flip_flip (h c (by simp))]

theorem flip_eq {cs cs' : List (ℕ × ℕ)} (h : ∀ c ∈ cs, c.1 ≠ c.2) (h' : ∀ c ∈ cs', c.1 ≠ c.2)
    (e : EqUpToPhase (semGates (cs.map fun c => .cnot c.1 c.2)) (semGates (cs'.map fun c => .cnot c.1 c.2))) (x : ℕ → Bool) :
    cs'.foldl (fun x c => flip c x) x = cs.foldl (fun x c => flip c x) x := by
  classical
  obtain ⟨z, hz, hs⟩ := e
  have key : ∀ y, cs'.foldr flip y = cs.foldr flip y := by
    intro y
    have := hs (fun u => if u = cs.foldr flip y then 1 else 0) y
    rw [semGates_cnots, semGates_cnots, if_pos rfl] at this
    by_contra hc
    rw [if_neg hc, mul_zero] at this
    exact one_ne_zero this
  have h1 := foldr_foldl cs x h
  rw [← key] at h1
  have h2 := congrArg (fun y => cs'.foldl (fun x c => flip c x) y) h1
  rw [foldl_foldr cs' _ h'] at h2
  exact h2.symm

/-- The vector of the values. -/
def vec (k : ℕ) (x : ℕ → Bool) : Fin k → ZMod 2 := fun i => bit (x i)

theorem vec_flip {k : ℕ} {c : ℕ × ℕ} (h1 : c.1 < k) (x : ℕ → Bool) : vec k (flip c x) = cnotAct c (vec k x) := by
  funext i
  unfold vec flip cnotAct
  by_cases h : (i : ℕ) = c.2
  · rw [if_pos h, dif_pos h1, h, Function.update_self, bit_xor]
    show _ = bit (x i) + _
    rw [h]
  · rw [if_neg h, Function.update_of_ne h]

theorem vec_circ {k : ℕ} : ∀ (cs : List (ℕ × ℕ)) (x : ℕ → Bool), (∀ c ∈ cs, c.1 < k) → circAct cs (vec k x) = vec k (cs.foldl (fun x c => flip c x) x)
  | [], x, _ => rfl
  | c :: cs, x, h => by
    show circAct cs (cnotAct c (vec k x)) = _
    rw [← vec_flip (h c (by simp)), vec_circ cs _ fun c hc => h c (by simp [hc])]
    rfl

theorem vec_surj {k : ℕ} (v : Fin k → ZMod 2) : ∃ x, vec k x = v := by
  refine ⟨fun q => if h : q < k then decide (v ⟨q, h⟩ = 1) else false, funext fun i => ?_⟩
  unfold vec
  beta_reduce
  rw [dif_pos i.2]
  show bit (decide (v ⟨i, i.2⟩ = 1)) = v ⟨i, i.2⟩
  generalize v ⟨i, i.2⟩ = w
  revert w
  decide

/-- `filter_duplicate_cnots` never raises, and gives CNOTs on the same qubits with the same effect. -/
theorem filterDuplicateCnots_ok : Extract.FiltOK Extract.filterDuplicateCnots := by
  intro k cs hcs
  unfold Extract.filterDuplicateCnots
  by_cases h0 : cs = []
  · rw [if_pos h0]
    subst h0
    exact ⟨[], rfl, by simp, fun _ => rfl⟩
  rw [if_neg h0]
  obtain ⟨m, hm⟩ : ∃ m, m = (cs.map fun c => max c.1 c.2).foldl max 0 + 1 := ⟨_, rfl⟩
  have hmx : ∀ (l : List ℕ) (b : ℕ), b ≤ l.foldl max b ∧ (∀ a ∈ l, a ≤ l.foldl max b) ∧ ∀ k, b < k → (∀ a ∈ l, a < k) → l.foldl max b < k := by
    intro l
    induction l with
    | nil => intro b; exact ⟨le_rfl, by simp, fun k h _ => h⟩
    | cons a l ih =>
      intro b
      obtain ⟨i1, i2, i3⟩ := ih (max b a)
      rw [List.foldl_cons]
      refine ⟨le_trans (le_max_left _ _) i1, fun x hx => ?_, fun k hb hk => i3 k (max_lt hb (hk a (by simp))) fun x hx => hk x (by simp [hx])⟩
      rcases List.mem_cons.mp hx with rfl | hx
      · exact le_trans (le_max_right _ _) i1
      · exact i2 x hx
  obtain ⟨-, m2, m3⟩ := hmx (cs.map fun c => max c.1 c.2) 0
  have hlt : ∀ c ∈ cs, c.1 < m ∧ c.2 < m := by
    intro c hc
    have := m2 _ (List.mem_map_of_mem (f := fun c : ℕ × ℕ => max c.1 c.2) hc)
    rw [hm]
    omega
  have hmk : m ≤ k := by
    rw [hm]
    obtain ⟨c, cs', rfl⟩ := List.exists_cons_of_ne_nil h0
    refine m3 k ?_ fun a ha => ?_
    · have := hcs c (by simp); omega
    · obtain ⟨d, hd, rfl⟩ := List.mem_map.mp ha
      have := hcs d hd
      omega
  rw [← hm]
  obtain ⟨c', e, hq, -, hh, hsem⟩ := Props.optimize_sound (c := ⟨m, 0, cs.map fun c => .cnot c.1 c.2⟩) false (by
    intro g hg
    obtain ⟨c, hc, rfl⟩ := List.mem_map.mp hg
    exact .cnot (hcs c hc).2.2 (hlt c hc).1 (hlt c hc).2)
  have hcn := basicOptimization_cnot (c := ⟨m, 0, cs.map fun c => .cnot c.1 c.2⟩) (by
    intro g hg
    obtain ⟨c, -, rfl⟩ := List.mem_map.mp hg
    exact ⟨c.1, c.2, rfl⟩) e
  have hlist : ∀ (l : List Gate), (∀ g ∈ l, IsCnot g) → ∃ ps : List (ℕ × ℕ), l.mapM Extract.cnotPair = some ps ∧ l = ps.map fun c => .cnot c.1 c.2 := by
    intro l
    induction l with
    | nil => intro _; exact ⟨[], rfl, rfl⟩
    | cons g l ih =>
      intro hl
      obtain ⟨c, t, rfl⟩ := hl g (by simp)
      obtain ⟨ps, e1, e2⟩ := ih fun g hg => hl g (by simp [hg])
      exact ⟨(c, t) :: ps, by rw [List.mapM_cons, e1]; rfl, by rw [e2]; simp⟩
  obtain ⟨ps, e1, e2⟩ := hlist _ hcn
  have hval : ∀ c ∈ ps, c.1 < m ∧ c.2 < m ∧ c.1 ≠ c.2 := by
    intro c hc
    have := hh (.cnot c.1 c.2) (by rw [e2]; exact List.mem_map_of_mem (f := fun c : ℕ × ℕ => Gate.cnot c.1 c.2) hc)
    rw [hq] at this
    cases this with
    | cnot h1 h2 h3 => exact ⟨h2, h3, h1⟩
  refine ⟨ps, by rw [e]; exact e1, fun c hc => ?_, fun v => ?_⟩
  · obtain ⟨h1, h2, h3⟩ := hval c hc
    exact ⟨by omega, by omega, h3⟩
  · obtain ⟨x, rfl⟩ := vec_surj v
    rw [vec_circ _ _ fun c hc => by have := hval c hc; omega, vec_circ _ _ fun c hc => (hcs c hc).1]
    congr 1
    refine flip_eq (fun c hc => (hcs c hc).2.2) (fun c hc => (hval c hc).2.2) ?_ x
    rw [← e2]
    exact hsem

end Optimize
end PyZX
