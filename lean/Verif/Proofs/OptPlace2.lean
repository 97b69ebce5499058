import Verif.Proofs.OptPlace

/-!
# Helper lemmas for `basic_optimization`: the rewrites made while gates are placed
-/

namespace PyZX
namespace Optimize

open scoped List

variable {k n : ℕ} {E : ℕ → ℕ → Prop} {s s' : State} {L : List SG}

/-! ### Swaps -/

/-- The gates and the permutation when two qubits are exchanged. -/
structure SwapL (s s' : State) (c t : ℕ) : Prop where
  hads : s'.hads = swapEl s.hads t c
  nots : s'.nots = swapEl s.nots t c
  zs : s'.zs = swapEl s.zs t c
  perm : s'.perm = (s.perm.set c (s.perm.getD t 0)).set t (s.perm.getD c 0)

theorem PInv.swapRule (h : PInv n E s L) {c t : ℕ} (hct : c ≠ t) (hc : c < n) (ht : t < n) (hl : E c t) {g : SG} (hg : g.gate = .cnot t c)
    (hgc : g ∈ s.avail c) (hgt : g ∈ s.avail t) :
    ∃ s' L', Optimize.swapRule s c t g = some s' ∧ PInv n E s' L' ∧ SwapL s s' c t ∧ Eqv (gs L ++ [.cnot c t]) (gs L' ++ [.swap c t]) ∧
      tc k (gs L') ≤ tc k (gs L) + k := by
  have hq : g.gate.qubits = [t, c] := by rw [hg]; rfl
  have hz : isZPhase g = false := by simp [isZPhase, hg]
  refine ⟨_, L.erase g ++ [⟨s.count, .cnot c t⟩], by rw [Optimize.swapRule, remove_of_mem (h.av_mem hgc), remove_of_mem (h.av_mem hgt)]; rfl,
    ⟨?_, ?_⟩, ⟨rfl, rfl, rfl, rfl⟩, ?_, ?_⟩
  · have h1 : Core n E (fun q => (s.gates q).erase g) s.count (L.erase g) := h.core.erase g fun q => rfl
    refine h1.snoc (z := ⟨s.count, .cnot c t⟩) hct h1.fresh (Nat.le_succ _) (Nat.lt_succ_self _) ?_ hl ?_
    · intro q hq'
      simp only [Gate.qubits, List.mem_cons, List.not_mem_nil, or_false] at hq'
      rcases hq' with rfl | rfl <;> assumption
    · intro q
      simp only [Gate.qubits, List.mem_cons, List.not_mem_nil, or_false]
      by_cases h1 : q = t
      · subst h1; simp
      · rw [Function.update_of_ne h1]
        by_cases h2 : q = c
        · subst h2; simp
        · rw [Function.update_of_ne h2, if_neg (by tauto), List.erase_of_not_mem]
          intro hm
          have := ((h.core.lin.mem q g).mp hm).2
          rw [hq] at this
          simp only [List.mem_cons, List.not_mem_nil, or_false] at this
          tauto
  · intro q
    simp only
    by_cases h1 : q = t
    · subst h1
      simp only [Function.update_self]
      have := (AvQ.nil q ((s.gates q).erase g) true).snoc (y := ⟨s.count, .cnot c q⟩) (by simp [kind, hct.symm])
      simpa using this
    · simp only [Function.update_of_ne h1]
      by_cases h2 : q = c
      · subst h2
        simp only [Function.update_self]
        have := (AvQ.nil q ((s.gates q).erase g) false).snoc (y := ⟨s.count, .cnot q t⟩) (by simp [kind])
        simpa using this
      · simp only [Function.update_of_ne h2]; exact h.av q
  · refine .of_eq fun ψ => ?_
    rw [semGates_append, h.toEnd hq hgt hgc hz ψ, gs, gs, List.map_append, List.map_append, semGates_append, semGates_append, semGates_append]
    simp only [List.map_cons, List.map_nil, semGates_cons, semGates_nil, hg]
    exact cnot_swap hct _
  · rw [tc_erase (h.mem_of hgc), gs, List.map_append, tc_append]
    simp [tc, wg_cz, wg_cnot]

/-- `add_cnot`. -/
theorem PInv.addCnot (h : PInv n E s L) (ds : Bool) {c t : ℕ} (hct : c ≠ t) (hc : c < n) (ht : t < n) (hl : E c t) :
    ∃ s' L', Optimize.addCnot ds s c t = some s' ∧ PInv n E s' L' ∧ tc k (gs L') ≤ tc k (gs L) + k ∧
      ((SameL s s' ∧ Eqv (gs L ++ [.cnot c t]) (gs L')) ∨
        (ds = true ∧ SwapL s s' c t ∧ Eqv (gs L ++ [.cnot c t]) (gs L' ++ [.swap c t]))) := by
  have plain : ∃ s' L', Optimize.addCnotPlain s c t = some s' ∧ PInv n E s' L' ∧ tc k (gs L') ≤ tc k (gs L) + k ∧
      ((SameL s s' ∧ Eqv (gs L ++ [.cnot c t]) (gs L')) ∨
        (ds = true ∧ SwapL s s' c t ∧ Eqv (gs L ++ [.cnot c t]) (gs L' ++ [.swap c t]))) := by
    obtain ⟨s', L', h1, h2, h3, h4, h5⟩ := h.addCnotPlain hct hc ht hl
    exact ⟨s', L', h1, h2, h5, Or.inl ⟨h3, h4⟩⟩
  unfold Optimize.addCnot
  split
  · split
    · rename_i g hf
      split
      · rename_i hcond
        have hg := List.find?_some hf
        have hm := List.mem_reverse.mp (List.mem_of_find?_eq_some hf)
        simp only [decide_eq_true_eq] at hg
        rw [Bool.and_eq_true, decide_eq_true_eq] at hcond
        obtain ⟨s', L', h1, h2, h3, h4, h5⟩ := h.swapRule hct hc ht hl hg hm hcond.2
        exact ⟨s', L', h1, h2, h5, Or.inr ⟨hcond.1, h3, h4⟩⟩
      · exact plain
    · exact plain
  · exact plain

/-! ### CNOT and CZ -/

theorem kind_of_cnotTo {q : ℕ} {x : SG} (h : isCnotTo q x = true) (hs : Stored x.gate) : kind x.gate q = some .x := by
  unfold isCnotTo at h
  rcases hg : x.gate with _ | _ | _ | _ | _ | _ | _ | _ | _ | _ | _ | _ | _ | _ | _ | _ | _ | _ | _ | _ | _ | _ | _ | _ | _ | _ <;>
    rw [hg] at h <;> simp at h
  rw [hg] at hs
  subst h
  have : _ ≠ _ := hs
  simp [kind, this.symm]

/-- The list of the target of a CNOT that can be used. -/
theorem usable_split (h : PInv n E s L) {t : ℕ} {g : SG} (hz : isZPhase g = false) (hu : usable s t g = true) :
    ∃ X1 X2, s.gates t = (X1 ++ g :: X2) ++ (if s.xtype t then [] else s.avail t) ∧ ∀ x ∈ X2, kind x.gate t = some .x := by
  obtain ⟨pre, hpre⟩ := (h.av t).suf
  have hmemL : ∀ x ∈ s.gates t, Stored x.gate := fun x hx => h.core.lin.stored x ((h.core.lin.mem t x).mp hx).1
  unfold usable at hu
  rcases hx : s.xtype t with _ | _
  · rw [hx] at hu
    simp only [Bool.false_eq_true, if_false, decide_eq_true_eq] at hu
    have hb : behind s t = if s.avail t = [] then [] else pre := by
      unfold behind
      split
      · rfl
      · rw [← hpre, List.length_append, Nat.add_sub_cancel, List.take_left]
    by_cases he : s.avail t = []
    · rw [hb, if_pos he] at hu; simp at hu
    · rw [hb, if_neg he] at hu
      obtain ⟨A, B, hAB⟩ := List.append_of_mem hu
      have hall := List.all_eq_true.mp (List.all_takeWhile (p := isCnotTo t) (l := pre.reverse))
      have hsp : pre.reverse.takeWhile (isCnotTo t) ++ pre.reverse.dropWhile (isCnotTo t) = pre.reverse := List.takeWhile_append_dropWhile
      rw [hAB] at hsp hall
      generalize pre.reverse.dropWhile (isCnotTo t) = D at hsp
      have hpe : pre = ((B ++ D).reverse ++ g :: A.reverse) := by
        have := congrArg List.reverse hsp
        rw [List.reverse_reverse] at this
        rw [← this]
        simp
      refine ⟨(B ++ D).reverse, A.reverse, ?_, ?_⟩
      · simp only [Bool.false_eq_true, if_false]
        rw [← hpe, hpre]
      · intro x hx'
        rw [List.mem_reverse] at hx'
        refine kind_of_cnotTo (hall x (by simp [hx'])) (hmemL x ?_)
        rw [← hpre, hpe]
        simp [hx']
  · rw [hx] at hu
    simp only [if_true, decide_eq_true_eq] at hu
    obtain ⟨zs, xs, e, h1, h2⟩ := (h.av t).x hx
    have hgz : g ∉ zs := fun h' => by have := (h1 g h').1; rw [hz] at this; cases this
    rw [e] at hu
    have hgx : g ∈ xs := (List.mem_append.mp hu).resolve_left hgz
    obtain ⟨A, B, hAB⟩ := List.append_of_mem hgx
    refine ⟨pre ++ zs ++ A, B, ?_, fun x hx' => h2 x (by rw [hAB]; simp [hx'])⟩
    rw [← hpre, e, hAB]
    simp

theorem PInv.cnotCz (h : PInv n E s L) {c t : ℕ} (hct : c ≠ t) (hc : c < n) (ht : t < n) {g : SG} (hf : findCnot s c t = some g) :
    ∃ s' L', Optimize.cnotCz s c t g = some s' ∧ PInv n E s' L' ∧ SameL s s' ∧ Eqv (gs L ++ [.cz c t]) (gs L') ∧ tc k (gs L') ≤ tc k (gs L) + k := by
  have hp := List.find?_some hf
  have hgc := List.mem_of_find?_eq_some hf
  rw [Bool.and_eq_true, decide_eq_true_eq] at hp
  obtain ⟨hg, hu⟩ := hp
  have hz : isZPhase g = false := by simp [isZPhase, hg]
  have kc : kind g.gate c = some .z := by rw [hg]; simp [kind]
  -- the type of the control
  have hxc : s.xtype c = false := by
    have := (h.av c).kindOf hgc (fun _ => hz)
    rw [kc] at this
    rcases hx : s.xtype c with _ | _
    · rfl
    · rw [hx] at this; simp at this
  obtain ⟨X1, X2, hgt, hX2⟩ := usable_split h hz hu
  set Av := if s.xtype t then [] else s.avail t with hAvd
  have hAv : ∀ x ∈ Av, kind x.gate t = some .z := by
    intro x hx
    rcases hxt : s.xtype t with _ | _
    · rw [hAvd, hxt] at hx; exact (h.av t).z hxt x (by simpa using hx)
    · rw [hAvd, hxt] at hx; simp at hx
  obtain ⟨pre, hpre⟩ := (h.av c).suf
  have hnc := h.core.lin.nodup c
  have hnt := h.core.lin.nodup t
  obtain ⟨U, V, eUV, eer, hgU, hgV⟩ := split_mem hgc (by rw [← hpre] at hnc; exact (List.nodup_append.mp hnc).2.1)
  have hgc' : s.gates c = (pre ++ U) ++ g :: V := by rw [← hpre, eUV]; simp
  have hY2 : ∀ x ∈ V, kind x.gate c = some .z := fun x hx => (h.av c).z hxc x (by rw [eUV]; simp [hx])
  have hgp : g ∉ pre := by
    rw [hgc', List.append_assoc] at hnc
    exact fun h' => (List.nodup_append.mp hnc).2.2 g h' g (by simp) rfl
  have hgX : g ∉ X1 := by
    rw [hgt, List.append_assoc] at hnt
    exact fun h' => (List.nodup_append.mp hnt).2.2 g h' g (by simp) rfl
  have e1 : (s.gates t).erase g = (X1 ++ X2) ++ Av := by
    rw [hgt, List.append_assoc, List.erase_append_right _ hgX, List.cons_append, List.erase_cons_head, List.append_assoc]
  have e2 : (s.gates c).erase g = pre ++ U ++ V := by
    rw [hgc', List.erase_append_right _ (by simp [hgp, hgU]), List.erase_cons_head]
  have e3 : (s.avail c).erase g = U ++ V := eer
  obtain ⟨A, B, hAB, hgL, hlin, hsem, hB, hXA, hAvB⟩ := h.core.lin.czMove (gates' := fun q => if q = t then (X1 ++ X2) ++ g :: Av else
    if q = c then pre ++ U ++ V ++ [g] else s.gates q) hct hg hgt hX2 hAv hgc' hY2 (fun q => rfl)
  set s1 : SG := ⟨s.count, .mkS t true⟩ with hs1
  set s2 : SG := ⟨s.count + 1, .mkS t⟩ with hs2
  set s3 : SG := ⟨s.count + 2, .mkS c⟩ with hs3
  have hmem : ∀ x, x ∈ A ++ g :: B ↔ x ∈ L := by
    intro x
    have hp : (A ++ g :: B).Perm L := by
      refine List.perm_middle.trans ?_
      rw [hAB]
      exact (List.perm_cons_erase hgL).symm
    exact hp.mem_iff
  have hcore : Core n E (fun q => if q = t then (X1 ++ X2) ++ g :: Av else if q = c then pre ++ U ++ V ++ [g] else s.gates q) s.count (A ++ g :: B) :=
    ⟨hlin, fun x hx => h.core.cnt x ((hmem x).mp hx), fun x hx => h.core.rng x ((hmem x).mp hx), fun x hx => h.core.lnk x ((hmem x).mp hx)⟩
  have hins := hlin.insert (t := t) (z := s1) (gates' := fun q => if q = t then (X1 ++ X2) ++ s1 :: g :: Av else
    if q = c then pre ++ U ++ V ++ [g] else s.gates q) (P := X1 ++ X2) (Q := g :: Av) trivial rfl hcore.fresh (by simp) (fun x hx _ => hXA x hx)
    (fun y hy _ => by
      rcases List.mem_cons.mp hy with rfl | hy
      · simp
      · simp [hAvB y hy]) (fun q => by
        by_cases hq : q = t
        · simp [hq]
        · simp [hq])
  have hcore1 : Core n E (fun q => if q = t then (X1 ++ X2) ++ s1 :: g :: Av else if q = c then pre ++ U ++ V ++ [g] else s.gates q) (s.count + 1)
      (A ++ s1 :: g :: B) := by
    have hm1 : ∀ x, x ∈ A ++ s1 :: g :: B → x = s1 ∨ x ∈ A ++ g :: B := by
      intro x hx
      simp only [List.mem_append, List.mem_cons] at hx ⊢
      tauto
    refine ⟨hins, ?_, ?_, ?_⟩ <;> intro x hx <;> rcases hm1 x hx with rfl | hx
    · exact Nat.lt_succ_self _
    · exact Nat.lt_succ_of_lt (hcore.cnt x hx)
    · simpa [hs1, Gate.mkS, Gate.qubits] using ht
    · exact hcore.rng x hx
    · trivial
    · exact hcore.lnk x hx
  have hcore2 := hcore1.snoc (z := s2) (c' := s.count + 2) (gates' := fun q => if q = t then (X1 ++ X2) ++ s1 :: g :: Av ++ [s2] else
    if q = c then pre ++ U ++ V ++ [g] else s.gates q) trivial hcore1.fresh (by omega) (by simp [hs2])
    (by simpa [hs2, Gate.mkS, Gate.qubits] using ht) trivial (fun q => by
      by_cases hq : q = t
      · simp [hq, hs2, Gate.mkS, Gate.qubits]
      · simp [hq, hs2, Gate.mkS, Gate.qubits])
  have hcore3 := hcore2.snoc (z := s3) (c' := s.count + 3) (gates' := fun q => if q = t then (X1 ++ X2) ++ s1 :: g :: Av ++ [s2] else
    if q = c then pre ++ U ++ V ++ [g] ++ [s3] else s.gates q) trivial hcore2.fresh (by omega) (by simp [hs3])
    (by simpa [hs3, Gate.mkS, Gate.qubits] using hc) trivial (fun q => by
      by_cases hq : q = t
      · simp [hq, hs3, Gate.mkS, Gate.qubits, hct.symm]
      · by_cases hq' : q = c
        · simp [hq', hs3, Gate.mkS, Gate.qubits, hct]
        · simp [hq, hq', hs3, Gate.mkS, Gate.qubits])
  refine ⟨{ s with
    gates := Function.update (Function.update s.gates t ((X1 ++ X2 ++ Av).take ((X1 ++ X2 ++ Av).length - Av.length) ++ [s1, g] ++
      (X1 ++ X2 ++ Av).drop ((X1 ++ X2 ++ Av).length - Av.length) ++ [s2])) c (pre ++ U ++ V ++ [g, s3])
    avail := Function.update (Function.update s.avail t (Av ++ [s2])) c (U ++ V ++ [g, s3])
    count := s.count + 3 }, A ++ s1 :: g :: B ++ [s2] ++ [s3], by
    rw [Optimize.cnotCz, remove_of_mem (h.av_mem hgc), remove_of_mem hgc, remove_of_mem (by rw [hgt]; simp), ← hAvd, e1, e2, e3]; rfl,
    ⟨?_, ?_⟩, ⟨rfl, rfl, rfl, rfl⟩, ?_, ?_⟩
  · simp only
    convert hcore3 using 1
    funext q
    have hlen : (X1 ++ X2 ++ Av).length - Av.length = (X1 ++ X2).length := by rw [List.length_append]; omega
    by_cases hq' : q = c
    · subst hq'
      simp only [Function.update_self, if_neg hct]
      simp
    · rw [Function.update_of_ne hq']
      by_cases hq : q = t
      · subst hq
        rw [Function.update_self, hlen, List.take_left, List.drop_left]
        simp only [if_true]
        simp
      · rw [Function.update_of_ne hq]
        simp [hq, hq']
  · intro q
    simp only
    by_cases hq' : q = c
    · subst hq'
      simp only [Function.update_self, hxc]
      refine ⟨⟨pre, by simp⟩, fun _ y hy => ?_, by simp⟩
      simp only [List.mem_append, List.mem_cons, List.not_mem_nil, or_false] at hy
      rcases hy with (hy | hy) | hy | hy
      · exact (h.av q).z hxc y (by rw [eUV]; simp [hy])
      · exact hY2 y hy
      · rw [hy]; exact kc
      · rw [hy, hs3]; simp [kind, Gate.mkS]
    · simp only [Function.update_of_ne hq']
      by_cases hq : q = t
      · subst hq
        simp only [Function.update_self]
        have hlen : (X1 ++ X2 ++ Av).length - Av.length = (X1 ++ X2).length := by rw [List.length_append]; omega
        rw [hlen, List.take_left, List.drop_left]
        refine ⟨⟨X1 ++ X2 ++ [s1, g], by simp⟩, ?_, ?_⟩
        · intro _ y hy
          rcases List.mem_append.mp hy with hy | hy
          · exact hAv y hy
          · rw [List.mem_singleton.mp hy, hs2]; simp [kind, Gate.mkS]
        · intro hx
          refine ⟨[s2], [], by rw [hAvd, hx]; simp, ?_, by simp⟩
          intro y hy
          rw [List.mem_singleton.mp hy, hs2]
          simp [isZPhase, kind, Gate.mkS]
      · simp only [Function.update_of_ne hq]; exact h.av q
  · refine .of_eq fun ψ => ?_
    have hpB : ∀ y ∈ gs B, Placed y := by
      intro y' hy'
      obtain ⟨y, hy, rfl⟩ := List.mem_map.mp hy'
      exact (hlin.stored y (by simp [hy])).placed
    have hB' : ∀ y ∈ gs B, Placed y ∧ ∀ q, ¬ DepAt q (.cz c t) y := by
      intro y' hy'
      obtain ⟨y, hy, rfl⟩ := List.mem_map.mp hy'
      exact ⟨hpB _ hy', hB y hy⟩
    have sub : ∀ {cls p adj r}, r = c ∨ r = t → ∀ y ∈ gs B, Placed y ∧ ∀ q, ¬ DepAt q (.zrot cls r p adj) y := by
      intro cls p adj r hr y hy
      refine ⟨hpB y hy, fun q hd => (hB' y hy).2 q ?_⟩
      obtain ⟨k, l, h1, h2, h3⟩ := hd
      simp only [kind] at h1
      split at h1
      · rename_i hqr
        refine ⟨k, l, ?_, h2, h3⟩
        rw [← h1]
        simp only [kind]
        rw [if_pos (by rw [hqr]; exact hr)]
      · cases h1
    have m1 := fun φ => move_right (x := .cz c t) hct (gs B) hB' φ
    have m2 := fun φ => move_right (x := .mkS t) trivial (gs B) (sub (Or.inr rfl)) φ
    have m3 := fun φ => move_right (x := .mkS c) trivial (gs B) (sub (Or.inl rfl)) φ
    have el : gs L ++ [.cz c t] = gs L ++ ([] ++ [.cz c t]) := by simp
    rw [semGates_append, hsem]
    simp only [List.map_append, List.map_cons, List.map_nil, semGates_append, semGates_cons, semGates_nil, hg, hs1, hs2, hs3]
    generalize semGates (List.map SG.gate A) ψ = φ
    have r1 : ∀ φ, (Gate.cz c t).sem (semGates (gs B) φ) = semGates (gs B) ((Gate.cz c t).sem φ) := fun φ => by
      have := (m1 φ).symm
      rw [semGates_append, semGates_cons] at this
      exact this
    have r2 : ∀ φ, (Gate.mkS t).sem (semGates (gs B) φ) = semGates (gs B) ((Gate.mkS t).sem φ) := fun φ => by
      have := (m2 φ).symm
      rw [semGates_append, semGates_cons] at this
      exact this
    have r3 : ∀ φ, (Gate.mkS c).sem (semGates (gs B) φ) = semGates (gs B) ((Gate.mkS c).sem φ) := fun φ => by
      have := (m3 φ).symm
      rw [semGates_append, semGates_cons] at this
      exact this
    rw [show List.map SG.gate B = gs B from rfl, r1, r2, r3, cnot_cz hct]
  · have : tc k (gs L) = tc k (gs (A ++ g :: B)) := by
      refine tc_perm (List.Perm.map _ ?_)
      refine List.Perm.symm (List.perm_middle.trans ?_)
      rw [hAB]
      exact (List.perm_cons_erase hgL).symm
    rw [this]
    simp only [gs, List.map_append, List.map_cons, List.map_nil, tc_append, tc_cons, tc_nil]
    have t1 : ∀ q b, wg k (Gate.mkS q b) = 0 := by
      intro q b
      cases b <;> simp [Gate.mkS, wg_zrot]
    have e1' : wg k s1.gate = 0 := t1 t true
    have e2' : wg k s2.gate = 0 := t1 t false
    have e3' : wg k s3.gate = 0 := t1 c false
    omega

/-- `add_cz`. -/
theorem PInv.addCz (h : PInv n E s L) (min : Bool) {a b : ℕ} (hab : a ≠ b) (ha : a < n) (hb : b < n) (hl : E a b) :
    ∃ s' L', Optimize.addCz min s a b = some s' ∧ PInv n E s' L' ∧ SameL s s' ∧ Eqv (gs L ++ [.cz a b]) (gs L') ∧ tc k (gs L') ≤ tc k (gs L) + k := by
  unfold Optimize.addCz
  cases min with
  | false => exact h.addCzPlain hab ha hb hl
  | true =>
    simp only [if_true]
    cases hf : findCnot s a b with
    | some g => exact h.cnotCz hab ha hb hf
    | none =>
      cases hf' : findCnot s b a with
      | some g =>
        obtain ⟨s', L', h1, h2, h3, h4, h5⟩ := h.cnotCz hab.symm hb ha hf'
        refine ⟨s', L', h1, h2, h3, Eqv.trans (.of_eq fun ψ => ?_) h4, h5⟩
        rw [semGates_append, semGates_append]
        exact cz_comm _ _ _
      | none => exact h.addCzPlain hab ha hb hl

end Optimize
end PyZX
