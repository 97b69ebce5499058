import Verif.Proofs.OptPlace2

/-!
# Helper lemmas for `basic_optimization`: phase gates and Hadamard gates
-/

namespace PyZX
namespace Optimize

open scoped List

variable {k n : ℕ} {E : ℕ → ℕ → Prop} {s s' : State} {L : List SG}

theorem eraseP_of_find {p : SG → Bool} {g : SG} : ∀ {l : List SG}, l.find? p = some g → l.eraseP p = l.erase g
  | [], h => by simp at h
  | a :: l, h => by
    by_cases ha : p a = true
    · rw [List.find?_cons_of_pos ha] at h
      cases h
      rw [List.eraseP_cons_of_pos ha, List.erase_cons_head]
    · rw [List.find?_cons_of_neg ha] at h
      have hne : a ≠ g := fun e => ha (by rw [e]; exact List.find?_some h)
      rw [List.eraseP_cons_of_neg ha, List.erase_cons_tail (by simpa using hne), eraseP_of_find h]

theorem gs_append (a b : List SG) : gs (a ++ b) = gs a ++ gs b := List.map_append
theorem gs_one (a : SG) : gs [a] = [a.gate] := rfl

theorem isZPhase_gate {g : SG} (h : isZPhase g = true) : ∃ a t p i, g.gate = .zrot a t p i := by
  unfold isZPhase at h
  cases hg : g.gate <;> rw [hg] at h <;> simp at h
  exact ⟨_, _, _, _, rfl⟩

theorem isHad_gate {g : SG} (h : isHad g = true) : ∃ t, g.gate = .had t := by
  unfold isHad at h
  cases hg : g.gate <;> rw [hg] at h <;> simp at h
  exact ⟨_, rfl⟩

theorem den_add_le {p q : ℚ} (hp : p.den ≤ 2) (hq : q.den ≤ 2) : (p + q).den ≤ 2 := by
  have key : ∀ r : ℚ, r.den ≤ 2 → ∃ k : ℤ, r * 2 = k := by
    intro r hr
    have hpos := r.den_pos
    have h := Rat.mul_den_eq_num r
    interval_cases hd : r.den
    · exact ⟨r.num * 2, by push_cast; rw [← h]; push_cast; ring⟩
    · exact ⟨r.num, by rw [← h]; norm_num⟩
  obtain ⟨a, ha⟩ := key p hp
  obtain ⟨b, hb⟩ := key q hq
  have e : p + q = ((a + b : ℤ) : ℚ) / ((2 : ℤ) : ℚ) := by push_cast; rw [← ha, ← hb]; ring
  have : ((p + q).den : ℤ) ∣ 2 := by rw [e, ← Rat.divInt_eq_div]; exact Rat.den_dvd _ _
  exact_mod_cast Int.le_of_dvd (by norm_num) this

theorem mod2_den' (q : ℚ) : (mod2 q).den = q.den := by
  have e : mod2 q = q + ((-(2 * ⌊q / 2⌋) : ℤ) : ℚ) := by unfold mod2; push_cast; ring
  rw [e, Rat.add_intCast_den]

theorem tcount_merge (a b c : ZCls) (t u v : ℕ) (p q : ℚ) (i j i' : Bool) :
    wg k (Gate.zrot a t (mod2 (p + q)) i) ≤ wg k (Gate.zrot b u p j) + wg k (Gate.zrot c v q i') := by
  simp only [wg_zrot, mod2_den']
  by_cases hp : p.den > 2
  · rw [if_pos hp]; split <;> omega
  · by_cases hq : q.den > 2
    · rw [if_pos hq]; split <;> omega
    · rw [if_neg (by have := den_add_le (p := p) (q := q) (by omega) (by omega); omega)]; omega

/-- A phase gate that is available can be moved to the end. -/
theorem PInv.toEndZ (h : PInv n E s L) {t : ℕ} {g : SG} (hx : s.xtype t = false) (hg : g ∈ s.avail t) (hq : g.gate.qubits = [t]) (ψ : QState) :
    semGates (gs L) ψ = semGates (gs (L.erase g ++ [g])) ψ := by
  refine h.core.lin.last (h.mem_of hg) (fun q y hy hd => ?_) ψ
  have hqm : q = t := by
    have := ((h.core.lin.mem q g).mp (pair_mem hy).1).2
    rw [hq] at this
    simpa using this
  subst hqm
  have k1 := (h.av q).after (h.core.lin.nodup q) hg (fun h' => by rw [hx] at h'; cases h') hy
  have k2 := (h.av q).z hx g hg
  rw [hx] at k1
  obtain ⟨k, l, h1, h2, h3⟩ := hd
  rw [k2] at h1
  rw [k1] at h2
  cases h1; cases h2
  simp at h3

/-- The placement of a phase gate. -/
theorem PInv.placeZ (h : PInv n E s L) {t : ℕ} (ht : t < n) (p : ℚ) :
    ∃ s' L', Optimize.placeZ s t p = some s' ∧ PInv n E s' L' ∧ s'.hads = s.hads ∧ s'.nots = s.nots ∧ s'.perm = s.perm ∧
      tc k (gs L') ≤ tc k (gs L) + wg k (Gate.mkZPhase t p) ∧
      ((s'.zs = s.zs ∧ Eqv (gs L ++ [.mkZPhase t p]) (gs L')) ∨ (s'.zs = toggle s.zs t ∧ Eqv (gs L ++ [.mkZPhase t p]) (gs L' ++ [.mkZ t]))) := by
  have plain : ∀ s : State, PInv n E s L → s.xtype t = false → PInv n E (addGate s t (.mkZPhase t p)) (L ++ [⟨s.count, .mkZPhase t p⟩]) ∧
      tc k (gs (L ++ [⟨s.count, .mkZPhase t p⟩])) ≤ tc k (gs L) + wg k (Gate.mkZPhase t p) ∧
      Eqv (gs L ++ [.mkZPhase t p]) (gs (L ++ [⟨s.count, .mkZPhase t p⟩])) := by
    intro s h hx
    refine ⟨h.addPhase ht hx p, ?_, by rw [gs, gs, List.map_append]; exact Eqv.refl _⟩
    rw [gs, List.map_append, tc_append]
    simp [tc]
  unfold Optimize.placeZ
  rcases hx : s.xtype t with _ | _
  · simp only [Bool.false_eq_true, if_false]
    cases hf : (s.avail t).find? isZPhase with
    | none =>
      obtain ⟨h1, h2, h3⟩ := plain s h hx
      exact ⟨_, _, rfl, h1, rfl, rfl, rfl, h2, Or.inl ⟨rfl, h3⟩⟩
    | some g2 =>
      have hgm := List.mem_of_find?_eq_some hf
      obtain ⟨a, t2, p2, i, hg⟩ := isZPhase_gate (List.find?_some hf)
      have ht2 : t2 = t := by
        have := ((h.core.lin.mem t g2).mp (h.av_mem hgm)).2
        rw [hg] at this
        exact (List.mem_singleton.mp this).symm
      subst ht2
      have hq : g2.gate.qubits = [t2] := by rw [hg]; rfl
      simp only [remove_of_mem (h.av_mem hgm), eraseP_of_find hf, Option.bind_eq_bind, Option.bind_some, Option.pure_def]
      set s1 : State := { s with avail := Function.update s.avail t2 ((s.avail t2).erase g2), gates := Function.update s.gates t2 ((s.gates t2).erase g2) } with hs1
      have hph : phaseOf g2 = p2 := by simp [phaseOf, hg]
      have hinv : PInv n E s1 (L.erase g2) := by
        refine ⟨h.core.erase g2 fun q => ?_, fun q => ?_⟩
        · rw [hs1]
          by_cases h1 : q = t2
          · subst h1; simp
          · simp only
            rw [Function.update_of_ne h1, List.erase_of_not_mem]
            intro hm
            have := ((h.core.lin.mem q g2).mp hm).2
            rw [hq, List.mem_singleton] at this
            exact h1 this
        · rw [hs1]
          simp only
          by_cases h1 : q = t2
          · subst h1; simp only [Function.update_self]; exact (h.av q).erase (h.core.lin.nodup q) hgm
          · simp only [Function.update_of_ne h1]; exact h.av q
      have hx1 : s1.xtype t2 = false := hx
      have hte := tc_erase (k := k) (h.mem_of hgm)
      rw [hg] at hte
      have hm := tcount_merge (k := k) .zphase .zphase a t2 t2 t2 p p2 false false i
      have hsem : ∀ ψ, semGates (gs L ++ [.mkZPhase t2 p]) ψ = (Gate.mkZPhase t2 (mod2 (p + p2))).sem (semGates (gs (L.erase g2)) ψ) := by
        intro ψ
        rw [semGates_append, h.toEndZ hx hgm hq ψ, gs, List.map_append, semGates_append]
        simp only [List.map_cons, List.map_nil, semGates_cons, semGates_nil, hg]
        exact zrot_zrot _ _ _ _ _ _ _ _ _ _
      rw [hph]
      by_cases hp1 : mod2 (p + p2) = 1
      · rw [if_pos hp1]
        refine ⟨_, L.erase g2, rfl, ⟨hinv.core, hinv.av⟩, rfl, rfl, rfl, by omega, Or.inr ⟨rfl, .of_eq fun ψ => ?_⟩⟩
        rw [hsem, hp1, semGates_append]
        rfl
      · rw [if_neg hp1]
        by_cases hp0 : mod2 (p + p2) = 0
        · rw [if_neg (by simpa using hp0)]
          refine ⟨_, L.erase g2, rfl, hinv, rfl, rfl, rfl, by omega, Or.inl ⟨rfl, .of_eq fun ψ => ?_⟩⟩
          rw [hsem, hp0]
          exact zrot_zero _ _ _ _
        · rw [if_pos (by simpa using hp0)]
          refine ⟨_, _, rfl, hinv.addPhase ht hx1 _, rfl, rfl, rfl, ?_, Or.inl ⟨rfl, .of_eq fun ψ => ?_⟩⟩
          · rw [gs_append, tc_append, gs_one, tc_cons, tc_nil]
            unfold Gate.mkZPhase
            simp only
            omega
          · rw [hsem, gs_append, semGates_append]
            rfl
  · simp only [if_true]
    obtain ⟨h1, h2, h3⟩ := plain _ (h.reset t false) (by simp [Optimize.reset])
    exact ⟨_, _, rfl, h1, rfl, rfl, rfl, h2, Or.inl ⟨rfl, h3⟩⟩

/-- A gate at the end of the list of its only qubit can be moved to the end. -/
theorem Lin.lastOne {gates : ℕ → List SG} {L : List SG} (h : Lin gates L) {t : ℕ} {g : SG} {r : List SG} (hg : gates t = r ++ [g])
    (hq : g.gate.qubits = [t]) (ψ : QState) : semGates (gs L) ψ = semGates (gs (L.erase g ++ [g])) ψ := by
  have hgt : g ∈ gates t := by rw [hg]; simp
  refine h.last ((h.mem t g).mp hgt).1 (fun q y hy _ => ?_) ψ
  have hqm : q = t := by
    have := ((h.mem q g).mp (pair_mem hy).1).2
    rw [hq] at this
    simpa using this
  subst hqm
  have hn := h.nodup q
  rw [hg] at hy hn
  have hgr : g ∉ r := fun h' => (List.nodup_append.mp hn).2.2 g h' g (by simp) rfl
  rcases pair_append.mp hy with h1 | ⟨h1, -⟩ | h1
  · exact hgr (pair_mem h1).1
  · exact hgr h1
  · exact absurd h1.length_le (by simp)

/-- The rewrite of HAD, S, HAD. -/
theorem PInv.hadSHad (h : PInv n E s L) {t : ℕ} (hr : Optimize.hadSHad s t = some s') :
    ∃ L', PInv n E s' L' ∧ SameL s s' ∧ Eqv (gs L ++ [.had t]) (gs L') ∧ tc k (gs L') ≤ tc k (gs L) := by
  unfold Optimize.hadSHad at hr
  rcases hrev : (s.gates t).reverse with _ | ⟨g2, _ | ⟨hd, r⟩⟩
  · rw [hrev] at hr; simp at hr
  · rw [hrev] at hr; simp at hr
  rw [hrev] at hr
  have hgt : s.gates t = r.reverse ++ [hd] ++ [g2] := by
    have := congrArg List.reverse hrev
    rw [List.reverse_reverse] at this
    rw [this]; simp
  have hm2 : g2 ∈ s.gates t := by rw [hgt]; simp
  have hmh : hd ∈ s.gates t := by rw [hgt]; simp
  have hL2 := (h.core.lin.mem t g2).mp hm2
  have hLh := (h.core.lin.mem t hd).mp hmh
  have hn := h.core.lin.nodup t
  rw [hgt] at hn
  have hg2r : g2 ∉ r.reverse ++ [hd] := fun h' => (List.nodup_append.mp hn).2.2 g2 h' g2 (by simp) rfl
  have hhr : hd ∉ r.reverse := fun h' => (List.nodup_append.mp (List.nodup_append.mp hn).1).2.2 hd h' hd (by simp) rfl
  simp only at hr
  cases hg : g2.gate with
  | zrot cls t2 p adj =>
    rw [hg] at hr
    simp only at hr
    have ht2 : t2 = t := by
      have := hL2.2
      rw [hg] at this
      exact (List.mem_singleton.mp this).symm
    subst ht2
    split at hr
    · rename_i hcond
      obtain ⟨hh, hden⟩ := hcond
      obtain ⟨th, hhg⟩ := isHad_gate hh
      have hth : th = t2 := by
        have := hLh.2
        rw [hhg] at this
        exact (List.mem_singleton.mp this).symm
      subst hth
      have hlt : th < n := h.mem_lt hm2
      have hne : hd ≠ g2 := by rintro rfl; exact hg2r (by simp)
      have hs' := (Option.some.inj hr).symm
      clear hr
      set zp : SG := ⟨s.count, .mkZPhase th (mod2 (-p))⟩ with hzp
      set g2' : SG := ⟨g2.idx, .zrot cls th (mod2 (-p)) (if cls = .s ∧ (mod2 (-p)).num > 1 then true else adj)⟩ with hg2'
      -- the circuit without the two gates
      have hq2 : g2.gate.qubits = [th] := by rw [hg]; rfl
      have hqh : hd.gate.qubits = [th] := by rw [hhg]; rfl
      have notin : ∀ {x : SG}, x.gate.qubits = [th] → ∀ q ≠ th, x ∉ s.gates q := by
        intro x hx q hq hm
        have := ((h.core.lin.mem q x).mp hm).2
        rw [hx, List.mem_singleton] at this
        exact hq this
      have c1 : Core n E (Function.update s.gates th (r.reverse ++ [hd])) s.count (L.erase g2) := h.core.erase g2 fun q => by
        by_cases hq : q = th
        · subst hq; rw [Function.update_self, hgt, List.erase_append_right _ hg2r]; simp
        · rw [Function.update_of_ne hq, List.erase_of_not_mem (notin hq2 q hq)]
      have c2 : Core n E (Function.update s.gates th r.reverse) s.count ((L.erase g2).erase hd) := c1.erase hd fun q => by
        by_cases hq : q = th
        · subst hq; rw [Function.update_self, Function.update_self, List.erase_append_right _ hhr]; simp
        · rw [Function.update_of_ne hq, Function.update_of_ne hq, List.erase_of_not_mem (notin hqh q hq)]
      have hhL : hd ∈ L.erase g2 := (h.core.lin.lnodup.mem_erase_iff).mpr ⟨hne, hLh.1⟩
      have hi2 : g2.idx ∉ (L.erase g2).map SG.idx := idx_erase h.core.lin hL2.1
      have hih : hd.idx ∉ ((L.erase g2).erase hd).map SG.idx := idx_erase c1.lin hhL
      have snoc1 : ∀ {M : List SG} {k : List SG} {z : SG} {c c' : ℕ}, Core n E (Function.update s.gates th k) c M → Stored z.gate → z.gate.qubits = [th] →
          Links E z.gate → z.idx ∉ M.map SG.idx → c ≤ c' → z.idx < c' → Core n E (Function.update s.gates th (k ++ [z])) c' (M ++ [z]) := by
        intro M k z c c' hc hst hqz hlk hi hcc hzc
        refine hc.snoc hst hi hcc hzc (by rw [hqz]; simpa using hlt) hlk fun q => ?_
        rw [hqz]
        by_cases hq : q = th
        · subst hq; simp
        · rw [Function.update_of_ne hq, Function.update_of_ne hq, if_neg (by simpa using hq)]
      have c3 := snoc1 (z := zp) c2 trivial rfl trivial c2.fresh (Nat.le_succ _) (Nat.lt_succ_self _)
      have hnh : hd.idx ≠ s.count := (h.core.cnt hd hLh.1).ne
      have hn2 : g2.idx ≠ s.count := (h.core.cnt g2 hL2.1).ne
      have c4 := snoc1 (z := hd) c3 (by rw [hhg]; trivial) hqh (by rw [hhg]; trivial) (by
        rw [List.map_append, List.mem_append, not_or]
        exact ⟨hih, by simpa [hzp] using hnh⟩) le_rfl (Nat.lt_succ_of_lt (h.core.cnt hd hLh.1))
      have c5 := snoc1 (z := g2') c4 trivial rfl trivial (by
        rw [List.map_append, List.map_append, List.mem_append, List.mem_append, not_or, not_or]
        refine ⟨⟨fun h' => hi2 ((List.erase_sublist.map SG.idx).subset h'), by simpa [hzp, hg2'] using hn2⟩, ?_⟩
        intro h'
        simp only [List.map_cons, List.map_nil, List.mem_singleton] at h'
        exact hi2 (by rw [show g2.idx = hd.idx from h']; exact List.mem_map_of_mem hhL)) le_rfl (Nat.lt_succ_of_lt (h.core.cnt g2 hL2.1))
      refine ⟨(L.erase g2).erase hd ++ [zp] ++ [hd] ++ [g2'], ⟨?_, fun q => ?_⟩, ?_, ?_, ?_⟩
      · rw [hs']
        simp only
        convert c5 using 2
        simp
      · rw [hs']
        simp only
        by_cases hq : q = th
        · subst hq
          simp only [Function.update_self]
          -- the available gates are the last one or none
          have hav := h.av q
          have hsuf := hav.suf
          rw [hgt] at hsuf
          have hhav : hd ∉ s.avail q := by
            intro hm
            have kh : kind hd.gate q = some .h := by rw [hhg]; simp [kind]
            rcases hx : s.xtype q with _ | _
            · have := hav.z hx hd hm; rw [kh] at this; cases this
            · obtain ⟨zs, xs, e, h1, h2⟩ := hav.x hx
              rw [e] at hm
              rcases List.mem_append.mp hm with h3 | h3
              · have := (h1 hd h3).2; rw [kh] at this; cases this
              · have := h2 hd h3; rw [kh] at this; cases this
          have hcase : s.avail q = [] ∨ s.avail q = [g2] := by
            obtain ⟨pre, hpre⟩ := hsuf
            rcases List.eq_nil_or_concat (s.avail q) with he | ⟨m, z, he⟩
            · exact Or.inl he
            · right
              rw [he] at hpre hhav ⊢
              simp only [List.concat_eq_append] at hpre hhav ⊢
              rw [← List.append_assoc] at hpre
              obtain ⟨e1, e2⟩ := List.append_inj' hpre rfl
              rcases List.eq_nil_or_concat m with hm | ⟨m', z', hm⟩
              · rw [hm]; simpa using e2
              · exfalso
                rw [hm] at e1 hhav
                simp only [List.concat_eq_append] at e1 hhav
                rw [← List.append_assoc] at e1
                obtain ⟨-, e4⟩ := List.append_inj' e1 rfl
                simp only [List.cons.injEq, and_true] at e4
                exact hhav (by simp [e4])
          rcases hcase with he | he
          · rw [he]; exact AvQ.nil _ _ _
          · rw [he]
            simp only [List.map_cons, List.map_nil, if_true]
            refine ⟨⟨r.reverse ++ [zp, hd], by simp⟩, ?_, ?_⟩
            · intro _ y hy
              rw [List.mem_singleton.mp hy, hg2']
              simp [kind]
            · intro _
              refine ⟨[g2'], [], by simp, ?_, by simp⟩
              intro y hy
              rw [List.mem_singleton.mp hy, hg2']
              simp [isZPhase, kind]
        · simp only [Function.update_of_ne hq]; exact h.av q
      · rw [hs']; exact ⟨rfl, rfl, rfl, rfl⟩
      · have e1 : ∀ ψ, semGates (gs L) ψ = semGates (gs ((L.erase g2).erase hd) ++ [.had th, g2.gate]) ψ := by
          intro ψ
          rw [h.core.lin.lastOne hgt hq2 ψ, gs, List.map_append, semGates_append,
            c1.lin.lastOne (t := th) (r := r.reverse) (g := hd) (by rw [Function.update_self]) hqh ψ, gs, List.map_append, semGates_append, gs, semGates_append]
          simp only [List.map_cons, List.map_nil, semGates_cons, semGates_nil, hhg]
        have e2 : Eqv (gs L ++ [.had th]) (gs ((L.erase g2).erase hd) ++ [.had th, g2.gate, .had th]) := by
          refine .of_eq fun ψ => ?_
          rw [semGates_append, e1, ← semGates_append]
          simp
        refine e2.trans ?_
        have e3 : gs ((L.erase g2).erase hd ++ [zp] ++ [hd] ++ [g2']) = gs ((L.erase g2).erase hd) ++ [zp.gate, .had th, g2'.gate] := by
          simp [gs, hhg]
        rw [e3, hg]
        exact (had_s_had hden rfl _ _ _ _ _ _ _).left _
      · rw [tc_erase hL2.1, tc_erase hhL]
        simp only [gs, List.map_append, List.map_cons, List.map_nil, tc_append, tc_cons, tc_nil]
        have t1 : wg k zp.gate = 0 := by
          rw [hzp, Gate.mkZPhase, wg_zrot, mod2_den']; simp [hden]
        have t2 : wg k g2'.gate = 0 := by
          rw [hg2', wg_zrot, mod2_den']; simp [hden]
        omega
    · cases hr
  | _ => rw [hg] at hr; simp at hr

end Optimize
end PyZX
