import Verif.Proofs.PBBlocks
import Verif.Proofs.PBQuarter

/-!
# Helper lemmas for `phase_block_optimize`: `pre_optimize` and the correction
-/

namespace PyZX
namespace PhaseBlock

open Optimize ToddSpec Todd Mat2
open scoped List

variable {n : ℕ}

/-! ### `parse_circuit` with `separate_correction` -/

/-- What `parse_circuit` gives. -/
structure SepOK (n : ℕ) (l : List Gate) (r : List Gate × List Gate) : Prop where
  acc : ∀ g ∈ r.1, Accepted n g
  tc : tcs r.1 ≤ tcs l
  sem : Eqv l (r.1 ++ r.2)
  cor : ∃ (nots : List ℕ) (sw : List (ℕ × ℕ)), r.2 = nots.map Gate.mkNOT ++ swapGates sw ∧ (∀ q ∈ nots, q < n) ∧ ∀ p ∈ sw, p.1 < p.2 ∧ p.2 < n
  q : (∀ g ∈ l, QIn g) → ∀ g ∈ r.1, QGate g

theorem cor_q {r : List Gate × List Gate} (h : ∃ (nots : List ℕ) (sw : List (ℕ × ℕ)), r.2 = nots.map Gate.mkNOT ++ swapGates sw ∧ (∀ q ∈ nots, q < n) ∧ ∀ p ∈ sw, p.1 < p.2 ∧ p.2 < n)
    (hq : ∀ g ∈ r.1, QGate g) : ∀ g ∈ withCorrection r, QIn g := by
  obtain ⟨nots, sw, e, -, -⟩ := h
  intro g hg
  rcases List.mem_append.mp hg with hg | hg
  · exact (hq g hg).inp
  · rw [e, List.flatMap_append, List.mem_append] at hg
    rcases hg with hg | hg
    · obtain ⟨g', h1, h2⟩ := List.mem_flatMap.mp hg
      obtain ⟨q, -, rfl⟩ := List.mem_map.mp h1
      rw [show (Gate.mkNOT q).toBasic = [.mkNOT q] from rfl, List.mem_singleton] at h2
      subst h2; trivial
    · obtain ⟨g', h1, h2⟩ := List.mem_flatMap.mp hg
      obtain ⟨p, -, rfl⟩ := List.mem_map.mp h1
      simp only [Gate.toBasic, List.mem_cons, List.not_mem_nil, or_false] at h2
      rcases h2 with rfl | rfl | rfl <;> trivial

theorem pass_spec' (min ds : Bool) {l : List Gate} (ha : ∀ g ∈ l, Accepted n g) : ∃ r, parseForward n min ds l = some r ∧ SepOK n l r ∧ PassOK 0 n (fun _ _ => True) ds l r := by
  obtain ⟨r, e, h⟩ := pass_spec (k := 0) (E := fun _ _ => True) min ds (fun _ _ _ => trivial) (fun _ _ _ => trivial) ha fun _ g _ => by cases g <;> trivial
  obtain ⟨nots, sw, h1, h2, h3, -⟩ := h.cor
  refine ⟨r, e, ⟨h.acc, ?_, h.sem, ⟨nots, sw, h1, h2, h3⟩, fun hl => parseForward_q hl e⟩, h⟩
  have := h.tc
  have tc0 : ∀ l : List Gate, Optimize.tc 0 l = tcs l := by
    intro l
    unfold Optimize.tc tcs
    congr 2
    funext g
    simp [wg]
  rwa [tc0, tc0] at this

theorem SepOK.with {ds : Bool} {l : List Gate} {r : List Gate × List Gate} (h : SepOK n l r) (h' : PassOK 0 n (fun _ _ => True) ds l r) :
    (∀ g ∈ withCorrection r, Accepted n g) ∧ Eqv l (withCorrection r) ∧ tcs (withCorrection r) ≤ tcs l ∧ ((∀ g ∈ l, QIn g) → ∀ g ∈ withCorrection r, QIn g) := by
  obtain ⟨a, -, c, d⟩ := accepted_correction h' (fun _ _ _ => trivial) fun _ => rfl
  have tc0 : ∀ l : List Gate, Optimize.tc 0 l = tcs l := by
    intro l
    unfold Optimize.tc tcs
    congr 2
    funext g
    simp [wg]
  rw [tc0, tc0] at c
  exact ⟨a, d, c, fun hl => cor_q h.cor (h.q hl)⟩

theorem SepOK.before {a b : List Gate} {r : List Gate × List Gate} (h : SepOK n b r) (he : Eqv a b) (ht : tcs b ≤ tcs a) (hq : (∀ g ∈ a, QIn g) → ∀ g ∈ b, QIn g) : SepOK n a r :=
  ⟨h.acc, h.tc.trans ht, he.trans h.sem, h.cor, fun ha => h.q (hq ha)⟩

theorem roundsSep_spec (maxIter : ℕ) (ds : Bool) :
    ∀ (fuel i : ℕ) (min : Bool) (l : List Gate) (cnt : ℕ × ℕ × ℕ), (∀ g ∈ l, Accepted n g) →
      (if min then maxIter ≤ i + fuel ∧ 1 ≤ fuel else maxIter ≤ i + fuel ∧ 2 ≤ fuel) →
      ∃ r, roundsSep n maxIter ds fuel i min l cnt = some r ∧ SepOK n l r
  | 0, i, min, l, cnt, _, hf => by cases min <;> simp at hf
  | fuel + 1, i, min, l, cnt, ha, hf => by
    have har : ∀ g ∈ l.reverse, Accepted n g := fun g hg => ha g (by simpa using hg)
    obtain ⟨r1, e1, k1, k1'⟩ := pass_spec' min ds har
    obtain ⟨a1, a2, a3, a4⟩ := k1.with k1'
    have har' : ∀ g ∈ (withCorrection r1).reverse, Accepted n g := fun g hg => a1 g (by simpa using hg)
    have b2 : Eqv l (withCorrection r1).reverse := by
      have := a2.reverse (n := n) har a1
      rwa [List.reverse_reverse] at this
    have b3 : tcs (withCorrection r1).reverse ≤ tcs l := by
      rw [tcs_perm (withCorrection r1).reverse_perm]
      rwa [tcs_perm l.reverse_perm] at a3
    have b4 : (∀ g ∈ l, QIn g) → ∀ g ∈ (withCorrection r1).reverse, QIn g := fun h g hg =>
      a4 (fun g hg => h g (by simpa using hg)) g (by simpa using hg)
    obtain ⟨r2, e2, k2, k2'⟩ := pass_spec' min ds har'
    rw [roundsSep, e1]
    simp only [Option.bind_eq_bind, Option.bind_some, e2]
    by_cases hc : (min && (decide (cnt.1 ≤ (stats r2.1).1 ∧ cnt.2.1 ≤ (stats r2.1).2.1 ∧ cnt.2.2 ≤ (stats r2.1).2.2) || decide (maxIter ≤ i + 1))) = true
    · rw [if_pos hc]
      exact ⟨r2, rfl, k2.before b2 b3 b4⟩
    · rw [if_neg hc]
      obtain ⟨c1, c2, c3, c4⟩ := k2.with k2'
      obtain ⟨r, e3, o3⟩ := roundsSep_spec maxIter ds fuel (i + 1) true (withCorrection r2) (stats r2.1) c1 (by
        rw [if_pos rfl]
        cases min with
        | false => simp only [Bool.false_eq_true, if_false] at hf; omega
        | true =>
          simp only [if_true] at hf
          simp only [Bool.true_and, Bool.or_eq_true, decide_eq_true_eq, not_or] at hc
          omega)
      exact ⟨r, e3, o3.before (b2.trans c2) (c3.trans b3) fun h => c4 (b4 h)⟩

theorem parseCircuitSep_spec (maxIter : ℕ) (ds : Bool) {l : List Gate} (ha : ∀ g ∈ l, Accepted n g) :
    ∃ r, parseCircuitSep n maxIter ds l = some r ∧ SepOK n l r := by
  obtain ⟨r1, e1, k1, k1'⟩ := pass_spec' false ds ha
  obtain ⟨a1, a2, a3, a4⟩ := k1.with k1'
  obtain ⟨r, e2, o2⟩ := roundsSep_spec maxIter ds (maxIter + 2) 0 false (withCorrection r1) (stats r1.1) a1 (by
    simp only [Bool.false_eq_true, if_false]; omega)
  refine ⟨r, ?_, o2.before a2 a3 a4⟩
  rw [parseCircuitSep, e1]
  exact e2

/-! ### The swaps -/

theorem pm_set {l : List ℕ} {c t : ℕ} (hc : c < l.length) (ht : t < l.length) (i : ℕ) :
    pm ((l.set c (l.getD t 0)).set t (l.getD c 0)) i = pm l (Equiv.swap c t i) := by
  have g0 : ∀ {m : List ℕ} {j}, j < m.length → m.getD j 0 = pm m j := fun h => by rw [pm_lt h, List.getD_eq_getElem?_getD, List.getElem?_eq_getElem h]; rfl
  by_cases hi : i < l.length
  · rw [← g0 (m := (l.set c (l.getD t 0)).set t (l.getD c 0)) (by simpa using hi), getD_set _ (by simpa using ht), getD_set _ hc]
    by_cases h1 : i = t
    · subst h1; rw [if_pos rfl, Equiv.swap_apply_right, g0 hc]
    · rw [if_neg h1]
      by_cases h2 : i = c
      · subst h2; rw [if_pos rfl, Equiv.swap_apply_left, g0 ht]
      · rw [if_neg h2, Equiv.swap_apply_of_ne_of_ne h2 h1, g0 hi]
  · rw [pm_ge (l := (l.set c _).set t _) (by simpa using hi), Equiv.swap_apply_of_ne_of_ne (by omega) (by omega), pm_ge (by omega)]

theorem swapAts : ∀ {sw : List (ℕ × ℕ)} {p : List ℕ}, IsPerm p → (∀ s ∈ sw, s.1 < s.2 ∧ s.2 < p.length) →
    IsPerm ((swapGates sw).foldl swapAt p) ∧ ((swapGates sw).foldl swapAt p).length = p.length ∧ ∀ i, pm ((swapGates sw).foldl swapAt p) (followSwaps sw i) = pm p i
  | [], p, h, _ => ⟨h, rfl, fun _ => rfl⟩
  | s :: sw, p, h, hs => by
    have h1 := hs s (by simp)
    have hp := isPerm_swap h (c := s.1) (t := s.2) (by omega) (by omega)
    have e : (swapGates (s :: sw)).foldl swapAt p = (swapGates sw).foldl swapAt ((p.set s.1 (p.getD s.2 0)).set s.2 (p.getD s.1 0)) := rfl
    rw [e]
    obtain ⟨k1, k2, k3⟩ := swapAts (sw := sw) hp fun s' hs' => by simpa using hs s' (by simp [hs'])
    refine ⟨k1, by rw [k2]; simp, fun i => ?_⟩
    rw [show followSwaps (s :: sw) i = followSwaps sw (Equiv.swap s.1 s.2 i) from rfl, k3, pm_set (by omega) (by omega), Equiv.swap_apply_self]

theorem nots_swapAt (nots : List ℕ) (p : List ℕ) : (nots.map Gate.mkNOT).foldl swapAt p = p := by
  induction nots with
  | nil => rfl
  | cons a l ih => exact ih

theorem isPerm_range (n : ℕ) : IsPerm (List.range n) := ⟨List.nodup_range, fun v hv => by simpa using hv⟩

theorem invert_get {p : List ℕ} (h : IsPerm p) {i : ℕ} (hi : i < p.length) : pm (invert p) (pm p i) = i := by
  have hv : p[i] < p.length := h.2 _ (List.getElem_mem hi)
  rw [pm_lt hi, pm_lt (l := invert p) (by simpa [invert] using hv)]
  simp only [invert, List.getElem_map, List.getElem_range]
  exact h.1.idxOf_getElem i hi

theorem invert_perm {p : List ℕ} (h : IsPerm p) : IsPerm (invert p) := by
  have hlen : (invert p).length = p.length := by simp [invert]
  constructor
  · unfold invert
    refine List.Nodup.map_on ?_ List.nodup_range
    intro a ha b hb e
    have ha' := isPerm_mem h (List.mem_range.mp ha)
    have hb' := isPerm_mem h (List.mem_range.mp hb)
    rw [← List.getElem_idxOf (List.idxOf_lt_length_of_mem ha'), ← List.getElem_idxOf (List.idxOf_lt_length_of_mem hb')]
    simp only [e]
  · intro v hv
    rw [hlen]
    obtain ⟨i, hi, rfl⟩ := List.mem_map.mp hv
    exact List.idxOf_lt_length_of_mem (isPerm_mem h (List.mem_range.mp hi))

theorem follow_lt : ∀ {sw : List (ℕ × ℕ)} {i : ℕ}, (∀ p ∈ sw, p.1 < n ∧ p.2 < n) → i < n → followSwaps sw i < n
  | [], _, _, h => h
  | p :: sw, i, h, hi => by
    have hp := h p (by simp)
    refine follow_lt (sw := sw) (i := Equiv.swap p.1 p.2 i) (fun p hp => h p (by simp [hp])) ?_
    rw [Equiv.swap_apply_def]
    split
    · exact hp.2
    · split
      · exact hp.1
      · exact hi

/-- The swaps of the correction, after the permutation has been computed. -/
theorem swaps_spec {nots : List ℕ} {sw : List (ℕ × ℕ)} (hs : ∀ p ∈ sw, p.1 < p.2 ∧ p.2 < n) (ψ : QState) :
    IsPerm (invert ((nots.map Gate.mkNOT ++ swapGates sw).foldl swapAt (List.range n))) ∧
    (invert ((nots.map Gate.mkNOT ++ swapGates sw).foldl swapAt (List.range n))).length = n ∧
    semGates (swapGates (permutationAsSwaps (invert ((nots.map Gate.mkNOT ++ swapGates sw).foldl swapAt (List.range n))))) ψ = semGates (swapGates sw) ψ := by
  rw [List.foldl_append, nots_swapAt]
  obtain ⟨k1, k2, k3⟩ := swapAts (sw := sw) (isPerm_range n) fun s h => by simpa using hs s h
  set P := (swapGates sw).foldl swapAt (List.range n) with hP
  rw [List.length_range] at k2
  have hi := invert_perm k1
  have hs' : ∀ p ∈ sw, p.1 < n ∧ p.2 < n := fun p hp => by have := hs p hp; omega
  refine ⟨hi, by simp [invert, k2], ?_⟩
  rw [sem_permSwaps hi]
  funext x
  rw [permSem, sem_swaps]
  congr 1
  funext i
  congr 1
  by_cases h : i < n
  · have h1 := follow_lt hs' h
    have := invert_get k1 (i := followSwaps sw i) (by rw [k2]; exact h1)
    rwa [k3, pm_range] at this
  · rw [pm_ge (by simp [invert, k2]; omega), follow_ge hs' (by omega)]

/-- The correction. -/
theorem withBlocks_eq {shuffle : ℕ → Data → Data} {r : List Gate × List Gate} {nots : List ℕ} {sw : List (ℕ × ℕ)} (e : r.2 = nots.map Gate.mkNOT ++ swapGates sw)
    (out : List Gate) : withBlocks shuffle n r = some out ↔ ∃ l, blockGates shuffle n r.1 = some l ∧
      out = l ++ nots.map Gate.mkNOT ++ swapGates (permutationAsSwaps (invert (r.2.foldl swapAt (List.range n)))) := by
  have hf : r.2.filter isNot = nots.map Gate.mkNOT := by
    rw [e, List.filter_append, List.filter_eq_self.mpr, List.filter_eq_nil_iff.mpr, List.append_nil]
    · intro g hg
      obtain ⟨p, -, rfl⟩ := List.mem_map.mp hg
      simp [isNot]
    · intro g hg
      obtain ⟨p, -, rfl⟩ := List.mem_map.mp hg
      rfl
  unfold withBlocks
  rw [hf, Option.map_eq_some_iff]
  constructor
  · rintro ⟨l, h1, h2⟩
    exact ⟨l, h1, h2.symm⟩
  · rintro ⟨l, h1, h2⟩
    exact ⟨l, h1, h2.symm⟩

theorem quarter_lgate {g : Gate} (h : Accepted n g) (hq : QGate g) : LGate n g := by
  cases g <;> simp only [Accepted] at h <;> simp only [QGate] at hq
  case had t => exact Or.inl ⟨t, h, rfl⟩
  case zrot cls t p adj => exact Or.inr ⟨h, hq⟩
  case cz c t => exact Or.inr ⟨h.2.1, h.2.2, h.1⟩
  case cnot c t => exact Or.inr ⟨h.2.1, h.2.2, h.1⟩

/-- The gates of the result. -/
def OutGate (n : ℕ) (g : Gate) : Prop := LGate n g ∨ (∃ q < n, g = .mkNOT q) ∨ ∃ a b, a < b ∧ b < n ∧ g = .swap a b

/-- The blocks and the correction. -/
theorem withBlocks_spec {shuffle : ℕ → Data → Data} (hs : ∀ k d, (shuffle k d).Perm d) {l : List Gate} {r : List Gate × List Gate} (h : SepOK n l r) :
    (∀ out, withBlocks shuffle n r = some out → (∀ g ∈ out, OutGate n g) ∧ Eqv l out ∧ tcs out ≤ tcs l) ∧
    ((∀ g ∈ l, QIn g) → 2 ≤ n → n < 500 → (withBlocks shuffle n r).isSome) ∧
    (n = 1 → r.1 ≠ [] → withBlocks shuffle n r = none) := by
  obtain ⟨nots, sw, e, hn, hw⟩ := h.cor
  obtain ⟨k1, k2, k3⟩ := blockGates_spec (n := n) hs (l := r.1) fun g hg => (accepted_ok (h.acc g hg)).2
  refine ⟨fun out ho => ?_, fun hq n1 n2 => ?_, fun n1 hne => ?_⟩
  · obtain ⟨m, e1, rfl⟩ := (withBlocks_eq e out).mp ho
    obtain ⟨-, m1, m2, m3⟩ := k1 m e1
    rw [e]
    have sp := swaps_spec (n := n) (nots := nots) hw
    obtain ⟨p1, p2, -⟩ := sp (fun _ => 0)
    have hr : ∀ g ∈ swapGates (permutationAsSwaps (invert ((nots.map Gate.mkNOT ++ swapGates sw).foldl swapAt (List.range n)))), ∃ a b, a < b ∧ b < n ∧ g = .swap a b := by
      intro g hg
      obtain ⟨p, hp, rfl⟩ := List.mem_map.mp hg
      have := Props.swaps_range p1 p hp
      rw [p2] at this
      exact ⟨p.1, p.2, this.1, this.2, rfl⟩
    have hnn : ∀ g ∈ nots.map Gate.mkNOT, ∃ q < n, g = .mkNOT q := by
      intro g hg
      obtain ⟨q, hq, rfl⟩ := List.mem_map.mp hg
      exact ⟨q, hn q hq, rfl⟩
    refine ⟨fun g hg => ?_, ?_, ?_⟩
    · rcases List.mem_append.mp hg with hg | hg
      · rcases List.mem_append.mp hg with hg | hg
        · exact Or.inl (m1 g hg)
        · exact Or.inr (Or.inl (hnn g hg))
      · exact Or.inr (Or.inr (hr g hg))
    · refine h.sem.trans ⟨1, by simp, fun ψ x => ?_⟩
      rw [one_mul, semGates_append (_ ++ _), (sp _).2.2, e, ← semGates_append, List.append_assoc, semGates_append m, m2, ← semGates_append]
    · rw [tcs_append, tcs_append]
      have t1 : tcs (nots.map Gate.mkNOT) = 0 := by
        unfold tcs
        refine List.sum_eq_zero fun v hv => ?_
        obtain ⟨g, hg, rfl⟩ := List.mem_map.mp hv
        obtain ⟨q, -, rfl⟩ := hnn g hg
        simp [Gate.mkNOT, Gate.tcount]
      have t2 : tcs (swapGates (permutationAsSwaps (invert ((nots.map Gate.mkNOT ++ swapGates sw).foldl swapAt (List.range n))))) = 0 := by
        unfold tcs
        refine List.sum_eq_zero fun v hv => ?_
        obtain ⟨g, hg, rfl⟩ := List.mem_map.mp hv
        obtain ⟨a, b, -, -, rfl⟩ := hr g hg
        simp [Gate.tcount]
      have := h.tc
      omega
  · obtain ⟨m, e1⟩ := Option.isSome_iff_exists.mp (k2 (fun g hg => quarter_lgate (h.acc g hg) (h.q hq g hg)) n1 n2)
    rw [(withBlocks_eq e _).mpr ⟨m, e1, rfl⟩]
    rfl
  · unfold withBlocks
    rw [k3 n1 hne]
    rfl

end PhaseBlock
end PyZX
