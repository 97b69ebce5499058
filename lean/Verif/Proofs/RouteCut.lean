import Verif.Proofs.RoutePlace
import Mathlib.Data.Finset.Card

/-!
# The search of `_is_cutting` and the default order of removal
-/

namespace PyZX
namespace Routing
open Mat2

/-- The vertices found so far. -/
def Cut.keys (s : Cut) : List ℕ := s.disc.map Prod.fst

/-- The number of vertices not found yet. -/
def left (vs : List ℕ) (s : Cut) : ℕ := (vs.toFinset \ s.keys.toFinset).card

theorem lookup_none_iff {l : List (ℕ × ℕ)} {v : ℕ} : l.lookup v = none ↔ v ∉ l.map Prod.fst := by
  rw [List.lookup_eq_none_iff]
  simp only [List.mem_map, not_exists, not_and, ne_eq, bne_iff_ne]
  constructor
  · intro h p hp h'; exact h p hp h'.symm
  · intro h p hp h'; exact h p hp h'.symm

theorem lookup_some_mem {l : List (ℕ × ℕ)} {v x : ℕ} (h : l.lookup v = some x) : v ∈ l.map Prod.fst := by
  by_contra hc
  rw [lookup_none_iff.mpr hc] at h; simp at h

theorem left_le {vs : List ℕ} {s s' : Cut} (h : ∀ x ∈ s.keys, x ∈ s'.keys) : left vs s' ≤ left vs s := by
  apply Finset.card_le_card
  intro x hx
  simp only [Finset.mem_sdiff, List.mem_toFinset] at hx ⊢
  exact ⟨hx.1, fun hc => hx.2 (h x hc)⟩

theorem left_lt {vs : List ℕ} {s s' : Cut} {v : ℕ} (h : ∀ x ∈ s.keys, x ∈ s'.keys) (hv : v ∈ vs) (h1 : v ∉ s.keys) (h2 : v ∈ s'.keys) : left vs s' < left vs s := by
  apply Finset.card_lt_card
  refine ⟨fun x hx => ?_, fun hc => ?_⟩
  · simp only [Finset.mem_sdiff, List.mem_toFinset] at hx ⊢
    exact ⟨hx.1, fun hc => hx.2 (h x hc)⟩
  · have := hc (show v ∈ vs.toFinset \ s.keys.toFinset by simp [hv, h1])
    simp [h2] at this

/-- Consistency of the state: the last vertex found is not marked as cutting. -/
structure CutOK (s : Cut) : Prop where
  le : ∀ p ∈ s.disc, p.2 ≤ s.counter
  uniq : ∀ p ∈ s.disc, ∀ q ∈ s.disc, p.1 = q.1 → p = q
  top : s.disc ≠ [] → ∃ v, (v, s.counter) ∈ s.disc
  cut : ∀ v ∈ s.cut, ∃ a w b, (v, a) ∈ s.disc ∧ (w, b) ∈ s.disc ∧ a < b

/-- What part of a search does. -/
structure Grow (es : List (ℕ × ℕ)) (vs : List ℕ) (s s' : Cut) : Prop where
  ok : CutOK s'
  count : s.counter ≤ s'.counter
  sub : ∀ p ∈ s.disc, p ∈ s'.disc
  inside : ∀ x ∈ s'.keys, x ∈ s.keys ∨ x ∈ vs
  closed : ∀ x ∈ s'.keys, x ∉ s.keys → ∀ y, (x, y) ∈ es → y ∈ s'.keys
  par : ∀ x ∈ s.keys, s'.par.lookup x = s.par.lookup x

theorem Grow.keys {es vs} {s s' : Cut} (h : Grow es vs s s') : ∀ x ∈ s.keys, x ∈ s'.keys := by
  intro x hx
  obtain ⟨p, hp, rfl⟩ := List.mem_map.mp hx
  exact List.mem_map.mpr ⟨p, h.sub p hp, rfl⟩

theorem Grow.refl {es vs} {s : Cut} (h : CutOK s) : Grow es vs s s :=
  ⟨h, le_rfl, fun _ h => h, fun _ h => .inl h, fun _ h1 h2 => absurd h1 h2, fun _ _ => rfl⟩

theorem Grow.trans {es vs} {s s' s'' : Cut} (h : Grow es vs s s') (h' : Grow es vs s' s'') : Grow es vs s s'' where
  ok := h'.ok
  count := h.count.trans h'.count
  sub := fun p hp => h'.sub p (h.sub p hp)
  inside := fun x hx => (h'.inside x hx).elim (h.inside x) .inr
  closed := by
    intro x hx hn y hy
    by_cases hx' : x ∈ s'.keys
    · exact h'.keys y (h.closed x hx' hn y hy)
    · exact h'.closed x hx hx' y hy
  par := fun x hx => (h'.par x (h.keys x hx)).trans (h.par x hx)

/-- `low` does not matter. -/
theorem Grow.low {es vs} {s s' : Cut} (h : Grow es vs s s') (l : List (ℕ × ℕ)) : Grow es vs s { s' with low := l } :=
  ⟨⟨h.ok.le, h.ok.uniq, h.ok.top, h.ok.cut⟩, h.count, h.sub, h.inside, h.closed, h.par⟩

theorem cut_spec {es : List (ℕ × ℕ)} {vs : List ℕ} (hes : ∀ e ∈ es, e.2 ∈ vs) (fuel : ℕ) :
    ∀ v s, CutOK s → v ∈ vs → v ∉ s.keys → left vs s ≤ fuel →
      ∃ s', cutDfs es fuel v s = some s' ∧ Grow es vs s s' ∧ (v, s.counter + 1) ∈ s'.disc ∧ ∀ x ∈ s'.cut, x ∈ s.cut ∨ x ∉ s.keys := by
  induction fuel with
  | zero =>
    intro v s _ hv hn hl
    have : left vs s ≠ 0 := by
      unfold left
      rw [Finset.card_ne_zero]
      exact ⟨v, by simp [hv, hn]⟩
    omega
  | succ fuel IH =>
    have hloop : ∀ v ws, (∀ w ∈ ws, w ∈ vs) → ∀ ch s, CutOK s → v ∈ s.keys → left vs s ≤ fuel →
        ∃ s', cutLoop (cutDfs es fuel) v ch ws s = some s' ∧ Grow es vs s s' ∧ (∀ w ∈ ws, w ∈ s'.keys) ∧ ∀ x ∈ s'.cut, x ∈ s.cut ∨ x = v ∨ x ∉ s.keys := by
      intro v ws
      induction ws with
      | nil => intro _ ch s hs _ _; exact ⟨s, rfl, Grow.refl hs, by simp, fun x hx => .inl hx⟩
      | cons w ws ih =>
        intro hws ch s hs hv hl
        have ih := ih fun w hw => hws w (List.mem_cons_of_mem _ hw)
        simp only [cutLoop]
        cases hd : s.disc.lookup w with
        | none =>
          simp only
          have hwn : w ∉ s.keys := lookup_none_iff.mp hd
          obtain ⟨s1, e1, g1, d1, c1⟩ := IH w { s with par := (w, v) :: s.par } ⟨hs.le, hs.uniq, hs.top, hs.cut⟩ (hws w (by simp)) hwn hl
          have g1' : Grow es vs s s1 := by
            refine ⟨g1.ok, g1.count, g1.sub, g1.inside, g1.closed, fun x hx => ?_⟩
            rw [g1.par x hx]
            have : (x == w) = false := by
              rw [beq_eq_false_iff_ne]; rintro rfl; exact hwn hx
            simp only [List.lookup_cons, this]
          rw [e1]
          simp only [Option.bind_some]
          generalize hc : ((s1.par.lookup v).isNone && decide (1 < ch + 1) || !(s1.par.lookup v).isNone && decide ((s1.disc.lookup v).getD 0 ≤ (s1.low.lookup w).getD 0)) = c
          generalize hlow : ((v, min ((s1.low.lookup v).getD 0) ((s1.low.lookup w).getD 0)) :: s1.low) = lo
          have g2 : Grow es vs s { s1 with low := lo, cut := if c then v :: s1.cut else s1.cut } := by
            refine ⟨⟨g1.ok.le, g1.ok.uniq, g1.ok.top, ?_⟩, g1'.count, g1'.sub, g1'.inside, g1'.closed, g1'.par⟩
            intro x hx
            have key : x = v ∨ x ∈ s1.cut := by
              cases c
              · exact .inr hx
              · exact List.mem_cons.mp hx
            rcases key with rfl | hx
            · obtain ⟨p, hp, rfl⟩ := List.mem_map.mp hv
              exact ⟨p.2, w, s.counter + 1, g1.sub p hp, d1, Nat.lt_succ_of_le (hs.le p hp)⟩
            · exact g1.ok.cut x hx
          obtain ⟨s', e2, g3, w3, c3⟩ := ih (ch + 1) _ g2.ok (g2.keys v hv) (le_trans (left_le g2.keys) hl)
          refine ⟨s', e2, g2.trans g3, ?_, ?_⟩
          · intro x hx
            rcases List.mem_cons.mp hx with rfl | hx
            · exact g3.keys x (List.mem_map.mpr ⟨_, d1, rfl⟩)
            · exact w3 x hx
          · intro x hx
            rcases c3 x hx with hx | hx | hx
            · have key : x = v ∨ x ∈ s1.cut := by
                cases c
                · exact .inr hx
                · exact List.mem_cons.mp hx
              rcases key with h | h
              · exact .inr (.inl h)
              · exact (c1 x h).imp_right .inr
            · exact .inr (.inl hx)
            · exact .inr (.inr fun h => hx (g2.keys x h))
        | some dw =>
          simp only
          have hw := lookup_some_mem hd
          split
          · obtain ⟨s', e2, g3, w3, c3⟩ := ih ch s hs hv hl
            refine ⟨s', e2, g3, ?_, c3⟩
            intro x hx
            rcases List.mem_cons.mp hx with rfl | hx
            · exact g3.keys x hw
            · exact w3 x hx
          · obtain ⟨s', e2, g3, w3, c3⟩ := ih ch { s with low := (v, min ((s.low.lookup v).getD 0) dw) :: s.low } ⟨hs.le, hs.uniq, hs.top, hs.cut⟩ hv hl
            refine ⟨s', e2, ⟨g3.ok, g3.count, g3.sub, g3.inside, g3.closed, g3.par⟩, ?_, c3⟩
            intro x hx
            rcases List.mem_cons.mp hx with rfl | hx
            · exact g3.keys x hw
            · exact w3 x hx
    intro v s hs hv hn hl
    simp only [cutDfs]
    generalize hs0 : ({ s with counter := s.counter + 1, disc := (v, s.counter + 1) :: s.disc, low := (v, s.counter + 1) :: s.low } : Cut) = s0
    have hk0 : s0.keys = v :: s.keys := by rw [← hs0]; rfl
    have ok0 : CutOK s0 := by
      rw [← hs0]
      refine ⟨?_, ?_, ?_, ?_⟩
      · intro p hp
        rcases List.mem_cons.mp hp with rfl | hp
        · exact le_rfl
        · exact (hs.le p hp).trans (Nat.le_succ _)
      · intro p hp q hq hpq
        rcases List.mem_cons.mp hp with rfl | hp <;> rcases List.mem_cons.mp hq with rfl | hq
        · rfl
        · exact absurd (List.mem_map.mpr ⟨q, hq, hpq.symm⟩) hn
        · exact absurd (List.mem_map.mpr ⟨p, hp, hpq⟩) hn
        · exact hs.uniq p hp q hq hpq
      · intro _; exact ⟨v, by simp⟩
      · intro x hx
        obtain ⟨a, w, b, h1, h2, h3⟩ := hs.cut x hx
        exact ⟨a, w, b, List.mem_cons_of_mem _ h1, List.mem_cons_of_mem _ h2, h3⟩
    have hlt : left vs s0 < left vs s := left_lt (fun x hx => by rw [hk0]; exact List.mem_cons_of_mem _ hx) hv hn (by rw [hk0]; simp)
    obtain ⟨s', e, g, w, c⟩ := hloop v ((es.filter fun e => e.1 == v).map Prod.snd) (by
      intro w hw
      obtain ⟨e, he, rfl⟩ := List.mem_map.mp hw
      exact hes e (List.mem_filter.mp he).1) 0 s0 ok0 (by rw [hk0]; simp) (by omega)
    refine ⟨s', e, ⟨g.ok, ?_, ?_, ?_, ?_, ?_⟩, ?_, ?_⟩
    · refine le_trans ?_ g.count
      rw [← hs0]; exact Nat.le_succ _
    · intro p hp
      exact g.sub p (by rw [← hs0]; exact List.mem_cons_of_mem _ hp)
    · intro x hx
      rcases g.inside x hx with h | h
      · rw [hk0] at h
        rcases List.mem_cons.mp h with rfl | h
        · exact .inr hv
        · exact .inl h
      · exact .inr h
    · intro x hx hxn y hy
      by_cases hxv : x = v
      · subst hxv
        exact w y (List.mem_map.mpr ⟨(x, y), List.mem_filter.mpr ⟨hy, by simp⟩, rfl⟩)
      · exact g.closed x hx (by rw [hk0]; simp [hxv, hxn]) y hy
    · intro x hx
      rw [g.par x (by rw [hk0]; exact List.mem_cons_of_mem _ hx), ← hs0]
    · exact g.sub _ (by rw [← hs0]; simp)
    · intro x hx
      rcases c x hx with h | h | h
      · rw [← hs0] at h; exact .inl h
      · exact .inr (h ▸ hn)
      · rw [hk0] at h
        exact .inr fun hc => h (List.mem_cons_of_mem _ hc)

/-- The loop when everything is found already. -/
theorem cutLoop_found (f : ℕ → Cut → Option Cut) (v : ℕ) (ws : List ℕ) : ∀ ch (s : Cut), (∀ w ∈ ws, w ∈ s.keys) →
    ∃ l, cutLoop f v ch ws s = some { s with low := l } := by
  induction ws with
  | nil => exact fun ch s _ => ⟨s.low, rfl⟩
  | cons w ws ih =>
    intro ch s h
    simp only [cutLoop]
    cases hd : s.disc.lookup w with
    | none => exact absurd (h w (by simp)) (lookup_none_iff.mp hd)
    | some dw =>
      simp only
      split
      · exact ih ch s fun w hw => h w (by simp [hw])
      · exact ih ch { s with low := (v, min ((s.low.lookup v).getD 0) dw) :: s.low } fun w hw => h w (by simp [hw])

/-- The search over all vertices. -/
theorem cutAll_spec {es : List (ℕ × ℕ)} {vs : List ℕ} (hes : ∀ e ∈ es, e.2 ∈ vs) {fuel : ℕ} (hf : vs.length ≤ fuel) (l : List ℕ) (hl : ∀ v ∈ l, v ∈ vs) :
    ∀ s, CutOK s → ∃ s', l.foldlM (fun (s : Cut) v => if (s.disc.lookup v).isNone then cutDfs es fuel v s else some s) s = some s' ∧
      Grow es vs s s' ∧ (∀ v ∈ l, v ∈ s'.keys) ∧ ∀ x ∈ s'.cut, x ∈ s.cut ∨ x ∉ s.keys := by
  induction l with
  | nil => exact fun s hs => ⟨s, rfl, Grow.refl hs, by simp, fun x hx => .inl hx⟩
  | cons v l ih =>
    intro s hs
    have ih := ih fun v hv => hl v (by simp [hv])
    have hleft : left vs s ≤ fuel := by
      refine le_trans ?_ hf
      exact (Finset.card_le_card Finset.sdiff_subset).trans (List.toFinset_card_le vs)
    have key : ∃ s1, (if (s.disc.lookup v).isNone then cutDfs es fuel v s else some s) = some s1 ∧ Grow es vs s s1 ∧ v ∈ s1.keys ∧
        ∀ x ∈ s1.cut, x ∈ s.cut ∨ x ∉ s.keys := by
      cases hd : s.disc.lookup v with
      | none =>
        obtain ⟨s1, e1, g1, d1, c1⟩ := cut_spec hes fuel v s hs (hl v (by simp)) (lookup_none_iff.mp hd) hleft
        exact ⟨s1, by simpa using e1, g1, List.mem_map.mpr ⟨_, d1, rfl⟩, c1⟩
      | some d => exact ⟨s, by simp, Grow.refl hs, lookup_some_mem hd, fun x hx => .inl hx⟩
    obtain ⟨s1, e1, g1, k1, c1⟩ := key
    obtain ⟨s2, e2, g2, k2, c2⟩ := ih s1 g1.ok
    refine ⟨s2, ?_, g1.trans g2, ?_, ?_⟩
    · rw [List.foldlM_cons, e1]; exact e2
    · intro x hx
      rcases List.mem_cons.mp hx with rfl | hx
      · exact g2.keys _ k1
      · exact k2 x hx
    · intro x hx
      rcases c2 x hx with h | h
      · exact c1 x h
      · exact .inr fun hc => h (g1.keys x hc)

/-- The edges among some vertices, in both directions. -/
def edgesIn (adj : List (ℕ × List ℕ)) (vs : List ℕ) : List (ℕ × ℕ) :=
  ((edgesOf adj).filter fun e => e.1 ∈ vs && e.2 ∈ vs) ++ ((edgesOf adj).filter fun e => e.1 ∈ vs && e.2 ∈ vs).map Prod.swap

theorem edgesIn_snd {adj : List (ℕ × List ℕ)} {vs : List ℕ} : ∀ e ∈ edgesIn adj vs, e.1 ∈ vs ∧ e.2 ∈ vs := by
  intro e he
  rcases List.mem_append.mp he with h | h
  · have := (List.mem_filter.mp h).2
    simp only [Bool.and_eq_true, decide_eq_true_eq] at this
    exact this
  · obtain ⟨e', h', rfl⟩ := List.mem_map.mp h
    have := (List.mem_filter.mp h').2
    simp only [Bool.and_eq_true, decide_eq_true_eq] at this
    exact ⟨this.2, this.1⟩

theorem cutOK_empty : CutOK ⟨0, [], [], [], []⟩ := ⟨by simp, by simp, by simp, by simp⟩

/-- `_is_cutting` returns, and not every vertex is cutting. -/
theorem cutting_spec (adj : List (ℕ × List ℕ)) {vs : List ℕ} (hne : vs ≠ []) : ∃ cut, cutting adj vs = some cut ∧ ∃ v ∈ vs, v ∉ cut := by
  obtain ⟨s, e, g, k, -⟩ := cutAll_spec (fun e he => (edgesIn_snd (adj := adj) e he).2) (Nat.le_succ vs.length) vs (fun _ h => h) _ cutOK_empty
  refine ⟨s.cut, ?_, ?_⟩
  · unfold cutting
    change Option.map Cut.cut (vs.foldlM (fun (s : Cut) v => if (s.disc.lookup v).isNone then cutDfs (edgesIn adj vs) (vs.length + 1) v s else some s) _) = _
    rw [e]; rfl
  · obtain ⟨a, l, rfl⟩ := List.exists_cons_of_ne_nil hne
    have ha := k a (by simp)
    obtain ⟨v, hv⟩ := g.ok.top (by
      intro hc
      rw [Cut.keys, hc] at ha; simp at ha)
    refine ⟨v, (g.inside v (List.mem_map.mpr ⟨_, hv, rfl⟩)).resolve_left (by simp [Cut.keys]), ?_⟩
    intro hc
    obtain ⟨x, w, b, h1, h2, h3⟩ := g.ok.cut v hc
    have := g.ok.uniq _ h1 _ hv rfl
    have hx : x = s.counter := by simpa using this
    have := g.ok.le _ h2
    simp only at this
    omega

/-- `_get_reduce_order` returns. -/
theorem reduceLoop_defined (adj : List (ℕ × List ℕ)) (qubit : ℕ → ℕ) (n : ℕ) : ∀ vs, ∃ l, reduceLoop adj qubit n vs = some l := by
  induction n with
  | zero => exact fun vs => ⟨[], by simp [reduceLoop]⟩
  | succ n ih =>
    intro vs
    cases vs with
    | nil => exact ⟨[], by simp [reduceLoop]⟩
    | cons a vs =>
      obtain ⟨cut, h1, v, h2, h3⟩ := cutting_spec adj (vs := a :: vs) (by simp)
      obtain ⟨w, hw⟩ : ∃ w, (a :: vs).find? (fun v => decide (v ∉ cut)) = some w := by
        rw [← Option.isSome_iff_exists, List.find?_isSome]
        exact ⟨v, h2, by simpa using h3⟩
      obtain ⟨l, hl⟩ := ih ((a :: vs).erase w)
      refine ⟨qubit w :: l, ?_⟩
      simp only [reduceLoop]
      rw [h1]
      simp only
      rw [hw]
      simp only
      rw [hl]
      rfl

/-- The first vertex of the search is not cutting if the others are connected. -/
theorem cutting_root {adj : List (ℕ × List ℕ)} (hadj : GraphOK adj) {v : ℕ} {rest : List ℕ} (hv : v ∉ rest)
    (hcon : ∀ x ∈ rest, ∀ y ∈ rest, ∃ p, Walk (fun a b => b ∈ nbrsOf adj a ∧ a ∈ rest ∧ b ∈ rest) p x y) :
    ∃ cut, cutting adj (v :: rest) = some cut ∧ v ∉ cut := by
  have hes : ∀ e ∈ edgesIn adj (v :: rest), e.2 ∈ v :: rest := fun e he => (edgesIn_snd (adj := adj) e he).2
  have hmem : ∀ a b, a ∈ v :: rest → b ∈ v :: rest → (b ∈ nbrsOf adj a ↔ (a, b) ∈ edgesIn adj (v :: rest)) := by
    intro a b ha hb
    unfold edgesIn
    rw [List.mem_append, List.mem_filter, List.mem_map]
    constructor
    · intro h
      have hne : a ≠ b := by rintro rfl; exact hadj.irrefl a h
      rcases Nat.lt_or_gt_of_ne hne with hlt | hlt
      · exact .inl ⟨hadj.mem_edges.mpr ⟨h, hlt⟩, by simp only [Bool.and_eq_true, decide_eq_true_eq]; exact ⟨ha, hb⟩⟩
      · exact .inr ⟨(b, a), List.mem_filter.mpr ⟨hadj.mem_edges.mpr ⟨hadj.sym _ _ h, hlt⟩, by
          simp only [Bool.and_eq_true, decide_eq_true_eq]; exact ⟨hb, ha⟩⟩, rfl⟩
    · rintro (h | ⟨e, h, he⟩)
      · exact (hadj.mem_edges.mp h.1).1
      · obtain ⟨x, y⟩ := e
        simp only [Prod.swap_prod_mk, Prod.mk.injEq] at he
        obtain ⟨rfl, rfl⟩ := he
        exact hadj.sym _ _ (hadj.mem_edges.mp (List.mem_filter.mp h).1).1
  have key : ∃ s1, cutDfs (edgesIn adj (v :: rest)) ((v :: rest).length + 1) v ⟨0, [], [], [], []⟩ = some s1 ∧ CutOK s1 ∧ v ∈ s1.keys ∧ v ∉ s1.cut := by
    obtain ⟨s', e', g', d', -⟩ := cut_spec hes ((v :: rest).length + 1) v ⟨0, [], [], [], []⟩ cutOK_empty (by simp) (by simp [Cut.keys])
      ((Finset.card_le_card Finset.sdiff_subset).trans ((List.toFinset_card_le _).trans (Nat.le_succ _)))
    refine ⟨s', e', g'.ok, List.mem_map.mpr ⟨_, d', rfl⟩, ?_⟩
    simp only [cutDfs] at e'
    generalize hws : ((edgesIn adj (v :: rest)).filter fun e => e.1 == v).map Prod.snd = ws at e'
    have hrest : ∀ w ∈ ws, w ∈ rest := by
      intro w hw
      rw [← hws] at hw
      obtain ⟨⟨a, b⟩, he, rfl⟩ := List.mem_map.mp hw
      obtain ⟨he, ha⟩ := List.mem_filter.mp he
      have ha : a = v := by simpa using ha
      subst ha
      have hb := (edgesIn_snd (a, b) he).2
      have hn := (hmem a b (by simp) hb).mpr he
      rcases List.mem_cons.mp hb with h | h
      · simp only at h; subst h; exact absurd hn (hadj.irrefl _)
      · exact h
    cases ws with
    | nil =>
      simp only [cutLoop, Option.some.injEq] at e'
      rw [← e']; simp
    | cons w ws =>
      have hwv : w ≠ v := by rintro rfl; exact hv (hrest w (by simp))
      simp only [cutLoop, zero_add] at e'
      have hl : List.lookup w [(v, 1)] = none := lookup_none_iff.mpr (by simpa using hwv)
      rw [hl] at e'
      simp only at e'
      have ok0 : CutOK ⟨1, [(v, 1)], [(v, 1)], [], [(w, v)]⟩ := ⟨by simp, by simp, fun _ => ⟨v, by simp⟩, by simp⟩
      obtain ⟨s1, e1, g1, d1, c1⟩ := cut_spec hes (v :: rest).length w ⟨1, [(v, 1)], [(v, 1)], [], [(w, v)]⟩ ok0 (List.mem_cons_of_mem _ (hrest w (by simp)))
        (by simpa [Cut.keys] using hwv) ((Finset.card_le_card Finset.sdiff_subset).trans (List.toFinset_card_le _))
      rw [e1] at e'
      simp only [Option.bind_some] at e'
      have hpar : s1.par.lookup v = none := by
        rw [g1.par v (by simp [Cut.keys])]
        exact lookup_none_iff.mpr (by simpa using hwv.symm)
      rw [hpar] at e'
      simp only [Option.isNone_none, lt_self_iff_false, decide_false, Bool.and_false, Bool.not_true, Bool.false_and, Bool.or_false, Bool.false_eq_true, if_false] at e'
      have hw1 : w ∈ s1.keys := List.mem_map.mpr ⟨_, d1, rfl⟩
      have hreach : ∀ p x y, Walk (fun a b => b ∈ nbrsOf adj a ∧ a ∈ rest ∧ b ∈ rest) p x y → x ∈ s1.keys → y ∈ s1.keys := by
        intro p x y hp
        induction hp with
        | nil a => exact id
        | cons hab _ ih =>
          intro ha
          refine ih (g1.closed _ ha ?_ _ ((hmem _ _ (List.mem_cons_of_mem _ hab.2.1) (List.mem_cons_of_mem _ hab.2.2)).mp hab.1))
          simp only [Cut.keys, List.map_cons, List.map_nil, List.mem_singleton]
          rintro rfl
          exact hv hab.2.1
      obtain ⟨l, hl⟩ := cutLoop_found (cutDfs (edgesIn adj (v :: rest)) (v :: rest).length) v ws 1
        { s1 with low := (v, min ((s1.low.lookup v).getD 0) ((s1.low.lookup w).getD 0)) :: s1.low } (by
          intro y hy
          obtain ⟨p, hp⟩ := hcon w (hrest w (by simp)) y (hrest y (by simp [hy]))
          exact hreach p w y hp hw1)
      rw [hl] at e'
      rw [← Option.some.inj e']
      intro hc
      rcases c1 v hc with h | h
      · simp at h
      · simp [Cut.keys] at h
  obtain ⟨s1, e1, ok1, k1, c1⟩ := key
  obtain ⟨s2, e2, -, -, c2⟩ := cutAll_spec hes (Nat.le_succ (v :: rest).length) rest (fun _ h => List.mem_cons_of_mem _ h) s1 ok1
  refine ⟨s2.cut, ?_, ?_⟩
  · unfold cutting
    change Option.map Cut.cut ((v :: rest).foldlM (fun (s : Cut) u => if (s.disc.lookup u).isNone then cutDfs (edgesIn adj (v :: rest)) ((v :: rest).length + 1) u s else some s) _) = _
    rw [List.foldlM_cons]
    simp only [List.lookup_nil, Option.isNone_none, if_true]
    rw [e1]
    change Option.map Cut.cut (rest.foldlM _ s1) = _
    rw [e2]; rfl
  · intro hc
    rcases c2 v hc with h | h
    · exact c1 h
    · exact h k1

/-- The vertices from the last qubit to the first. -/
theorem verts_sorted {A : Arch} (hA : A.OK) : A.verts.insertionSort (fun v w => A.qubit w ≤ A.qubit v) = A.qmap.reverse := by
  have hp : A.qmap.reverse.Perm A.verts :=
    (List.reverse_perm _).trans ((List.perm_ext_iff_of_nodup hA.place hA.nodup).mpr hA.onto)
  have hsort : A.qmap.reverse.Pairwise fun v w => A.qubit w ≤ A.qubit v := by
    rw [List.pairwise_reverse, List.pairwise_iff_getElem]
    intro i j hi hj hij
    rw [hA.qubit_of (List.getElem?_eq_getElem hi), hA.qubit_of (List.getElem?_eq_getElem hj)]
    omega
  have htot : Std.Total fun v w => A.qubit w ≤ A.qubit v := ⟨fun a b => Nat.le_total _ _⟩
  have htr : IsTrans ℕ fun v w => A.qubit w ≤ A.qubit v := ⟨fun a b c h1 h2 => Nat.le_trans h2 h1⟩
  refine List.Perm.eq_of_pairwise (le := fun v w => A.qubit w ≤ A.qubit v) ?_ (List.pairwise_insertionSort _ _) hsort ((List.perm_insertionSort _ _).trans hp.symm)
  intro a b ha hb h1 h2
  have ha' : a ∈ A.verts := (List.perm_insertionSort _ _).mem_iff.mp ha
  have hb' : b ∈ A.verts := hp.mem_iff.mp hb
  exact hA.qubit_inj ha' hb' (Nat.le_antisymm h2 h1)

theorem Hamiltonian.walk {A : Arch} (hA : A.OK) (hh : Hamiltonian A) (c : ℕ) (hc : c ≤ A.qmap.length) : ∀ x ∈ (A.qmap.take c).reverse, ∀ y ∈ (A.qmap.take c).reverse,
    ∃ p, Walk (fun a b => b ∈ nbrsOf A.adj a ∧ a ∈ (A.qmap.take c).reverse ∧ b ∈ (A.qmap.take c).reverse) p x y := by
  have hm : ∀ x, x ∈ (A.qmap.take c).reverse ↔ ∃ i < c, A.qmap[i]? = some x := by
    intro x
    rw [List.mem_reverse, List.mem_iff_getElem?]
    constructor
    · rintro ⟨i, hi⟩
      rw [List.getElem?_take] at hi
      split at hi
      · exact ⟨i, ‹_›, hi⟩
      · simp at hi
    · rintro ⟨i, hi, hx⟩
      exact ⟨i, by rw [List.getElem?_take, if_pos hi]; exact hx⟩
  have up : ∀ k i x y, i + k < c → A.qmap[i]? = some x → A.qmap[i + k]? = some y →
      ∃ p, Walk (fun a b => b ∈ nbrsOf A.adj a ∧ a ∈ (A.qmap.take c).reverse ∧ b ∈ (A.qmap.take c).reverse) p x y := by
    intro k
    induction k with
    | zero =>
      intro i x y _ hx hy
      rw [Nat.add_zero, hx] at hy
      obtain rfl := Option.some.inj hy
      exact ⟨[], Walk.nil x⟩
    | succ k ih =>
      intro i x y hi hx hy
      obtain ⟨u, v, hu, hv, huv⟩ := hh i (by omega)
      rw [hx] at hu
      obtain rfl := Option.some.inj hu
      obtain ⟨p, hp⟩ := ih (i + 1) v y (by omega) hv (by rw [show i + 1 + k = i + (k + 1) by omega]; exact hy)
      exact ⟨_, Walk.cons ⟨huv, (hm x).mpr ⟨i, by omega, hx⟩, (hm v).mpr ⟨i + 1, by omega, hv⟩⟩ hp⟩
  intro x hx y hy
  obtain ⟨i, hi, hx'⟩ := (hm x).mp hx
  obtain ⟨j, hj, hy'⟩ := (hm y).mp hy
  rcases Nat.le_total i j with h | h
  · obtain ⟨k, rfl⟩ := Nat.exists_eq_add_of_le h
    exact up k i x y hj hx' hy'
  · obtain ⟨k, rfl⟩ := Nat.exists_eq_add_of_le h
    obtain ⟨p, hp⟩ := up k j y x hi hy' hx'
    exact hp.symm fun a b h => ⟨hA.sym _ _ h.1, h.2.2, h.2.1⟩

/-- If consecutive qubits are coupled, the default order is from the last to the first. -/
theorem reduceLoop_hamiltonian {A : Arch} (hA : A.OK) (hh : Hamiltonian A) (c : ℕ) (hc : c ≤ A.qmap.length) : ∀ m, c ≤ m →
    reduceLoop A.adj A.qubit m (A.qmap.take c).reverse = some (List.range c).reverse := by
  induction c with
  | zero => intro m _; cases m <;> simp [reduceLoop]
  | succ c ih =>
    intro m hm
    obtain ⟨m, rfl⟩ : ∃ k, m = k + 1 := ⟨m - 1, by omega⟩
    have hlt : c < A.qmap.length := by omega
    have htake : (A.qmap.take (c + 1)).reverse = A.qmap[c] :: (A.qmap.take c).reverse := by
      rw [List.take_add_one, List.getElem?_eq_getElem hlt, Option.toList_some, List.reverse_append]; rfl
    have hnot : A.qmap[c] ∉ (A.qmap.take c).reverse := by
      have hn := (List.nodup_reverse.mpr (hA.place.sublist (List.take_sublist (c + 1) A.qmap)))
      rw [htake] at hn
      exact (List.nodup_cons.mp hn).1
    obtain ⟨cut, h1, h2⟩ := cutting_root hA.toGraphOK hnot (hh.walk hA c (by omega))
    rw [htake]
    simp only [reduceLoop]
    rw [h1]
    simp only
    rw [List.find?_cons_of_pos (by simpa using h2)]
    simp only
    rw [List.erase_cons_head, ih (by omega) m (by omega), hA.qubit_of (List.getElem?_eq_getElem hlt), List.range_succ, List.reverse_append]
    rfl

/-- The default architecture of a connected graph exists; if consecutive qubits are coupled, the order of removal is from the last to the first. -/
theorem build_defined {adj : List (ℕ × List ℕ)} (hadj : GraphOK adj) (hc : Connected adj) (hne : adj ≠ []) :
    ∃ A, build adj none none = some A ∧ (Hamiltonian A → A.order = (List.range A.qmap.length).reverse) := by
  obtain ⟨q, h1, h2, h3, -⟩ := placeQubits_spec hadj hc hne
  have hA : Arch.OK ⟨adj, q, []⟩ := ⟨hadj, h2, h3⟩
  obtain ⟨l, hl⟩ := reduceLoop_defined adj (⟨adj, q, []⟩ : Arch).qubit adj.length ((⟨adj, q, []⟩ : Arch).verts.insertionSort fun v w =>
    (⟨adj, q, []⟩ : Arch).qubit w ≤ (⟨adj, q, []⟩ : Arch).qubit v)
  refine ⟨⟨adj, q, l⟩, ?_, ?_⟩
  · unfold build
    simp only
    rw [h1]
    simp only
    rw [hl]; rfl
  · intro hh
    have hh' : Hamiltonian ⟨adj, q, []⟩ := hh
    have hlen : q.length = adj.length := by
      have hp : q.Perm (adj.map Prod.fst) := (List.perm_ext_iff_of_nodup h2 hadj.nodup).mpr h3
      rw [hp.length_eq, List.length_map]
    have := reduceLoop_hamiltonian hA hh' q.length le_rfl adj.length (by omega)
    rw [verts_sorted hA] at hl
    rw [List.take_length] at this
    rw [this] at hl
    exact (Option.some.inj hl).symm

theorem dftLoop_skip (f : ℕ → List ℕ × List ℕ → Option (List ℕ × List ℕ)) {l : List ℕ} {s : List ℕ × List ℕ} (h : ∀ w ∈ l, w ∈ s.1) : dftLoop f l s = some s := by
  induction l with
  | nil => rfl
  | cons w l ih =>
    simp only [dftLoop]
    rw [if_pos (h w (by simp))]
    exact ih fun x hx => h x (by simp [hx])

/-- Only one neighbour is visited from here. -/
theorem dftLoop_one (f : ℕ → List ℕ × List ℕ → Option (List ℕ × List ℕ)) {l : List ℕ} {s s' : List ℕ × List ℕ} {u : ℕ} (hsort : l.Pairwise (· ≥ ·)) (hu : u ∈ l) (hnu : u ∉ s.1)
    (hgt : ∀ w ∈ l, u < w → w ∈ s.1) (hf : f u s = some s') (hle : ∀ w ∈ l, w ∈ s'.1) : dftLoop f l s = some s' := by
  induction l with
  | nil => simp at hu
  | cons w l ih =>
    simp only [dftLoop]
    by_cases hwu : w = u
    · subst hwu
      rw [if_neg hnu, hf]
      exact dftLoop_skip f fun x hx => hle x (by simp [hx])
    · have hul : u ∈ l := (List.mem_cons.mp hu).resolve_left (Ne.symm hwu)
      have hge := List.rel_of_pairwise_cons hsort hul
      rw [if_pos (hgt w (by simp) (by omega))]
      exact ih (List.Pairwise.of_cons hsort) hul (fun x hx => hgt x (by simp [hx])) fun x hx => hle x (by simp [hx])

/-- The traversal of a graph that contains the line. -/
theorem dft_line {adj : List (ℕ × List ℕ)} (hadj : GraphOK adj) {n : ℕ} (hv : adj.map Prod.fst = List.range n) (hline : ∀ v, v + 1 < n → v ∈ nbrsOf adj (v + 1)) (v : ℕ) :
    v < n → ∀ fuel, v < fuel → ∀ vis qm : List ℕ, (∀ w, w < n → (w ∈ vis ↔ v < w)) →
      dft adj fuel v (vis, qm) = some (vis ++ (List.range (v + 1)).reverse, qm ++ List.range (v + 1)) := by
  have hnb : ∀ a b, b ∈ nbrsOf adj a → b < n := by
    intro a b h
    have := (mem_keys_of_nbrs (hadj.sym _ _ h)).1
    rwa [hv, List.mem_range] at this
  have hsort : ∀ a, ((nbrsOf adj a).insertionSort (· ≥ ·)).Pairwise (· ≥ ·) := fun a => List.pairwise_insertionSort _ _
  have hmem : ∀ a b, b ∈ (nbrsOf adj a).insertionSort (· ≥ ·) ↔ b ∈ nbrsOf adj a := fun a b => (List.perm_insertionSort _ _).mem_iff
  induction v with
  | zero =>
    intro h0 fuel hf vis qm hvis
    obtain ⟨fuel, rfl⟩ : ∃ k, fuel = k + 1 := ⟨fuel - 1, by omega⟩
    simp only [dft]
    rw [dftLoop_skip]
    · simp
    · intro w hw
      rw [hmem] at hw
      have hne : w ≠ 0 := by rintro rfl; exact hadj.irrefl 0 hw
      exact List.mem_append_left _ ((hvis w (hnb _ _ hw)).mpr (by omega))
  | succ v ih =>
    intro h0 fuel hf vis qm hvis
    obtain ⟨fuel, rfl⟩ : ∃ k, fuel = k + 1 := ⟨fuel - 1, by omega⟩
    have e := ih (by omega) fuel (by omega) (vis ++ [v + 1]) qm (by
      intro w hw
      rw [List.mem_append, hvis w hw, List.mem_singleton]; omega)
    simp only [dft]
    rw [dftLoop_one _ (hsort _) ((hmem _ _).mpr (hline v h0)) (s' := _) ?_ ?_ e ?_]
    · rw [List.range_succ (n := v + 1)]
      simp
    · rw [List.mem_append, hvis v (by omega), List.mem_singleton]; omega
    · intro w hw hlt
      rw [hmem] at hw
      have hne : w ≠ v + 1 := by rintro rfl; exact hadj.irrefl _ hw
      exact List.mem_append_left _ ((hvis w (hnb _ _ hw)).mpr (by omega))
    · intro w hw
      rw [hmem] at hw
      have hne : w ≠ v + 1 := by rintro rfl; exact hadj.irrefl _ hw
      simp only [List.mem_append, List.mem_reverse, List.mem_range, hvis w (hnb _ _ hw)]
      omega

theorem max_range (n : ℕ) : (List.range (n + 1)).max? = some n := by
  rw [List.max?_eq_some_iff]
  exact ⟨by simp, by intro b hb; rw [List.mem_range] at hb; omega⟩

/-- The default architecture of a graph that contains the line. -/
theorem build_line {adj : List (ℕ × List ℕ)} (hadj : GraphOK adj) {n : ℕ} (hn : 0 < n) (hv : adj.map Prod.fst = List.range n)
    (hline : ∀ v, v + 1 < n → v ∈ nbrsOf adj (v + 1)) :
    build adj none none = some ⟨adj, List.range n, (List.range n).reverse⟩ ∧ Arch.OK ⟨adj, List.range n, (List.range n).reverse⟩ ∧
      Hamiltonian ⟨adj, List.range n, (List.range n).reverse⟩ := by
  obtain ⟨k, rfl⟩ : ∃ k, n = k + 1 := ⟨n - 1, by omega⟩
  have hlen : adj.length = k + 1 := by rw [← List.length_map (f := Prod.fst), hv, List.length_range]
  have hq : placeQubits adj = some (List.range (k + 1)) := by
    unfold placeQubits
    rw [hv, max_range]
    simp only
    rw [dft_line hadj hv hline k (by omega) _ (by omega) [] [] (by intro w hw; simp; omega)]
    simp
  have hok : ∀ l, Arch.OK ⟨adj, List.range (k + 1), l⟩ := fun l => ⟨hadj, List.nodup_range, by intro v; rw [hv]⟩
  have hham : ∀ l, Hamiltonian ⟨adj, List.range (k + 1), l⟩ := by
    intro l q hq
    simp only [List.length_range] at hq
    exact ⟨q, q + 1, List.getElem?_range (by omega), List.getElem?_range hq, hadj.sym _ _ (hline q hq)⟩
  refine ⟨?_, hok _, hham _⟩
  have hr := reduceLoop_hamiltonian (hok []) (hham []) (k + 1) (by simp) adj.length (by omega)
  unfold build
  simp only
  rw [hq]
  simp only
  simp only at hr
  rw [List.take_of_length_le (by simp)] at hr
  rw [verts_sorted (hok [])]
  simp only
  rw [hr]
  rfl

end Routing
end PyZX
