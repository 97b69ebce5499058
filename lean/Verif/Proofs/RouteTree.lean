import Verif.Proofs.RouteRun

/-!
# The trees of `rec_steiner_tree`

The edges found by the first loop form a tree directed away from the root, whose leaves are terminals. The first phase lists them
from the root to the leaves, the second phase from the leaves to the root.
-/

namespace PyZX
namespace Routing

/-- The edges form a tree directed away from the root. -/
structure Tree (root : ℕ) (E : List (ℕ × ℕ)) : Prop where
  inj : (E.map Prod.snd).Nodup
  notRoot : root ∉ E.map Prod.snd
  height : ∃ h : ℕ → ℕ, ∀ e ∈ E, h e.1 < h e.2
  closed : ∀ e ∈ E, e.1 = root ∨ e.1 ∈ E.map Prod.snd

theorem Tree.nil (root : ℕ) : Tree root [] := ⟨by simp, by simp, ⟨fun _ => 0, by simp⟩, by simp⟩

theorem Tree.perm {root : ℕ} {E F : List (ℕ × ℕ)} (h : Tree root E) (hp : F.Perm E) : Tree root F := by
  obtain ⟨h1, h2, ⟨f, hf⟩, h4⟩ := h
  have hm : ∀ x, x ∈ F.map Prod.snd ↔ x ∈ E.map Prod.snd := fun x => (hp.map _).mem_iff
  exact ⟨(hp.map _).nodup_iff.mpr h1, fun h => h2 ((hm _).mp h), ⟨f, fun e he => hf e (hp.mem_iff.mp he)⟩,
    fun e he => (h4 e (hp.mem_iff.mp he)).imp id (hm _).mpr⟩

theorem Tree.nodup {root : ℕ} {E : List (ℕ × ℕ)} (h : Tree root E) : E.Nodup := List.Nodup.of_map _ h.inj

theorem Tree.uniq {root : ℕ} {E : List (ℕ × ℕ)} (h : Tree root E) {e f : ℕ × ℕ} (he : e ∈ E) (hf : f ∈ E) (h2 : e.2 = f.2) : e = f :=
  List.inj_on_of_nodup_map h.inj he hf h2

theorem Tree.snoc {root u v : ℕ} {E : List (ℕ × ℕ)} (h : Tree root E) (hu : u = root ∨ u ∈ E.map Prod.snd) (hv : v ≠ root) (hv' : v ∉ E.map Prod.snd) :
    Tree root (E ++ [(u, v)]) := by
  obtain ⟨f, hf⟩ := h.height
  have hne : ∀ w, (w = root ∨ w ∈ E.map Prod.snd) → w ≠ v := by
    rintro w (rfl | hw) rfl
    · exact hv rfl
    · exact hv' hw
  refine ⟨?_, ?_, ⟨fun x => if x = v then f u + 1 else f x, ?_⟩, ?_⟩
  · rw [List.map_append, List.nodup_append]
    exact ⟨h.inj, by simp, by intro a ha b hb hab; simp at hb; subst hab; subst hb; exact hv' ha⟩
  · simp only [List.map_append, List.mem_append, not_or]
    exact ⟨h.notRoot, by simpa using hv.symm⟩
  · intro e he
    rcases List.mem_append.mp he with he | he
    · have h1 := hne e.1 (h.closed e he)
      have h2 : e.2 ≠ v := hne e.2 (.inr (List.mem_map_of_mem he))
      simp only [h1, h2, if_false]
      exact hf e he
    · rw [List.mem_singleton] at he
      subst he
      have h1 := hne u hu
      simp [h1]
  · intro e he
    rcases List.mem_append.mp he with he | he
    · exact (h.closed e he).imp id fun h => by rw [List.map_append]; exact List.mem_append_left _ h
    · rw [List.mem_singleton] at he
      subst he
      exact hu.imp id fun h => by rw [List.map_append]; exact List.mem_append_left _ h

theorem Tree.walk {R : ℕ → ℕ → Prop} {root v n : ℕ} {E p : List (ℕ × ℕ)} (h : Tree root E) (hw : Walk R p v n) (hv : v = root ∨ v ∈ E.map Prod.snd)
    (hn : (p.map Prod.snd).Nodup) (hd : ∀ x ∈ p.map Prod.snd, x ≠ root ∧ x ∉ E.map Prod.snd) : Tree root (E ++ p) := by
  induction hw generalizing E with
  | nil => simpa using h
  | @cons a b c p hr hw ih =>
    rw [List.map_cons, List.nodup_cons] at hn
    have hb := hd b (by simp)
    have := ih (h.snoc hv hb.1 hb.2) (.inr (by simp)) hn.2 (fun x hx => by
      have hx' := hd x (by rw [List.map_cons]; exact List.mem_cons_of_mem _ hx)
      refine ⟨hx'.1, ?_⟩
      simp only [List.map_append, List.map_cons, List.map_nil, List.mem_append, List.mem_singleton, not_or]
      exact ⟨hx'.2, fun e => hn.1 (e ▸ hx)⟩)
    simpa using this

/-! ### Shortest walks -/

theorem Walk.split_at {R : ℕ → ℕ → Prop} {p : List (ℕ × ℕ)} {a b : ℕ} (h : Walk R p a b) {x : ℕ} (hx : x ∈ p.map Prod.snd) :
    ∃ p1 p2, p = p1 ++ p2 ∧ Walk R p1 a x ∧ Walk R p2 x b ∧ p1 ≠ [] := by
  induction h with
  | nil => simp at hx
  | @cons a b c p hr hw ih =>
    rw [List.map_cons, List.mem_cons] at hx
    by_cases hb : x = b
    · subst hb
      exact ⟨[(a, x)], p, rfl, Walk.cons hr (Walk.nil _), hw, by simp⟩
    · obtain ⟨p1, p2, rfl, h1, h2, -⟩ := ih (hx.resolve_left hb)
      exact ⟨(a, b) :: p1, p2, rfl, Walk.cons hr h1, h2, by simp⟩

theorem Walk.shorten {R : ℕ → ℕ → Prop} {p : List (ℕ × ℕ)} {a b : ℕ} (h : Walk R p a b) (hn : ¬ (p.map Prod.snd).Nodup) :
    ∃ q, Walk R q a b ∧ q.length < p.length := by
  induction h with
  | nil => simp at hn
  | @cons a b c p hr hw ih =>
    rw [List.map_cons, List.nodup_cons, not_and_or, not_not] at hn
    rcases hn with hn | hn
    · obtain ⟨p1, p2, rfl, h1, h2, h3⟩ := hw.split_at hn
      refine ⟨(a, b) :: p2, Walk.cons hr h2, ?_⟩
      have := List.length_pos_of_ne_nil h3
      simp only [List.length_cons, List.length_append]; omega
    · obtain ⟨q, hq, hlt⟩ := ih hn
      exact ⟨(a, b) :: q, Walk.cons hr hq, by simpa using hlt⟩

theorem Walk.src {R : ℕ → ℕ → Prop} {p : List (ℕ × ℕ)} {a b : ℕ} (h : Walk R p a b) {x : ℕ} (hx : x ∈ p.map Prod.snd) : x = b ∨ x ∈ p.map Prod.fst := by
  induction h with
  | nil => simp at hx
  | @cons a b c p hr hw ih =>
    rw [List.map_cons, List.mem_cons] at hx
    rcases hx with rfl | hx
    · cases hw with
      | nil => exact .inl rfl
      | cons => exact .inr (by simp)
    · exact (ih hx).imp id fun h => by rw [List.map_cons]; exact List.mem_cons_of_mem _ h

theorem Walk.fst_mem {R : ℕ → ℕ → Prop} {p : List (ℕ × ℕ)} {a b : ℕ} (h : Walk R p a b) {x : ℕ} (hx : x ∈ p.map Prod.fst) : x = a ∨ x ∈ p.map Prod.snd := by
  induction h with
  | nil => simp at hx
  | @cons a b c p hr hw ih =>
    rw [List.map_cons, List.mem_cons] at hx
    rcases hx with rfl | hx
    · exact .inl rfl
    · rcases ih hx with rfl | h
      · exact .inr (by simp)
      · exact .inr (by rw [List.map_cons]; exact List.mem_cons_of_mem _ h)

theorem Walk.end_mem {R : ℕ → ℕ → Prop} {p : List (ℕ × ℕ)} {a b : ℕ} (h : Walk R p a b) : b = a ∨ b ∈ p.map Prod.snd := by
  induction h with
  | nil => exact .inl rfl
  | @cons a b c p hr hw ih =>
    rcases ih with rfl | h
    · exact .inr (by simp)
    · exact .inr (by rw [List.map_cons]; exact List.mem_cons_of_mem _ h)

theorem Walk.ends_in {A : Arch} {vs rec : List ℕ} {upper : Bool} {p : List (ℕ × ℕ)} {a b : ℕ} (h : Walk (Allowed A vs upper rec) p a b) {x : ℕ}
    (hx : x ∈ p.map Prod.snd) : x ∈ vs := by
  obtain ⟨e, he, rfl⟩ := List.mem_map.mp hx
  exact (h.mem he).2.1

/-! ### The first loop -/

theorem foldl_min_le (cs : List (ℕ × ℕ × List (ℕ × ℕ))) (c : ℕ × ℕ × List (ℕ × ℕ)) :
    ∀ x ∈ c :: cs, (cs.foldl (fun m c => if c.2.1 < m.2.1 then c else m) c).2.1 ≤ x.2.1 := by
  induction cs generalizing c with
  | nil => simp
  | cons a cs ih =>
    intro x hx
    rw [List.foldl_cons]
    have ih' := ih (if a.2.1 < c.2.1 then a else c)
    have h0 := ih' _ (List.mem_cons_self ..)
    rcases List.mem_cons.mp hx with rfl | hx
    · refine h0.trans ?_
      split_ifs <;> omega
    · rcases List.mem_cons.mp hx with rfl | hx
      · refine h0.trans ?_
        split_ifs <;> omega
      · exact ih' x (List.mem_cons_of_mem _ hx)

theorem best_le {l : List (ℕ × ℕ × List (ℕ × ℕ))} {c : ℕ × ℕ × List (ℕ × ℕ)} (h : best l = some c) : ∀ x ∈ l, c.2.1 ≤ x.2.1 := by
  cases l with
  | nil => simp
  | cons a l => simp only [best, Option.some.injEq] at h; subst h; exact foldl_min_le l a

/-- The state of the first loop of `rec_steiner_tree`: `T` are the terminals seen so far. -/
structure PrimOK (R : ℕ → ℕ → Prop) (us : List ℕ) (root : ℕ) (T : ℕ → Prop) (s : List ℕ × List ℕ × List (ℕ × ℕ)) : Prop where
  tree : Tree root s.2.2
  verts : ∀ x, (x ∈ s.1 ∨ x ∈ s.2.1) ↔ x = root ∨ x ∈ s.2.2.map Prod.snd
  leaf : ∀ x ∈ s.2.2.map Prod.snd, x ∉ s.2.2.map Prod.fst → T x
  edges : ∀ e ∈ s.2.2, R e.1 e.2
  inside : ∀ x, (x ∈ s.1 ∨ x ∈ s.2.1) → x ∈ us
  has : ∀ x, T x → x ∈ s.1 ∨ x ∈ s.2.1

theorem recPrim_spec {R : ℕ → ℕ → Prop} {us : List ℕ} (hR : ∀ a b, R a b → b ∈ us) {d : Dist}
    (hw : ∀ a b x, d.get a b = some x → Walk R x.2 a b ∧ x.2.length = x.1)
    (hd : ∀ a ∈ us, ∀ b ∈ us, ∀ q, Walk R q a b → ∃ x, d.get a b = some x ∧ x.1 ≤ q.length) {root : ℕ} {n : ℕ} {T : ℕ → Prop}
    {s : List ℕ × List ℕ × List (ℕ × ℕ)} (hs : PrimOK R us root T s) {nodes : List ℕ} (hlen : nodes.length ≤ n) (hn : ∀ x ∈ nodes, x ∈ us ∧ ∃ q, Walk R q root x) :
    ∃ t, recPrim d n s nodes = some t ∧ PrimOK R us root (fun x => T x ∨ x ∈ nodes) t := by
  induction n generalizing T s nodes with
  | zero =>
    have : nodes = [] := List.length_eq_zero_iff.mp (by omega)
    subst this
    refine ⟨s, rfl, hs.tree, hs.verts, fun x hx hx' => .inl (hs.leaf x hx hx'), hs.edges, hs.inside, fun x hx => hs.has x (by simpa using hx)⟩
  | succ n ih =>
    cases nodes with
    | nil =>
      refine ⟨s, rfl, hs.tree, hs.verts, fun x hx hx' => .inl (hs.leaf x hx hx'), hs.edges, hs.inside, fun x hx => hs.has x (by simpa using hx)⟩
    | cons a nodes =>
      have hroot : root ∈ s.1 ∨ root ∈ s.2.1 := (hs.verts root).mpr (.inl rfl)
      cases hb : best (candidates d (a :: nodes) (s.1 ++ s.2.1)) with
      | none =>
        exfalso
        obtain ⟨hu, q, hq⟩ := hn a (by simp)
        obtain ⟨x, hx, -⟩ := hd root (hs.inside _ hroot) a hu q hq
        have hm : (a, x) ∈ candidates d (a :: nodes) (s.1 ++ s.2.1) :=
          mem_candidates.mpr ⟨by simp, root, by simpa using hroot, hx⟩
        cases hc : candidates d (a :: nodes) (s.1 ++ s.2.1) with
        | nil => rw [hc] at hm; simp at hm
        | cons => rw [hc] at hb; simp [best] at hb
      | some c =>
        obtain ⟨hc1, v, hv, hvc⟩ := mem_candidates.mp (best_mem hb)
        have hle := best_le hb
        obtain ⟨k, len, p⟩ := c
        simp only at hc1 hvc hle
        obtain ⟨hwalk, hwlen⟩ := hw _ _ _ hvc
        simp only at hwalk hwlen
        have hku := (hn k hc1).1
        have hv' : v ∈ s.1 ∨ v ∈ s.2.1 := by simpa using hv
        have hnodup : (p.map Prod.snd).Nodup := by
          by_contra hcon
          obtain ⟨q, hq, hlt⟩ := hwalk.shorten hcon
          obtain ⟨x, hx, hxl⟩ := hd v (hs.inside _ hv') k hku q hq
          rw [hvc] at hx
          rw [← Option.some.inj hx] at hxl
          simp only at hxl
          omega
        have hdisj : ∀ x ∈ p.map Prod.snd, ¬ (x ∈ s.1 ∨ x ∈ s.2.1) := by
          intro x hx hxs
          obtain ⟨p1, p2, rfl, -, h2, h3⟩ := hwalk.split_at hx
          obtain ⟨y, hy, hyl⟩ := hd x (hs.inside _ hxs) k hku p2 h2
          have := hle (k, y) (mem_candidates.mpr ⟨hc1, x, by simpa using hxs, hy⟩)
          have h4 := List.length_pos_of_ne_nil h3
          simp only [List.length_append] at hwlen this
          omega
        have htree : Tree root (s.2.2 ++ p) := hs.tree.walk hwalk ((hs.verts v).mp hv') hnodup fun x hx => by
          have := hdisj x hx
          rw [hs.verts] at this
          exact not_or.mp this
        have hverts : ∀ x, (x ∈ s.1 ++ [k] ∨ x ∈ s.2.1 ++ (p.flatMap fun e => [e.1, e.2].filter (· ∉ s.1 ++ [k]))) ↔
            x = root ∨ x ∈ (s.2.2 ++ p).map Prod.snd := by
          intro x
          have hk : k = root ∨ k ∈ (s.2.2 ++ p).map Prod.snd := by
            rcases hwalk.end_mem with rfl | h
            · rcases (hs.verts k).mp hv' with h | h
              · exact .inl h
              · exact .inr (by rw [List.map_append]; exact List.mem_append_left _ h)
            · exact .inr (by rw [List.map_append]; exact List.mem_append_right _ h)
          have hold : (x ∈ s.1 ∨ x ∈ s.2.1) → x = root ∨ x ∈ (s.2.2 ++ p).map Prod.snd := fun h =>
            ((hs.verts x).mp h).imp id fun h => by rw [List.map_append]; exact List.mem_append_left _ h
          constructor
          · rintro (h | h)
            · rcases List.mem_append.mp h with h | h
              · exact hold (.inl h)
              · rw [List.mem_singleton] at h; subst h; exact hk
            · rcases List.mem_append.mp h with h | h
              · exact hold (.inr h)
              · rw [List.mem_flatMap] at h
                obtain ⟨e, he, hx⟩ := h
                have hx := (List.mem_filter.mp hx).1
                simp only [List.mem_cons, List.not_mem_nil, or_false] at hx
                rcases hx with rfl | rfl
                · rcases hwalk.fst_mem (List.mem_map_of_mem he) with h | h
                  · rw [h]
                    exact ((hs.verts v).mp hv').imp id fun h => by rw [List.map_append]; exact List.mem_append_left _ h
                  · exact .inr (by rw [List.map_append]; exact List.mem_append_right _ h)
                · exact .inr (by rw [List.map_append]; exact List.mem_append_right _ (List.mem_map_of_mem he))
          · rintro (rfl | h)
            · rcases hroot with h | h
              · exact .inl (List.mem_append_left _ h)
              · exact .inr (List.mem_append_left _ h)
            · rw [List.map_append] at h
              rcases List.mem_append.mp h with h | h
              · rcases (hs.verts x).mpr (.inr h) with h | h
                · exact .inl (List.mem_append_left _ h)
                · exact .inr (List.mem_append_left _ h)
              · by_cases hx : x ∈ s.1 ++ [k]
                · exact .inl hx
                · obtain ⟨e, he, rfl⟩ := List.mem_map.mp h
                  refine .inr (List.mem_append_right _ (List.mem_flatMap.mpr ⟨e, he, List.mem_filter.mpr ⟨by simp, by simpa using hx⟩⟩))
        have hs' : PrimOK R us root (fun x => T x ∨ x = k) (s.1 ++ [k], s.2.1 ++ (p.flatMap fun e => [e.1, e.2].filter (· ∉ s.1 ++ [k])), s.2.2 ++ p) := by
          refine ⟨htree, hverts, ?_, ?_, ?_, ?_⟩
          · intro x hx hx'
            simp only [List.map_append, List.mem_append, not_or] at hx hx'
            rcases hx with hx | hx
            · exact .inl (hs.leaf x hx hx'.1)
            · exact .inr ((hwalk.src hx).resolve_right hx'.2)
          · intro e he
            rcases List.mem_append.mp he with he | he
            · exact hs.edges e he
            · exact hwalk.mem he
          · intro x hx
            rcases (hverts x).mp hx with rfl | h
            · exact hs.inside _ hroot
            · rw [List.map_append] at h
              rcases List.mem_append.mp h with h | h
              · exact hs.inside x ((hs.verts x).mpr (.inr h))
              · obtain ⟨e, he, rfl⟩ := List.mem_map.mp h
                exact hR _ _ (hwalk.mem he)
          · rintro x (hx | rfl)
            · rcases hs.has x hx with h | h
              · exact .inl (List.mem_append_left _ h)
              · exact .inr (List.mem_append_left _ h)
            · exact .inl (by simp)
        have hlen' : ((a :: nodes).erase k).length ≤ n := by
          rw [List.length_erase_of_mem hc1]; simp only [List.length_cons] at hlen ⊢; omega
        obtain ⟨t, ht, ht'⟩ := ih hs' hlen' fun x hx => hn x (List.mem_of_mem_erase hx)
        refine ⟨t, ?_, ht'.tree, ht'.verts, ?_, ht'.edges, ht'.inside, ?_⟩
        · simp only [recPrim, hb]
          exact ht
        · intro x hx hx'
          rcases ht'.leaf x hx hx' with (h | rfl) | h
          · exact .inl h
          · exact .inr hc1
          · exact .inr (List.mem_of_mem_erase h)
        · rintro x (hx | hx)
          · exact ht'.has x (.inl (.inl hx))
          · by_cases e : x = k
            · exact ht'.has x (.inl (.inr e))
            · exact ht'.has x (.inr ((List.mem_erase_of_ne e).mpr hx))

/-! ### The two phases -/

theorem Tree.exists_min {root : ℕ} {E : List (ℕ × ℕ)} (h : Tree root E) (Q : ℕ × ℕ → Prop) {e0 : ℕ × ℕ} (h0 : e0 ∈ E) (hq : ¬ Q e0) :
    ∃ e ∈ E, ¬ Q e ∧ ∀ f ∈ E, f.2 = e.1 → Q f := by
  obtain ⟨f, hf⟩ := h.height
  induction hn : f e0.1 using Nat.strong_induction_on generalizing e0 with
  | _ n ih =>
    by_cases hex : ∃ g ∈ E, g.2 = e0.1 ∧ ¬ Q g
    · obtain ⟨g, hg, hg2, hgq⟩ := hex
      exact ih (f g.1) (by have := hf g hg; rw [hg2] at this; omega) hg hgq rfl
    · push Not at hex
      exact ⟨e0, h0, hq, hex⟩

theorem recDown_spec {root : ℕ} {E : List (ℕ × ℕ)} (h : Tree root E) {fuel : ℕ} {F : List ℕ} {S : List (ℕ × ℕ)} (D : ℕ → Prop) (hf : E.length < fuel + S.length)
    (hSn : S.Nodup) (hS : ∀ e, e ∈ S ↔ e ∈ E ∧ D e.1) (hcov : ∀ x, (D x ∨ x ∈ F) ↔ x = root ∨ x ∈ S.map Prod.snd) (hDF : ∀ x ∈ F, ¬ D x) :
    ∃ l, recDown E fuel F S = some l ∧ l.Nodup ∧ (∀ e, e ∈ l ↔ e ∈ E ∧ e ∉ S) ∧ l.Pairwise (fun e e' => e'.2 ≠ e.1) := by
  induction fuel generalizing F S D with
  | zero =>
    have : S.length ≤ E.length := (List.Nodup.subperm hSn fun e he => ((hS e).mp he).1).length_le
    omega
  | succ fuel ih =>
    have hSE : ∀ e ∈ S, e ∈ E := fun e he => ((hS e).mp he).1
    simp only [recDown]
    by_cases hlt : S.length < E.length
    · rw [if_pos hlt]
      -- some edge is not listed yet
      obtain ⟨e0, he0, hq0⟩ : ∃ e ∈ E, e ∉ S := by
        by_contra hcon
        push Not at hcon
        have := (List.Nodup.subperm h.nodup fun e he => hcon e he).length_le
        omega
      obtain ⟨e1, he1, hq1, hmin⟩ := h.exists_min (· ∈ S) he0 hq0
      have hF1 : e1.1 ∈ F := by
        have hx : e1.1 = root ∨ e1.1 ∈ S.map Prod.snd := (h.closed e1 he1).imp id fun hc => by
          obtain ⟨g, hg, hg2⟩ := List.mem_map.mp hc
          exact List.mem_map.mpr ⟨g, hmin g hg hg2, hg2⟩
        rcases (hcov _).mpr hx with hD | hF
        · exact absurd ((hS e1).mpr ⟨he1, hD⟩) hq1
        · exact hF
      set es := E.filter (fun e => decide (e.1 ∈ F)) with hes
      have hmes : ∀ e, e ∈ es ↔ e ∈ E ∧ e.1 ∈ F := by intro e; rw [hes, List.mem_filter]; simp
      have hesn : es.Nodup := h.nodup.filter _
      have hdisj : ∀ e ∈ es, e ∉ S := fun e he heS => hDF _ ((hmes e).mp he).2 ((hS e).mp heS).2
      have hesne : 0 < es.length := List.length_pos_of_mem ((hmes e1).mpr ⟨he1, hF1⟩)
      have hSes : (S ++ es).Nodup := by
        rw [List.nodup_append]
        exact ⟨hSn, hesn, fun a ha b hb hab => hdisj b hb (hab ▸ ha)⟩
      -- an edge into the frontier is listed
      have hFS : ∀ g ∈ E, g.2 ∈ F → g ∈ S := by
        intro g hg hgF
        rcases (hcov _).mp (.inr hgF) with hr | hs
        · exact absurd (hr ▸ List.mem_map_of_mem hg) h.notRoot
        · obtain ⟨g', hg', he⟩ := List.mem_map.mp hs
          rw [← h.uniq (hSE g' hg') hg he]; exact hg'
      obtain ⟨l, hl, hln, hlm, hlp⟩ := ih (F := ((F ++ es.map Prod.snd).dedup).filter (· ∉ F)) (S := (S ++ es).dedup) (D := fun x => D x ∨ x ∈ F)
        (by rw [hSes.dedup, List.length_append]; omega) (by rw [hSes.dedup]; exact hSes)
        (by
          intro e
          rw [hSes.dedup, List.mem_append, hS, hmes]
          tauto)
        (by
          intro x
          rw [hSes.dedup]
          simp only [List.mem_filter, List.mem_dedup, List.mem_append, decide_eq_true_eq, List.map_append]
          have := hcov x
          tauto)
        (by
          intro x hx
          simp only [List.mem_filter, List.mem_dedup, List.mem_append, decide_eq_true_eq] at hx
          rintro (hD | hF)
          · obtain ⟨g, hg, rfl⟩ := List.mem_map.mp (hx.1.resolve_left hx.2)
            have hgE := ((hmes g).mp hg).1
            rcases (hcov _).mp (.inl hD) with hr | hs
            · exact h.notRoot (hr ▸ List.mem_map_of_mem hgE)
            · obtain ⟨g', hg', he⟩ := List.mem_map.mp hs
              have := h.uniq (hSE g' hg') hgE he
              exact hdisj g hg (this ▸ hg')
          · exact hx.2 hF)
      have hl2 : recDown E fuel ((F ++ es.map Prod.snd).dedup.filter fun x => decide (x ∉ F)) (S ++ es).dedup = some l := hl
      rw [hl2]
      rw [hSes.dedup] at hlm
      refine ⟨es ++ l, rfl, ?_, ?_, ?_⟩
      · rw [List.nodup_append]
        exact ⟨hesn, hln, fun a ha b hb hab => ((hlm b).mp hb).2 (by rw [← hab]; exact List.mem_append_right _ ha)⟩
      · intro e
        rw [List.mem_append, hlm, List.mem_append]
        constructor
        · rintro (he | he)
          · exact ⟨((hmes e).mp he).1, hdisj e he⟩
          · exact ⟨he.1, fun hh => he.2 (.inl hh)⟩
        · rintro ⟨h1, h2⟩
          by_cases he : e ∈ es
          · exact .inl he
          · exact .inr ⟨h1, fun hh => hh.elim h2 he⟩
      · rw [List.pairwise_append]
        refine ⟨?_, hlp, ?_⟩
        · rw [List.pairwise_iff_forall_sublist]
          intro a b hab
          have ha : a ∈ es := hab.subset (by simp)
          have hb : b ∈ es := hab.subset (by simp)
          intro e
          exact hdisj b hb (hFS b ((hmes b).mp hb).1 (by rw [e]; exact ((hmes a).mp ha).2))
        · intro a ha b hb e
          have hb' := (hlm b).mp hb
          exact hb'.2 (List.mem_append_left _ (hFS b hb'.1 (by rw [e]; exact ((hmes a).mp ha).2)))
    · rw [if_neg hlt]
      refine ⟨[], rfl, by simp, ?_, by simp⟩
      intro e
      have hperm : S.Perm E := (List.Nodup.subperm hSn hSE).perm_of_length_le (by omega)
      rw [← hperm.mem_iff]
      simp

theorem upLeaf_fold (L : List ℕ) (s : List (ℕ × ℕ) × List (ℕ × ℕ)) :
    ((L.foldl upLeaf s).2 = s.2.filter fun e => decide (e.2 ∉ L)) ∧ (∀ e, e ∈ (L.foldl upLeaf s).1 ↔ e ∈ s.1 ∨ (e ∈ s.2 ∧ e.2 ∈ L)) := by
  induction L generalizing s with
  | nil => simp
  | cons v L ih =>
    obtain ⟨h1, h2⟩ := ih (upLeaf s v)
    rw [List.foldl_cons]
    constructor
    · rw [h1]
      simp only [upLeaf, List.filter_filter]
      congr 1
      funext e
      simp only [List.mem_cons]
      by_cases h : e.2 = v <;> by_cases h' : e.2 ∈ L <;> simp [h, h']
    · intro e
      rw [h2]
      simp only [upLeaf, List.mem_append, List.mem_filter, decide_eq_true_eq, List.mem_cons]
      tauto

theorem upLeaf_nodup (L : List ℕ) (s : List (ℕ × ℕ) × List (ℕ × ℕ)) (h1 : s.1.Nodup) (h2 : s.2.Nodup) (h3 : ∀ e ∈ s.1, e ∉ s.2) : (L.foldl upLeaf s).1.Nodup := by
  induction L generalizing s with
  | nil => exact h1
  | cons v L ih =>
    refine ih _ ?_ (h2.filter _) ?_
    · simp only [upLeaf]
      rw [List.nodup_append]
      exact ⟨h1, h2.filter _, fun a ha b hb hab => h3 a ha (hab ▸ (List.mem_filter.mp hb).1)⟩
    · intro e he he'
      simp only [upLeaf, List.mem_append, List.mem_filter, decide_eq_true_eq] at he he'
      rcases he with he | he
      · exact h3 e he he'.1
      · exact he'.2 he.2

theorem recUp_spec {root : ℕ} {E0 : List (ℕ × ℕ)} (h0 : Tree root E0) {vs pnts : List ℕ} (hv : ∀ x ∈ E0.map Prod.snd, x ∈ vs ∨ x ∈ pnts) {fuel : ℕ} {E : List (ℕ × ℕ)}
    (hn : E.Nodup) (hE : ∀ e ∈ E, e ∈ E0) (hf : E.length < fuel) :
    ∃ l, recUp vs pnts fuel E = some l ∧ l.Nodup ∧ (∀ e, e ∈ l ↔ e ∈ E) ∧ l.Pairwise (fun e e' => e'.1 ≠ e.2) := by
  induction fuel generalizing E with
  | zero => omega
  | succ fuel ih =>
    cases hE' : E with
    | nil => exact ⟨[], by simp [recUp], by simp, by simp, by simp⟩
    | cons a E' =>
      rw [← hE']
      have ha : a ∈ E := by rw [hE']; simp
      set L := (vs ++ pnts).filter (fun v => decide (v ∉ E.map Prod.fst)) with hL
      have hmL : ∀ v, v ∈ L ↔ (v ∈ vs ∨ v ∈ pnts) ∧ v ∉ E.map Prod.fst := by
        intro v; rw [hL, List.mem_filter, List.mem_append]; simp
      obtain ⟨q1, q2⟩ := upLeaf_fold L ([], E)
      have q3 := upLeaf_nodup L ([], E) (by simp) hn (by simp)
      simp only [List.not_mem_nil, false_or] at q1 q2
      -- an edge into a leaf
      obtain ⟨e1, he1, hl1⟩ : ∃ e ∈ E, e.2 ∉ E.map Prod.fst := by
        obtain ⟨f, hf⟩ := h0.height
        by_contra hcon
        push Not at hcon
        have hbig : ∀ n, ∃ e ∈ E, n ≤ f e.2 := by
          intro n
          induction n with
          | zero => exact ⟨a, ha, by omega⟩
          | succ n ihn =>
            obtain ⟨e, he, hle⟩ := ihn
            obtain ⟨g, hg, hge⟩ := List.mem_map.mp (hcon e he)
            exact ⟨g, hg, by have := hf g (hE g hg); rw [hge] at this; omega⟩
        obtain ⟨e, he, hle⟩ := hbig ((E.map fun e => f e.2).sum + 1)
        have := List.single_le_sum (l := E.map fun e => f e.2) (by simp) (f e.2) (List.mem_map.mpr ⟨e, he, rfl⟩)
        omega
      have hlt : (L.foldl upLeaf ([], E)).2.length < E.length := by
        rw [q1]
        have hle := List.length_filter_le (fun e : ℕ × ℕ => decide (e.2 ∉ L)) E
        rcases Nat.lt_or_ge (E.filter (fun e : ℕ × ℕ => decide (e.2 ∉ L))).length E.length with h | h
        · exact h
        · exfalso
          have heq : (E.filter (fun e : ℕ × ℕ => decide (e.2 ∉ L))).length = E.length := by omega
          have := List.length_filter_eq_length_iff.mp heq e1 he1
          simp only [decide_eq_true_eq] at this
          exact this ((hmL e1.2).mpr ⟨hv _ (List.mem_map_of_mem (hE e1 he1)), hl1⟩)
      obtain ⟨l, hl, hln, hlm, hlp⟩ := ih (E := (L.foldl upLeaf ([], E)).2) (by rw [q1]; exact hn.filter _)
        (fun e he => by rw [q1] at he; exact hE e (List.mem_filter.mp he).1) (by omega)
      have hstep : recUp vs pnts (fuel + 1) E = some ((L.foldl upLeaf ([], E)).1 ++ l) := by
        rw [hE']
        simp only [recUp]
        rw [← hE', ← hL, hl]
        rfl
      refine ⟨_, hstep, ?_, ?_, ?_⟩
      · rw [List.nodup_append]
        refine ⟨q3, hln, fun x hx y hy hxy => ?_⟩
        have hx' := (q2 x).mp hx
        have hy' := (hlm y).mp hy
        rw [q1] at hy'
        have := (List.mem_filter.mp hy').2
        simp only [decide_eq_true_eq] at this
        exact this (hxy ▸ hx'.2)
      · intro e
        rw [List.mem_append, q2, hlm, q1]
        clear_value L
        rw [List.mem_filter]
        simp only [decide_eq_true_eq]
        tauto
      · rw [List.pairwise_append]
        have key : ∀ x, x ∈ (L.foldl upLeaf ([], E)).1 → ∀ y ∈ E, y.1 ≠ x.2 := by
          intro x hx y hy e
          have hx' := (q2 x).mp hx
          exact ((hmL _).mp hx'.2).2 (e ▸ List.mem_map_of_mem hy)
        refine ⟨?_, hlp, ?_⟩
        · rw [List.pairwise_iff_forall_sublist]
          intro x y hxy
          exact key x (hxy.subset (by simp)) y ((q2 y).mp (hxy.subset (by simp))).1
        · intro x hx y hy
          have hy' := (hlm y).mp hy
          rw [q1] at hy'
          exact key x hx y (List.mem_filter.mp hy').1

end Routing
end PyZX
