import Verif.Proofs.RouteElim

/-!
# The default placement

`_place_qubits` numbers the vertices of a connected coupling graph in depth-first postorder: every vertex gets one number, and every
vertex but the last has a neighbour with a larger number.
-/

namespace PyZX
namespace Routing

variable {adj : List (ℕ × List ℕ)}

/-- The vertices not visited yet. -/
def unvisited (adj : List (ℕ × List ℕ)) (vis : List ℕ) : ℕ := ((adj.map Prod.fst).filter fun v => decide (v ∉ vis)).length

theorem unvisited_lt {vis vis' : List ℕ} {x : ℕ} (hsub : ∀ v ∈ vis, v ∈ vis') (hx : x ∈ adj.map Prod.fst) (h1 : x ∉ vis) (h2 : x ∈ vis') :
    unvisited adj vis' < unvisited adj vis := by
  unfold unvisited
  have hs : ((adj.map Prod.fst).filter fun v => decide (v ∉ vis')).Sublist ((adj.map Prod.fst).filter fun v => decide (v ∉ vis)) := by
    refine List.monotone_filter_right _ ?_
    intro v hv
    simp only [decide_eq_true_eq] at hv ⊢
    exact fun h => hv (hsub v h)
  rcases Nat.lt_or_ge _ _ with h | h
  · exact h
  · exfalso
    have heq := hs.eq_of_length_le h
    have : x ∈ (adj.map Prod.fst).filter fun v => decide (v ∉ vis) := List.mem_filter.mpr ⟨hx, by simpa using h1⟩
    rw [← heq] at this
    have := (List.mem_filter.mp this).2
    simp only [decide_eq_true_eq] at this
    exact this h2

theorem unvisited_le {vis vis' : List ℕ} (hsub : ∀ v ∈ vis, v ∈ vis') : unvisited adj vis' ≤ unvisited adj vis := by
  unfold unvisited
  refine (List.monotone_filter_right _ ?_).length_le
  intro v hv
  simp only [decide_eq_true_eq] at hv ⊢
  exact fun h => hv (hsub v h)

/-- Every vertex of the list has a later neighbour in the list, or is a neighbour of `cur`. -/
def Later (adj : List (ℕ × List ℕ)) (cur : ℕ) (N : List ℕ) : Prop :=
  ∀ l1 x l2, N = l1 ++ x :: l2 → (∃ y ∈ l2, y ∈ nbrsOf adj x) ∨ cur ∈ nbrsOf adj x

theorem Later.nil (cur : ℕ) : Later adj cur [] := by
  intro l1 x l2 h
  simp at h

theorem Later.append {cur : ℕ} {N M : List ℕ} (hN : ∀ l1 x l2, N = l1 ++ x :: l2 → (∃ y ∈ l2, y ∈ nbrsOf adj x) ∨ cur ∈ nbrsOf adj x) (hM : Later adj cur M) :
    Later adj cur (N ++ M) := by
  intro l1 x l2 h
  rcases List.append_eq_append_iff.mp h with ⟨a, h1, h2⟩ | ⟨a, h1, h2⟩
  · exact hM a x l2 h2
  · cases a with
    | nil =>
      simp only [List.append_nil, List.nil_append] at h1 h2
      exact hM [] x l2 h2.symm
    | cons y a =>
      simp only [List.cons_append, List.cons.injEq] at h2
      obtain ⟨rfl, rfl⟩ := h2
      rcases hN l1 x a h1 with ⟨y, hy, hxy⟩ | h
      · exact .inl ⟨y, List.mem_append_left _ hy, hxy⟩
      · exact .inr h

theorem Later.snoc {cur p : ℕ} {N : List ℕ} (hN : Later adj cur N) (hp : p ∈ nbrsOf adj cur) : Later adj p (N ++ [cur]) := by
  intro l1 x l2 h
  rcases List.eq_nil_or_concat' l2 with rfl | ⟨m, y, rfl⟩
  · obtain ⟨-, hx⟩ := List.append_inj' (s₁ := N) (t₁ := [cur]) (s₂ := l1) (t₂ := [x]) h rfl
    obtain rfl := List.singleton_injective hx
    exact .inr hp
  · have h' : N ++ [cur] = (l1 ++ x :: m) ++ [y] := by rw [h]; simp
    obtain ⟨h1, h2⟩ := List.append_inj' h' rfl
    obtain rfl := List.singleton_injective h2
    rcases hN l1 x m h1 with ⟨z, hz, hxz⟩ | h
    · exact .inl ⟨z, List.mem_append_left _ hz, hxz⟩
    · exact .inl ⟨cur, by simp, h⟩

/-- The outcome of a part of the traversal: the visited vertices `new`, in postorder `N`. -/
structure Traversed (adj : List (ℕ × List ℕ)) (vis new N : List ℕ) : Prop where
  nodup : (vis ++ new).Nodup
  perm : N.Perm new
  keys : ∀ v ∈ new, v ∈ adj.map Prod.fst
  closed : ∀ w ∈ new, ∀ z ∈ nbrsOf adj w, z ∈ vis ∨ z ∈ new

theorem dft_spec (hadj : GraphOK adj) (fuel : ℕ) :
    (∀ cur vis qm, vis.Nodup → cur ∈ adj.map Prod.fst → cur ∉ vis → unvisited adj vis ≤ fuel →
      ∃ new N, dft adj fuel cur (vis, qm) = some (vis ++ new, qm ++ (N ++ [cur])) ∧ Traversed adj vis new (N ++ [cur]) ∧ Later adj cur N) ∧
    ∀ cur ns vis qm, vis.Nodup → (∀ n ∈ ns, n ∈ nbrsOf adj cur) → unvisited adj vis ≤ fuel →
      ∃ new N, dftLoop (dft adj fuel) ns (vis, qm) = some (vis ++ new, qm ++ N) ∧ Traversed adj vis new N ∧ Later adj cur N ∧ ∀ n ∈ ns, n ∈ vis ∨ n ∈ new := by
  induction fuel with
  | zero =>
    have hdft : ∀ cur vis (qm : List ℕ), vis.Nodup → cur ∈ adj.map Prod.fst → cur ∉ vis → unvisited adj vis ≤ 0 → False := by
      intro cur vis _ _ hk hv hu
      have := unvisited_lt (adj := adj) (vis' := vis ++ [cur]) (x := cur) (fun v hv => by simp [hv]) hk hv (by simp)
      omega
    refine ⟨fun cur vis qm h1 h2 h3 h4 => (hdft cur vis qm h1 h2 h3 h4).elim, ?_⟩
    intro cur ns vis qm h1 h2 h3
    induction ns with
    | nil => exact ⟨[], [], by simp [dftLoop], ⟨by simpa using h1, by simp, by simp, by simp⟩, Later.nil _, by simp⟩
    | cons n ns ih =>
      have hnk : n ∈ adj.map Prod.fst := (mem_keys_of_nbrs (hadj.sym _ _ (h2 n (by simp)))).1
      have hv : n ∈ vis := by
        by_contra hc
        exact hdft n vis qm h1 hnk hc h3
      obtain ⟨new, N, e, t, l, c⟩ := ih fun m hm => h2 m (by simp [hm])
      refine ⟨new, N, by simp only [dftLoop]; rw [if_pos hv]; exact e, t, l, ?_⟩
      intro m hm
      rcases List.mem_cons.mp hm with rfl | hm
      · exact .inl hv
      · exact c m hm
  | succ fuel IH =>
    have hdft : ∀ cur vis qm, vis.Nodup → cur ∈ adj.map Prod.fst → cur ∉ vis → unvisited adj vis ≤ fuel + 1 →
        ∃ new N, dft adj (fuel + 1) cur (vis, qm) = some (vis ++ new, qm ++ (N ++ [cur])) ∧ Traversed adj vis new (N ++ [cur]) ∧ Later adj cur N := by
      intro cur vis qm h1 h2 h3 h4
      have hlt := unvisited_lt (adj := adj) (vis' := vis ++ [cur]) (x := cur) (fun v hv => by simp [hv]) h2 h3 (by simp)
      have hns : ∀ n, n ∈ (nbrsOf adj cur).insertionSort (· ≥ ·) ↔ n ∈ nbrsOf adj cur := fun n => (List.perm_insertionSort _ _).mem_iff
      obtain ⟨new, N, e, t, l, c⟩ := IH.2 cur ((nbrsOf adj cur).insertionSort (· ≥ ·)) (vis ++ [cur]) qm (by
        rw [List.nodup_append]
        exact ⟨h1, by simp, by intro a ha b hb hab; simp at hb; subst hab; subst hb; exact h3 ha⟩) (fun n hn => (hns n).mp hn) (by omega)
      refine ⟨cur :: new, N, ?_, ⟨?_, ?_, ?_, ?_⟩, l⟩
      · simp only [dft]
        rw [e]
        simp
      · have := t.nodup
        simpa using this
      · exact (List.perm_append_comm.trans (List.Perm.cons cur t.perm))
      · intro v hv
        rcases List.mem_cons.mp hv with rfl | hv
        · exact h2
        · exact t.keys v hv
      · intro w hw z hz
        have key : z ∈ vis ++ [cur] ∨ z ∈ new := by
          rcases List.mem_cons.mp hw with rfl | hw
          · exact c z ((hns z).mpr hz)
          · exact t.closed w hw z hz
        rcases key with h | h
        · rcases List.mem_append.mp h with h | h
          · exact .inl h
          · rw [List.mem_singleton] at h; exact .inr (by simp [h])
        · exact .inr (by simp [h])
    refine ⟨hdft, ?_⟩
    intro cur ns vis qm h1 h2 h3
    induction ns generalizing vis qm with
    | nil => exact ⟨[], [], by simp [dftLoop], ⟨by simpa using h1, by simp, by simp, by simp⟩, Later.nil _, by simp⟩
    | cons n ns ih =>
      have hnc := h2 n (by simp)
      have hnk : n ∈ adj.map Prod.fst := (mem_keys_of_nbrs (hadj.sym _ _ hnc)).1
      have h2' : ∀ m ∈ ns, m ∈ nbrsOf adj cur := fun m hm => h2 m (by simp [hm])
      by_cases hv : n ∈ vis
      · obtain ⟨new, N, e, t, l, c⟩ := ih vis qm h1 h2' h3
        refine ⟨new, N, by simp only [dftLoop]; rw [if_pos hv]; exact e, t, l, ?_⟩
        intro m hm
        rcases List.mem_cons.mp hm with rfl | hm
        · exact .inl hv
        · exact c m hm
      · obtain ⟨new1, N1, e1, t1, l1⟩ := hdft n vis qm h1 hnk hv h3
        obtain ⟨new2, N2, e2, t2, l2, c2⟩ := ih (vis ++ new1) (qm ++ (N1 ++ [n])) t1.nodup h2'
          ((unvisited_le fun v hv => List.mem_append_left _ hv).trans h3)
        have hn1 : n ∈ new1 := t1.perm.mem_iff.mp (by simp)
        refine ⟨new1 ++ new2, (N1 ++ [n]) ++ N2, ?_, ⟨?_, ?_, ?_, ?_⟩, Later.append (l1.snoc (hadj.sym _ _ hnc)) l2, ?_⟩
        · simp only [dftLoop]
          rw [if_neg hv, e1, Option.bind_some, e2]
          simp only [List.append_assoc]
        · have := t2.nodup
          rwa [List.append_assoc] at this
        · exact t1.perm.append t2.perm
        · intro v hv
          rcases List.mem_append.mp hv with hv | hv
          · exact t1.keys v hv
          · exact t2.keys v hv
        · intro w hw z hz
          rcases List.mem_append.mp hw with hw | hw
          · exact (t1.closed w hw z hz).imp id fun h => List.mem_append_left _ h
          · rcases t2.closed w hw z hz with h | h
            · rcases List.mem_append.mp h with h | h
              · exact .inl h
              · exact .inr (List.mem_append_left _ h)
            · exact .inr (List.mem_append_right _ h)
        · intro m hm
          rcases List.mem_cons.mp hm with rfl | hm
          · exact .inr (List.mem_append_left _ hn1)
          · rcases c2 m hm with h | h
            · rcases List.mem_append.mp h with h | h
              · exact .inl h
              · exact .inr (List.mem_append_left _ h)
            · exact .inr (List.mem_append_right _ h)

/-- The default placement of a connected coupling graph. -/
theorem placeQubits_spec (hadj : GraphOK adj) (hc : Connected adj) (hne : adj ≠ []) :
    ∃ q, placeQubits adj = some q ∧ q.Nodup ∧ (∀ v, v ∈ q ↔ v ∈ adj.map Prod.fst) ∧
      ∀ l1 x l2, q = l1 ++ x :: l2 → l2 ≠ [] → ∃ y ∈ l2, y ∈ nbrsOf adj x := by
  unfold placeQubits
  cases hm : (adj.map Prod.fst).max? with
  | none =>
    rw [List.max?_eq_none_iff] at hm
    simp at hm; exact absurd hm hne
  | some v =>
    have hvk : v ∈ adj.map Prod.fst := List.max?_mem hm
    obtain ⟨new, N, e, t, l⟩ := (dft_spec hadj (adj.length + 1)).1 v [] [] (by simp) hvk (by simp) (by
      unfold unvisited
      exact (List.length_filter_le _ _).trans (by simp))
    simp only [List.nil_append] at e
    refine ⟨N ++ [v], by simp [e], ?_, ?_, ?_⟩
    · exact t.perm.nodup_iff.mpr (by simpa using t.nodup)
    · intro x
      rw [t.perm.mem_iff]
      refine ⟨t.keys x, fun hx => ?_⟩
      obtain ⟨p, hp⟩ := hc v hvk x hx
      have hv : v ∈ new := t.perm.mem_iff.mp (by simp)
      have key : ∀ {p a b}, Walk (fun a b => b ∈ nbrsOf adj a) p a b → a ∈ new → b ∈ new := by
        intro p a b hw
        induction hw with
        | nil => exact fun h => h
        | cons hr _ ih => exact fun h => ih ((t.closed _ h _ hr).resolve_left (by simp))
      exact key hp hv
    · intro l1 x l2 h hl2
      rcases List.eq_nil_or_concat' l2 with rfl | ⟨m, y, rfl⟩
      · exact absurd rfl hl2
      · have h' : N ++ [v] = (l1 ++ x :: m) ++ [y] := by rw [h]; simp
        obtain ⟨h1, h2⟩ := List.append_inj' h' rfl
        obtain rfl := List.singleton_injective h2
        rcases l l1 x m h1 with ⟨z, hz, hxz⟩ | h
        · exact ⟨z, List.mem_append_left _ hz, hxz⟩
        · exact ⟨v, by simp, h⟩

theorem Walk.symm {R : ℕ → ℕ → Prop} (hR : ∀ a b, R a b → R b a) {p : List (ℕ × ℕ)} {a b : ℕ} (h : Walk R p a b) : ∃ q, Walk R q b a := by
  induction h with
  | nil => exact ⟨[], Walk.nil _⟩
  | cons hr _ ih =>
    obtain ⟨q, hq⟩ := ih
    exact ⟨_, hq.append (Walk.cons (hR _ _ hr) (Walk.nil _))⟩

theorem upConnected_of_later {A : Arch} (hA : A.OK) (h : ∀ l1 x l2, A.qmap = l1 ++ x :: l2 → l2 ≠ [] → ∃ y ∈ l2, y ∈ nbrsOf A.adj x) : UpConnected A := by
  -- every qubit but the last is coupled to a larger one
  have hup : ∀ q, q + 1 < A.qmap.length → ∃ q', q < q' ∧ q' < A.qmap.length ∧ Coupled A q q' := by
    intro q hq
    have hsplit : A.qmap = A.qmap.take q ++ A.qmap[q] :: A.qmap.drop (q + 1) := by simp
    obtain ⟨y, hy, hn⟩ := h _ _ _ hsplit (by
      intro hnil
      have := congrArg List.length hnil
      simp only [List.length_drop, List.length_nil] at this
      omega)
    obtain ⟨i, hi⟩ := List.getElem?_of_mem hy
    rw [List.getElem?_drop] at hi
    have hlt : q + 1 + i < A.qmap.length := by
      by_contra hcon
      rw [List.getElem?_eq_none (by omega)] at hi; simp at hi
    exact ⟨q + 1 + i, by omega, hlt, A.qmap[q], y, by rw [List.getElem?_eq_getElem], hi, hn⟩
  -- so there is a walk to the last one
  have hlast : ∀ t c q, c ≤ q → q < A.qmap.length → A.qmap.length - q = t → ∃ p, Walk (fun a b => Coupled A a b ∧ c ≤ a ∧ c ≤ b) p q (A.qmap.length - 1) := by
    intro t
    induction t using Nat.strong_induction_on with
    | _ t ih =>
      intro c q hcq hq ht
      by_cases hq1 : q + 1 < A.qmap.length
      · obtain ⟨q', h1, h2, h3⟩ := hup q hq1
        obtain ⟨p, hp⟩ := ih (A.qmap.length - q') (by omega) c q' (by omega) h2 rfl
        exact ⟨_, Walk.cons ⟨h3, hcq, by omega⟩ hp⟩
      · have : q = A.qmap.length - 1 := by omega
        rw [← this]
        exact ⟨[], Walk.nil _⟩
  intro c i hci hi
  obtain ⟨p1, h1⟩ := hlast _ c c le_rfl (by omega) rfl
  obtain ⟨p2, h2⟩ := hlast _ c i hci hi rfl
  obtain ⟨p3, h3⟩ := h2.symm fun a b h => ⟨h.1.symm hA, h.2.2, h.2.1⟩
  exact ⟨_, h1.append h3⟩

theorem reduceLoop_perm (adj : List (ℕ × List ℕ)) (qubit : ℕ → ℕ) {n : ℕ} {vs l : List ℕ} (hn : vs.length ≤ n) (h : reduceLoop adj qubit n vs = some l) :
    l.Perm (vs.map qubit) := by
  induction n generalizing vs l with
  | zero =>
    have : vs = [] := List.length_eq_zero_iff.mp (by omega)
    subst this
    simp only [reduceLoop, Option.some.injEq] at h
    subst h; simp
  | succ n ih =>
    cases vs with
    | nil => simp only [reduceLoop, Option.some.injEq] at h; subst h; simp
    | cons a vs =>
      simp only [reduceLoop] at h
      split at h
      · simp at h
      · split at h
        · simp at h
        · next v hv =>
          rw [Option.map_eq_some_iff] at h
          obtain ⟨l', h', rfl⟩ := h
          have hmem := List.mem_of_find?_eq_some hv
          have hp := ih (by rw [List.length_erase_of_mem hmem]; simp only [List.length_cons] at hn ⊢; omega) h'
          exact (hp.cons _).trans ((List.perm_cons_erase hmem).symm.map qubit)

/-- An architecture with default placement and order. -/
theorem build_spec (hadj : GraphOK adj) (hc : Connected adj) {A : Arch} (h : build adj none none = some A) :
    A.adj = adj ∧ A.OK ∧ UpConnected A ∧ A.order.Perm (List.range A.qmap.length) := by
  unfold build at h
  simp only at h
  split at h
  · simp at h
  · next q hq =>
    rw [Option.map_eq_some_iff] at h
    obtain ⟨l, hl, rfl⟩ := h
    have hne : adj ≠ [] := by
      rintro rfl
      simp [placeQubits] at hq
    obtain ⟨q', hq', h1, h2, h3⟩ := placeQubits_spec hadj hc hne
    rw [hq] at hq'
    obtain rfl := Option.some.inj hq'
    have hA : Arch.OK ⟨adj, q, l⟩ := ⟨hadj, h1, h2⟩
    refine ⟨rfl, hA, upConnected_of_later hA h3, ?_⟩
    have hp := reduceLoop_perm adj _ (by rw [List.length_insertionSort]; simp [Arch.verts]) hl
    refine hp.trans (((List.perm_insertionSort _ _).map _).trans ?_)
    -- the qubits of the vertices
    have hnod : ((⟨adj, q, []⟩ : Arch).verts.map (⟨adj, q, []⟩ : Arch).qubit).Nodup := by
      refine (List.nodup_map_iff_inj_on hadj.nodup).mpr ?_
      intro x hx y hy hxy
      exact hA.qubit_inj hx hy hxy
    refine (List.perm_ext_iff_of_nodup hnod List.nodup_range).mpr ?_
    intro i
    rw [List.mem_map, List.mem_range]
    constructor
    · rintro ⟨v, hv, rfl⟩
      have := hA.vertex_qubit hv
      by_contra hcon
      have hle : (⟨adj, q, l⟩ : Arch).qmap.length ≤ (⟨adj, q, l⟩ : Arch).qubit v := Nat.le_of_not_lt hcon
      rw [List.getElem?_eq_none hle] at this
      simp at this
    · intro hi
      have hi' : i < (⟨adj, q, l⟩ : Arch).qmap.length := hi
      refine ⟨vtx ⟨adj, q, l⟩ i, ?_, ?_⟩
      · exact (h2 _).mp (List.mem_of_getElem? (getElem?_vtx hi'))
      · exact qubit_vtx hA hi'

end Routing
end PyZX
