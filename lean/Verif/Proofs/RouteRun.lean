import Verif.Proofs.RouteFloyd
import Verif.Proofs.LinalgAlg

/-!
# All row additions of the constrained eliminations are between coupled qubits
-/

namespace PyZX
namespace Routing
open Mat2

variable {A : Arch} {o : Order}

/-! ### Trees -/

theorem bfs_nbrs (A : Arch) (tree : List ℕ) {fuel : ℕ} {q vis : List ℕ} {l : List (ℕ × ℕ)} (h : bfs A tree fuel q vis = some l) :
    ∀ e ∈ l, e.2 ∈ nbrsOf A.adj e.1 := by
  induction fuel generalizing q vis l with
  | zero =>
    cases q with
    | nil => simp only [bfs, Option.some.injEq] at h; subst h; simp
    | cons => simp [bfs] at h
  | succ n ih =>
    cases q with
    | nil => simp only [bfs, Option.some.injEq] at h; subst h; simp
    | cons v q =>
      simp only [bfs, Option.map_eq_some_iff] at h
      obtain ⟨l', h', rfl⟩ := h
      intro e he
      rcases List.mem_append.mp he with he | he
      · obtain ⟨w, hw, rfl⟩ := List.mem_map.mp he
        exact (List.mem_filter.mp hw).1
      · exact ih h' e he

theorem steinerTree_coupled (hA : A.OK) {start : ℕ} {qs : List ℕ} {upper : Bool} {E : List (ℕ × ℕ)} (h : steinerTree A o start qs upper = some E) :
    ∀ e ∈ E, Coupled A e.1 e.2 := by
  unfold steinerTree at h
  split at h
  · split_ifs at h
    all_goals
      split at h
      · simp at h
      · split at h
        · simp at h
        · next tree _ =>
          simp only [Option.map_eq_some_iff] at h
          obtain ⟨l, hl, rfl⟩ := h
          intro e he
          obtain ⟨x, hx, rfl⟩ := List.mem_map.mp he
          exact hA.coupled (bfs_nbrs A tree hl x hx)
  · simp at h

theorem foldl_min_mem (cs : List (ℕ × ℕ × List (ℕ × ℕ))) (c : ℕ × ℕ × List (ℕ × ℕ)) :
    cs.foldl (fun m c => if c.2.1 < m.2.1 then c else m) c ∈ c :: cs := by
  induction cs generalizing c with
  | nil => simp
  | cons a cs ih =>
    rw [List.foldl_cons]
    have := ih (if a.2.1 < c.2.1 then a else c)
    split_ifs at this ⊢ <;> grind

theorem best_mem {l : List (ℕ × ℕ × List (ℕ × ℕ))} {c : ℕ × ℕ × List (ℕ × ℕ)} (h : best l = some c) : c ∈ l := by
  cases l with
  | nil => simp [best] at h
  | cons a l => simp only [best, Option.some.injEq] at h; subst h; exact foldl_min_mem l a

theorem mem_candidates {d : Dist} {nodes tree : List ℕ} {c : ℕ × ℕ × List (ℕ × ℕ)} :
    c ∈ candidates d nodes tree ↔ c.1 ∈ nodes ∧ ∃ v ∈ tree, d.get v c.1 = some c.2 := by
  unfold candidates
  rw [List.mem_flatMap]
  constructor
  · rintro ⟨n, hn, hc⟩
    rw [List.mem_filterMap] at hc
    obtain ⟨v, hv, hx⟩ := hc
    rw [Option.map_eq_some_iff] at hx
    obtain ⟨x, hx, rfl⟩ := hx
    exact ⟨hn, v, hv, hx⟩
  · rintro ⟨hn, v, hv, hx⟩
    refine ⟨c.1, hn, List.mem_filterMap.mpr ⟨v, hv, ?_⟩⟩
    rw [hx]; rfl

theorem recPrim_edges {R : ℕ → ℕ → Prop} {d : Dist} (hd : ∀ a b x, d.get a b = some x → Walk R x.2 a b) {n : ℕ} {s t : List ℕ × List ℕ × List (ℕ × ℕ)}
    {nodes : List ℕ} (h : recPrim d n s nodes = some t) (hs : ∀ e ∈ s.2.2, R e.1 e.2) : ∀ e ∈ t.2.2, R e.1 e.2 := by
  induction n generalizing s nodes with
  | zero =>
    cases nodes with
    | nil => simp only [recPrim, Option.some.injEq] at h; subst h; exact hs
    | cons => simp [recPrim] at h
  | succ n ih =>
    cases nodes with
    | nil => simp only [recPrim, Option.some.injEq] at h; subst h; exact hs
    | cons v nodes =>
      simp only [recPrim] at h
      split at h
      · simp at h
      · next c hc =>
        refine ih h ?_
        intro e he
        rcases List.mem_append.mp he with he | he
        · exact hs e he
        · obtain ⟨-, w, -, hw⟩ := mem_candidates.mp (best_mem hc)
          exact (hd _ _ _ hw).mem he

theorem recDown_sub {edges : List (ℕ × ℕ)} {fuel : ℕ} {vs : List ℕ} {seen l : List (ℕ × ℕ)} (h : recDown edges fuel vs seen = some l) :
    ∀ e ∈ l, e ∈ edges := by
  induction fuel generalizing vs seen l with
  | zero => simp [recDown] at h
  | succ n ih =>
    simp only [recDown] at h
    split_ifs at h
    · simp only [Option.map_eq_some_iff] at h
      obtain ⟨l', h', rfl⟩ := h
      intro e he
      rcases List.mem_append.mp he with he | he
      · exact (List.mem_filter.mp he).1
      · exact ih h' e he
    · simp only [Option.some.injEq] at h; subst h; simp

theorem upLeaf_fold_sub (vs : List ℕ) (s : List (ℕ × ℕ) × List (ℕ × ℕ)) (Q : ℕ × ℕ → Prop) (h1 : ∀ e ∈ s.1, Q e) (h2 : ∀ e ∈ s.2, Q e) :
    (∀ e ∈ (vs.foldl upLeaf s).1, Q e) ∧ ∀ e ∈ (vs.foldl upLeaf s).2, Q e := by
  induction vs generalizing s with
  | nil => exact ⟨h1, h2⟩
  | cons v vs ih =>
    refine ih _ ?_ ?_
    · intro e he
      rcases List.mem_append.mp he with he | he
      · exact h1 e he
      · exact h2 e (List.mem_filter.mp he).1
    · intro e he
      exact h2 e (List.mem_filter.mp he).1

theorem recUp_sub {vs pnts : List ℕ} {fuel : ℕ} {edges l : List (ℕ × ℕ)} (h : recUp vs pnts fuel edges = some l) (Q : ℕ × ℕ → Prop)
    (hQ : ∀ e ∈ edges, Q e) : ∀ e ∈ l, Q e := by
  induction fuel generalizing edges l with
  | zero =>
    cases edges with
    | nil => simp only [recUp, Option.some.injEq] at h; subst h; simp
    | cons => simp [recUp] at h
  | succ n ih =>
    cases edges with
    | nil => simp only [recUp, Option.some.injEq] at h; subst h; simp
    | cons a edges =>
      simp only [recUp, Option.map_eq_some_iff] at h
      obtain ⟨l', h', rfl⟩ := h
      obtain ⟨q1, q2⟩ := upLeaf_fold_sub ((vs ++ pnts).filter fun v => decide (v ∉ (a :: edges).map Prod.fst)) ([], a :: edges) Q (by simp) hQ
      intro e he
      rcases List.mem_append.mp he with he | he
      · exact q1 e he
      · exact ih h' q2 e he

theorem recTree_coupled (hA : A.OK) (ho : o.OK) {start : ℕ} {ts us rec : List ℕ} {upper : Bool} {l : List (ℕ × ℕ) × List (ℕ × ℕ)}
    (h : recTree A o start ts us rec upper = some l) : (∀ e ∈ l.1, Coupled A e.1 e.2) ∧ ∀ e ∈ l.2, Coupled A e.1 e.2 := by
  unfold recTree at h
  split_ifs at h
  split at h
  · next root us' ns rs _ _ _ _ =>
    split at h
    · simp at h
    · next d hd =>
      split at h
      · simp at h
      · next vs pnts es hp =>
        simp only at h
        split at h
        · next l1 l2 h1 h2 =>
          simp only [Option.some.injEq] at h
          subst h
          obtain ⟨d', hd', hw, -⟩ := floyd_spec hA us' upper rs
          rw [hd] at hd'
          obtain rfl := Option.some.inj hd'
          have hes := recPrim_edges (R := fun a b => b ∈ nbrsOf A.adj a) (fun a b x hx => (hw a b x hx).1.mono fun _ _ h => h.2.2.1) hp (by simp)
          have hE : ∀ e ∈ o.e es.dedup, e.2 ∈ nbrsOf A.adj e.1 := fun e he =>
            hes e (List.mem_dedup.mp ((ho.2 es.dedup).mem_iff.mp he))
          constructor
          · intro e he
            obtain ⟨x, hx, rfl⟩ := List.mem_map.mp he
            exact hA.coupled (hE x (recDown_sub h1 x hx))
          · intro e he
            obtain ⟨x, hx, rfl⟩ := List.mem_map.mp he
            exact hA.coupled (recUp_sub h2 _ hE x hx)
        · simp at h
  · simp at h

/-! ### Elimination -/

section
variable {X Y : Type*} {ra : ℕ → ℕ → X → X} {ca : ℕ → ℕ → Y → Y}

/-- The row additions that are allowed. -/
def Op (A : Arch) (r a b : ℕ) : Prop := Coupled A a b ∧ a < r ∧ b < r

theorem Op.valid (hA : A.OK) {r a b : ℕ} (h : Op A r a b) : Valid r a b := ⟨h.2.1, h.2.2, h.1.ne hA⟩

theorem Run.rect' (hA : A.OK) {r c : ℕ} {s s' : St X Y} (h : Run ra ca (Op A r) s s') (hs : Rect r c s.m) : Rect r c s'.m :=
  (h.mono fun _ _ h => h.valid hA).rect hs

theorem inRange_iff {n : ℕ} {l : List (ℕ × ℕ)} : inRange n l = true ↔ ∀ e ∈ l, e.1 < n ∧ e.2 < n := by
  unfold inRange; rw [List.all_eq_true]; simp

theorem zeroStep_run {P : ℕ → ℕ → Prop} (col : ℕ) (l : List (ℕ × ℕ)) (s : St X Y) (h : ∀ e ∈ l, P e.2 e.1) : Run ra ca P s (l.foldl (zeroStep ra ca col) s) := by
  induction l generalizing s with
  | nil => exact Run.refl
  | cons e l ih =>
    rw [List.foldl_cons]
    refine Run.trans ?_ (ih _ fun e he => h e (by simp [he]))
    unfold zeroStep
    split_ifs
    · exact Run.refl
    · exact Run.op (h e (by simp))

theorem addAll_run {P : ℕ → ℕ → Prop} {l : List (ℕ × ℕ)} (h : ∀ e ∈ l, P e.1 e.2) (s : St X Y) : Run ra ca P s (addAll ra ca l s) := ⟨l, h, rfl⟩

theorem steinerReduce_run (hA : A.OK) {r col root : ℕ} {nodes : List ℕ} {upper : Bool} {s s' : St X Y} (hl : s.m.length = r)
    (h : steinerReduce ra ca A o col root nodes upper s = some s') : Run ra ca (Op A r) s s' := by
  unfold steinerReduce at h
  split at h
  · simp at h
  · next E hE =>
    have hc := steinerTree_coupled hA hE
    split_ifs at h with hu hr hr
    · rw [hl, inRange_iff] at hr
      simp only [Option.some.injEq] at h
      subst h
      refine Run.trans (zeroStep_run col _ s ?_) (addAll_run ?_ _)
      · intro e he
        have he' : e ∈ E := by
          rw [List.mem_reverse] at he
          exact (List.mem_filter.mp he).1
        exact ⟨(hc e he').symm hA, (hr e he').2, (hr e he').1⟩
      · intro e he
        rw [List.mem_reverse] at he
        exact ⟨hc e he, hr e he⟩
    · rw [hl, inRange_iff] at hr
      simp only [Option.some.injEq] at h
      subst h
      exact addAll_run (fun e he => ⟨hc e (List.mem_of_mem_tail he), hr e he⟩) _

theorem upLoop_run (hA : A.OK) {r c : ℕ} {n row p : ℕ} {t t' : St X Y × List ℕ} (hs : Rect r c t.1.m) (h : upLoop ra ca A o n row p t = some t') :
    Run ra ca (Op A r) t.1 t'.1 := by
  induction n generalizing row p t with
  | zero => simp only [upLoop, Option.some.injEq] at h; subst h; exact Run.refl
  | succ n ih =>
    simp only [upLoop] at h
    split at h
    · simp only [Option.some.injEq] at h; subst h; exact Run.refl
    · split at h
      · simp at h
      · next s hs' =>
        have h1 := steinerReduce_run hA hs.1 hs'
        exact h1.trans (ih (t := (s, _)) (Run.rect' hA h1 hs) h)

theorem downLoop_run (hA : A.OK) {r c : ℕ} {pc : List ℕ} {n : ℕ} {s s' : St X Y} (hs : Rect r c s.m) (h : downLoop ra ca A o pc n s = some s') :
    Run ra ca (Op A r) s s' := by
  induction n generalizing s with
  | zero => simp only [downLoop, Option.some.injEq] at h; subst h; exact Run.refl
  | succ n ih =>
    simp only [downLoop] at h
    split_ifs at h
    · exact ih hs h
    · rw [Option.bind_eq_some_iff] at h
      obtain ⟨s1, h1, h2⟩ := h
      have h1 := steinerReduce_run hA hs.1 h1
      exact h1.trans (ih (Run.rect' hA h1 hs) h2)

theorem steinerGauss_run (hA : A.OK) {r c : ℕ} {full : Bool} {s : St X Y} {t : St X Y × ℕ} (hs : Rect r c s.m) (h : steinerGauss ra ca A o full s = some t) :
    Run ra ca (Op A r) s t.1 := by
  unfold steinerGauss at h
  split at h
  · simp at h
  · next t1 h1 =>
    have r1 := upLoop_run hA (t := (s, [])) hs h1
    split_ifs at h
    · rw [Option.map_eq_some_iff] at h
      obtain ⟨s2, h2, rfl⟩ := h
      exact r1.trans (downLoop_run hA (Run.rect' hA r1 hs) h2)
    · simp only [Option.some.injEq] at h
      subst h
      exact r1

theorem colZero_fold (l : List (ℕ × ℕ)) (t : List Bool × List (ℕ × ℕ)) (Q : ℕ × ℕ → Prop) (ht : ∀ e ∈ t.2, Q e) (hl : ∀ e ∈ l, Q (e.2, e.1)) :
    ∀ e ∈ (l.foldl colZero t).2, Q e := by
  induction l generalizing t with
  | nil => exact ht
  | cons e l ih =>
    refine ih _ ?_ fun e he => hl e (by simp [he])
    unfold colZero
    split_ifs
    · exact ht
    · intro x hx
      rcases List.mem_append.mp hx with hx | hx
      · exact ht x hx
      · rw [List.mem_singleton] at hx; subst hx; exact hl e (by simp)

theorem colFill_fold (l : List (ℕ × ℕ)) (t : List Bool × List (ℕ × ℕ)) (Q : ℕ × ℕ → Prop) (ht : ∀ e ∈ t.2, Q e) (hl : ∀ e ∈ l, Q e) :
    ∀ e ∈ (l.foldl colFill t).2, Q e := by
  induction l generalizing t with
  | nil => exact ht
  | cons e l ih =>
    refine ih _ ?_ fun e he => hl e (by simp [he])
    unfold colFill
    split_ifs
    · exact ht
    · intro x hx
      rcases List.mem_append.mp hx with hx | hx
      · exact ht x hx
      · rw [List.mem_singleton] at hx; subst hx; exact hl e (by simp)

theorem reduceColumn_op (hA : A.OK) (ho : o.OK) {col : List Bool} {r root : ℕ} {nodes us rec : List ℕ} {upper : Bool} {l : List (ℕ × ℕ)} (hl : col.length = r)
    (h : reduceColumn A o col root nodes us rec upper = some l) : ∀ e ∈ l, Op A r e.1 e.2 := by
  unfold reduceColumn at h
  split at h
  · simp at h
  · next l1 l2 ht =>
    obtain ⟨c1, c2⟩ := recTree_coupled hA ho ht
    simp only at c1 c2
    split_ifs at h with hr hu
    · rw [hl, inRange_iff] at hr
      simp only [Option.some.injEq] at h
      subst h
      intro e he
      rcases List.mem_append.mp he with he | he
      · refine colZero_fold _ _ (fun e => Op A r e.1 e.2) (by simp) (fun x hx => ?_) e he
        rw [List.mem_reverse] at hx
        have hx := (List.mem_filter.mp hx).1
        have := hr x (by simp [hx])
        exact ⟨(c1 x hx).symm hA, this.2, this.1⟩
      · exact ⟨c2 e he, hr e (by simp [he])⟩
    · rw [hl, inRange_iff] at hr
      simp only [Option.some.injEq] at h
      subst h
      intro e he
      rcases List.mem_append.mp he with he | he
      · exact colFill_fold _ _ (fun e => Op A r e.1 e.2) (by simp) (fun x hx => ⟨c1 x hx, hr x (by simp [hx])⟩) e he
      · exact ⟨c2 e he, hr e (by simp [he])⟩

theorem recReduce_run (hA : A.OK) (ho : o.OK) {r c : ℕ} {nodes us rec : List ℕ} {upper : Bool} {s s' : St X Y} (hl : s.m.length = r)
    (h : recReduce ra ca A o c nodes us rec upper s = some s') : Run ra ca (Op A r) s s' := by
  unfold recReduce at h
  split_ifs at h
  split at h
  · simp at h
  · next l hl' =>
    split_ifs at h
    simp only [Option.some.injEq] at h
    subst h
    exact addAll_run (reduceColumn_op hA ho (by rw [List.length_map]; exact hl) hl') s

theorem recUpper_run (hA : A.OK) (ho : o.OK) {r c : ℕ} {ps : List ℕ} {s s' : St X Y} (hs : Rect r c s.m) (h : recUpper ra ca A o ps s = some s') :
    Run ra ca (Op A r) s s' := by
  induction ps generalizing s with
  | nil => simp only [recUpper, Option.some.injEq] at h; subst h; exact Run.refl
  | cons p ps ih =>
    simp only [recUpper, Option.bind_eq_some_iff] at h
    obtain ⟨s1, h1, h2⟩ := h
    have h1 := recReduce_run hA ho hs.1 h1
    exact h1.trans (ih (Run.rect' hA h1 hs) h2)

theorem recStep_run (hA : A.OK) (ho : o.OK) {r c : ℕ} {full : Bool} (fuel : ℕ) :
    (∀ (l : List ℕ) (s s' : St X Y), Rect r c s.m → recStep ra ca A o full fuel l s = some s' → Run ra ca (Op A r) s s') ∧
    ∀ (l : List ℕ) (s s' : St X Y), Rect r c s.m → recFull ra ca A o full fuel l s = some s' → Run ra ca (Op A r) s s' := by
  induction fuel with
  | zero =>
    have hstep : ∀ (l : List ℕ) (s s' : St X Y), Rect r c s.m → recStep ra ca A o full 0 l s = some s' → Run ra ca (Op A r) s s' := by
      intro l s s' _ h; simp [recStep] at h
    refine ⟨hstep, ?_⟩
    intro l
    induction l with
    | nil => intro s s' _ h; simp only [recFull, recLoop, Option.some.injEq] at h; subst h; exact Run.refl
    | cons p us ih =>
      intro s s' hs h
      simp only [recFull, recLoop] at h
      split at h
      · simp at h
      · rw [Option.bind_eq_some_iff] at h
        obtain ⟨s2, h2, h3⟩ := h
        rw [Option.bind_eq_some_iff] at h2
        obtain ⟨s1, h1, h2⟩ := h2
        have r1 : Run ra ca (Op A r) s s1 := by
          split_ifs at h1
          · exact recReduce_run hA ho hs.1 h1
          · simp only [Option.some.injEq] at h1; subst h1; exact Run.refl
        have q1 := Run.rect' hA r1 hs
        have r2 : Run ra ca (Op A r) s1 s2 := by
          split_ifs at h2
          · exact hstep _ _ _ q1 h2
          · simp only [Option.some.injEq] at h2; subst h2; exact Run.refl
        exact (r1.trans r2).trans (ih _ _ (Run.rect' hA r2 q1) h3)
  | succ fuel IH =>
    have hstep : ∀ (l : List ℕ) (s s' : St X Y), Rect r c s.m → recStep ra ca A o full (fuel + 1) l s = some s' → Run ra ca (Op A r) s s' := by
      intro l s s' hs h
      simp only [recStep, Option.bind_eq_some_iff] at h
      obtain ⟨s1, h1, h2⟩ := h
      have r1 := recUpper_run hA ho hs h1
      split_ifs at h2
      · exact r1.trans (IH.2 _ _ _ (Run.rect' hA r1 hs) h2)
      · simp only [Option.some.injEq] at h2; subst h2; exact r1
    refine ⟨hstep, ?_⟩
    intro l
    induction l with
    | nil => intro s s' _ h; simp only [recFull, recLoop, Option.some.injEq] at h; subst h; exact Run.refl
    | cons p us ih =>
      intro s s' hs h
      simp only [recFull, recLoop] at h
      split at h
      · simp at h
      · rw [Option.bind_eq_some_iff] at h
        obtain ⟨s2, h2, h3⟩ := h
        rw [Option.bind_eq_some_iff] at h2
        obtain ⟨s1, h1, h2⟩ := h2
        have r1 : Run ra ca (Op A r) s s1 := by
          split_ifs at h1
          · exact recReduce_run hA ho hs.1 h1
          · simp only [Option.some.injEq] at h1; subst h1; exact Run.refl
        have q1 := Run.rect' hA r1 hs
        have r2 : Run ra ca (Op A r) s1 s2 := by
          split_ifs at h2
          · exact hstep _ _ _ q1 h2
          · simp only [Option.some.injEq] at h2; subst h2; exact Run.refl
        exact (r1.trans r2).trans (ih _ _ (Run.rect' hA r2 q1) h3)

end

/-! ### The tracker -/

/-- The matrix of a list of row additions, first one first. -/
def em (r : ℕ) : List (ℕ × ℕ) → Matrix (Fin r) (Fin r) (ZMod 2)
  | [] => 1
  | p :: L => em r L * ed r p.1 p.2

theorem em_append (r : ℕ) (L M : List (ℕ × ℕ)) : em r (L ++ M) = em r M * em r L := by
  induction L with
  | nil => simp [em]
  | cons p L ih => simp only [List.cons_append, em, ih, Matrix.mul_assoc]

theorem em_single (r : ℕ) (p : ℕ × ℕ) : em r [p] = ed r p.1 p.2 := by simp [em]

theorem em_reverse {r : ℕ} {L : List (ℕ × ℕ)} (h : ∀ p ∈ L, Valid r p.1 p.2) : em r L.reverse * em r L = 1 := by
  induction L with
  | nil => simp [em]
  | cons p L ih =>
    rw [List.reverse_cons, em_append, em_single]
    calc ed r p.1 p.2 * em r L.reverse * em r (p :: L) = ed r p.1 p.2 * (em r L.reverse * em r L) * ed r p.1 p.2 := by
          simp only [em, Matrix.mul_assoc]
      _ = 1 := by rw [ih fun q hq => h q (by simp [hq]), Matrix.mul_one, ed_sq (h p (by simp))]

theorem em_rows {r c : ℕ} {L : List (ℕ × ℕ)} (h : ∀ p ∈ L, Valid r p.1 p.2) {d : Data} (hd : Rect r c d) :
    Rect r c (L.foldl (fun d p => Mat2.rowAdd p.1 p.2 d) d) ∧ mat r c (L.foldl (fun d p => Mat2.rowAdd p.1 p.2 d) d) = em r L * mat r c d := by
  induction L generalizing d with
  | nil => simp [em, hd]
  | cons p L ih =>
    have hp := h p (by simp)
    obtain ⟨h1, h2⟩ := ih (fun q hq => h q (by simp [hq])) (hd.rowAdd (a := p.1) (b := p.2) hp.1 hp.2.1)
    exact ⟨h1, by rw [List.foldl_cons, h2, mat_rowAdd hd hp, em, Matrix.mul_assoc]⟩

theorem em_cols {q r : ℕ} {L : List (ℕ × ℕ)} (h : ∀ p ∈ L, Valid r p.1 p.2) {d : Data} (hd : Rect q r d) :
    Rect q r (L.foldl (fun d p => Mat2.colAdd p.2 p.1 d) d) ∧
      mat q r (L.foldl (fun d p => Mat2.colAdd p.2 p.1 d) d) = mat q r d * em r L.reverse := by
  induction L generalizing d with
  | nil => simp [em, hd]
  | cons p L ih =>
    have hp := h p (by simp)
    obtain ⟨h1, h2⟩ := ih (fun q hq => h q (by simp [hq])) (hd.colAdd (a := p.1) (b := p.2))
    exact ⟨h1, by rw [List.foldl_cons, h2, mat_colAdd hd hp, List.reverse_cons, em_append, em_single, Matrix.mul_assoc]⟩

theorem em_act {r : ℕ} {L : List (ℕ × ℕ)} (h : ∀ p ∈ L, Valid r p.1 p.2) (v : Fin r → ZMod 2) : circAct L v = (em r L).mulVec v := by
  induction L generalizing v with
  | nil => simp [em, circAct]
  | cons p L ih =>
    have hp := h p (by simp)
    have e : cnotAct p v = (ed r p.1 p.2).mulVec v := by
      ext i
      have hm := ed_mul (b := p.2) hp.1 (Matrix.of fun i (_ : Fin 1) => v i) i 0
      have e1 : (ed r p.1 p.2).mulVec v i = (ed r p.1 p.2 * Matrix.of fun i (_ : Fin 1) => v i) i 0 := by
        simp [Matrix.mul_apply, Matrix.mulVec, dotProduct]
      rw [e1, hm]
      unfold cnotAct
      simp [hp.1]
      split_ifs <;> simp
    have : circAct (p :: L) v = circAct L (cnotAct p v) := rfl
    rw [this, ih fun q hq => h q (by simp [hq]), e, em, Matrix.mulVec_mulVec]

theorem tracker_rows (L : List (ℕ × ℕ)) (t : Tracker) : L.foldl (fun t p => Tracker.rowAdd p.1 p.2 t) t =
    ⟨t.gates ++ L, L.foldl (fun d p => Mat2.rowAdd p.1 p.2 d) t.mat⟩ := by
  induction L generalizing t with
  | nil => simp
  | cons p L ih => rw [List.foldl_cons, ih]; simp [Tracker.rowAdd]

theorem tracker_cols (L : List (ℕ × ℕ)) (t : Tracker) : L.foldl (fun t p => Tracker.colAdd p.2 p.1 t) t =
    ⟨L.reverse ++ t.gates, L.foldl (fun d p => Mat2.colAdd p.2 p.1 d) t.mat⟩ := by
  induction L generalizing t with
  | nil => simp
  | cons p L ih => rw [List.foldl_cons, ih]; simp [Tracker.colAdd]

end Routing
end PyZX
