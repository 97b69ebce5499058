import Verif.Proofs.State
import Verif.Props.ComposeEx

/-!
# C26: applying product states and effects
-/

namespace PyZX
namespace Props

open Graph Finset

theorem zip_fst_sublist : ∀ (bs : List ℕ) (st : List Char), ((bs.zip st).map Prod.fst).Sublist bs
  | [], _ => by simp
  | v :: bs, [] => by simp
  | v :: bs, a :: st => by
    rw [List.zip_cons_cons, List.map_cons]
    exact (zip_fst_sublist bs st).cons_cons v

theorem plugged_sub {bs : List ℕ} {st : List Char} {v : ℕ} (h : v ∈ plugged (bs.zip st)) : v ∈ bs := by
  unfold plugged at h
  rw [List.mem_toFinset, List.mem_map] at h
  obtain ⟨q, hq, rfl⟩ := h
  exact (List.of_mem_zip (List.mem_filter.mp hq).1).1

theorem skipped_sub {bs : List ℕ} {st : List Char} {v : ℕ} (h : v ∈ ((bs.zip st).filter (·.2 = '/')).map Prod.fst) : v ∈ bs := by
  rw [List.mem_map] at h
  obtain ⟨q, hq, rfl⟩ := h
  exact (List.of_mem_zip (List.mem_filter.mp hq).1).1

theorem skipped_plugged {bs : List ℕ} {st : List Char} (hd : bs.Nodup) {v : ℕ} (h : v ∈ ((bs.zip st).filter (·.2 = '/')).map Prod.fst) :
    v ∉ plugged (bs.zip st) := by
  intro h'
  unfold plugged at h'
  rw [List.mem_toFinset, List.mem_map] at h'
  rw [List.mem_map] at h
  obtain ⟨q, hq, e⟩ := h
  obtain ⟨q', hq', e'⟩ := h'
  obtain ⟨m1, m2⟩ := List.mem_filter.mp hq
  obtain ⟨m1', m2'⟩ := List.mem_filter.mp hq'
  have : q = q' := by
    have hnd : ((bs.zip st).map Prod.fst).Nodup := by
      exact hd.sublist (zip_fst_sublist _ _)
    exact List.inj_on_of_nodup_map hnd m1 m1' (e.trans e'.symm)
  subst this
  simp_all

theorem plugged_wf {g : Graph} (hg : g.WF) {l : List (ℕ × Char)} {acc : List ℕ} {r : Graph × List ℕ} (P : Plugged g l acc r) {i j : List ℕ}
    (hi : ∀ v ∈ i, v ∈ g.verts ∧ g.ty v = .boundary ∧ v ∉ plugged l) (hj : ∀ v ∈ j, v ∈ g.verts ∧ g.ty v = .boundary ∧ v ∉ plugged l) :
    ({ r.1 with inputs := i, outputs := j } : Graph).WF where
  symm := by rw [show ({ r.1 with inputs := i, outputs := j } : Graph).adj = g.adj from P.adj]; exact hg.symm
  mem := by
    rw [show ({ r.1 with inputs := i, outputs := j } : Graph).adj = g.adj from P.adj,
      show ({ r.1 with inputs := i, outputs := j } : Graph).verts = g.verts from P.verts]; exact hg.mem
  lt := by
    rw [show ({ r.1 with inputs := i, outputs := j } : Graph).vindex = g.vindex from P.vindex,
      show ({ r.1 with inputs := i, outputs := j } : Graph).verts = g.verts from P.verts]; exact hg.lt
  inp v hv := by
    rw [show ({ r.1 with inputs := i, outputs := j } : Graph).verts = g.verts from P.verts]; exact (hi v hv).1
  out v hv := by
    rw [show ({ r.1 with inputs := i, outputs := j } : Graph).verts = g.verts from P.verts]; exact (hj v hv).1
  loopless := by rw [show ({ r.1 with inputs := i, outputs := j } : Graph).adj = g.adj from P.adj]; exact hg.loopless
  count := by
    rw [show ({ r.1 with inputs := i, outputs := j } : Graph).adj = g.adj from P.adj,
      show ({ r.1 with inputs := i, outputs := j } : Graph).verts = g.verts from P.verts,
      show ({ r.1 with inputs := i, outputs := j } : Graph).nedges = g.nedges from P.nedges]; exact hg.count
  noWio := by rw [show ({ r.1 with inputs := i, outputs := j } : Graph).adj = g.adj from P.adj]; exact hg.noWio
  types := by
    rw [show ({ r.1 with inputs := i, outputs := j } : Graph).verts = g.verts from P.verts]
    intro v hv
    show r.1.ty v = _ ∨ r.1.ty v = _ ∨ r.1.ty v = _ ∨ r.1.ty v = _
    by_cases hp : v ∈ plugged l
    · rcases P.tyPlugged v hp with h | h
      · exact Or.inr (Or.inr (Or.inl h))
      · exact Or.inr (Or.inl h)
    · rw [P.tyOther v hp]; exact hg.types v hv
  io v hv := by
    show r.1.ty v = _
    rcases hv with hv | hv
    · rw [P.tyOther v (hi v hv).2.2]; exact (hi v hv).2.1
    · rw [P.tyOther v (hj v hv).2.2]; exact (hj v hv).2.1

theorem io_boundary {g : Graph} (hg : g.WF) : ∀ v, v ∈ g.inputs ∨ v ∈ g.outputs → v ∈ g.verts ∧ g.ty v = .boundary :=
  fun v hv => ⟨hv.elim (hg.inp v) (hg.out v), hg.io v hv⟩

theorem zip_hyps {g : Graph} {bs : List ℕ} {st : List Char} (hb : ∀ v ∈ bs, v ∈ g.verts ∧ g.ty v = .boundary) (hd : bs.Nodup)
    (hp : ∀ v ∈ bs, g.phase v = 0) (hn : ∀ v ∈ bs, g.OneNbr v) (hc : ∀ c ∈ st, c = '/' ∨ StateChar c) :
    ((bs.zip st).map Prod.fst).Nodup ∧
    ∀ q ∈ bs.zip st, q.1 ∈ g.verts ∧ g.ty q.1 = .boundary ∧ g.phase q.1 = 0 ∧ g.OneNbr q.1 ∧ (q.2 = '/' ∨ StateChar q.2) := by
  constructor
  · exact hd.sublist (zip_fst_sublist _ _)
  · intro q hq
    obtain ⟨m1, m2⟩ := List.of_mem_zip hq
    exact ⟨(hb _ m1).1, (hb _ m1).2, hp _ m1, hn _ m1, hc _ m2⟩

/-- **C26, states.** `apply_state` succeeds on every string over `0 1 + - /` that is not longer than the list of inputs. The new diagram is
well-formed, keeps exactly the inputs at `/`, and denotes the old tensor contracted with the product state named by the string. -/
theorem applyState_spec {g : Graph} (hg : g.WF) (hio : IO g) (hp : ∀ v ∈ g.inputs, g.phase v = 0) (hn : ∀ v ∈ g.inputs, g.OneNbr v)
    {st : List Char} (hl : st.length ≤ g.inputs.length) (hc : ∀ c ∈ st, c = '/' ∨ StateChar c) :
    ∃ g', applyState g st = some g' ∧ g'.WF ∧ g'.inputs = ((g.inputs.zip st).filter (·.2 = '/')).map Prod.fst ∧ g'.outputs = g.outputs ∧
      (∀ v, (v ∈ g'.verts ∧ g'.ty v = .boundary) ↔ (v ∈ g.verts ∧ g.ty v = .boundary) ∧ v ∉ plugged (g.inputs.zip st)) ∧
      ∀ b, g'.sem b = psum (plugged (g.inputs.zip st)) (fun c => prodAmp (g.inputs.zip st) c * g.sem c) b := by
  obtain ⟨z1, z2⟩ := zip_hyps (fun v hv => io_boundary hg v (Or.inl hv)) hio.nodupIn hp hn hc
  obtain ⟨r, e, P⟩ := stateSteps (g.inputs.zip st) (acc := []) hg.symm hg.loopless hg.mem z1 z2
  have hr : r.2 = ((g.inputs.zip st).filter (·.2 = '/')).map Prod.fst := by rw [P.rest, List.nil_append]
  have hwf : ({ r.1 with inputs := r.2 } : Graph).WF := by
    have : ({ r.1 with inputs := r.2 } : Graph) = { r.1 with inputs := r.2, outputs := g.outputs } := by rw [← P.outputs]
    rw [this]
    refine plugged_wf hg P (fun v hv => ?_) (fun v hv => ?_)
    · rw [hr] at hv
      have := io_boundary hg v (Or.inl (skipped_sub hv))
      exact ⟨this.1, this.2, skipped_plugged hio.nodupIn hv⟩
    · have := io_boundary hg v (Or.inr hv)
      exact ⟨this.1, this.2, fun h => hio.disj v (plugged_sub h) hv⟩
  refine ⟨{ r.1 with inputs := r.2 }, ?_, hwf, hr, P.outputs, fun v => ?_, fun b => ?_⟩
  · unfold applyState
    rw [if_neg (by omega), e]
    rfl
  · show v ∈ r.1.verts ∧ r.1.ty v = _ ↔ _
    rw [P.verts]
    by_cases hv : v ∈ plugged (g.inputs.zip st)
    · refine ⟨fun h => ?_, fun h => absurd hv h.2⟩
      rcases P.tyPlugged v hv with h' | h' <;> rw [h'] at h <;> exact absurd h.2 (by decide)
    · rw [P.tyOther v hv]
      exact ⟨fun h => ⟨h, hv⟩, fun h => h.1⟩
  · rw [sem_eq_amp hwf]
    refine (P.amp b).trans (psum_congr fun c _ => ?_)
    rw [sem_eq_amp hg]

/-- **C26, effects.** The same for `apply_effect` and the outputs. -/
theorem applyEffect_spec {g : Graph} (hg : g.WF) (hio : IO g) (hp : ∀ v ∈ g.outputs, g.phase v = 0) (hn : ∀ v ∈ g.outputs, g.OneNbr v)
    {st : List Char} (hl : st.length ≤ g.outputs.length) (hc : ∀ c ∈ st, c = '/' ∨ StateChar c) :
    ∃ g', applyEffect g st = some g' ∧ g'.WF ∧ g'.inputs = g.inputs ∧ g'.outputs = ((g.outputs.zip st).filter (·.2 = '/')).map Prod.fst ∧
      (∀ v, (v ∈ g'.verts ∧ g'.ty v = .boundary) ↔ (v ∈ g.verts ∧ g.ty v = .boundary) ∧ v ∉ plugged (g.outputs.zip st)) ∧
      ∀ b, g'.sem b = psum (plugged (g.outputs.zip st)) (fun c => prodAmp (g.outputs.zip st) c * g.sem c) b := by
  obtain ⟨z1, z2⟩ := zip_hyps (fun v hv => io_boundary hg v (Or.inr hv)) hio.nodupOut hp hn hc
  obtain ⟨r, e, P⟩ := stateSteps (g.outputs.zip st) (acc := []) hg.symm hg.loopless hg.mem z1 z2
  have hr : r.2 = ((g.outputs.zip st).filter (·.2 = '/')).map Prod.fst := by rw [P.rest, List.nil_append]
  have hwf : ({ r.1 with outputs := r.2 } : Graph).WF := by
    have : ({ r.1 with outputs := r.2 } : Graph) = { r.1 with inputs := g.inputs, outputs := r.2 } := by rw [← P.inputs]
    rw [this]
    refine plugged_wf hg P (fun v hv => ?_) (fun v hv => ?_)
    · have := io_boundary hg v (Or.inl hv)
      exact ⟨this.1, this.2, fun h => hio.disj v hv (plugged_sub h)⟩
    · rw [hr] at hv
      have := io_boundary hg v (Or.inr (skipped_sub hv))
      exact ⟨this.1, this.2, skipped_plugged hio.nodupOut hv⟩
  refine ⟨{ r.1 with outputs := r.2 }, ?_, hwf, P.inputs, hr, fun v => ?_, fun b => ?_⟩
  · unfold applyEffect
    rw [if_neg (by omega), e]
    rfl
  · show v ∈ r.1.verts ∧ r.1.ty v = _ ↔ _
    rw [P.verts]
    by_cases hv : v ∈ plugged (g.outputs.zip st)
    · refine ⟨fun h => ?_, fun h => absurd hv h.2⟩
      rcases P.tyPlugged v hv with h' | h' <;> rw [h'] at h <;> exact absurd h.2 (by decide)
    · rw [P.tyOther v hv]
      exact ⟨fun h => ⟨h, hv⟩, fun h => h.1⟩
  · rw [sem_eq_amp hwf]
    refine (P.amp b).trans (psum_congr fun c _ => ?_)
    rw [sem_eq_amp hg]

/-- **C26, states, as matrices.** For a string naming every input: the matrix of the result is the old matrix applied to the product state, the inputs at `/` staying
inputs in their old order. -/
theorem applyState_mat {g : Graph} (hg : g.WF) (hio : IO g) (hp : ∀ v ∈ g.inputs, g.phase v = 0) (hn : ∀ v ∈ g.inputs, g.OneNbr v)
    {st : List Char} (hl : st.length = g.inputs.length) (hc : ∀ c ∈ st, c = '/' ∨ StateChar c) :
    ∃ g', applyState g st = some g' ∧ IO g' ∧ g'.inputs.length = st.count '/' ∧ g'.outputs = g.outputs ∧
      ∀ x y, g'.mat x y = psum (statePos st) (fun z => (∏ i ∈ statePos st, stateAmp (st.getD i '/') (z i)) * g.mat z y)
        fun i => x ((st.take i).count '/') := by
  obtain ⟨g', e, hw, hi, ho, hb, hs⟩ := applyState_spec hg hio hp hn hl.le hc
  have hpos : ∀ i, i < st.length → g.inputs.getD i 0 ∈ g.inputs := fun i h => by
    rw [List.getD_eq_getElem _ _ (hl ▸ h)]; exact List.getElem_mem _
  have hidx : ∀ i, i < st.length → g.inputs.idxOf (g.inputs.getD i 0) = i := fun i h => by
    rw [List.getD_eq_getElem _ _ (hl ▸ h)]; exact hio.nodupIn.idxOf_getElem _ _
  have hback : ∀ v ∈ g.inputs, g.inputs.getD (g.inputs.idxOf v) 0 = v := fun v hv => by
    rw [List.getD_eq_getElem _ _ (List.idxOf_lt_length_of_mem hv)]; exact List.getElem_idxOf _
  have hskip : ∀ i, i < st.length → st.getD i '/' = '/' → g.inputs.getD i 0 ∈ g'.inputs := by
    intro i h hs
    rw [hi, List.mem_map]
    refine ⟨(g.inputs[i]'(hl ▸ h), st[i]), List.mem_filter.mpr ⟨?_, ?_⟩, (List.getD_eq_getElem _ _ (hl ▸ h)).symm⟩
    · rw [← List.getElem_zip (h := by rw [List.length_zip, hl, min_self]; exact hl ▸ h)]
      exact List.getElem_mem _
    · rw [List.getD_eq_getElem _ _ h] at hs
      simpa using hs
  refine ⟨g', e, ⟨?_, ?_, ?_, ?_⟩, ?_, ho, fun x y => ?_⟩
  · rw [hi]
    have h1 : ((g.inputs.zip st).map Prod.fst).Nodup := by
      exact hio.nodupIn.sublist (zip_fst_sublist _ _)
    exact h1.sublist (List.filter_sublist.map _)
  · rw [ho]; exact hio.nodupOut
  · intro v hv
    rw [ho]
    rw [hi] at hv
    exact hio.disj v (skipped_sub hv)
  · intro v hv ht
    obtain ⟨⟨h1, h2⟩, h3⟩ := (hb v).mp ⟨hv, ht⟩
    rcases hio.all v h1 h2 with h | h
    · refine Or.inl ?_
      have hlt := List.idxOf_lt_length_of_mem h
      have := hskip (g.inputs.idxOf v) (hl ▸ hlt) (by
        by_contra hne
        exact h3 ((mem_plugged hl.symm).mpr ⟨_, mem_filter.mpr ⟨mem_range.mpr (hl ▸ hlt), hne⟩, hback v h⟩))
      rwa [hback v h] at this
    · exact Or.inr (ho ▸ h)
  · rw [hi, List.length_map, ← List.countP_eq_length_filter]
    have : (g.inputs.zip st).countP (·.2 = '/') = ((g.inputs.zip st).map Prod.snd).count '/' := by
      rw [List.count, List.countP_map]
      exact List.countP_congr fun q _ => by simp
    rw [this, List.map_snd_zip hl.le]
  · unfold mat
    rw [hs]
    refine plug_pos hl.symm hio.nodupIn _ (fun z => g.sem (g.bval z y)) _ _ (fun c hc' => ?_) (fun a z haz => ?_) (fun i hi' hs' => ?_)
    · refine sem_congr hg fun v hv ht => ?_
      unfold bval
      by_cases h : v ∈ g.inputs
      · rw [if_pos h]
        beta_reduce
        rw [hback v h]
      · rw [if_neg h, hc' v fun h' => h (plugged_sub h')]
        unfold bval
        rw [if_neg (by rw [hi]; exact fun h' => h (skipped_sub h')), ho]
    · refine sem_congr hg fun v hv ht => ?_
      unfold bval
      by_cases h : v ∈ g.inputs
      · rw [if_pos h, if_pos h, haz _ (hl ▸ List.idxOf_lt_length_of_mem h)]
      · rw [if_neg h, if_neg h]
    · unfold bval
      rw [if_pos (hskip i hi' hs'), hi, idxOf_skip hl.symm hio.nodupIn i hi' hs']

/-- **C26, effects, as matrices.** -/
theorem applyEffect_mat {g : Graph} (hg : g.WF) (hio : IO g) (hp : ∀ v ∈ g.outputs, g.phase v = 0) (hn : ∀ v ∈ g.outputs, g.OneNbr v)
    {st : List Char} (hl : st.length = g.outputs.length) (hc : ∀ c ∈ st, c = '/' ∨ StateChar c) :
    ∃ g', applyEffect g st = some g' ∧ IO g' ∧ g'.outputs.length = st.count '/' ∧ g'.inputs = g.inputs ∧
      ∀ x y, g'.mat x y = psum (statePos st) (fun z => (∏ i ∈ statePos st, stateAmp (st.getD i '/') (z i)) * g.mat x z)
        fun i => y ((st.take i).count '/') := by
  obtain ⟨g', e, hw, hi, ho, hb, hs⟩ := applyEffect_spec hg hio hp hn hl.le hc
  have hpos : ∀ i, i < st.length → g.outputs.getD i 0 ∈ g.outputs := fun i h => by
    rw [List.getD_eq_getElem _ _ (hl ▸ h)]; exact List.getElem_mem _
  have hback : ∀ v ∈ g.outputs, g.outputs.getD (g.outputs.idxOf v) 0 = v := fun v hv => by
    rw [List.getD_eq_getElem _ _ (List.idxOf_lt_length_of_mem hv)]; exact List.getElem_idxOf _
  have hskip : ∀ i, i < st.length → st.getD i '/' = '/' → g.outputs.getD i 0 ∈ g'.outputs := by
    intro i h hs
    rw [ho, List.mem_map]
    refine ⟨(g.outputs[i]'(hl ▸ h), st[i]), List.mem_filter.mpr ⟨?_, ?_⟩, (List.getD_eq_getElem _ _ (hl ▸ h)).symm⟩
    · rw [← List.getElem_zip (h := by rw [List.length_zip, hl, min_self]; exact hl ▸ h)]
      exact List.getElem_mem _
    · rw [List.getD_eq_getElem _ _ h] at hs
      simpa using hs
  refine ⟨g', e, ⟨?_, ?_, ?_, ?_⟩, ?_, hi, fun x y => ?_⟩
  · rw [hi]; exact hio.nodupIn
  · rw [ho]
    have h1 : ((g.outputs.zip st).map Prod.fst).Nodup := by
      exact hio.nodupOut.sublist (zip_fst_sublist _ _)
    exact h1.sublist (List.filter_sublist.map _)
  · intro v hv h
    rw [hi] at hv
    rw [ho] at h
    exact hio.disj v hv (skipped_sub h)
  · intro v hv ht
    obtain ⟨⟨h1, h2⟩, h3⟩ := (hb v).mp ⟨hv, ht⟩
    rcases hio.all v h1 h2 with h | h
    · exact Or.inl (hi ▸ h)
    · refine Or.inr ?_
      have hlt := List.idxOf_lt_length_of_mem h
      have := hskip (g.outputs.idxOf v) (hl ▸ hlt) (by
        by_contra hne
        exact h3 ((mem_plugged hl.symm).mpr ⟨_, mem_filter.mpr ⟨mem_range.mpr (hl ▸ hlt), hne⟩, hback v h⟩))
      rwa [hback v h] at this
  · rw [ho, List.length_map, ← List.countP_eq_length_filter]
    have : (g.outputs.zip st).countP (·.2 = '/') = ((g.outputs.zip st).map Prod.snd).count '/' := by
      rw [List.count, List.countP_map]
      exact List.countP_congr fun q _ => by simp
    rw [this, List.map_snd_zip hl.le]
  · unfold mat
    rw [hs]
    refine plug_pos hl.symm hio.nodupOut _ (fun z => g.sem (g.bval x z)) _ _ (fun c hc' => ?_) (fun a z haz => ?_) (fun i hi' hs' => ?_)
    · refine sem_congr hg fun v hv ht => ?_
      unfold bval
      by_cases h : v ∈ g.inputs
      · rw [if_pos h, hc' v fun h' => hio.disj v h (plugged_sub h')]
        unfold bval
        rw [hi, if_pos h]
      · rw [if_neg h]
        beta_reduce
        rw [hback v ((hio.all v hv ht).resolve_left h)]
    · refine sem_congr hg fun v hv ht => ?_
      unfold bval
      by_cases h : v ∈ g.inputs
      · rw [if_pos h, if_pos h]
      · rw [if_neg h, if_neg h, haz _ (hl ▸ List.idxOf_lt_length_of_mem ((hio.all v hv ht).resolve_left h))]
    · unfold bval
      rw [if_neg (by rw [hi]; exact fun h => hio.disj _ h (hpos i hi')), ho, idxOf_skip hl.symm hio.nodupOut i hi' hs']

/-- **C26, errors.** A string that is too long raises, and so does a character that names no state. -/
theorem applyState_raises {g : Graph} {st : List Char} (h : g.inputs.length < st.length ∨ ∃ c ∈ st, c ≠ '/' ∧ ¬ StateChar c) : applyState g st = none := by
  unfold applyState
  by_cases hl : st.length > g.inputs.length
  · rw [if_pos hl]
  rw [if_neg hl]
  obtain ⟨c, hc, h1, h2⟩ := h.resolve_left hl
  rw [stateSteps_bad _ _ c h1 h2]
  · rfl
  · rw [List.map_snd_zip (by omega)]; exact hc

theorem applyEffect_raises {g : Graph} {st : List Char} (h : g.outputs.length < st.length ∨ ∃ c ∈ st, c ≠ '/' ∧ ¬ StateChar c) :
    applyEffect g st = none := by
  unfold applyEffect
  by_cases hl : st.length > g.outputs.length
  · rw [if_pos hl]
  rw [if_neg hl]
  obtain ⟨c, hc, h1, h2⟩ := h.resolve_left hl
  rw [stateSteps_bad _ _ c h1 h2]
  · rfl
  · rw [List.map_snd_zip (by omega)]; exact hc

/-- The hypotheses hold for a phase followed by a Hadamard gate, with `|1>` plugged in. -/
example : exZ1.WF ∧ IO exZ1 ∧ (∀ v ∈ exZ1.inputs, exZ1.phase v = 0) ∧ (∀ v ∈ exZ1.inputs, exZ1.OneNbr v) ∧ ['1'].length = exZ1.inputs.length ∧
    ∀ c ∈ ['1'], c = '/' ∨ StateChar c := by
  have hin : ∀ v ∈ exZ1.inputs, v = 0 := fun v hv => by simpa [exZ1, mkG] using hv
  refine ⟨mkG_wf (by decide), mkG_io (by decide) (by decide) (by decide) (by decide), fun v hv => ?_, fun v hv => ?_, rfl, ?_⟩
  · rw [hin v hv]; simp [exZ1, mkG]
  · rw [hin v hv]
    refine ⟨1, by rw [exZ1_adj]; simp, fun w hw => ?_⟩
    rw [exZ1_adj] at hw
    omega
  · simp [StateChar]

/-- One input that is not connected to anything. -/
noncomputable def exLone : Graph := mkG [.boundary] [0] [] [0] []

/-- **The neighbour is needed.** Plugging `|0>` into an input without a neighbour gives a scalar that is wrong by a factor `√2`: the old tensor is
constantly 1, so the contraction with `|0>` is 1, but the new diagram denotes `√2`. -/
theorem applyState_isolated_wrong : exLone.WF ∧ IO exLone ∧ (∀ b, exLone.sem b = 1) ∧ ∃ g', applyState exLone ['0'] = some g' ∧ ∀ b, g'.sem b = sq2 := by
  have hwf : exLone.WF := mkG_wf (by decide)
  have h1 : ∀ b, exLone.sem b = 1 := by
    intro b
    rw [sem_eq_amp hwf]
    have hi : exLone.interior = ∅ := by decide
    unfold amp
    rw [hi, psum_empty]
    unfold weight
    have hv : exLone.verts = {0} := by decide
    rw [hv]
    simp [pairProd, pairs, Finset.filter_singleton, vwt, vval, exLone, mkG, Scalar.new_toNumber]
  set g' : Graph := { (exLone.addPower (-1)).setType 0 .X with inputs := [] } with hg'
  have hwf' : g'.WF := by
    have h : (mkG [.X] [0] [] [] []).WF := mkG_wf (by decide)
    refine h.congr (h.toInv.congr rfl rfl rfl rfl rfl rfl) rfl rfl ?_ rfl rfl
    funext v
    cases v <;> simp [hg', exLone, mkG, setType, addPower]
  refine ⟨hwf, mkG_io (by decide) (by decide) (by decide) (by decide), h1, g', rfl, fun b => ?_⟩
  have hv : g'.verts = {0} := rfl
  have ht : g'.ty 0 = .X := rfl
  have hp : g'.phase 0 = 0 := rfl
  have hs : g'.scalar.toNumber = sq2⁻¹ := by
    show (Scalar.new.addPower (-1)).toNumber = _
    rw [Scalar.addPower_toNumber, Scalar.new_toNumber, zpow_neg_one, one_mul]
  have hi : g'.interior = insert 0 ∅ := by
    unfold Graph.interior
    rw [hv, Finset.filter_singleton, ht]
    rfl
  rw [sem_eq_amp hwf']
  unfold amp
  rw [hi, psum_insert (by simp), psum_empty]
  unfold weight
  rw [hs, hv]
  simp only [prod_singleton, vwt, vval, ht, hp, Function.update_self, ph_zero]
  simp only [pairProd, pairs]
  have h2 : sq2⁻¹ * 2 = sq2 := by rw [← sq2_mul_self, ← mul_assoc, inv_mul_cancel₀ sq2_ne_zero, one_mul]
  refine Eq.trans ?_ h2
  simp [Finset.filter_singleton]
  ring

/-- The interior wire of a swap of two qubits: inputs 0 and 1, outputs 2 and 3. -/
noncomputable def exSwap : Graph := mkG [.boundary, .boundary, .boundary, .boundary] [0, 0, 0, 0] [(0, 3, .simple), (1, 2, .simple)] [0, 1] [2, 3]

/-- **Shorter strings.** A string that names only some of the inputs makes `apply_state` forget the others: the boundary vertex 1 is then neither an input nor an
output of the diagram, although its input was not plugged. -/
theorem applyState_short_drops : ∃ g', applyState exSwap ['0'] = some g' ∧ 1 ∈ g'.verts ∧ g'.ty 1 = .boundary ∧ 1 ∉ g'.inputs ∧ 1 ∉ g'.outputs :=
  ⟨_, rfl, by decide, rfl, by decide, by decide⟩

end Props
end PyZX
