import Verif.Proofs.ExtInit
import Verif.Proofs.ExtEnd
import Verif.Proofs.Norm
import Verif.Props.FullReduce

/-!
# Circuit extraction is sound
-/

namespace PyZX
namespace Props

open Graph Extract Simplify

variable {ω : ℕ → Orders} {choose : ℕ → Mat2.Data → Option (List (ℕ × ℕ))} {opt : Bool} {fuel n : ℕ} {g : Graph} {c : Circuit}

theorem extract_core (hω : ∀ t, (ω t).OK) (hch : ChooseOK choose) {perm : Bool} (h : g.Extractable n)
    (e : extractCircuit ω choose opt perm fuel g = .ok c) :
    (c.qubits = n ∧ c.bits = 0 ∧ ∀ a ∈ c.gates, (a.adjointOK = true ∧ a.qubits.Nodup) ∧ ∀ q ∈ a.qubits, q < n) ∧
    ∃ π : List ℕ, IsPerm π ∧ π.length = n ∧ ∃ z : ℂ, z ≠ 0 ∧ ∀ x y, g.mat x y =
      z * semGates c.gates (basisState n fun q => x (if perm then π.getD q 0 else q)) y := by
  unfold extractCircuit at e
  obtain ⟨s, e1, e⟩ := ok_bind e
  replace e1 := ok_ofOption e1
  obtain ⟨⟨s', t⟩, e2, e⟩ := ok_bind e
  obtain ⟨hI, -⟩ := mainLoop_spec hω hch fuel 0 (init_spec (hω 0) h e1) e2
  simp only at e hI
  rcases simp_any (fun t => idRound_ok phaseSet_reduced (hω t)) fuel t s'.g hI.gl.zx with hr | ⟨g', t', i, hr, a2, a3, -⟩
  · rw [idSimp, hr] at e; simp at e
  rw [idSimp, hr] at e
  simp only at e
  obtain ⟨d, e3, e⟩ := ok_bind e
  replace e3 := ok_ofOption e3
  replace e := ok_ofOption e
  have hu := a3.keeps.upTo
  have hE : GExt g g' s'.gates := by
    have := hI.ext.trans (GExt.of_upTo hu)
    rwa [List.append_nil] at this
  have hin : g'.inputs.length = n := by rw [hE.inputs]; exact h.ins
  have hout : g'.outputs.length = n := by rw [hE.outputs]; exact h.outs
  have hio : g'.IO := by
    refine ⟨by rw [hE.inputs]; exact h.io.nodupIn, by rw [hE.outputs]; exact h.io.nodupOut, by rw [hE.inputs, hE.outputs]; exact h.io.disj, ?_⟩
    intro v hv hb
    rw [hu.inputs, hu.outputs]
    obtain ⟨h1, h2⟩ := (hu.boundary v).mp ⟨hv, hb⟩
    exact hI.gl.io.all v h1 h2
  have hon : g'.Onto := (onto_of_unit h.zx.wf h.io h.outs h.unit).ext hE
  obtain ⟨b1, b2, b3, π, b4, b5, z, b6⟩ := graphToSwaps_spec (hω t') hu.wf hio a2.bdeg (by rw [hin, hout]) e3
  rw [hin] at b1 b3
  rw [hout] at b5 b6
  unfold Circuit.addCircuit at e
  by_cases c1 : d.qubits ≠ g.outputs.length
  · rw [if_pos c1] at e; simp at e
  rw [if_neg c1] at e
  by_cases c2 : d.bits ≠ 0
  · exact absurd b2 c2
  rw [if_neg c2, Option.some.injEq] at e
  subst e
  refine ⟨⟨b1, b2, fun a ha => ?_⟩, π, b4, b5, ?_⟩
  · rcases List.mem_append.mp ha with ha | ha
    · exact b3 a ha
    · have := hE.gates a (List.mem_reverse.mp ha)
      rwa [h.outs] at this
  · obtain ⟨w, hw, hs⟩ := hE.sem
    have hz : z ≠ 0 := by
      rintro rfl
      obtain ⟨x, hx⟩ := hon.ne_zero fun _ => false
      rw [b6] at hx
      simp at hx
    refine ⟨w * z, mul_ne_zero hw hz, fun x y => ?_⟩
    rw [hs x, b6, semGates_append]
    simp only [semGates_smul]
    ring

/-- **C33.** Whenever `extract_circuit` returns, the circuit has one qubit per output and denotes the map of the diagram, up to a number
that is not 0. `choose` is any strategy for the CNOTs. -/
theorem extract_sound (hω : ∀ t, (ω t).OK) (hch : ChooseOK choose) (h : g.Extractable n)
    (e : extractCircuit ω choose opt false fuel g = .ok c) :
    c.qubits = n ∧ ∃ z : ℂ, z ≠ 0 ∧ ∀ x y, g.mat x y = z * semGates c.gates (basisState n x) y := by
  obtain ⟨⟨h1, -⟩, π, -, -, z, hz, h2⟩ := extract_core hω hch h e
  exact ⟨h1, z, hz, fun x y => by simpa using h2 x y⟩

/-- **C33.** The same with `up_to_perm`: the map of the circuit is that of the diagram with its inputs permuted. -/
theorem extract_sound_perm (hω : ∀ t, (ω t).OK) (hch : ChooseOK choose) (h : g.Extractable n)
    (e : extractCircuit ω choose opt true fuel g = .ok c) :
    c.qubits = n ∧ ∃ π : List ℕ, IsPerm π ∧ π.length = n ∧
      ∃ z : ℂ, z ≠ 0 ∧ ∀ x y, g.mat x y = z * semGates c.gates (basisState n fun q => x (π.getD q 0)) y := by
  obtain ⟨⟨h1, -⟩, π, h3, h4, z, hz, h2⟩ := extract_core hω hch h e
  exact ⟨h1, π, h3, h4, z, hz, fun x y => by simpa using h2 x y⟩

/-- **C33.** The gates of the circuit act on different qubits in range and are unitary. -/
theorem extract_gates (hω : ∀ t, (ω t).OK) (hch : ChooseOK choose) {perm : Bool} (h : g.Extractable n)
    (e : extractCircuit ω choose opt perm fuel g = .ok c) :
    c.bits = 0 ∧ ∀ a ∈ c.gates, a.adjointOK = true ∧ a.qubits.Nodup ∧ ∀ q ∈ a.qubits, q < n := by
  obtain ⟨⟨-, h1, h2⟩, -⟩ := extract_core hω hch h e
  exact ⟨h1, fun a ha => ⟨(h2 a ha).1.1, (h2 a ha).1.2, (h2 a ha).2⟩⟩

/-! ### Diagrams of circuits -/

theorem bits_agree (y : ℕ → Bool) : AgreeTo n y (bits fun q : Fin n => y q) := by
  intro q hq
  simp [bits, hq]

/-- A diagram that denotes the map of a circuit, up to a number, denotes an invertible matrix. -/
theorem unit_of_circuit {gs : List Gate} (hgs : ∀ a ∈ gs, a.qubits.Nodup ∧ ∀ q ∈ a.qubits, q < n) {z : ℂ} (hz : z ≠ 0)
    (h : ∀ x y, g.mat x y = z * semGates gs (basisState n x) y) : IsUnit (g.toMatrix n) := by
  rw [← Matrix.mulVec_injective_iff_isUnit]
  intro f f' hff
  obtain ⟨S, hS⟩ : ∃ S : ((Fin n → Bool) → ℂ) → QState, S = fun f => ∑ x : Fin n → Bool, f x • basisState n (bits x) := ⟨_, rfl⟩
  have hloc : ∀ f, (S f).Local n := by
    intro f y y' hy
    rw [hS]
    simp only [Finset.sum_apply, Pi.smul_apply]
    exact Finset.sum_congr rfl fun x _ => by rw [basisState_local n _ y y' hy]
  have hval : ∀ f x, S f (bits x) = f x := by
    intro f x
    rw [hS]
    simp only [Finset.sum_apply, Pi.smul_apply, smul_eq_mul]
    rw [Finset.sum_eq_single x]
    · rw [basisState, if_pos fun _ _ => rfl, mul_one]
    · intro x' _ hne
      rw [basisState, if_neg, mul_zero]
      intro hc
      refine hne (funext fun q => ?_)
      have := hc q q.2
      simpa [bits] using this.symm
    · simp
  have hmul : ∀ f y, (g.toMatrix n).mulVec f y = z * semGates gs (S f) (bits y) := by
    intro f y
    have e1 : semGates gs (S f) = gatesLin gs (S f) := rfl
    rw [e1, hS]
    simp only
    rw [map_sum, Finset.sum_apply, Finset.mul_sum]
    refine Finset.sum_congr rfl fun x _ => ?_
    rw [map_smul, Pi.smul_apply, smul_eq_mul]
    show g.mat _ _ * f x = _
    rw [h]
    show _ = z * (f x * semGates gs (basisState n (bits x)) (bits y))
    ring
  have hq : ∀ a ∈ gs, ∀ q ∈ a.qubits, q < n := fun a ha => (hgs a ha).2
  have key : semGates gs (S f) = semGates gs (S f') := by
    funext y
    rw [semGates_localQ gs hq (hloc f) _ _ (bits_agree y), semGates_localQ gs hq (hloc f') _ _ (bits_agree y)]
    have := congrFun hff fun q : Fin n => y q
    rw [hmul, hmul] at this
    exact mul_left_cancel₀ hz this
  funext x
  rw [← hval f x, ← hval f' x, semGates_inj_bits hgs key]

/-! ### Optimising a circuit -/

/-- A diagram that denotes the map of a circuit is, after `full_reduce`, one that can be passed to `extract_circuit`, if the leaves of the phase
gadgets are as required. -/
theorem reduce_extractable {n : ℕ} {gs : List Gate} (hgs : ∀ a ∈ gs, a.qubits.Nodup ∧ ∀ q ∈ a.qubits, q < n)
    (hω : ∀ t, (ω t).OK) (hfu : ∀ t, (ω t).Full) (hg : g.ZX Reduced) (hb : g.PlainBnd) (hio : g.IO)
    (hi : g.inputs.length = n) (ho : g.outputs.length = n) {z : ℂ} (hz : z ≠ 0) (hm : ∀ x y, g.mat x y = z * semGates gs (basisState n x) y)
    {g' : Graph} {t t' i : ℕ} (hr : fullReduce ω fuel t g = .done g' t' i) (hgad : g'.Gadgets) :
    g'.Extractable n ∧ ∃ k : ℂ, k ≠ 0 ∧ ∀ x y, g'.mat x y = k * semGates gs (basisState n x) y := by
  rcases fullReduce_any phaseSet_reduced hω hfu fuel t hg hb with h | ⟨g1, t1, h1, h2, h3, h4, -⟩
  · rw [h] at hr; simp at hr
  rw [h1] at hr
  simp only [Run.done.injEq] at hr
  obtain ⟨rfl, -⟩ := hr
  have hu := h3.upTo
  obtain ⟨k, hk, hs⟩ := hu.sem
  have hm' : ∀ x y, g1.mat x y = (k * z) * semGates gs (basisState n x) y := by
    intro x y
    have : g1.bval x y = g.bval x y := by funext v; simp only [bval, hu.inputs, hu.outputs]
    rw [mat, hs, this, mul_assoc, ← hm]
    rfl
  refine ⟨⟨h2, h4.types, InteriorNF.zHad h4, ⟨?_, ?_, ?_, ?_⟩, hgad, ?_, ?_, unit_of_circuit hgs (mul_ne_zero hk hz) hm'⟩,
    k * z, mul_ne_zero hk hz, hm'⟩
  · rw [hu.inputs]; exact hio.nodupIn
  · rw [hu.outputs]; exact hio.nodupOut
  · rw [hu.inputs, hu.outputs]; exact hio.disj
  · intro v hv hvb
    rw [hu.inputs, hu.outputs]
    obtain ⟨e1, e2⟩ := (hu.boundary v).mp ⟨hv, hvb⟩
    exact hio.all v e1 e2
  · rw [hu.inputs, hi]
  · rw [hu.outputs, ho]

/-- **C33.** Simplify, then extract: if a diagram denotes the map of a circuit, `full_reduce` ends, the leaves of the phase gadgets of the result
are as required, and `extract_circuit` returns, then the new circuit denotes the map of the first one, up to a global phase. -/
theorem reduce_extract {n : ℕ} {gs : List Gate} (hgs : ∀ a ∈ gs, a.qubits.Nodup ∧ ∀ q ∈ a.qubits, q < n)
    (hω : ∀ t, (ω t).OK) (hfu : ∀ t, (ω t).Full) (hch : ChooseOK choose) (hg : g.ZX Reduced) (hb : g.PlainBnd) (hio : g.IO)
    (hi : g.inputs.length = n) (ho : g.outputs.length = n) {z : ℂ} (hz : z ≠ 0) (hm : ∀ x y, g.mat x y = z * semGates gs (basisState n x) y)
    {g' : Graph} {t t' i : ℕ} (hr : fullReduce ω fuel t g = .done g' t' i) (hgad : g'.Gadgets)
    {ω' : ℕ → Orders} (hω' : ∀ t, (ω' t).OK) {fuel' : ℕ} (e : extractCircuit ω' choose opt false fuel' g' = .ok c) :
    c.qubits = n ∧ ∃ w : ℂ, ‖w‖ = 1 ∧ ∀ x y, semGates c.gates (basisState n x) y = w * semGates gs (basisState n x) y := by
  obtain ⟨hE, k, hk, hm'⟩ := reduce_extractable hgs hω hfu hg hb hio hi ho hz hm hr hgad
  obtain ⟨e1, w, hw, e2⟩ := extract_sound hω' hch hE e
  have hfin : ∀ x y, semGates c.gates (basisState n x) y = w⁻¹ * k * semGates gs (basisState n x) y := by
    intro x y
    rw [mul_assoc, ← hm', e2, inv_mul_cancel_left₀ hw]
  obtain ⟨-, hcg⟩ := extract_gates hω' hch hE e
  exact ⟨e1, w⁻¹ * k, norm_of_prop (fun a ha => ⟨(hcg a ha).2.1, (hcg a ha).2.2⟩) hgs (hfin fun _ => false), hfin⟩

/-! ### Example -/

/-- The elements of a finite set in increasing order, in a form that can be computed. -/
def upto (s : Finset ℕ) : List ℕ := (List.range (s.sup id + 1)).filter (· ∈ s)

theorem upto_ok : Rules.SetOrder upto := by
  intro s
  refine ⟨List.nodup_range.filter _, ?_⟩
  ext v
  simp only [upto, List.mem_toFinset, List.mem_filter, List.mem_range, decide_eq_true_eq]
  exact ⟨fun h => h.2, fun h => ⟨Nat.lt_succ_of_le (Finset.le_sup (f := id) h), h⟩⟩

/-- Increasing orders and no filter, in a form that can be computed. -/
def uptoOrders : Orders where
  nbr g v := upto (g.nbrs v)
  vcand g := upto g.verts
  ecand g := ((upto g.verts ×ˢ upto g.verts) : List (ℕ × ℕ)).filter fun e => g.adj e.1 e.2 ≠ none ∧ e.1 < e.2
  all g := upto g.verts
  lst := upto
  row0 _ _ := false

/-- A diagram with two inputs and outputs. -/
noncomputable def exE : Graph :=
  mkG [.boundary, .boundary, .Z, .Z, .Z, .Z, .boundary, .boundary] [0, 0, 1 / 4, 0, 0, 0, 0, 0]
    [(0, 2, .simple), (1, 3, .simple), (2, 3, .had), (2, 4, .had), (3, 5, .had), (4, 6, .simple), (5, 7, .simple)] [0, 1] [6, 7]

/-- The result of a run. -/
def outc : Out Circuit → Option Circuit | .ok c => some c | _ => none


/-- The run on `exE`. -/
theorem exE_run : extractCircuit (fun _ => uptoOrders) (fun _ _ => none) false false 20 exE =
    .ok ⟨2, 0, [.cz 0 1, Gate.mkZPhase 0 (1 / 4), .had 1, .had 0]⟩ := by
  have : outc (extractCircuit (fun _ => uptoOrders) (fun _ _ => none) false false 20 exE) =
    some ⟨2, 0, [.cz 0 1, Gate.mkZPhase 0 (1 / 4), .had 1, .had 0]⟩ := by decide +kernel
  revert this
  cases extractCircuit (fun _ => uptoOrders) (fun _ _ => none) false false 20 exE <;> simp [outc]

/-- Its matrix. -/
theorem exE_mat (x y : ℕ → Bool) : exE.mat x y = sq2⁻¹ * semGates [.cz 0 1, Gate.mkZPhase 0 (1 / 4), .had 1, .had 0] (basisState 2 x) y := by
  have hw : exE.WF := mkG_wf (by decide)
  rw [mat, sem_eq_amp hw]
  have hv : exE.verts = insert 0 (insert 1 (insert 2 (insert 3 (insert 4 (insert 5 (insert 6 (insert 7 ∅))))))) := by
    ext v; simp [exE, mkG]; omega
  have hi : exE.interior = insert 2 (insert 3 (insert 4 (insert 5 ∅))) := by
    decide +kernel
  unfold amp
  rw [hi]
  simp only [psum_insert_env (show (2 : ℕ) ∉ insert 3 (insert 4 (insert 5 (∅ : Finset ℕ))) by simp),
    psum_insert_env (show (3 : ℕ) ∉ insert 4 (insert 5 (∅ : Finset ℕ)) by simp),
    psum_insert_env (show (4 : ℕ) ∉ insert 5 (∅ : Finset ℕ) by simp), psum_insert_env (show (5 : ℕ) ∉ (∅ : Finset ℕ) by simp)]
  simp only [psum_empty]
  have hwt : ∀ z, exE.weight z = (if z 2 then ph (1 / 4) else 1) * (hmat (z 2) (z 3) * hmat (z 2) (z 4) * hmat (z 3) (z 5)) *
      (dmat (z 0) (z 2) * dmat (z 1) (z 3) * dmat (z 4) (z 6) * dmat (z 5) (z 7)) := by
    intro z
    rw [weight_eq_wOn, hv]
    unfold wOn
    rw [pairProd_insert (by simp) (edgeK_comm hw.symm z), pairProd_insert (by simp) (edgeK_comm hw.symm z),
      pairProd_insert (by simp) (edgeK_comm hw.symm z), pairProd_insert (by simp) (edgeK_comm hw.symm z),
      pairProd_insert (by simp) (edgeK_comm hw.symm z), pairProd_insert (by simp) (edgeK_comm hw.symm z),
      pairProd_insert (by simp) (edgeK_comm hw.symm z), pairProd_insert (by simp) (edgeK_comm hw.symm z), pairProd_empty]
    have hX : ∀ v, exE.isX v = false := by
      intro v
      by_cases hlt : v < 8
      · interval_cases v <;> simp [isX, exE, mkG]
      · have : exE.ty v = .boundary := List.getD_eq_default _ _ (by simp; omega)
        simp [isX, this]
    have e : ∀ u v, exE.edgeK z u v = (exE.adj u v).elim 1 fun t => kern (decide (t = .had)) (z u) (z v) := by
      intro u v
      unfold edgeK eff
      rw [hX, hX]
      cases exE.adj u v <;> simp
    have hA : ∀ u v, exE.adj u v = (([(0, 2, .simple), (1, 3, .simple), (2, 3, .had), (2, 4, .had), (3, 5, .had), (4, 6, .simple), (5, 7, .simple)] :
      List (ℕ × ℕ × EType)).find? fun e => decide ((e.1 = u ∧ e.2.1 = v) ∨ (e.1 = v ∧ e.2.1 = u))).map (·.2.2) := fun _ _ => rfl
    have h0 : ∀ v, v < 8 → v ≠ 2 → exE.vwt v (z v) = 1 := by
      intro v hv' hne
      interval_cases v <;> first | (exact absurd rfl hne) | simp [vwt, vval, exE, mkG]
    have h2 : exE.vwt 2 (z 2) = if z 2 then ph (1 / 4) else 1 := by simp [vwt, vval, exE, mkG]
    have hs : exE.scalar.toNumber = 1 := by simp [exE, mkG, Scalar.new, Scalar.toNumber]
    simp [e, hA, hs, h2, h0 0 (by norm_num) (by norm_num), h0 1 (by norm_num) (by norm_num), h0 3 (by norm_num) (by norm_num),
      h0 4 (by norm_num) (by norm_num), h0 5 (by norm_num) (by norm_num), h0 6 (by norm_num) (by norm_num), h0 7 (by norm_num) (by norm_num), kern]
    cases z 2 <;> simp <;> ring1
  have hb : exE.bval x y 0 = x 0 ∧ exE.bval x y 1 = x 1 ∧ exE.bval x y 6 = y 0 ∧ exE.bval x y 7 = y 1 := by
    simp [bval, exE, mkG]
  have l : basisState 2 x = fun o => if o 0 = x 0 ∧ o 1 = x 1 then 1 else 0 := by
    funext o
    unfold basisState
    congr 1
    refine propext ⟨fun h => ⟨h 0 (by norm_num), h 1 (by norm_num)⟩, ?_⟩
    rintro ⟨h1, h2⟩ q hq
    interval_cases q <;> assumption
  have hq := sq2_ne_zero
  rw [l]
  simp only [hwt, semGates, List.foldl, Gate.sem, Gate.mkZPhase]
  simp only [on1, ctrl, Fintype.sum_bool, hmat, dmat, matH, matZ, Function.update_apply, hb.1, hb.2.1, hb.2.2.1, hb.2.2.2]
  generalize x 0 = x0
  generalize x 1 = x1
  generalize y 0 = y0
  generalize y 1 = y1
  cases x0 <;> cases x1 <;> cases y0 <;> cases y1 <;> simp [mat2] <;> field_simp

theorem uptoOrders_ok : uptoOrders.OK where
  nbr g v _ := upto_ok (g.nbrs v)
  vcand g := ⟨(upto_ok g.verts).1, fun v (hv : v ∈ upto g.verts) => by rw [← (upto_ok g.verts).2]; simpa using hv⟩
  ecand g := ⟨((upto_ok g.verts).1.product (upto_ok g.verts).1).filter _, fun e he => by
    have := (List.mem_filter.mp he).2
    simp only [decide_eq_true_eq] at this
    exact this.1⟩
  all g := upto_ok g.verts
  lst := upto_ok

theorem exE_extractable : exE.Extractable 2 where
  zx := by
    refine ⟨mkG_wf (by decide), mkG_bdeg (by decide) (by decide), fun b hb hbt => ?_, fun v hv => ?_, fun v hv => ?_⟩
    · have hb' : b ∈ Finset.range 8 := hb
      fin_cases hb' <;> first | (simp [exE, mkG] at hbt; done) | skip
      · exact ⟨2, by simp [exE, mkG]⟩
      · exact ⟨3, by simp [exE, mkG]⟩
      · exact ⟨4, by simp [exE, mkG]⟩
      · exact ⟨5, by simp [exE, mkG]⟩
    · have hv' : v ∈ Finset.range 8 := hv
      fin_cases hv' <;> simp [exE, mkG]
    · have hv' : v ∈ Finset.range 8 := hv
      fin_cases hv' <;> refine ⟨by norm_num [exE, mkG], by norm_num [exE, mkG]⟩
  tys v hv := by
    have hv' : v ∈ Finset.range 8 := hv
    fin_cases hv' <;> simp [exE, mkG]
  zh := mkG_zhad (by decide) (by decide)
  io := by
    refine ⟨by simp [exE, mkG], by simp [exE, mkG], by simp [exE, mkG], fun v hv hb => ?_⟩
    have hv' : v ∈ Finset.range 8 := hv
    fin_cases hv' <;> first | (simp [exE, mkG] at hb; done) | simp [exE, mkG]
  gad := by
    have : ∀ v ∈ Finset.range 8, exE.ty v = .Z → (exE.nbrs v).card ≠ 1 := by decide +kernel
    exact fun v hv ht hc => absurd hc (this v hv ht)
  ins := rfl
  outs := rfl
  unit := unit_of_circuit (n := 2) (by decide +kernel) (inv_ne_zero sq2_ne_zero) exE_mat

/-- The hypotheses of `extract_sound` hold for `exE`, and the run returns a circuit of four gates. -/
example : (∀ t : ℕ, ((fun _ => uptoOrders) t).OK) ∧ ChooseOK (fun _ _ => none) ∧ exE.Extractable 2 ∧
    ∃ c, extractCircuit (fun _ => uptoOrders) (fun _ _ => none) false false 20 exE = .ok c ∧ c.gates.length = 4 :=
  ⟨fun _ => uptoOrders_ok, fun _ _ _ _ _ _ h => by simp at h, exE_extractable, _, exE_run, rfl⟩

end Props
end PyZX
