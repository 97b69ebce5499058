import Verif.Proofs.Circuit2

/-!
# Helper lemmas for gates: linearity, inverses, locality and relabelling
-/

namespace PyZX

open Complex

set_option linter.unusedSimpArgs false
set_option linter.unnecessarySeqFocus false

theorem on1_smul_state (U : Matrix Bool Bool ℂ) (t : ℕ) (z : ℂ) (ψ : QState) (x : ℕ → Bool) :
    on1 U t (fun y => z * ψ y) x = z * on1 U t ψ x := by
  simp only [on1_apply]; ring

theorem ctrl_smul_state (U : Matrix Bool Bool ℂ) (c t : ℕ) (z : ℂ) (ψ : QState) (x : ℕ → Bool) :
    ctrl U c t (fun y => z * ψ y) x = z * ctrl U c t ψ x := by
  simp only [ctrl, on1_smul_state]; split <;> rfl

theorem Gate.sem_smul (g : Gate) (z : ℂ) (ψ : QState) (x : ℕ → Bool) : g.sem (fun y => z * ψ y) x = z * g.sem ψ x := by
  cases g <;> simp only [Gate.sem, on1_smul_state, ctrl_smul_state] <;> (try ring1) <;> (try split) <;> ring1

theorem semGates_smul (gs : List Gate) (z : ℂ) (ψ : QState) (x : ℕ → Bool) :
    semGates gs (fun y => z * ψ y) x = z * semGates gs ψ x := by
  induction gs generalizing ψ with
  | nil => rfl
  | cons g gs ih =>
    rw [semGates_cons, semGates_cons, ← ih]
    congr 1
    funext y
    exact g.sem_smul z ψ y

theorem EqUpToPhase.of {f g : QState → QState} {z : ℂ} (hz : ‖z‖ = 1) (h : ∀ ψ x, f ψ x = z * g ψ x) : EqUpToPhase f g :=
  ⟨z, hz, h⟩

theorem EqUpToPhase.comp {a b : List Gate} {f g : QState → QState} (h : EqUpToPhase (semGates a) f)
    (h' : EqUpToPhase (semGates b) g) (hg : ∀ (z : ℂ) ψ x, g (fun y => z * ψ y) x = z * g ψ x) :
    EqUpToPhase (semGates (a ++ b)) (fun ψ => g (f ψ)) := by
  obtain ⟨z, hz, e⟩ := h
  obtain ⟨w, hw, e'⟩ := h'
  refine ⟨w * z, by rw [norm_mul, hz, hw, one_mul], fun ψ x => ?_⟩
  rw [semGates_append, e']
  have : semGates a ψ = fun y => z * f ψ y := funext fun y => e ψ y
  rw [this, hg]; ring

/-- The gates whose `to_adjoint` is their inverse. -/
def Gate.adjointOK : Gate → Bool
  | .csx _ _ => false
  | .fsim _ _ _ => false
  | .u2 _ _ _ => false
  | .u3 _ _ _ _ => false
  | .cu3 _ _ _ _ _ => false
  | .cu _ _ _ _ _ _ => false
  | _ => true

theorem ctrl_mul {c t : ℕ} (h : c ≠ t) (A B : Matrix Bool Bool ℂ) (ψ : QState) :
    ctrl A c t (ctrl B c t ψ) = ctrl (A * B) c t ψ := by
  rw [ctrl_eq_blk, ctrl_eq_blk, ctrl_eq_blk, blk_mul h, one_mul]

theorem ctrl_one (c t : ℕ) (ψ : QState) : ctrl 1 c t ψ = ψ := by
  funext x; simp [ctrl, on1_one]

theorem matZ_inv (p : ℚ) : matZ (-p) * matZ p = 1 := by
  simp only [matZ, mat2_mul, mat2_one]
  refine mat2_congr ?_ ?_ ?_ ?_ <;> simp [ph_neg_mul]

theorem matX_inv (p : ℚ) : matX (-p) * matX p = 1 := by
  simp only [matX, mat2_mul, mat2_one]
  have := ph_neg_mul p
  refine mat2_congr ?_ ?_ ?_ ?_ <;> first | linear_combination this / 2 | linear_combination -this / 2

theorem cs_add (p : ℚ) : hcos p ^ 2 + hsin p ^ 2 = 1 := by
  rw [hcos, hsin]
  have := Real.cos_sq_add_sin_sq (Real.pi * p / 2)
  exact_mod_cast this

theorem hcos_neg (p : ℚ) : hcos (-p) = hcos p := by
  rw [hcos, hcos]; congr 1
  rw [← Real.cos_neg]; congr 1; push_cast; ring

theorem hsin_neg (p : ℚ) : hsin (-p) = -hsin p := by
  rw [hsin, hsin, ← Complex.ofReal_neg, ← Real.sin_neg]; congr 2; push_cast; ring

theorem matRY_inv (p : ℚ) : matRY (-p) * matRY p = 1 := by
  simp only [matRY, mat2_mul, mat2_one, hcos_neg, hsin_neg]
  have := cs_add p
  refine mat2_congr ?_ ?_ ?_ ?_ <;> first | linear_combination this | ring

theorem matRX_inv (p : ℚ) : matRX (-p) * matRX p = 1 := by
  simp only [matRX, mat2_mul, mat2_one, hcos_neg, hsin_neg]
  have := cs_add p
  have hi := Complex.I_sq
  refine mat2_congr ?_ ?_ ?_ ?_ <;> first | ring1 | linear_combination this - (hsin p)^2 * hi

theorem matRZ_inv (p : ℚ) : matRZ (-p) * matRZ p = 1 := by
  simp only [matRZ, mat2_mul, mat2_one, neg_neg, neg_div]
  refine mat2_congr ?_ ?_ ?_ ?_ <;> simp [ph_neg_mul, ph_mul_neg]

theorem matH_sq : matH * matH = 1 := by
  simp only [matH, mat2_mul, mat2_one]
  have hs : sq2⁻¹ * sq2⁻¹ = 1/2 := by rw [sq2_inv]; linear_combination sq2_mul_self / 4
  refine mat2_congr ?_ ?_ ?_ ?_ <;> first | ring1 | linear_combination 2 * hs

theorem swapBits_invol (a b : ℕ) (x : ℕ → Bool) : swapBits a b (swapBits a b x) = x := by
  funext q; simp [swapBits]

theorem Gate.adjoint_inv {g : Gate} (h : g.adjointOK = true) (hv : g.qubits.Nodup) (ψ : QState) : g.toAdjoint.sem (g.sem ψ) = ψ := by
  cases g with
  | zrot cls t p adj => simp only [Gate.toAdjoint, Gate.sem, on1_mul, matZ_inv, on1_one]
  | xrot cls t p adj => simp only [Gate.toAdjoint, Gate.sem, on1_mul, matX_inv, on1_one]
  | yrot cls t p => simp only [Gate.toAdjoint, Gate.sem, on1_mul, matRY_inv, on1_one]
  | had t => simp only [Gate.toAdjoint, Gate.sem, on1_mul, matH_sq, on1_one]
  | cnot c t =>
    have hc : c ≠ t := by simpa [Gate.qubits] using hv
    simp only [Gate.toAdjoint, Gate.sem, ctrl_mul hc, mat2_mul]
    rw [show mat2 (0 * 0 + 1 * 1) (0 * 1 + 1 * 0) (1 * 0 + 0 * 1) (1 * 1 + 0 * 0) = 1 by rw [mat2_one]; norm_num, ctrl_one]
  | cz c t =>
    have hc : c ≠ t := by simpa [Gate.qubits] using hv
    simp only [Gate.toAdjoint, Gate.sem, ctrl_mul hc, mat2_mul]
    rw [show mat2 (1 * 1 + 0 * 0) (1 * 0 + 0 * -1) (0 * 1 + -1 * 0) (0 * 0 + -1 * -1) = 1 by rw [mat2_one]; norm_num, ctrl_one]
  | xcx c t =>
    have hc : c ≠ t := by simpa [Gate.qubits] using hv
    funext x
    simp only [Gate.toAdjoint, Gate.sem, flip_flip, ← flip_comm hc]
    ring
  | swap c t => funext x; simp only [Gate.toAdjoint, Gate.sem, swapBits_invol]
  | csx c t => simp [Gate.adjointOK] at h
  | cy c t =>
    have hc : c ≠ t := by simpa [Gate.qubits] using hv
    simp only [Gate.toAdjoint, Gate.sem, ctrl_mul hc, mat2_mul]
    rw [show mat2 (0 * 0 + -I * I) (0 * -I + -I * 0) (I * 0 + 0 * I) (I * -I + 0 * 0) = 1 by rw [mat2_one]; norm_num, ctrl_one]
  | chad c t =>
    have hc : c ≠ t := by simpa [Gate.qubits] using hv
    simp only [Gate.toAdjoint, Gate.sem, ctrl_mul hc, matH_sq, ctrl_one]
  | crx c t p =>
    have hc : c ≠ t := by simpa [Gate.qubits] using hv
    simp only [Gate.toAdjoint, Gate.sem, ctrl_mul hc, matRX_inv, ctrl_one]
  | cry c t p =>
    have hc : c ≠ t := by simpa [Gate.qubits] using hv
    simp only [Gate.toAdjoint, Gate.sem, ctrl_mul hc, matRY_inv, ctrl_one]
  | crz c t p =>
    have hc : c ≠ t := by simpa [Gate.qubits] using hv
    simp only [Gate.toAdjoint, Gate.sem, ctrl_mul hc, matRZ_inv, ctrl_one]
  | cphase c t p =>
    have hc : c ≠ t := by simpa [Gate.qubits] using hv
    simp only [Gate.toAdjoint, Gate.sem, ctrl_mul hc, matZ_inv, ctrl_one]
  | rxx c t p =>
    have hc : c ≠ t := by simpa [Gate.qubits] using hv
    funext x
    simp only [Gate.toAdjoint, Gate.sem, flip_flip, ← flip_comm hc, hcos_neg, hsin_neg]
    have := cs_add p
    have hi := Complex.I_sq
    linear_combination (ψ x) * this - (hsin p)^2 * (ψ x) * hi
  | parity p ts =>
    funext x
    simp only [Gate.toAdjoint, Gate.sem]
    split
    · rw [← mul_assoc, ph_neg_mul, one_mul]
    · ring
  | rzz c t ts p =>
    funext x
    simp only [Gate.toAdjoint, Gate.sem]
    split
    · rw [← mul_assoc, ph_neg_mul, one_mul]
    · ring
  | fsim c t phi => simp [Gate.adjointOK] at h
  | ccz c1 c2 t =>
    funext x
    simp only [Gate.toAdjoint, Gate.sem]
    split <;> simp_all
  | tof c1 c2 t =>
    have hc : (c1 ≠ c2 ∧ c1 ≠ t) ∧ c2 ≠ t := by simpa [Gate.qubits] using hv
    funext x
    simp only [Gate.toAdjoint, Gate.sem, flip_flip, flip_ne hc.1.2, flip_ne hc.2]
    split <;> simp_all
  | cswap c1 c2 t =>
    have hc : (c1 ≠ c2 ∧ c1 ≠ t) ∧ c2 ≠ t := by simpa [Gate.qubits] using hv
    funext x
    have hs : swapBits c2 t x c1 = x c1 := by rw [swapBits, Equiv.swap_apply_of_ne_of_ne hc.1.1 hc.1.2]
    simp only [Gate.toAdjoint, Gate.sem, swapBits_invol, hs]
    split <;> simp_all
  | u2 t theta phi => simp [Gate.adjointOK] at h
  | u3 t theta phi rho => simp [Gate.adjointOK] at h
  | cu3 c t theta phi rho => simp [Gate.adjointOK] at h
  | cu c t theta phi rho gamma => simp [Gate.adjointOK] at h

theorem Gate.adjoint_adjoint (g : Gate) : g.toAdjoint.toAdjoint = g := by
  cases g <;> simp [Gate.toAdjoint]

theorem Gate.adjoint_ok (g : Gate) : g.toAdjoint.adjointOK = g.adjointOK := by
  cases g <;> rfl

theorem Gate.adjoint_qubits (g : Gate) : g.toAdjoint.qubits = g.qubits := by
  cases g <;> rfl

/-! ### Relabelling -/

/-- Overwrites the qubits `mask[0], mask[1], ...` of `x` by the bits of `y`. -/
def place (mask : List ℕ) (y x : ℕ → Bool) : ℕ → Bool := fun q => if q ∈ mask then y (mask.idxOf q) else x q

/-- The bits of `x` at the qubits of a mask. -/
def pull (mask : List ℕ) (x : ℕ → Bool) : ℕ → Bool := fun q => x (mask.getD q 0)

variable {mask : List ℕ}

theorem maskGet_some {t t' : ℕ} (h : Gate.maskGet mask t = some t') : t < mask.length ∧ mask.getD t 0 = t' := by
  rw [Gate.maskGet] at h
  obtain ⟨hlt, he⟩ := List.getElem?_eq_some_iff.mp h
  exact ⟨hlt, by rw [List.getD_eq_getElem?_getD, h]; rfl⟩

theorem place_pull (x : ℕ → Bool) : place mask (pull mask x) x = x := by
  funext q
  rw [place]
  split
  · rename_i h
    have h1 := List.idxOf_lt_length_of_mem h
    rw [pull, List.getD_eq_getElem?_getD, List.getElem?_eq_getElem h1]
    simp
  · rfl

theorem mem_mask {t t' : ℕ} (h : Gate.maskGet mask t = some t') : t' ∈ mask := by
  rw [Gate.maskGet] at h
  exact List.mem_of_getElem? h

theorem idx_mask (hn : mask.Nodup) {t t' : ℕ} (h : Gate.maskGet mask t = some t') : mask.idxOf t' = t := by
  rw [Gate.maskGet] at h
  obtain ⟨hlt, he⟩ := List.getElem?_eq_some_iff.mp h
  rw [← he]
  exact hn.idxOf_getElem t hlt

theorem place_update (hn : mask.Nodup) {t t' : ℕ} (h : Gate.maskGet mask t = some t') (y x : ℕ → Bool) (b : Bool) :
    place mask (Function.update y t b) x = Function.update (place mask y x) t' b := by
  funext q
  by_cases hq : q = t'
  · subst hq
    rw [Function.update_self, place, if_pos (mem_mask h), idx_mask hn h, Function.update_self]
  · rw [Function.update_of_ne hq, place, place]
    split
    · rename_i hm
      rw [Function.update_of_ne]
      intro he
      apply hq
      have h1 := List.idxOf_lt_length_of_mem hm
      have h2 := List.getElem_idxOf h1
      rw [Gate.maskGet] at h
      obtain ⟨hlt, he'⟩ := List.getElem?_eq_some_iff.mp h
      rw [← h2, ← he']
      congr 1
    · rfl

theorem place_apply (hn : mask.Nodup) {t t' : ℕ} (h : Gate.maskGet mask t = some t') (y x : ℕ → Bool) :
    place mask y x t' = y t := by
  rw [place, if_pos (mem_mask h), idx_mask hn h]

theorem mask_inj (hn : mask.Nodup) {a b a' : ℕ} (h : Gate.maskGet mask a = some a') (h' : Gate.maskGet mask b = some a') : a = b := by
  rw [← idx_mask hn h, idx_mask hn h']

theorem on1_relabel (hn : mask.Nodup) {t t' : ℕ} (h : Gate.maskGet mask t = some t') (U : Matrix Bool Bool ℂ) (ψ : QState)
    (y x : ℕ → Bool) : on1 U t' ψ (place mask y x) = on1 U t (fun y => ψ (place mask y x)) y := by
  simp only [on1_apply, place_apply hn h, place_update hn h]

theorem ctrl_relabel (hn : mask.Nodup) {c c' t t' : ℕ} (h' : Gate.maskGet mask c = some c') (h : Gate.maskGet mask t = some t')
    (U : Matrix Bool Bool ℂ) (ψ : QState) (y x : ℕ → Bool) :
    ctrl U c' t' ψ (place mask y x) = ctrl U c t (fun y => ψ (place mask y x)) y := by
  simp only [ctrl, ← on1_relabel hn h, place_apply hn h']

theorem place_flip (hn : mask.Nodup) {t t' : ℕ} (h : Gate.maskGet mask t = some t') (y x : ℕ → Bool) :
    place mask (flipBit t y) x = flipBit t' (place mask y x) := by
  rw [flipBit, place_update hn h, flipBit]
  congr 2
  rw [place, if_pos (mem_mask h), idx_mask hn h]

theorem swapBits_eq (a b : ℕ) (x : ℕ → Bool) : swapBits a b x = Function.update (Function.update x a (x b)) b (x a) := by
  funext q
  simp only [swapBits, Equiv.swap_apply_def, Function.update_apply]
  by_cases h1 : q = b
  · subst h1; by_cases h2 : q = a
    · subst h2; simp
    · simp [h2]
  · simp [h1]; split <;> rfl

theorem place_swap (hn : mask.Nodup) {c c' t t' : ℕ} (h' : Gate.maskGet mask c = some c') (h : Gate.maskGet mask t = some t')
    (y x : ℕ → Bool) : place mask (swapBits c t y) x = swapBits c' t' (place mask y x) := by
  rw [swapBits_eq, place_update hn h, place_update hn h', swapBits_eq, place_apply hn h, place_apply hn h']

theorem parity_relabel (hn : mask.Nodup) {ts ts' : List ℕ} (h : ts.mapM (Gate.maskGet mask) = some ts') (y x : ℕ → Bool) :
    parityOf ts' (place mask y x) = parityOf ts y := by
  induction ts generalizing ts' with
  | nil => simp at h; subst h; rfl
  | cons a r ih =>
    simp only [List.mapM_cons, Option.bind_eq_bind, Option.bind_eq_some_iff, Option.pure_def, Option.some.injEq] at h
    obtain ⟨a', ha, r', hr, rfl⟩ := h
    rw [parity_cons, parity_cons, ih hr, place_apply hn ha]

theorem Gate.reposition_sem (hn : mask.Nodup) {g g' : Gate} (h : g.reposition mask = some g') (ψ : QState) (y x : ℕ → Bool) :
    g'.sem ψ (place mask y x) = g.sem (fun y => ψ (place mask y x)) y := by
  cases g with
  | zrot cls t p adj => 
    simp only [Gate.reposition, Option.map_eq_some_iff] at h
    obtain ⟨t', ht, rfl⟩ := h
    exact on1_relabel hn ht _ ψ y x
  | xrot cls t p adj => 
    simp only [Gate.reposition, Option.map_eq_some_iff] at h
    obtain ⟨t', ht, rfl⟩ := h
    exact on1_relabel hn ht _ ψ y x
  | yrot cls t p => 
    simp only [Gate.reposition, Option.map_eq_some_iff] at h
    obtain ⟨t', ht, rfl⟩ := h
    exact on1_relabel hn ht _ ψ y x
  | had t => 
    simp only [Gate.reposition, Option.map_eq_some_iff] at h
    obtain ⟨t', ht, rfl⟩ := h
    exact on1_relabel hn ht _ ψ y x
  | u2 t a b => 
    simp only [Gate.reposition, Option.map_eq_some_iff] at h
    obtain ⟨t', ht, rfl⟩ := h
    exact on1_relabel hn ht _ ψ y x
  | u3 t a b c => 
    simp only [Gate.reposition, Option.map_eq_some_iff] at h
    obtain ⟨t', ht, rfl⟩ := h
    exact on1_relabel hn ht _ ψ y x
  | parity p ts =>
    simp only [Gate.reposition, Option.map_eq_some_iff] at h
    obtain ⟨ts', ht, rfl⟩ := h
    simp only [Gate.sem, parity_relabel hn ht]
  | rzz c t ts p =>
    simp only [Gate.reposition, Option.map_eq_some_iff] at h
    obtain ⟨ts', ht, rfl⟩ := h
    simp only [Gate.sem, parity_relabel hn ht]
  | fsim c t p => simp [Gate.reposition] at h
  | ccz c1 c2 t =>
    simp only [Gate.reposition, Option.bind_eq_bind, Option.bind_eq_some_iff, Option.pure_def, Option.some.injEq] at h
    obtain ⟨a, ha, b, hb, c, hc, rfl⟩ := h
    simp only [Gate.sem, place_apply hn ha, place_apply hn hb, place_apply hn hc]
  | tof c1 c2 t =>
    simp only [Gate.reposition, Option.bind_eq_bind, Option.bind_eq_some_iff, Option.pure_def, Option.some.injEq] at h
    obtain ⟨a, ha, b, hb, c, hc, rfl⟩ := h
    simp only [Gate.sem, place_apply hn ha, place_apply hn hb, place_flip hn hc]
  | cswap c1 c2 t =>
    simp only [Gate.reposition, Option.bind_eq_bind, Option.bind_eq_some_iff, Option.pure_def, Option.some.injEq] at h
    obtain ⟨a, ha, b, hb, c, hc, rfl⟩ := h
    simp only [Gate.sem, place_apply hn ha, place_swap hn hb hc]
  | swap c t =>
    simp only [Gate.reposition, Option.bind_eq_bind, Option.bind_eq_some_iff, Option.pure_def, Option.some.injEq] at h
    obtain ⟨b, hb, c, hc, rfl⟩ := h
    simp only [Gate.sem, place_swap hn hb hc]
  | xcx c t =>
    simp only [Gate.reposition, Option.bind_eq_bind, Option.bind_eq_some_iff, Option.pure_def, Option.some.injEq] at h
    obtain ⟨b, hb, c, hc, rfl⟩ := h
    simp only [Gate.sem, place_flip hn hb, place_flip hn hc]
  | rxx c t p =>
    simp only [Gate.reposition, Option.bind_eq_bind, Option.bind_eq_some_iff, Option.pure_def, Option.some.injEq] at h
    obtain ⟨b, hb, c, hc, rfl⟩ := h
    simp only [Gate.sem, place_flip hn hb, place_flip hn hc]
  | _ =>
    simp only [Gate.reposition, Option.bind_eq_bind, Option.bind_eq_some_iff, Option.pure_def, Option.some.injEq] at h
    obtain ⟨b, hb, c, hc, rfl⟩ := h
    exact ctrl_relabel hn hb hc _ ψ y x

theorem reposition_gates (hn : mask.Nodup) {gs gs' : List Gate} (h : gs.mapM (Gate.reposition mask) = some gs') (ψ : QState)
    (y x : ℕ → Bool) : semGates gs' ψ (place mask y x) = semGates gs (fun y => ψ (place mask y x)) y := by
  induction gs generalizing gs' ψ with
  | nil => simp at h; subst h; rfl
  | cons g r ih =>
    simp only [List.mapM_cons, Option.bind_eq_bind, Option.bind_eq_some_iff, Option.pure_def, Option.some.injEq] at h
    obtain ⟨g', hg, r', hr, rfl⟩ := h
    rw [semGates_cons, semGates_cons, ih hr]
    congr 1
    funext y'
    exact Gate.reposition_sem hn hg ψ y' x

/-! ### Locality -/

/-- A function that does not read some qubits. -/
def Ignores (f : QState) (qs : List ℕ) : Prop := ∀ x y, (∀ q, q ∉ qs → x q = y q) → f x = f y

theorem Ignores.update {f : QState} {qs : List ℕ} (h : Ignores f qs) {t : ℕ} (ht : t ∈ qs) (x : ℕ → Bool) (b : Bool) :
    f (Function.update x t b) = f x :=
  h _ _ fun q hq => Function.update_of_ne (fun (e : q = t) => hq (e.symm ▸ ht)) _ _

theorem Ignores.flip {f : QState} {qs : List ℕ} (h : Ignores f qs) {t : ℕ} (ht : t ∈ qs) (x : ℕ → Bool) :
    f (flipBit t x) = f x := h.update ht _ _

theorem Ignores.swap {f : QState} {qs : List ℕ} (h : Ignores f qs) {c t : ℕ} (hc : c ∈ qs) (ht : t ∈ qs) (x : ℕ → Bool) :
    f (swapBits c t x) = f x := by rw [swapBits_eq, h.update ht, h.update hc]

theorem on1_local {f : QState} {qs : List ℕ} (h : Ignores f qs) {t : ℕ} (ht : t ∈ qs) (U : Matrix Bool Bool ℂ) (ψ : QState)
    (x : ℕ → Bool) : on1 U t (fun y => ψ y * f y) x = on1 U t ψ x * f x := by
  simp only [on1_apply, h.update ht]; ring

theorem ctrl_local {f : QState} {qs : List ℕ} (h : Ignores f qs) {c t : ℕ} (ht : t ∈ qs) (U : Matrix Bool Bool ℂ) (ψ : QState)
    (x : ℕ → Bool) : ctrl U c t (fun y => ψ y * f y) x = ctrl U c t ψ x * f x := by
  simp only [ctrl, on1_local h ht]; split <;> rfl

theorem Gate.sem_local {g : Gate} {f : QState} (h : Ignores f g.qubits) (ψ : QState) (x : ℕ → Bool) :
    g.sem (fun y => ψ y * f y) x = g.sem ψ x * f x := by
  cases g with
  | zrot cls t p adj => exact on1_local h (by simp [Gate.qubits]) _ ψ x
  | xrot cls t p adj => exact on1_local h (by simp [Gate.qubits]) _ ψ x
  | yrot cls t p => exact on1_local h (by simp [Gate.qubits]) _ ψ x
  | had t => exact on1_local h (by simp [Gate.qubits]) _ ψ x
  | u2 t a b => exact on1_local h (by simp [Gate.qubits]) _ ψ x
  | u3 t a b c => exact on1_local h (by simp [Gate.qubits]) _ ψ x
  | parity p ts => simp only [Gate.sem]; ring
  | rzz c t ts p => simp only [Gate.sem]; ring
  | fsim c t p => simp only [Gate.sem]; rw [h.swap (by simp [Gate.qubits]) (by simp [Gate.qubits])]; ring
  | ccz c1 c2 t => simp only [Gate.sem]; split <;> ring
  | tof c1 c2 t => simp only [Gate.sem]; rw [h.flip (by simp [Gate.qubits])]; split <;> ring
  | cswap c1 c2 t => simp only [Gate.sem]; rw [h.swap (by simp [Gate.qubits]) (by simp [Gate.qubits])]; split <;> ring
  | swap c t => simp only [Gate.sem]; rw [h.swap (by simp [Gate.qubits]) (by simp [Gate.qubits])]
  | xcx c t =>
    have h1 := fun x => h.flip (t := c) (by simp [Gate.qubits]) x
    have h2 := fun x => h.flip (t := t) (by simp [Gate.qubits]) x
    simp only [Gate.sem, h1, h2]; ring
  | rxx c t p =>
    have h1 := fun x => h.flip (t := c) (by simp [Gate.qubits]) x
    have h2 := fun x => h.flip (t := t) (by simp [Gate.qubits]) x
    simp only [Gate.sem, h1, h2]; ring
  | _ => exact ctrl_local h (by simp [Gate.qubits]) _ ψ x

theorem semGates_local {gs : List Gate} {f : QState} (h : ∀ g ∈ gs, Ignores f g.qubits) (ψ : QState) (x : ℕ → Bool) :
    semGates gs (fun y => ψ y * f y) x = semGates gs ψ x * f x := by
  induction gs generalizing ψ with
  | nil => rfl
  | cons g r ih =>
    rw [semGates_cons, semGates_cons, ← ih (fun g' hg' => h g' (by simp [hg']))]
    congr 1
    funext y
    exact Gate.sem_local (h g (by simp)) ψ y

/-- Two basis states that agree on the first `n` qubits. -/
def AgreeTo (n : ℕ) (x y : ℕ → Bool) : Prop := ∀ q < n, x q = y q

theorem AgreeTo.update {n : ℕ} {x y : ℕ → Bool} (h : AgreeTo n x y) (t : ℕ) (b : Bool) :
    AgreeTo n (Function.update x t b) (Function.update y t b) := by
  intro q hq
  by_cases e : q = t
  · subst e; simp
  · rw [Function.update_of_ne e, Function.update_of_ne e]; exact h q hq

theorem AgreeTo.flip {n : ℕ} {x y : ℕ → Bool} (h : AgreeTo n x y) {t : ℕ} (ht : t < n) :
    AgreeTo n (flipBit t x) (flipBit t y) := by
  rw [flipBit, flipBit, h t ht]; exact h.update t _

theorem AgreeTo.swap {n : ℕ} {x y : ℕ → Bool} (h : AgreeTo n x y) {c t : ℕ} (hc : c < n) (ht : t < n) :
    AgreeTo n (swapBits c t x) (swapBits c t y) := by
  rw [swapBits_eq, swapBits_eq, h t ht, h c hc]; exact (h.update _ _).update _ _

theorem on1_agree {n : ℕ} {ψ : QState} (hψ : ∀ x y, AgreeTo n x y → ψ x = ψ y) {t : ℕ} (ht : t < n) (U : Matrix Bool Bool ℂ)
    {x y : ℕ → Bool} (h : AgreeTo n x y) : on1 U t ψ x = on1 U t ψ y := by
  simp only [on1_apply, h t ht, hψ _ _ (h.update t _)]

theorem ctrl_agree {n : ℕ} {ψ : QState} (hψ : ∀ x y, AgreeTo n x y → ψ x = ψ y) {c t : ℕ} (hc : c < n) (ht : t < n)
    (U : Matrix Bool Bool ℂ) {x y : ℕ → Bool} (h : AgreeTo n x y) : ctrl U c t ψ x = ctrl U c t ψ y := by
  simp only [ctrl, on1_agree hψ ht U h, h c hc, hψ x y h]

theorem parityOf_agree {n : ℕ} {x y : ℕ → Bool} (h : AgreeTo n x y) : ∀ ts : List ℕ, (∀ q ∈ ts, q < n) → parityOf ts x = parityOf ts y := by
  intro ts
  induction ts with
  | nil => intro _; rfl
  | cons a r ih =>
    intro ht
    have := ih fun q hq => ht q (by simp [hq])
    simp only [parityOf, List.foldr_cons] at this ⊢
    rw [this, h a (ht a (by simp))]

/-- A gate on the first `n` qubits maps states of these qubits to states of these qubits. -/
theorem Gate.sem_congr {n : ℕ} {g : Gate} (hg : ∀ q ∈ g.qubits, q < n) {ψ : QState} (hψ : ∀ x y, AgreeTo n x y → ψ x = ψ y)
    {x y : ℕ → Bool} (h : AgreeTo n x y) : g.sem ψ x = g.sem ψ y := by
  cases g with
  | zrot cls t p adj => exact on1_agree hψ (hg t (by simp [Gate.qubits])) _ h
  | xrot cls t p adj => exact on1_agree hψ (hg t (by simp [Gate.qubits])) _ h
  | yrot cls t p => exact on1_agree hψ (hg t (by simp [Gate.qubits])) _ h
  | had t => exact on1_agree hψ (hg t (by simp [Gate.qubits])) _ h
  | u2 t a b => exact on1_agree hψ (hg t (by simp [Gate.qubits])) _ h
  | u3 t a b c => exact on1_agree hψ (hg t (by simp [Gate.qubits])) _ h
  | parity p ts => simp only [Gate.sem]; rw [parityOf_agree h ts hg, hψ x y h]
  | rzz c t ts p => simp only [Gate.sem]; rw [parityOf_agree h ts hg, hψ x y h]
  | fsim c t p =>
    have hc := hg c (by simp [Gate.qubits])
    have ht := hg t (by simp [Gate.qubits])
    simp only [Gate.sem, h c hc, h t ht, hψ _ _ (h.swap hc ht)]
  | ccz c1 c2 t =>
    simp only [Gate.sem, h c1 (hg c1 (by simp [Gate.qubits])), h c2 (hg c2 (by simp [Gate.qubits])), h t (hg t (by simp [Gate.qubits])), hψ x y h]
  | tof c1 c2 t =>
    simp only [Gate.sem, h c1 (hg c1 (by simp [Gate.qubits])), h c2 (hg c2 (by simp [Gate.qubits])),
      hψ _ _ (h.flip (hg t (by simp [Gate.qubits]))), hψ x y h]
  | cswap c1 c2 t =>
    simp only [Gate.sem, h c1 (hg c1 (by simp [Gate.qubits])), hψ _ _ (h.swap (hg c2 (by simp [Gate.qubits])) (hg t (by simp [Gate.qubits]))),
      hψ x y h]
  | swap c t =>
    simp only [Gate.sem, hψ _ _ (h.swap (hg c (by simp [Gate.qubits])) (hg t (by simp [Gate.qubits])))]
  | xcx c t =>
    have hc := hg c (by simp [Gate.qubits])
    have ht := hg t (by simp [Gate.qubits])
    simp only [Gate.sem, hψ x y h, hψ _ _ (h.flip hc), hψ _ _ (h.flip ht), hψ _ _ ((h.flip ht).flip hc)]
  | rxx c t p =>
    have hc := hg c (by simp [Gate.qubits])
    have ht := hg t (by simp [Gate.qubits])
    simp only [Gate.sem, hψ x y h, hψ _ _ ((h.flip ht).flip hc)]
  | _ => exact ctrl_agree hψ (hg _ (by simp [Gate.qubits])) (hg _ (by simp [Gate.qubits])) _ h

end PyZX
