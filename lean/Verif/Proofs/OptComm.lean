import Verif.Proofs.Circuit3

/-!
# Helper lemmas for `basic_optimization`: gates that commute
-/

namespace PyZX
namespace Optimize

open Complex

/-- How a gate acts on a qubit. -/
inductive Kd
  | z | x | h
  deriving DecidableEq

/-- How a gate acts on a qubit: like a phase gate, like a NOT, or like a Hadamard gate. -/
def kind : Gate → ℕ → Option Kd
  | .zrot _ t _ _, q => if q = t then some .z else none
  | .xrot _ t _ _, q => if q = t then some .x else none
  | .had t, q => if q = t then some .h else none
  | .cz c t, q => if q = c ∨ q = t then some .z else none
  | .cnot c t, q => if q = c then some .z else if q = t then some .x else none
  | _, _ => none

/-- The gates that are placed, and NOT gates. -/
def Placed : Gate → Prop
  | .zrot _ _ _ _ => True
  | .xrot c _ p _ => c = .not ∧ p = 1
  | .had _ => True
  | .cz c t => c ≠ t
  | .cnot c t => c ≠ t
  | _ => False

/-- The two gates do not commute because of a qubit. -/
def DepAt (q : ℕ) (a b : Gate) : Prop := ∃ k l, kind a q = some k ∧ kind b q = some l ∧ (k ≠ l ∨ k = .h)

theorem DepAt.symm {q : ℕ} {a b : Gate} (h : DepAt q a b) : DepAt q b a := by
  obtain ⟨k, l, h1, h2, h3⟩ := h
  refine ⟨l, k, h2, h1, ?_⟩
  rcases h3 with h3 | h3
  · exact Or.inl (Ne.symm h3)
  · by_cases e : l = k
    · right; rw [e, h3]
    · left; exact e

theorem mem_qubits_iff {g : Gate} (h : Placed g) (q : ℕ) : q ∈ g.qubits ↔ kind g q ≠ none := by
  cases g <;> simp only [Placed] at h <;> simp only [Gate.qubits, kind, List.mem_cons, List.not_mem_nil, or_false]
  case zrot => split <;> simp_all
  case xrot => split <;> simp_all
  case had => split <;> simp_all
  case cz => split <;> simp_all
  case cnot c t =>
    by_cases h1 : q = c
    · simp [h1]
    · by_cases h2 : q = t
      · rw [if_neg h1, if_pos h2]; simp [h2]
      · simp [h1, h2]

theorem placed_nodup {g : Gate} (h : Placed g) : g.qubits.Nodup := by
  cases g <;> simp only [Placed] at h <;> simp [Gate.qubits, h]

theorem not_apply (t : ℕ) (ψ : QState) (x : ℕ → Bool) : on1 (matX 1) t ψ x = ψ (Function.update x t (!x t)) := by
  rw [on1_apply]
  rcases hx : x t with _ | _ <;> simp [matX, mat2, ph_one]

theorem upd_ne {x : ℕ → Bool} {t q : ℕ} {b : Bool} (h : q ≠ t) : Function.update x t b q = x q := Function.update_of_ne h _ _

theorem on1_comm {t s : ℕ} (h : t ≠ s) (U V : Matrix Bool Bool ℂ) (ψ : QState) : on1 U t (on1 V s ψ) = on1 V s (on1 U t ψ) := by
  funext x
  simp only [on1_apply, upd_ne h, upd_ne h.symm]
  have e : ∀ a b, Function.update (Function.update x t a) s b = Function.update (Function.update x s b) t a := fun a b =>
    Function.update_comm h _ _ _
  simp only [e]
  ring

theorem on1_ctrl_comm {t c s : ℕ} (h1 : t ≠ c) (h : t ≠ s) (U V : Matrix Bool Bool ℂ) (ψ : QState) :
    on1 U t (ctrl V c s ψ) = ctrl V c s (on1 U t ψ) := by
  have e2 := on1_comm h U V ψ
  funext x
  have e3 := congrFun e2 x
  simp only [ctrl, on1_apply, upd_ne h1.symm] at e3 ⊢
  split
  · exact e3
  · rfl

theorem sem_zrot_apply (cls : ZCls) (t : ℕ) (p : ℚ) (adj : Bool) (ψ : QState) (x : ℕ → Bool) :
    (Gate.zrot cls t p adj).sem ψ x = (if x t then ph p else 1) * ψ x := on1Z_apply p t ψ x

theorem sem_cz_apply (c t : ℕ) (ψ : QState) (x : ℕ → Bool) : (Gate.cz c t).sem ψ x = (if x c && x t then -1 else 1) * ψ x := by
  change ctrl (mat2 1 0 0 (-1)) c t ψ x = _
  rw [ctrl, on1_apply]
  rcases hc : x c with _ | _
  · simp
  · rcases ht : x t with _ | _
    · have : Function.update x t false = x := by rw [← ht]; exact Function.update_eq_self t x
      simp [mat2, this]
    · have : Function.update x t true = x := by rw [← ht]; exact Function.update_eq_self t x
      simp [mat2, this]

theorem sem_cnot_apply (c t : ℕ) (ψ : QState) (x : ℕ → Bool) : (Gate.cnot c t).sem ψ x = ψ (Function.update x t (xor (x t) (x c))) :=
  cnot_apply c t ψ x

theorem sem_not_apply (adj : Bool) (t : ℕ) (ψ : QState) (x : ℕ → Bool) : (Gate.xrot .not t 1 adj).sem ψ x = ψ (Function.update x t (!x t)) :=
  not_apply t ψ x

theorem comm_zz (cls cls' : ZCls) (t s : ℕ) (p p' : ℚ) (adj adj' : Bool) (ψ : QState) :
    (Gate.zrot cls t p adj).sem ((Gate.zrot cls' s p' adj').sem ψ) = (Gate.zrot cls' s p' adj').sem ((Gate.zrot cls t p adj).sem ψ) := by
  funext x; simp only [sem_zrot_apply]; ring

theorem comm_zcz (cls : ZCls) (t c s : ℕ) (p : ℚ) (adj : Bool) (ψ : QState) :
    (Gate.zrot cls t p adj).sem ((Gate.cz c s).sem ψ) = (Gate.cz c s).sem ((Gate.zrot cls t p adj).sem ψ) := by
  funext x; simp only [sem_zrot_apply, sem_cz_apply]; ring

theorem comm_czcz (c t c' t' : ℕ) (ψ : QState) : (Gate.cz c t).sem ((Gate.cz c' t').sem ψ) = (Gate.cz c' t').sem ((Gate.cz c t).sem ψ) := by
  funext x; simp only [sem_cz_apply]; ring

theorem comm_zcnot (cls : ZCls) {t c s : ℕ} (h : t ≠ s) (p : ℚ) (adj : Bool) (ψ : QState) :
    (Gate.zrot cls t p adj).sem ((Gate.cnot c s).sem ψ) = (Gate.cnot c s).sem ((Gate.zrot cls t p adj).sem ψ) := by
  funext x; simp only [sem_zrot_apply, sem_cnot_apply, upd_ne h]

theorem comm_znot (cls : ZCls) {t s : ℕ} (h : t ≠ s) (p : ℚ) (adj adj' : Bool) (ψ : QState) :
    (Gate.zrot cls t p adj).sem ((Gate.xrot .not s 1 adj').sem ψ) = (Gate.xrot .not s 1 adj').sem ((Gate.zrot cls t p adj).sem ψ) := by
  funext x; simp only [sem_zrot_apply, sem_not_apply, upd_ne h]

theorem comm_czcnot {a b c s : ℕ} (h : a ≠ s) (h' : b ≠ s) (ψ : QState) :
    (Gate.cz a b).sem ((Gate.cnot c s).sem ψ) = (Gate.cnot c s).sem ((Gate.cz a b).sem ψ) := by
  funext x; simp only [sem_cz_apply, sem_cnot_apply, upd_ne h, upd_ne h']

theorem comm_cznot {a b s : ℕ} (h : a ≠ s) (h' : b ≠ s) (adj : Bool) (ψ : QState) :
    (Gate.cz a b).sem ((Gate.xrot .not s 1 adj).sem ψ) = (Gate.xrot .not s 1 adj).sem ((Gate.cz a b).sem ψ) := by
  funext x; simp only [sem_cz_apply, sem_not_apply, upd_ne h, upd_ne h']

theorem comm_notnot (t s : ℕ) (adj adj' : Bool) (ψ : QState) :
    (Gate.xrot .not t 1 adj).sem ((Gate.xrot .not s 1 adj').sem ψ) = (Gate.xrot .not s 1 adj').sem ((Gate.xrot .not t 1 adj).sem ψ) := by
  by_cases h : t = s
  · subst h; rfl
  · exact on1_comm h _ _ ψ

theorem comm_notcnot {t c s : ℕ} (h : t ≠ c) (adj : Bool) (ψ : QState) :
    (Gate.xrot .not t 1 adj).sem ((Gate.cnot c s).sem ψ) = (Gate.cnot c s).sem ((Gate.xrot .not t 1 adj).sem ψ) := by
  by_cases e : t = s
  · subst e
    funext x
    simp only [sem_not_apply, sem_cnot_apply, upd_ne h.symm, Function.update_self, Function.update_idem]
    congr 2
    rcases x t <;> rcases x c <;> rfl
  · exact on1_ctrl_comm h e _ _ ψ

theorem comm_cnotcnot {c t d s : ℕ} (h : c ≠ s) (h' : d ≠ t) (ψ : QState) :
    (Gate.cnot c t).sem ((Gate.cnot d s).sem ψ) = (Gate.cnot d s).sem ((Gate.cnot c t).sem ψ) := by
  funext x
  by_cases e : t = s
  · subst e
    simp only [sem_cnot_apply, upd_ne h, upd_ne h', Function.update_self, Function.update_idem]
    congr 2
    rcases x t <;> rcases x c <;> rcases x d <;> rfl
  · simp only [sem_cnot_apply, upd_ne h, upd_ne h', upd_ne e, upd_ne (Ne.symm e)]
    rw [Function.update_comm e]

/-- Gates commute unless they depend on each other at a qubit. -/
theorem comm {a b : Gate} (ha : Placed a) (hb : Placed b) (h : ∀ q, ¬ DepAt q a b) (ψ : QState) : b.sem (a.sem ψ) = a.sem (b.sem ψ) := by
  have nd : ∀ q k l, kind a q = some k → kind b q = some l → k = l ∧ k ≠ .h := by
    intro q k l h1 h2
    by_contra hc
    refine h q ⟨k, l, h1, h2, ?_⟩
    by_cases e : k = l
    · right; by_contra e2; exact hc ⟨e, e2⟩
    · exact Or.inl e
  clear h
  cases a with
  | zrot cls t p adj =>
    have ka : kind (.zrot cls t p adj) t = some .z := by simp [kind]
    cases b <;> simp only [Placed] at hb
    case zrot => exact comm_zz _ _ _ _ _ _ _ _ ψ
    case cz => exact (comm_zcz _ _ _ _ _ _ ψ).symm
    case cnot c s =>
      refine (comm_zcnot _ (fun e => ?_) _ _ ψ).symm
      subst e
      have := (nd t _ .x ka (by simp [kind, Ne.symm hb])).1
      cases this
    case xrot cls' s p' adj' =>
      obtain ⟨rfl, rfl⟩ := hb
      refine (comm_znot _ (fun e => ?_) _ _ _ ψ).symm
      subst e
      have := (nd t _ .x ka (by simp [kind])).1
      cases this
    case had s =>
      refine on1_comm (fun e => ?_) _ _ ψ
      subst e
      have := (nd s _ .h ka (by simp [kind])).1
      cases this
  | had t =>
    have ka : kind (.had t) t = some .h := by simp [kind]
    have hb' : kind b t = none := by
      rcases hk : kind b t with _ | k
      · rfl
      · exact absurd rfl (nd t _ k ka hk).2
    have hq : t ∉ b.qubits := fun hm => (mem_qubits_iff hb t).mp hm hb'
    cases b <;> simp only [Placed] at hb <;> simp only [Gate.qubits, List.mem_cons, List.not_mem_nil, or_false, not_or] at hq
    case zrot => exact on1_comm (Ne.symm hq) _ _ ψ
    case xrot => exact on1_comm (Ne.symm hq) _ _ ψ
    case had => exact on1_comm (Ne.symm hq) _ _ ψ
    case cz => exact (on1_ctrl_comm hq.1 hq.2 _ _ ψ).symm
    case cnot => exact (on1_ctrl_comm hq.1 hq.2 _ _ ψ).symm
  | xrot cls t p adj =>
    obtain ⟨rfl, rfl⟩ := ha
    have ka : kind (.xrot .not t 1 adj) t = some .x := by simp [kind]
    cases b <;> simp only [Placed] at hb
    case zrot cls' s p' adj' =>
      refine comm_znot _ (fun e => ?_) _ _ _ ψ
      subst e
      have := (nd s _ .z ka (by simp [kind])).1
      cases this
    case xrot cls' s p' adj' =>
      obtain ⟨rfl, rfl⟩ := hb
      exact comm_notnot _ _ _ _ ψ
    case had s =>
      refine on1_comm (fun e => ?_) _ _ ψ
      subst e
      have := (nd s _ .h ka (by simp [kind])).1
      cases this
    case cz c s =>
      refine comm_cznot (fun e => ?_) (fun e => ?_) _ ψ <;> subst e
      · have := (nd c _ .z ka (by simp [kind])).1
        cases this
      · have := (nd s _ .z ka (by simp [kind])).1
        cases this
    case cnot c s =>
      refine (comm_notcnot (fun e => ?_) _ ψ).symm
      subst e
      have := (nd t _ .z ka (by simp [kind])).1
      cases this
  | cz c t =>
    simp only [Placed] at ha
    have kc : kind (.cz c t) c = some .z := by simp [kind]
    have kt : kind (.cz c t) t = some .z := by simp [kind]
    cases b <;> simp only [Placed] at hb
    case zrot => exact comm_zcz _ _ _ _ _ _ ψ
    case cz => exact comm_czcz _ _ _ _ ψ
    case cnot d s =>
      have ks : kind (.cnot d s) s = some .x := by simp [kind, Ne.symm hb]
      refine (comm_czcnot (fun e => ?_) (fun e => ?_) ψ).symm <;> subst e
      · have := (nd _ _ _ kc ks).1; cases this
      · have := (nd _ _ _ kt ks).1; cases this
    case xrot cls' s p' adj' =>
      obtain ⟨rfl, rfl⟩ := hb
      have ks : kind (.xrot .not s 1 adj') s = some .x := by simp [kind]
      refine (comm_cznot (fun e => ?_) (fun e => ?_) _ ψ).symm <;> subst e
      · have := (nd _ _ _ kc ks).1; cases this
      · have := (nd _ _ _ kt ks).1; cases this
    case had s =>
      have ks : kind (.had s) s = some .h := by simp [kind]
      refine on1_ctrl_comm (fun e => ?_) (fun e => ?_) _ _ ψ <;> subst e
      · have := (nd _ _ _ kc ks).1; cases this
      · have := (nd _ _ _ kt ks).1; cases this
  | cnot c t =>
    simp only [Placed] at ha
    have kc : kind (.cnot c t) c = some .z := by simp [kind]
    have kt : kind (.cnot c t) t = some .x := by simp [kind, Ne.symm ha]
    cases b <;> simp only [Placed] at hb
    case zrot cls s p adj =>
      have ks : kind (.zrot cls s p adj) s = some .z := by simp [kind]
      refine comm_zcnot _ (fun e => ?_) _ _ ψ
      subst e
      have := (nd _ _ _ kt ks).1; cases this
    case cz d s =>
      have kd : kind (.cz d s) d = some .z := by simp [kind]
      have ks : kind (.cz d s) s = some .z := by simp [kind]
      refine comm_czcnot (fun e => ?_) (fun e => ?_) ψ <;> subst e
      · have := (nd _ _ _ kt kd).1; cases this
      · have := (nd _ _ _ kt ks).1; cases this
    case cnot d s =>
      have kd : kind (.cnot d s) d = some .z := by simp [kind]
      have ks : kind (.cnot d s) s = some .x := by simp [kind, Ne.symm hb]
      refine (comm_cnotcnot (fun e => ?_) (fun e => ?_) ψ).symm <;> subst e
      · have := (nd _ _ _ kc ks).1; cases this
      · have := (nd _ _ _ kt kd).1; cases this
    case xrot cls' s p' adj' =>
      obtain ⟨rfl, rfl⟩ := hb
      have ks : kind (.xrot .not s 1 adj') s = some .x := by simp [kind]
      refine comm_notcnot (fun e => ?_) _ ψ
      subst e
      have := (nd _ _ _ kc ks).1; cases this
    case had s =>
      have ks : kind (.had s) s = some .h := by simp [kind]
      refine on1_ctrl_comm (fun e => ?_) (fun e => ?_) _ _ ψ <;> subst e
      · have := (nd _ _ _ kc ks).1; cases this
      · have := (nd _ _ _ kt ks).1; cases this
  | _ => exact absurd ha (by simp [Placed])

end Optimize
end PyZX
