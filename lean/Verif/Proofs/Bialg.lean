import Verif.Proofs.StrongComp
import Verif.Proofs.Match
import Verif.Sem.Groups
import Verif.Sem.Total
import Verif.Model.Bialg

/-!
# The bialgebra rule

`bialg` does not record the scalar of the rewrite. It multiplies the tensor by `√2 ^ (-(n - 1) (m - 1))` for a match with `n` and `m`
outer neighbours.
-/

namespace PyZX
open Finset

namespace Graph

/-- A list of independent bialgebra matches all of whose edges are simple. -/
structure BialgOK (g : Graph) (ms : List Rules.BialgMatch) : Prop where
  adj : ∀ m ∈ ms, g.adj m.v0 m.v1 = some .simple
  ty : ∀ m ∈ ms, (g.ty m.v0 = .Z ∧ g.ty m.v1 = .X) ∨ (g.ty m.v0 = .X ∧ g.ty m.v1 = .Z)
  phase : ∀ m ∈ ms, g.phase m.v0 = 0 ∧ g.phase m.v1 = 0
  n0 : ∀ m ∈ ms, m.n0.Nodup ∧ m.n0.toFinset = (g.nbrs m.v0).erase m.v1
  n1 : ∀ m ∈ ms, m.n1.Nodup ∧ m.n1.toFinset = (g.nbrs m.v1).erase m.v0
  nt0 : ∀ m ∈ ms, ∀ n ∈ m.n0, g.ty n = g.ty m.v1 ∧ g.adj m.v0 n = some .simple
  nt1 : ∀ m ∈ ms, ∀ n ∈ m.n1, g.ty n = g.ty m.v0 ∧ g.adj m.v1 n = some .simple
  indep : ms.Pairwise fun m m' => ∀ a ∈ [m.v0, m.v1], ∀ b ∈ [m'.v0, m'.v1], a ≠ b ∧ g.adj a b = none

/-- The exponent of `√2` by which `bialg` changes the scalar. -/
def bialgPow (ms : List Rules.BialgMatch) : ℤ := (ms.map fun m => -(((m.n0.length : ℤ) - 1) * ((m.n1.length : ℤ) - 1))).sum

def bialgG (m : Rules.BialgMatch) : Finset ℕ := {m.v0, m.v1}

/-- The factor of the new edges. -/
noncomputable def bialgF (m : Rules.BialgMatch) (x : ℕ → Bool) : ℂ := ∏ n ∈ m.n0.toFinset, ∏ k ∈ m.n1.toFinset, hmat (x n) (x k)

theorem bialg_local {g : Graph} (hg : g.WF) {ms : List Rules.BialgMatch} (h : BialgOK g ms) {m : Rules.BialgMatch} (hm : m ∈ ms)
    {U : Finset ℕ} (hU : ∀ u ∈ m.n0, u ∈ U) (hU' : ∀ u ∈ m.n1, u ∈ U) (hd : Disjoint U (bialgG m)) (x : ℕ → Bool) :
    psum (bialgG m) (fun x => g.grpW U (bialgG m) x * 1) x =
      sq2 ^ (((m.n0.length : ℤ) - 1) * ((m.n1.length : ℤ) - 1)) * bialgF m x := by
  have hadj := h.adj m hm
  have hne : m.v0 ≠ m.v1 := by
    intro e; rw [e, hg.loopless] at hadj; simp at hadj
  have hty := h.ty m hm
  have v0U : m.v0 ∉ U := fun hh => Finset.disjoint_left.mp hd hh (by simp [bialgG])
  have v1U : m.v1 ∉ U := fun hh => Finset.disjoint_left.mp hd hh (by simp [bialgG])
  -- both spiders have phase 0
  have hval : g.vval m.v0 = 1 ∧ g.vval m.v1 = 1 := by
    obtain ⟨p0, p1⟩ := h.phase m hm
    unfold vval
    rw [p0, p1]
    rcases hty with ⟨a, b⟩ | ⟨a, b⟩ <;> rw [a, b] <;> simp
  have hK : ∀ (v : ℕ) (ns : List ℕ), v ∉ U → (∀ u ∈ ns, u ∈ U) → (∀ n ∈ ns, ∀ y, g.edgeK y v n = hmat (y v) (y n)) →
      (∀ u ∈ U, u ∉ ns → g.adj v u = none) → ∀ y, ∏ u ∈ U, g.edgeK y v u = ∏ u ∈ ns.toFinset, hmat (y v) (y u) := by
    intro v ns _ h1 h2 h3 y
    rw [← Finset.prod_subset (s₁ := ns.toFinset) (fun u hu => h1 u (List.mem_toFinset.mp hu)) fun u hu hnu =>
      edgeK_none (h3 u hu (by simpa using hnu))]
    exact Finset.prod_congr rfl fun u hu => h2 u (List.mem_toFinset.mp hu) y
  have e0 : ∀ n ∈ m.n0, ∀ y, g.edgeK y m.v0 n = hmat (y m.v0) (y n) := by
    intro n hn y
    obtain ⟨t, a⟩ := h.nt0 m hm n hn
    rw [edgeK_some a]
    have : g.eff m.v0 n .simple = true := by
      unfold eff isX; rw [t]; rcases hty with ⟨a, b⟩ | ⟨a, b⟩ <;> rw [a, b] <;> rfl
    rw [this]; rfl
  have e1 : ∀ n ∈ m.n1, ∀ y, g.edgeK y m.v1 n = hmat (y m.v1) (y n) := by
    intro n hn y
    obtain ⟨t, a⟩ := h.nt1 m hm n hn
    rw [edgeK_some a]
    have : g.eff m.v1 n .simple = true := by
      unfold eff isX; rw [t]; rcases hty with ⟨a, b⟩ | ⟨a, b⟩ <;> rw [a, b] <;> rfl
    rw [this]; rfl
  have o0 : ∀ u ∈ U, u ∉ m.n0 → g.adj m.v0 u = none := by
    intro u hu hn
    by_contra hne'
    refine hn ?_
    have : u ∈ m.n0.toFinset := by
      rw [(h.n0 m hm).2]
      exact Finset.mem_erase.mpr ⟨fun e => v1U (e ▸ hu), (mem_nbrs hg.toInv).mpr hne'⟩
    simpa using this
  have o1 : ∀ u ∈ U, u ∉ m.n1 → g.adj m.v1 u = none := by
    intro u hu hn
    by_contra hne'
    refine hn ?_
    have : u ∈ m.n1.toFinset := by
      rw [(h.n1 m hm).2]
      exact Finset.mem_erase.mpr ⟨fun e => v0U (e ▸ hu), (mem_nbrs hg.toInv).mpr hne'⟩
    simpa using this
  obtain ⟨P, hP⟩ := exists_par_fin m.n0.toFinset x
  obtain ⟨Q, hQ⟩ := exists_par_fin m.n1.toFinset x
  have c0 : m.n0.toFinset.card = m.n0.length := List.toFinset_card_of_nodup (h.n0 m hm).1
  have c1 : m.n1.toFinset.card = m.n1.length := List.toFinset_card_of_nodup (h.n1 m hm).1
  have hx : g.eff m.v0 m.v1 .simple = true := by
    unfold eff isX; rcases hty with ⟨a, b⟩ | ⟨a, b⟩ <;> rw [a, b] <;> rfl
  have hw : ∀ s t, g.grpW U (bialgG m) (Function.update (Function.update x m.v0 s) m.v1 t) =
      hmat s t * (((sq2⁻¹) ^ m.n0.length * sgn (s && P)) * ((sq2⁻¹) ^ m.n1.length * sgn (t && Q))) := by
    intro s t
    set y := Function.update (Function.update x m.v0 s) m.v1 t with hy
    have y1 : y m.v0 = s := by rw [hy, Function.update_of_ne hne, Function.update_self]
    have y2 : y m.v1 = t := by rw [hy, Function.update_self]
    have yo : ∀ u ∈ U, y u = x u := fun u hu => by
      rw [hy, Function.update_of_ne (fun (e : u = m.v1) => v1U (e ▸ hu)), Function.update_of_ne (fun (e : u = m.v0) => v0U (e ▸ hu))]
    unfold grpW bialgG
    rw [Finset.prod_pair hne, Finset.prod_pair hne, hK m.v0 m.n0 v0U hU e0 o0, hK m.v1 m.n1 v1U hU' e1 o1]
    have q1 : ∏ u ∈ m.n0.toFinset, hmat (y m.v0) (y u) = (sq2⁻¹) ^ m.n0.length * sgn (s && P) := by
      rw [y1, ← c0, ← prod_hmat_fin hP]
      exact Finset.prod_congr rfl fun u hu => by rw [yo u (hU u (List.mem_toFinset.mp hu))]
    have q2 : ∏ u ∈ m.n1.toFinset, hmat (y m.v1) (y u) = (sq2⁻¹) ^ m.n1.length * sgn (t && Q) := by
      rw [y2, ← c1, ← prod_hmat_fin hQ]
      exact Finset.prod_congr rfl fun u hu => by rw [yo u (hU' u (List.mem_toFinset.mp hu))]
    have q3 : pairProd {m.v0, m.v1} (g.edgeK y) = hmat s t := by
      rw [show ({m.v0, m.v1} : Finset ℕ) = insert m.v0 {m.v1} from rfl, pairProd_insert (by simpa using hne) (edgeK_comm hg.symm y),
        show ({m.v1} : Finset ℕ) = insert m.v1 ∅ from rfl, pairProd_insert (by simp) (edgeK_comm hg.symm y)]
      simp only [Finset.prod_insert (Finset.notMem_empty _), Finset.prod_empty, mul_one, pairProd_empty, edgeK_some hadj, hx, y1, y2]
      rfl
    rw [q1, q2, q3]
    unfold vwt
    rw [hval.1, hval.2]
    simp
  have hF : bialgF m x = (sq2⁻¹) ^ (m.n0.length * m.n1.length) * sgn (P && Q) := by
    unfold bialgF
    rw [prod_hmat_fin₂ hP hQ, c0, c1]
  rw [hF]
  simp only [mul_one]
  have hset : bialgG m = insert m.v0 (insert m.v1 ∅) := rfl
  have hps : psum (bialgG m) (g.grpW U (bialgG m)) x = ∑ s : Bool, ∑ t : Bool, g.grpW U (bialgG m) (Function.update (Function.update x m.v0 s) m.v1 t) := by
    conv_lhs => rw [hset]
    rw [psum_insert_env (by simpa using hne), psum_insert_env (by simp), psum_insert_env (by simp)]
    simp only [psum_empty, Fintype.sum_bool]
    rw [← hset]
    ring
  show psum (bialgG m) (g.grpW U (bialgG m)) x = _
  rw [hps]
  simp only [hw, Fintype.sum_bool]
  have e := Basic.sq2_pow_bialg m.n0.length m.n1.length
  have hpow : ∀ n : ℕ, sq2 ^ n * (sq2⁻¹) ^ n = 1 := fun n => by rw [← mul_pow, mul_inv_cancel₀ sq2_ne_zero, one_pow]
  have h0 := hpow m.n0.length
  have h1 := hpow m.n1.length
  generalize sq2 ^ (((m.n0.length : ℤ) - 1) * ((m.n1.length : ℤ) - 1)) = p at e ⊢
  generalize sq2⁻¹ ^ (m.n0.length * m.n1.length) = q at e ⊢
  generalize sq2⁻¹ ^ m.n0.length = a at h0 ⊢
  generalize sq2⁻¹ ^ m.n1.length = b at h1 ⊢
  have key : p * q = 2 * sq2⁻¹ * a * b := by
    have : p * (2⁻¹ * q) * (sq2 ^ m.n0.length * sq2 ^ m.n1.length) * (a * b) = sq2⁻¹ * (a * b) := by rw [e]
    have h3 : p * (2⁻¹ * q) * (sq2 ^ m.n0.length * sq2 ^ m.n1.length) * (a * b) =
        2⁻¹ * (p * q) * ((sq2 ^ m.n0.length * a) * (sq2 ^ m.n1.length * b)) := by ring
    rw [h3, h0, h1] at this
    have h2 : (2 : ℂ) * (2⁻¹ * (p * q) * (1 * 1)) = 2 * (sq2⁻¹ * (a * b)) := by rw [this]
    have h4 : (2 : ℂ) * (2⁻¹ * (p * q) * (1 * 1)) = p * q := by ring
    rw [h4] at h2
    rw [h2]; ring
  have fin : ∀ P Q : Bool, (∑ s : Bool, ∑ t : Bool, hmat s t * (a * sgn (s && P) * (b * sgn (t && Q)))) = p * (q * sgn (P && Q)) := by
    intro P Q
    rw [← mul_assoc, key]
    simp only [Fintype.sum_bool]
    cases P <;> cases Q <;> simp [hmat, sgn] <;> ring
  have := fin P Q
  simp only [Fintype.sum_bool] at this
  exact this

theorem tableK_bialg (g : Graph) (x : ℕ → Bool) (es : List (ℕ × ℕ)) (t : ETab) :
    g.tableK x (es.foldl (fun t e => ETab.incr t e .simple) t) =
      g.tableK x t * (es.map fun p => kern (g.eff p.1 p.2 .simple) (x p.1) (x p.2)).prod := by
  induction es generalizing t with
  | nil => simp
  | cons e es ih => rw [List.foldl_cons, ih, tableK_incr _ _ _ _ (by simp), List.map_cons, List.prod_cons]; ring

theorem keys_incr {t : ETab} {k : ℕ × ℕ} {e : EType} {P : ℕ × ℕ → Prop} (hk : P k) (h : ∀ e ∈ t, P e.1) : ∀ f ∈ ETab.incr t k e, P f.1 := by
  unfold ETab.incr
  induction t with
  | nil => intro f hf; simp only [ETab.upd, List.mem_singleton] at hf; rw [hf]; exact hk
  | cons a t ih =>
    intro f hf
    simp only [ETab.upd] at hf
    split at hf
    · rcases List.mem_cons.mp hf with rfl | hf
      · exact h a (by simp)
      · exact h f (by simp [hf])
    · rcases List.mem_cons.mp hf with hf | hf
      · rw [hf]; exact h a (by simp)
      · exact ih (fun e he => h e (by simp [he])) f hf

theorem keys_bialg {P : ℕ × ℕ → Prop} (es : List (ℕ × ℕ)) (t : ETab) (h : ∀ e ∈ t, P e.1) (he : ∀ e ∈ es, P e) :
    ∀ f ∈ es.foldl (fun t e => ETab.incr t e .simple) t, P f.1 := by
  induction es generalizing t with
  | nil => exact h
  | cons e es ih =>
    rw [List.foldl_cons]
    exact ih _ (keys_incr (he e (by simp)) h) fun e' h' => he e' (by simp [h'])

theorem bialg_mem {g : Graph} (hg : g.WF) {ms : List Rules.BialgMatch} (h : BialgOK g ms) {m : Rules.BialgMatch} (hm : m ∈ ms) :
    m.v0 ∈ g.verts ∧ m.v1 ∈ g.verts ∧ m.v0 ≠ m.v1 ∧ g.ty m.v0 ≠ .boundary ∧ g.ty m.v1 ≠ .boundary := by
  obtain ⟨a, b, c, -, -⟩ := hg.edge (h.adj m hm)
  refine ⟨a, b, c, ?_, ?_⟩ <;> rcases h.ty m hm with ⟨p, q⟩ | ⟨p, q⟩ <;> simp [p, q]

theorem bialg_notMem {g : Graph} (hg : g.WF) {ms : List Rules.BialgMatch} (h : BialgOK g ms) {m m' : Rules.BialgMatch} (hm : m ∈ ms) (hm' : m' ∈ ms)
    {u : ℕ} (hu : u ∈ m.n0 ∨ u ∈ m.n1) : u ≠ m'.v0 ∧ u ≠ m'.v1 := by
  have hadj : (g.adj m.v0 u ≠ none ∧ u ≠ m.v1) ∨ (g.adj m.v1 u ≠ none ∧ u ≠ m.v0) := by
    rcases hu with hu | hu
    · left
      have : u ∈ m.n0.toFinset := by simpa using hu
      rw [(h.n0 m hm).2] at this
      obtain ⟨q1, q2⟩ := Finset.mem_erase.mp this
      exact ⟨(mem_nbrs hg.toInv).mp q2, q1⟩
    · right
      have : u ∈ m.n1.toFinset := by simpa using hu
      rw [(h.n1 m hm).2] at this
      obtain ⟨q1, q2⟩ := Finset.mem_erase.mp this
      exact ⟨(mem_nbrs hg.toInv).mp q2, q1⟩
  have key : ∀ b ∈ [m'.v0, m'.v1], u ≠ b := by
    rintro b hb rfl
    have hp := List.pairwise_iff_getElem.mp h.indep
    obtain ⟨i, hi, e1⟩ := List.getElem_of_mem hm
    obtain ⟨j, hj, e2⟩ := List.getElem_of_mem hm'
    rcases lt_trichotomy i j with hlt | rfl | hlt
    · have := hp i j hi hj hlt
      rw [e1, e2] at this
      rcases hadj with ⟨q, -⟩ | ⟨q, -⟩
      · exact q (this m.v0 (by simp) u hb).2
      · exact q (this m.v1 (by simp) u hb).2
    · have : m = m' := e1.symm.trans e2
      subst this
      simp only [List.mem_cons, List.not_mem_nil, or_false] at hb
      rcases hadj with ⟨q1, q2⟩ | ⟨q1, q2⟩
      · rcases hb with hb | hb
        · rw [hb, hg.loopless] at q1; exact q1 rfl
        · exact q2 hb
      · rcases hb with hb | hb
        · exact q2 hb
        · rw [hb, hg.loopless] at q1; exact q1 rfl
    · have := hp j i hj hi hlt
      rw [e1, e2] at this
      rcases hadj with ⟨q, -⟩ | ⟨q, -⟩
      · exact q (by rw [hg.symm]; exact (this u hb m.v0 (by simp)).2)
      · exact q (by rw [hg.symm]; exact (this u hb m.v1 (by simp)).2)
  exact ⟨key _ (by simp), key _ (by simp)⟩

/-- All vertices removed by the matches. -/
def bialgRem (ms : List Rules.BialgMatch) : List ℕ := ms.flatMap fun m => [m.v0, m.v1]

theorem bialgRem_unions (ms : List Rules.BialgMatch) : (bialgRem ms).toFinset = unions ms bialgG := by
  ext v; simp [bialgRem, mem_unions, bialgG]

theorem bialg_fold {g : Graph} (hg : g.WF) {ms : List Rules.BialgMatch} (h : BialgOK g ms) :
    (Rules.bialg g ms).g = g ∧ (Rules.bialg g ms).remVerts = bialgRem ms ∧ (Rules.bialg g ms).remEdges = [] ∧
    (∀ e ∈ (Rules.bialg g ms).etab, (e.1.1 ∈ g.verts \ (bialgRem ms).toFinset ∧ e.1.2 ∈ g.verts \ (bialgRem ms).toFinset ∧ e.1.1 ≠ e.1.2) ∧
      g.ty e.1.1 ≠ .boundary ∧ g.ty e.1.2 ≠ .boundary) ∧
    ∀ x, g.tableK x (Rules.bialg g ms).etab = (ms.map fun m => bialgF m x).prod := by
  have gen : ∀ (l : List Rules.BialgMatch) (s : RewriteState), (∀ m ∈ l, m ∈ ms) →
      (∀ e ∈ s.etab, (e.1.1 ∈ g.verts \ (bialgRem ms).toFinset ∧ e.1.2 ∈ g.verts \ (bialgRem ms).toFinset ∧ e.1.1 ≠ e.1.2) ∧
        g.ty e.1.1 ≠ .boundary ∧ g.ty e.1.2 ≠ .boundary) →
      (l.foldl Rules.bialgStep s).g = s.g ∧ (l.foldl Rules.bialgStep s).remVerts = s.remVerts ++ bialgRem l ∧
      (l.foldl Rules.bialgStep s).remEdges = s.remEdges ∧
      (∀ e ∈ (l.foldl Rules.bialgStep s).etab, (e.1.1 ∈ g.verts \ (bialgRem ms).toFinset ∧ e.1.2 ∈ g.verts \ (bialgRem ms).toFinset ∧ e.1.1 ≠ e.1.2) ∧
        g.ty e.1.1 ≠ .boundary ∧ g.ty e.1.2 ≠ .boundary) ∧
      ∀ x, g.tableK x (l.foldl Rules.bialgStep s).etab = g.tableK x s.etab * (l.map fun m => bialgF m x).prod := by
    intro l
    induction l with
    | nil => intro s _ hs; exact ⟨rfl, by simp [bialgRem], rfl, hs, fun x => by simp⟩
    | cons m l ih =>
      intro s hl hs
      have hm := hl m (by simp)
      have hes : ∀ p, p ∈ (m.n0.flatMap fun i => m.n1.map fun j => (i, j)) ↔ p.1 ∈ m.n0 ∧ p.2 ∈ m.n1 := by
        intro p
        simp only [List.mem_flatMap, List.mem_map]
        constructor
        · rintro ⟨a, ha, b, hb, rfl⟩; exact ⟨ha, hb⟩
        · rintro ⟨ha, hb⟩; exact ⟨p.1, ha, p.2, hb, rfl⟩
      have hin : ∀ u, (u ∈ m.n0 ∨ u ∈ m.n1) → u ∈ g.verts \ (bialgRem ms).toFinset := by
        intro u hu
        rw [Finset.mem_sdiff]
        constructor
        · rcases hu with hu | hu
          · exact (hg.edge (h.nt0 m hm u hu).2).2.1
          · exact (hg.edge (h.nt1 m hm u hu).2).2.1
        · rw [bialgRem_unions, mem_unions]
          rintro ⟨m', hm', hh⟩
          have := bialg_notMem hg h hm hm' hu
          simp only [bialgG, Finset.mem_insert, Finset.mem_singleton] at hh
          tauto
      obtain ⟨-, -, -, hb0, hb1⟩ := bialg_mem hg h hm
      obtain ⟨i1, i2, i3, i4, i5⟩ := ih (Rules.bialgStep s m) (fun m' h' => hl m' (by simp [h'])) (by
        refine keys_bialg (P := fun k => (k.1 ∈ g.verts \ (bialgRem ms).toFinset ∧ k.2 ∈ g.verts \ (bialgRem ms).toFinset ∧ k.1 ≠ k.2) ∧
          g.ty k.1 ≠ .boundary ∧ g.ty k.2 ≠ .boundary) _ _ hs ?_
        intro p hp
        obtain ⟨ha, hb⟩ := (hes p).mp hp
        have t0 := (h.nt0 m hm _ ha).1
        have t1 := (h.nt1 m hm _ hb).1
        refine ⟨⟨hin _ (Or.inl ha), hin _ (Or.inr hb), ?_⟩, by rw [t0]; exact hb1, by rw [t1]; exact hb0⟩
        intro e
        rw [e, t1] at t0
        rcases h.ty m hm with ⟨a, b⟩ | ⟨a, b⟩ <;> rw [a, b] at t0 <;> simp at t0)
      rw [List.foldl_cons]
      refine ⟨i1, ?_, i3, i4, fun x => ?_⟩
      · rw [i2]
        simp [Rules.bialgStep, bialgRem]
      · rw [i5]
        have : g.tableK x (Rules.bialgStep s m).etab = g.tableK x s.etab * bialgF m x := by
          show g.tableK x (List.foldl _ s.etab _) = _
          rw [tableK_bialg]
          congr 1
          have hnd : (m.n0.flatMap fun i => m.n1.map fun j => (i, j)).Nodup := by
            have : (m.n0.flatMap fun i => m.n1.map fun j => (i, j)) = m.n0.product m.n1 := rfl
            rw [this]; exact (h.n0 m hm).1.product (h.n1 m hm).1
          unfold bialgF
          rw [← List.prod_toFinset _ hnd, ← Finset.prod_product']
          refine Finset.prod_congr ?_ fun p hp => ?_
          · ext p; rw [List.mem_toFinset, hes, Finset.mem_product, List.mem_toFinset, List.mem_toFinset]
          · obtain ⟨ha, hb⟩ := Finset.mem_product.mp hp
            have t0 := (h.nt0 m hm _ (List.mem_toFinset.mp ha)).1
            have t1 := (h.nt1 m hm _ (List.mem_toFinset.mp hb)).1
            have : g.eff p.1 p.2 .simple = true := by
              unfold eff isX
              rw [t0, t1]
              rcases h.ty m hm with ⟨a, b⟩ | ⟨a, b⟩ <;> rw [a, b] <;> rfl
            rw [this]; rfl
        rw [this, List.map_cons, List.prod_cons]
        ring
  obtain ⟨i1, i2, i3, i4, i5⟩ := gen ms (RewriteState.start g) (fun _ h => h) (by simp [RewriteState.start])
  refine ⟨i1, by simpa [RewriteState.start, Rules.bialg] using i2, i3, i4, fun x => ?_⟩
  rw [show Rules.bialg g ms = ms.foldl Rules.bialgStep (RewriteState.start g) from rfl, i5]
  simp [RewriteState.start]

/-- Applying the bialgebra rule multiplies the tensor by a power of `√2`. -/
theorem bialg_total {g : Graph} (hg : g.WF) (hb : g.BDeg) {ms : List Rules.BialgMatch} (h : BialgOK g ms) :
    ∃ g', (Rules.bialg g ms).finish = some g' ∧ Preserves (g.addPower (bialgPow ms)) g' ∧ g'.BDeg ∧
      g'.verts = g.verts \ (bialgRem ms).toFinset := by
  obtain ⟨f1, f2, f3, f4, f5⟩ := bialg_fold hg h
  set gs := g.addPower (bialgPow ms) with hgs
  have ws : gs.WF := hg.congr (hg.toInv.congr rfl rfl rfl rfl rfl rfl) rfl rfl rfl rfl rfl
  have hnd : (bialgRem ms).Nodup := by
    unfold bialgRem
    rw [List.nodup_flatMap]
    refine ⟨fun m hm => by simpa using (bialg_mem hg h hm).2.2.1, h.indep.imp fun {a b} hab => ?_⟩
    intro v hv hv'
    exact (hab v hv v hv').1 rfl
  have hvm : ∀ v ∈ bialgRem ms, v ∈ g.interior := by
    intro v hv
    obtain ⟨m, hm, hv⟩ := List.mem_flatMap.mp hv
    obtain ⟨a, b, -, c, d⟩ := bialg_mem hg h hm
    simp only [List.mem_cons, List.not_mem_nil, or_false] at hv
    rcases hv with rfl | rfl
    · exact Finset.mem_filter.mpr ⟨a, c⟩
    · exact Finset.mem_filter.mpr ⟨b, d⟩
  have hkeys : KeysIn (Rules.bialg g ms).etab (gs.verts \ (Rules.bialg g ms).remVerts.toFinset) := by
    rw [f2]; exact fun e he _ => (f4 e he).1
  obtain ⟨g', hfin, hbd⟩ := finish_total (g := gs) (s := Rules.bialg g ms) ws hb (by rw [f1]; exact hg) (by rw [f1]; rfl) (by rw [f1]; rfl)
    (fun v _ => by rw [f1]; exact Iff.rfl) hkeys (by
      intro b hbv hbt
      have h0 : tcount (Rules.bialg g ms).etab b = 0 := by
        unfold tcount
        rw [List.sum_eq_zero]
        intro n hn
        obtain ⟨e, he, rfl⟩ := List.mem_map.mp hn
        rw [if_neg]
        rintro (hh | hh)
        · exact (f4 e he).2.1 (hh ▸ hbt)
        · exact (f4 e he).2.2 (hh ▸ hbt)
      exact ⟨by omega, fun hne => absurd h0 hne⟩) (by rw [f3]; simp) (by rw [f3]; exact List.Pairwise.nil) (by rw [f3]; simp)
    (by rw [f2]; exact hnd) (by
      rw [f2]; intro v hv
      exact (Finset.mem_filter.mp (hvm v hv)).1)
  have := rule_sound (g := gs) ws hfin (by rw [f1]; exact hg) (by rw [f1]; rfl) (fun v _ => by rw [f1]; exact Iff.rfl) (by rw [f1]; rfl) (by rw [f1]; rfl)
    (by rw [f2]; intro v hv; exact hvm v (List.mem_toFinset.mp hv)) hkeys (by rw [f3]; simp) (by
      intro x
      rw [f1, f2, f5]
      set U := g.verts \ (bialgRem ms).toFinset with hU
      show psum _ gs.weight x = g.wOn U x * _
      have hsub : (bialgRem ms).toFinset ⊆ g.verts := fun v hv => (Finset.mem_filter.mp (hvm v (List.mem_toFinset.mp hv))).1
      have hverts : g.verts = U ∪ unions ms bialgG := by
        rw [← bialgRem_unions, hU, Finset.sdiff_union_of_subset hsub]
      have hwt : gs.weight = fun x => sq2 ^ bialgPow ms * (g.wOn (U ∪ unions ms bialgG) x * (ms.map fun _ => (1 : ℂ)).prod) := by
        funext y
        rw [weight_eq_wOn, hgs, wOn_addPower, ← hverts]
        simp only [List.map_const', List.prod_replicate, one_pow, mul_one]
        rw [mul_comm]; rfl
      have hUG : ∀ m ∈ ms, Disjoint U (bialgG m) := by
        intro m hm
        rw [Finset.disjoint_left]
        intro v hv hv'
        rw [hU, Finset.mem_sdiff, bialgRem_unions, mem_unions] at hv
        exact hv.2 ⟨m, hm, hv'⟩
      rw [bialgRem_unions, hwt, psum_const_mul, psum_groups hg.symm ms bialgG (fun _ _ => 1) hUG]
      · have hin : ∀ m ∈ ms, ∀ u, (u ∈ m.n0 ∨ u ∈ m.n1) → u ∈ U := by
          intro m hm u hu
          rw [hU, Finset.mem_sdiff]
          constructor
          · rcases hu with hu | hu
            · exact (hg.edge (h.nt0 m hm u hu).2).2.1
            · exact (hg.edge (h.nt1 m hm u hu).2).2.1
          · rw [bialgRem_unions, mem_unions]
            rintro ⟨m', hm', hh⟩
            have := bialg_notMem hg h hm hm' hu
            simp only [bialgG, Finset.mem_insert, Finset.mem_singleton] at hh
            tauto
        have hmap : (ms.map fun m => psum (bialgG m) (fun x => g.grpW U (bialgG m) x * 1) x) =
            ms.map fun m => sq2 ^ (((m.n0.length : ℤ) - 1) * ((m.n1.length : ℤ) - 1)) * bialgF m x :=
          List.map_congr_left fun m hm => bialg_local hg h hm (fun u hu => hin m hm u (Or.inl hu)) (fun u hu => hin m hm u (Or.inr hu)) (hUG m hm) x
        rw [hmap, List.prod_map_mul]
        have hpow : ∀ l : List Rules.BialgMatch, sq2 ^ bialgPow l * (l.map fun m => sq2 ^ (((m.n0.length : ℤ) - 1) * ((m.n1.length : ℤ) - 1))).prod = 1 := by
          intro l
          induction l with
          | nil => simp [bialgPow]
          | cons m l ih =>
            have : bialgPow (m :: l) = -(((m.n0.length : ℤ) - 1) * ((m.n1.length : ℤ) - 1)) + bialgPow l := by simp [bialgPow]
            rw [this, zpow_add₀ sq2_ne_zero, List.map_cons, List.prod_cons, zpow_neg]
            have hne : sq2 ^ (((m.n0.length : ℤ) - 1) * ((m.n1.length : ℤ) - 1)) ≠ 0 := zpow_ne_zero _ sq2_ne_zero
            generalize sq2 ^ (((m.n0.length : ℤ) - 1) * ((m.n1.length : ℤ) - 1)) = p at hne ⊢
            rw [mul_mul_mul_comm, inv_mul_cancel₀ hne, one_mul, ih]
        calc _ = g.wOn U x * (ms.map fun m => bialgF m x).prod *
              (sq2 ^ bialgPow ms * (ms.map fun m => sq2 ^ (((m.n0.length : ℤ) - 1) * ((m.n1.length : ℤ) - 1))).prod) := by ring
          _ = _ := by rw [hpow, mul_one]
      · refine h.indep.imp fun {i j} hij => ⟨?_, ?_⟩
        · rw [Finset.disjoint_left]
          intro v hv hw
          simp only [bialgG, Finset.mem_insert, Finset.mem_singleton] at hv hw
          exact (hij v (by simpa using hv) v (by simpa using hw)).1 rfl
        · intro v hv w hw
          simp only [bialgG, Finset.mem_insert, Finset.mem_singleton] at hv hw
          exact (hij v (by simpa using hv) w (by simpa using hw)).2
      · exact h.indep.imp fun _ => ⟨fun _ _ _ => rfl, fun _ _ _ => rfl⟩)
  rw [f2] at this
  exact ⟨g', hfin, this.1, hbd this.1, this.2⟩

/-- The matcher returns independent matches, of simple edges if the diagram has only simple edges. -/
theorem matchBialg_ok {g : Graph} (hg : g.WF) {ord : ℕ → List ℕ} (ho : Rules.NbrOrder g ord)
    (hs : ∀ u v, g.adj u v ≠ none → g.adj u v = some .simple) {cands : List (ℕ × ℕ)} (hn : cands.Nodup)
    (hc : ∀ c ∈ cands, g.adj c.1 c.2 ≠ none) (hsw : ∀ c ∈ cands, (c.2, c.1) ∉ cands) (num : ℤ) :
    BialgOK g (Rules.matchBialg g ord num cands) := by
  have key : ∀ c ∈ cands, ∀ m, Rules.bialgTry g ord c = some m → m.v0 = c.1 ∧ m.v1 = c.2 ∧ m.n0 = (ord c.1).filter (· ≠ c.2) ∧
      m.n1 = (ord c.2).filter (· ≠ c.1) ∧ g.phase c.1 = 0 ∧ g.phase c.2 = 0 ∧
      ((g.ty c.1 = .Z ∧ g.ty c.2 = .X) ∨ (g.ty c.1 = .X ∧ g.ty c.2 = .Z)) ∧
      (∀ n ∈ m.n0, g.ty n = g.ty c.2) ∧ (∀ n ∈ m.n1, g.ty n = g.ty c.1) := by
    intro c _ m hm
    unfold Rules.bialgTry at hm
    by_cases h1 : g.phase c.1 = 0 ∧ g.phase c.2 = 0 ∧ ((g.ty c.1 = .Z ∧ g.ty c.2 = .X) ∨ (g.ty c.1 = .X ∧ g.ty c.2 = .Z))
    · rw [if_pos h1] at hm
      simp only at hm
      split at hm
      · rename_i h2
        obtain rfl := Option.some.inj hm
        exact ⟨rfl, rfl, rfl, rfl, h1.1, h1.2.1, h1.2.2, fun n hn => (h2.1 n hn).1, fun n hn => (h2.2 n hn).1⟩
      · simp at hm
    · rw [if_neg h1] at hm; simp at hm
  have each : ∀ m ∈ Rules.matchBialg g ord num cands, ∃ c ∈ cands, Rules.bialgTry g ord c = some m := by
    intro m hm
    obtain ⟨c, h1, -, h2⟩ := Rules.greedy_mem hm
    exact ⟨c, h1, h2⟩
  have hord : ∀ v ∈ g.verts, ∀ u, u ∈ ord v ↔ g.adj v u ≠ none := by
    intro v hv u; rw [← mem_nbrs hg.toInv, ← (ho v hv).2, List.mem_toFinset]
  have hfil : ∀ v ∈ g.verts, ∀ w, ((ord v).filter (· ≠ w)).Nodup ∧ ((ord v).filter (· ≠ w)).toFinset = (g.nbrs v).erase w := by
    intro v hv w
    refine ⟨(ho v hv).1.filter _, ?_⟩
    ext u
    rw [← (ho v hv).2]
    simp [and_comm]
  have hvm : ∀ c ∈ cands, c.1 ∈ g.verts ∧ c.2 ∈ g.verts := fun c h =>
    ⟨hg.mem _ _ (hc c h), hg.mem c.2 c.1 (by rw [hg.symm]; exact hc c h)⟩
  constructor
  · intro m hm
    obtain ⟨c, h1, h2⟩ := each m hm
    obtain ⟨a, b, -⟩ := key c h1 m h2
    rw [a, b]; exact hs _ _ (hc c h1)
  · intro m hm
    obtain ⟨c, h1, h2⟩ := each m hm
    obtain ⟨a, b, -, -, -, -, t, -⟩ := key c h1 m h2
    rw [a, b]; exact t
  · intro m hm
    obtain ⟨c, h1, h2⟩ := each m hm
    obtain ⟨a, b, -, -, p, q, -⟩ := key c h1 m h2
    rw [a, b]; exact ⟨p, q⟩
  · intro m hm
    obtain ⟨c, h1, h2⟩ := each m hm
    obtain ⟨a, b, d, -⟩ := key c h1 m h2
    rw [a, b, d]; exact hfil _ (hvm c h1).1 _
  · intro m hm
    obtain ⟨c, h1, h2⟩ := each m hm
    obtain ⟨a, b, -, d, -⟩ := key c h1 m h2
    rw [a, b, d]; exact hfil _ (hvm c h1).2 _
  · intro m hm n hn
    obtain ⟨c, h1, h2⟩ := each m hm
    obtain ⟨a, b, d, -, -, -, -, e, -⟩ := key c h1 m h2
    refine ⟨by rw [b]; exact e n hn, ?_⟩
    rw [a]
    refine hs _ _ ((hord _ (hvm c h1).1 n).mp ?_)
    rw [d] at hn; exact List.mem_of_mem_filter hn
  · intro m hm n hn
    obtain ⟨c, h1, h2⟩ := each m hm
    obtain ⟨a, b, -, d, -, -, -, -, e⟩ := key c h1 m h2
    refine ⟨by rw [a]; exact e n hn, ?_⟩
    rw [b]
    refine hs _ _ ((hord _ (hvm c h1).2 n).mp ?_)
    rw [d] at hn; exact List.mem_of_mem_filter hn
  · refine Rules.greedy_pairwise hn ?_
    intro c h1 c' h1' hne m m' h2 h2' hdisc
    obtain ⟨a, b, d0, d1, -, -, t, -⟩ := key c h1 m h2
    obtain ⟨a', b', -, -, -, -, t', -⟩ := key c' h1' m' h2'
    unfold Rules.bialgDisc at hdisc
    rw [decide_eq_false_iff_not] at hdisc
    simp only [not_or] at hdisc
    obtain ⟨p1, p2, p3, p4⟩ := hdisc
    rw [d0] at p1 p2
    rw [d1] at p3 p4
    obtain ⟨m1, m2⟩ := hvm c h1
    have hmm : ∀ v ∈ g.verts, ∀ w u, u ∉ (ord v).filter (· ≠ w) → g.adj v u = none ∨ u = w := by
      intro v hv w u hu
      by_contra hcon
      rw [not_or] at hcon
      exact hu (List.mem_filter.mpr ⟨(hord v hv u).mpr hcon.1, by simpa using hcon.2⟩)
    have q1 := hmm _ m1 c.2 c'.1 p1
    have q2 := hmm _ m1 c.2 c'.2 p2
    have q3 := hmm _ m2 c.1 c'.1 p3
    have q4 := hmm _ m2 c.1 c'.2 p4
    have hcc := hc c' h1'
    have hl := hg.loopless
    have s := hg.symm
    have n11 : c'.1 ≠ c.1 := by
      intro e
      rw [e] at hcc
      rcases q2 with q | q
      · exact hcc q
      · exact hne (Prod.ext e.symm q.symm)
    have n22 : c'.2 ≠ c.2 := by
      intro e
      rw [e, s] at hcc
      rcases q3 with q | q
      · exact hcc q
      · exact hne (Prod.ext q.symm e.symm)
    have n12 : c'.1 ≠ c.2 := by
      intro e
      rw [e] at hcc
      rcases q4 with q | q
      · exact hcc q
      · exact hsw c h1 (by rw [← e, ← q]; exact h1')
    have n21 : c'.2 ≠ c.1 := by
      intro e
      rw [e, s] at hcc
      rcases q1 with q | q
      · exact hcc q
      · exact hsw c h1 (by rw [← e, ← q]; exact h1')
    have r1 : g.adj c.1 c'.1 = none := q1.resolve_right n12
    have r2 : g.adj c.1 c'.2 = none := q2.resolve_right n22
    have r3 : g.adj c.2 c'.1 = none := q3.resolve_right n11
    have r4 : g.adj c.2 c'.2 = none := q4.resolve_right n21
    rw [a, b, a', b']
    intro u hu w hw
    simp only [List.mem_cons, List.not_mem_nil, or_false] at hu hw
    rcases hu with rfl | rfl <;> rcases hw with rfl | rfl
    · exact ⟨n11.symm, r1⟩
    · exact ⟨n21.symm, r2⟩
    · exact ⟨n12.symm, r3⟩
    · exact ⟨n22.symm, r4⟩

end Graph
end PyZX
