import Verif.Proofs.Replace
import Verif.Model.Basic
import Verif.Sem.Sign

/-!
# Strong complementarity (`basicrules.strong_comp`, `basicrules.copy_X`)
-/

namespace PyZX
open Finset Graph

theorem sgn_par_split (p : Bool) (P : Bool → ℂ) : P p = 2⁻¹ * ((P false + P true) + sgn p * (P false - P true)) := by
  cases p <;> simp only [sgn] <;> norm_num <;> ring

/-- The sum over the two sides of a complete bipartite Hadamard graph. -/
theorem bialg_sum {A B : Finset ℕ} (hd : Disjoint A B) (f k : ℕ → Bool → ℂ) (b : ℕ → Bool) :
    psum (A ∪ B) (fun x => (∏ n ∈ A, f n (x n)) * (∏ m ∈ B, k m (x m)) * ∏ n ∈ A, ∏ m ∈ B, hmat (x n) (x m)) b =
      2⁻¹ * (sq2⁻¹) ^ (A.card * B.card) *
        ((∏ m ∈ B, (k m false + sgn false * k m true)) * ((∏ n ∈ A, (f n false + sgn false * f n true)) + ∏ n ∈ A, (f n false + sgn true * f n true)) +
          (∏ m ∈ B, (k m false + sgn true * k m true)) * ((∏ n ∈ A, (f n false + sgn false * f n true)) - ∏ n ∈ A, (f n false + sgn true * f n true))) := by
  set Pk : Bool → ℂ := fun s => ∏ m ∈ B, (k m false + sgn s * k m true) with hPk
  set Pf : Bool → ℂ := fun s => ∏ n ∈ A, (f n false + sgn s * f n true) with hPf
  rw [psum_union hd]
  have inner : ∀ x : ℕ → Bool, psum B (fun x => (∏ n ∈ A, f n (x n)) * (∏ m ∈ B, k m (x m)) * ∏ n ∈ A, ∏ m ∈ B, hmat (x n) (x m)) x =
      2⁻¹ * (sq2⁻¹) ^ (A.card * B.card) * ((Pk false + Pk true) * ∏ n ∈ A, f n (x n) + (Pk false - Pk true) * ∏ n ∈ A, (f n (x n) * sgn (x n))) := by
    intro x
    obtain ⟨p, hp⟩ := exists_par_fin A x
    have h1 : psum B (fun x => (∏ n ∈ A, f n (x n)) * (∏ m ∈ B, k m (x m)) * ∏ n ∈ A, ∏ m ∈ B, hmat (x n) (x m)) x =
        psum B (fun y => (∏ n ∈ A, f n (x n)) * ∏ m ∈ B, (k m (y m) * ((sq2⁻¹) ^ A.card * sgn (y m && p)))) x := by
      refine psum_congr fun y hy => ?_
      have hA : ∀ n ∈ A, y n = x n := fun n hn => hy n (Finset.disjoint_left.mp hd hn)
      have e1 : ∏ n ∈ A, f n (y n) = ∏ n ∈ A, f n (x n) := Finset.prod_congr rfl fun n hn => by rw [hA n hn]
      have e2 : ∏ n ∈ A, ∏ m ∈ B, hmat (y n) (y m) = ∏ m ∈ B, ((sq2⁻¹) ^ A.card * sgn (y m && p)) := by
        rw [Finset.prod_comm]
        refine Finset.prod_congr rfl fun m _ => ?_
        rw [← prod_hmat_fin hp (y m)]
        refine Finset.prod_congr rfl fun n hn => ?_
        rw [hA n hn, hmat_comm]
      rw [e1, e2, mul_assoc, ← Finset.prod_mul_distrib]
    rw [h1, psum_const_mul, psum_prod B B (fun _ h => h) (fun m c => k m c * ((sq2⁻¹) ^ A.card * sgn (c && p)))]
    have h2 : (∏ v ∈ B, if v ∈ B then k v false * (sq2⁻¹ ^ A.card * sgn (false && p)) + k v true * (sq2⁻¹ ^ A.card * sgn (true && p))
        else k v (x v) * (sq2⁻¹ ^ A.card * sgn (x v && p))) = (sq2⁻¹) ^ (A.card * B.card) * Pk p := by
      show _ = _ * ∏ m ∈ B, (k m false + sgn p * k m true)
      rw [pow_mul, ← Finset.prod_const (s := B), ← Finset.prod_mul_distrib]
      refine Finset.prod_congr rfl fun v hv => ?_
      rw [if_pos hv]
      cases p <;> simp [sgn] <;> ring
    have h3 : ∏ n ∈ A, (f n (x n) * sgn (x n)) = (∏ n ∈ A, f n (x n)) * sgn p := by
      rw [Finset.prod_mul_distrib]
      have := hp true
      simp only [Bool.true_and] at this
      rw [this]
    rw [h2, h3, sgn_par_split p Pk]
    ring
  rw [psum_congr (fun x _ => inner x), psum_const_mul, psum_add, psum_const_mul, psum_const_mul,
    psum_prod A A (fun _ h => h) f, psum_prod A A (fun _ h => h) (fun n c => f n c * sgn c)]
  have e1 : (∏ v ∈ A, if v ∈ A then f v false + f v true else f v (b v)) = Pf false := by
    refine Finset.prod_congr rfl fun v hv => ?_
    rw [if_pos hv]; simp [sgn]
  have e2 : (∏ v ∈ A, if v ∈ A then f v false * sgn false + f v true * sgn true else f v (b v) * sgn (b v)) = Pf true := by
    refine Finset.prod_congr rfl fun v hv => ?_
    rw [if_pos hv]; simp [sgn]
  rw [e1, e2]
  ring

/-- A Hadamard-transformed spider leg. -/
theorem leg_sum (h β s y : Bool) :
    (if false then sgn β else 1) * kern (!h) false y + sgn s * ((if true then sgn β else 1) * kern (!h) true y) = sq2 * kern h (xor β s) y := by
  have h2 : sq2 * sq2⁻¹ = 1 := mul_inv_cancel₀ sq2_ne_zero
  have h3 : (1 : ℂ) + 1 = sq2 * sq2 := by rw [sq2_mul_self]; norm_num
  have h4 : sq2⁻¹ + sq2⁻¹ = sq2 := by
    have : sq2⁻¹ + sq2⁻¹ = (1 + 1) * sq2⁻¹ := by ring
    rw [this, h3, mul_assoc, h2, mul_one]
  cases h <;> cases β <;> cases s <;> cases y <;> simp [kern, hmat, dmat, sgn, h2, h4]

theorem ph_pauli {p : ℚ} (h : Basic.isPauli p = true) : ph p = sgn (decide (p = 1)) := by
  simp only [Basic.isPauli, Bool.or_eq_true, decide_eq_true_eq] at h
  rcases h with h | h <;> simp [h, sgn]

namespace Basic
open Graph

/-- The type of matrix of the edge of `v` and `w`. -/
def hadTo (g : Graph) (v w : ℕ) : Bool := match g.adj v w with
  | none => false
  | some e => g.eff v w e

theorem edgeK_hadTo {g : Graph} {v w : ℕ} (h : g.adj v w ≠ none) (x : ℕ → Bool) : g.edgeK x v w = kern (hadTo g v w) (x v) (x w) := by
  unfold hadTo
  rcases he : g.adj v w with _ | e
  · exact absurd he h
  · rw [edgeK_some he]

theorem hadTo_ext {g g' : Graph} {N : Finset ℕ} (h : Ext g g' N) {v w : ℕ} (hv : v ∈ g.verts) (hw : w ∈ g.verts) :
    hadTo g' v w = hadTo g v w := by
  unfold hadTo eff isX
  rw [h.adj v hv w hw, h.ty v hv, h.ty w hw]

/-- The weight of a new spider `n` that replaces the leg of `vi` at `w n`. -/
noncomputable def legW (g : Graph) (vi vj : ℕ) (w : ℕ → ℕ) (x : ℕ → Bool) (n : ℕ) : ℂ :=
  (if x n then ph (g.phase vj) else 1) * kern (!hadTo g vi (w n)) (x n) (x (w n))

theorem _root_.PyZX.Graph.WF.edge {g : Graph} (hg : g.WF) {u v : ℕ} {e : EType} (h : g.adj u v = some e) :
    u ∈ g.verts ∧ v ∈ g.verts ∧ u ≠ v ∧ g.adj v u = some e ∧ e ≠ .wio := by
  have hs : g.adj v u = some e := by rw [hg.symm]; exact h
  refine ⟨hg.mem u v (by rw [h]; simp), hg.mem v u (by rw [hs]; simp), ?_, hs, ?_⟩
  · rintro rfl
    rw [hg.loopless] at h
    exact absurd h (by simp)
  · rintro rfl
    exact hg.noWio u v h

theorem strongCompLoop_spec {vi vj : ℕ} : ∀ (ns : List ℕ) (acc : List ℕ) {g : Graph}, g.WF → vi ∈ g.verts → vj ∈ g.verts →
    (g.ty vj = .Z ∨ g.ty vj = .X) → g.isX vj = !g.isX vi → (∀ w ∈ ns, g.adj vi w ≠ none) →
    ∃ (g' : Graph) (news : List ℕ) (w : ℕ → ℕ), ns.foldlM (strongCompStep vi vj) (g, acc) = some (g', acc ++ news) ∧
      Ext g g' news.toFinset ∧ news.Nodup ∧ news.map w = ns.filter (· ≠ vj) ∧ (∀ n ∈ news, g'.ty n = g.ty vj) ∧
      (∀ n ∈ news, ∀ b ∈ g.verts, b ∉ ns → g'.adj n b = none) ∧
      ∀ S : Finset ℕ, S ⊆ g.verts → (∀ u ∈ ns, u ≠ vj → u ∈ S) → ∀ x,
        g'.wOn (S ∪ news.toFinset) x = g.wOn S x * ∏ n ∈ news.toFinset, legW g vi vj w x n := by
  intro ns
  induction ns with
  | nil =>
    intro acc g hg _ _ _ _ _
    exact ⟨g, [], id, by simp, Ext.refl hg, List.nodup_nil, rfl, by simp, by simp, fun S _ _ x => by simp⟩
  | cons u r ih =>
    intro acc g hg hvi hvj hz hop hadj
    by_cases hu : u = vj
    · obtain ⟨g', news, w, h1, h2, h3, h4, h5, h7, h6⟩ := ih acc hg hvi hvj hz hop (fun w hw => hadj w (by simp [hw]))
      refine ⟨g', news, w, ?_, h2, h3, ?_, h5, fun n hn b hb hbr => h7 n hn b hb (fun h => hbr (by simp [h])), fun S hS hw => h6 S hS fun u hu => hw u (by simp [hu])⟩
      · rw [List.foldlM_cons]
        unfold strongCompStep
        rw [if_pos hu]
        exact h1
      · rw [h4, List.filter_cons_of_neg (by simpa using hu)]
    · obtain ⟨e, he⟩ := Option.ne_none_iff_exists'.mp (hadj u (by simp))
      obtain ⟨-, hum, -, -, hwio⟩ := hg.edge he
      obtain ⟨g2, b1, b2, b3, b4, b5, b6⟩ := attach_spec hg hz hum hwio (g.phase vj)
      set n := g.vindex with hn
      have hnm : n ∉ g.verts := hg.toInv.notMem_vindex
      have hstep : strongCompStep vi vj (g, acc) u = some (g2.setPhase n (g.phase vj), acc ++ [n]) := by
        unfold strongCompStep
        rw [if_neg hu]
        have : (g.addVertex (g.ty vj) 0).adj vi u = some e := by
          rw [hg.toInv.addVertex_adj, he]
        simp only [this, Option.bind_some]
        rw [← hn, b1]
        simp only [Option.map_some, b3 vj hvj]
      set g3 := g2.setPhase n (g.phase vj) with hg3
      have hsub : ∀ v ∈ g.verts, v ∈ g3.verts := fun v hv => by rw [b2.verts]; exact Finset.mem_union_left _ hv
      have hr : ∀ w ∈ r, w ∈ g.verts := by
        intro w hw
        obtain ⟨e', he'⟩ := Option.ne_none_iff_exists'.mp (hadj w (by simp [hw]))
        exact (hg.edge he').2.1
      obtain ⟨g', news, w, h1, h2, h3, h4, h5, h7, h6⟩ := ih (acc ++ [n]) b2.wf (hsub vi hvi) (hsub vj hvj)
        (by rw [b2.ty vj hvj]; exact hz)
        (by unfold isX at hop ⊢; rw [b2.ty vj hvj, b2.ty vi hvi]; exact hop)
        (fun w hw => by rw [b2.adj vi hvi w (hr w hw)]; exact hadj w (by simp [hw]))
      have hn3 : n ∈ g3.verts := by rw [b2.verts]; simp
      have hnn : n ∉ news := fun h => Finset.disjoint_left.mp h2.disj hn3 (List.mem_toFinset.mpr h)
      have hw' : ∀ m ∈ news, (Function.update w n u) m = w m := fun m hm => Function.update_of_ne (fun (h : m = n) => hnn (h ▸ hm)) _ _
      refine ⟨g', n :: news, Function.update w n u, ?_, ?_, List.nodup_cons.mpr ⟨hnn, h3⟩, ?_, ?_, ?_, ?_⟩
      · rw [List.foldlM_cons, hstep]
        show List.foldlM _ (g3, acc ++ [n]) r = _
        rw [h1, List.append_assoc]; rfl
      · have := b2.trans h2
        rwa [List.toFinset_cons, Finset.insert_eq]
      · rw [List.map_cons, Function.update_self, List.map_congr_left hw', h4, List.filter_cons_of_pos (by simpa using hu)]
      · intro m hm
        rcases List.mem_cons.mp hm with rfl | hm
        · rw [h2.ty _ hn3, b4]
        · rw [h5 m hm, b2.ty vj hvj]
      · intro m hm b hb hbr
        rcases List.mem_cons.mp hm with rfl | hm
        · rw [h2.adj _ hn3 b (hsub b hb), b5, if_neg (fun h => hbr (by simp [h]))]
        · exact h7 m hm b (hsub b hb) (fun h => hbr (by simp [h]))
      · intro S hS hw x
        have hwr : ∀ v ∈ r, v ≠ vj → v ∈ S := fun v hv => hw v (by simp [hv])
        have hnS : n ∉ S := fun h => hnm (hS h)
        have e1 : S ∪ (n :: news).toFinset = (S ∪ {n}) ∪ news.toFinset := by
          rw [List.toFinset_cons, Finset.insert_eq, Finset.union_assoc]
        rw [e1, h6 (S ∪ {n}) (by rw [b2.verts]; exact Finset.union_subset_union_left hS) (fun v hv hvj => Finset.mem_union_left _ (hwr v hv hvj)),
          b6 S hS (hw u (by simp) hu), List.toFinset_cons, Finset.prod_insert (by simpa using hnn), mul_assoc (g.wOn S x)]
        congr 1
        congr 1
        · unfold legW
          rw [Function.update_self]
          congr 2
          unfold hadTo
          rw [he]
          unfold eff
          have : decide (g.ty vj = VType.X) = g.isX vj := rfl
          rw [this, hop]
          show _ = !(xor (decide (e = EType.had)) (xor (g.isX vi) (g.isX u)))
          cases decide (e = EType.had) <;> cases g.isX vi <;> cases g.isX u <;> rfl
        · refine Finset.prod_congr rfl fun m hm => ?_
          have hm' := List.mem_toFinset.mp hm
          have hwm : w m ∈ r := by
            have : w m ∈ news.map w := List.mem_map_of_mem hm'
            rw [h4] at this
            exact List.mem_of_mem_filter this
          unfold legW
          rw [hw' m hm', b2.phase vj hvj, hadTo_ext b2 hvi (hr _ hwm)]

/-- The weight of one side after the sum over its new spiders. -/
theorem leg_prod {g : Graph} {vi vj : ℕ} {ns news : List ℕ} {w : ℕ → ℕ} (hns : ns.Nodup) (hnn : news.Nodup)
    (hmap : news.map w = ns.filter (· ≠ vj)) (hp : isPauli (g.phase vj) = true) (hadj : ∀ u ∈ ns, g.adj vi u ≠ none)
    (x : ℕ → Bool) (s : Bool) (hvi : vi ∉ ns) :
    ∏ n ∈ news.toFinset, ((if false then ph (g.phase vj) else 1) * kern (!hadTo g vi (w n)) false (x (w n)) +
        sgn s * ((if true then ph (g.phase vj) else 1) * kern (!hadTo g vi (w n)) true (x (w n)))) =
      sq2 ^ news.length * ∏ u ∈ ns.toFinset.erase vj, g.edgeK (Function.update x vi (xor (decide (g.phase vj = 1)) s)) vi u := by
  rw [ph_pauli hp]
  have e1 : ∏ n ∈ news.toFinset, ((if false then sgn (decide (g.phase vj = 1)) else 1) * kern (!hadTo g vi (w n)) false (x (w n)) +
        sgn s * ((if true then sgn (decide (g.phase vj = 1)) else 1) * kern (!hadTo g vi (w n)) true (x (w n)))) =
      ((news.map w).map fun u => sq2 * kern (hadTo g vi u) (xor (decide (g.phase vj = 1)) s) (x u)).prod := by
    rw [List.map_map, ← List.prod_toFinset _ hnn]
    exact Finset.prod_congr rfl fun n _ => leg_sum _ _ _ _
  have hf : (ns.filter (· ≠ vj)).toFinset = ns.toFinset.erase vj := by
    ext u; simp [and_comm]
  have hlen : news.length = (ns.toFinset.erase vj).card := by
    rw [← hf, List.toFinset_card_of_nodup (hns.filter _), ← hmap, List.length_map]
  rw [e1, hmap, ← List.prod_toFinset _ (hns.filter _), hf, Finset.prod_mul_distrib, Finset.prod_const, hlen]
  congr 1
  refine Finset.prod_congr rfl fun u hu => ?_
  have hu' : u ∈ ns := List.mem_toFinset.mp (Finset.mem_of_mem_erase hu)
  rw [edgeK_hadTo (hadj u hu'), Function.update_self, Function.update_of_ne (fun (h : u = vi) => hvi (h ▸ hu'))]

theorem sq2_pow_bialg (n m : ℕ) :
    sq2 ^ (((n : ℤ) - 1) * ((m : ℤ) - 1)) * (2⁻¹ * (sq2⁻¹) ^ (n * m)) * (sq2 ^ n * sq2 ^ m) = sq2⁻¹ := by
  have h2 : (2 : ℂ)⁻¹ = sq2 ^ (-2 : ℤ) := by
    rw [zpow_neg, ← sq2_mul_self]; norm_cast; rw [pow_two]
  rw [h2, inv_pow, ← zpow_natCast, ← zpow_natCast, ← zpow_natCast, ← zpow_neg, ← zpow_add₀ sq2_ne_zero, ← zpow_add₀ sq2_ne_zero,
    ← zpow_add₀ sq2_ne_zero, ← zpow_add₀ sq2_ne_zero, ← zpow_neg_one]
  congr 1
  push_cast
  ring

theorem bialg_algebra (α β : Bool) (K1 K2 : Bool → ℂ) :
    sgn (α && β) * (K2 α * (K1 β + K1 (!β)) + K2 (!α) * (K1 β - K1 (!β))) * sq2⁻¹ =
      (sgn (α && false) * (hmat false false * K1 false) * (sgn (β && false) * K2 false) +
        sgn (α && false) * (hmat false true * K1 false) * (sgn (β && true) * K2 true)) +
      (sgn (α && true) * (hmat true false * K1 true) * (sgn (β && false) * K2 false) +
        sgn (α && true) * (hmat true true * K1 true) * (sgn (β && true) * K2 true)) := by
  cases α <;> cases β <;> simp [sgn, hmat] <;> ring

theorem checkStrongComp_iff {g : Graph} {v1 v2 : ℕ} (hc : checkStrongComp g v1 v2 = true) :
    ((g.ty v1 = .X ∧ g.ty v2 = .Z) ∨ (g.ty v1 = .Z ∧ g.ty v2 = .X)) ∧ isPauli (g.phase v1) = true ∧
      isPauli (g.phase v2) = true ∧ g.adj v1 v2 = some .simple := by
  simp only [checkStrongComp, Bool.and_eq_true, Bool.or_eq_true, decide_eq_true_eq] at hc
  exact ⟨hc.1.1.1, hc.1.1.2, hc.1.2, hc.2⟩

/-- The weight of two adjacent spiders of different colours and the rest. -/
theorem psum_two {g : Graph} (hg : g.WF) {v1 v2 : ℕ} (h12 : v1 ≠ v2) (h1 : v1 ∈ g.verts) (h2 : v2 ∈ g.verts)
    (hx : g.isX v1 = !g.isX v2) (hadj : g.adj v1 v2 = some .simple) {α β : Bool} (hα : g.vval v1 = sgn α) (hβ : g.vval v2 = sgn β)
    (x : ℕ → Bool) :
    psum {v1, v2} g.weight x = g.wOn (g.verts \ {v1, v2}) x *
      (let K1 := fun s => ∏ u ∈ (g.nbrs v1).erase v2, g.edgeK (Function.update x v1 s) v1 u
       let K2 := fun s => ∏ u ∈ (g.nbrs v2).erase v1, g.edgeK (Function.update x v2 s) v2 u
       (sgn (α && false) * (hmat false false * K1 false) * (sgn (β && false) * K2 false) +
        sgn (α && false) * (hmat false true * K1 false) * (sgn (β && true) * K2 true)) +
      (sgn (α && true) * (hmat true false * K1 true) * (sgn (β && false) * K2 false) +
        sgn (α && true) * (hmat true true * K1 true) * (sgn (β && true) * K2 true))) := by
  set U := g.verts \ {v1, v2} with hU
  have hv2U : v2 ∉ U := by simp [hU]
  have hv1U : v1 ∉ insert v2 U := by simp [hU, h12]
  have hverts : g.verts = insert v1 (insert v2 U) := by
    ext u
    simp only [hU, Finset.mem_insert, Finset.mem_sdiff, Finset.mem_singleton]
    constructor
    · intro h; tauto
    · rintro (h | h | h)
      · exact h ▸ h1
      · exact h ▸ h2
      · exact h.1
  have hK : ∀ vi vj, vi ∈ g.verts → (∀ u, u ∈ U ↔ u ∈ g.verts ∧ u ≠ vi ∧ u ≠ vj) → ∀ y,
      ∏ u ∈ U, g.edgeK y vi u = ∏ u ∈ (g.nbrs vi).erase vj, g.edgeK y vi u := by
    intro vi vj hvi hUi y
    symm
    refine Finset.prod_subset (fun u hu => ?_) fun u hu hnu => ?_
    · obtain ⟨hne, hu⟩ := Finset.mem_erase.mp hu
      obtain ⟨hu1, hu2⟩ := Finset.mem_filter.mp hu
      refine (hUi u).mpr ⟨hu1, ?_, hne⟩
      rintro rfl
      rw [hg.toInv.loopless] at hu2
      exact absurd hu2 (by simp)
    · refine edgeK_none ?_
      by_contra hne
      refine hnu (Finset.mem_erase.mpr ⟨((hUi u).mp hu).2.2, Finset.mem_filter.mpr ⟨((hUi u).mp hu).1, ?_⟩⟩)
      exact Option.ne_none_iff_isSome.mp hne
  have hU1 : ∀ u, u ∈ U ↔ u ∈ g.verts ∧ u ≠ v1 ∧ u ≠ v2 := by intro u; simp [hU]
  have hU2 : ∀ u, u ∈ U ↔ u ∈ g.verts ∧ u ≠ v2 ∧ u ≠ v1 := by intro u; simp [hU, and_comm]
  have hvw : ∀ v γ, g.vval v = sgn γ → ∀ c, g.vwt v c = sgn (γ && c) := by
    intro v γ h c
    unfold vwt
    rw [h]
    cases c <;> cases γ <;> simp [sgn]
  have hw : ∀ s t, g.weight (Function.update (Function.update x v1 s) v2 t) = g.wOn U x *
      (sgn (α && s) * (hmat s t * ∏ u ∈ (g.nbrs v1).erase v2, g.edgeK (Function.update x v1 s) v1 u) *
      (sgn (β && t) * ∏ u ∈ (g.nbrs v2).erase v1, g.edgeK (Function.update x v2 t) v2 u)) := by
    intro s t
    set y := Function.update (Function.update x v1 s) v2 t with hy
    have y1 : y v1 = s := by rw [hy, Function.update_of_ne h12, Function.update_self]
    have y2 : y v2 = t := by rw [hy, Function.update_self]
    have yo : ∀ u, u ≠ v1 → u ≠ v2 → y u = x u := fun u a b => by rw [hy, Function.update_of_ne b, Function.update_of_ne a]
    have hxt : g.eff v1 v2 .simple = true := by
      unfold eff; rw [hx]; cases g.isX v2 <;> rfl
    rw [weight_eq_wOn, hverts, wOn_insert hg.symm hv1U, wOn_insert hg.symm hv2U, Finset.prod_insert hv2U, edgeK_some hadj,
      hxt, hK v1 v2 h1 hU1, hK v2 v1 h2 hU2, hvw v1 α hα, hvw v2 β hβ, y1, y2]
    have e1 : ∏ u ∈ (g.nbrs v1).erase v2, g.edgeK y v1 u = ∏ u ∈ (g.nbrs v1).erase v2, g.edgeK (Function.update x v1 s) v1 u := by
      refine Finset.prod_congr rfl fun u hu => ?_
      obtain ⟨hne, hu⟩ := Finset.mem_erase.mp hu
      have hu1 : u ≠ v1 := by
        rintro rfl
        have := (Finset.mem_filter.mp hu).2
        rw [hg.toInv.loopless] at this
        exact absurd this (by simp)
      refine edgeK_congr_env (by rw [y1, Function.update_self]) ?_
      rw [yo u hu1 hne, Function.update_of_ne hu1]
    have e2 : ∏ u ∈ (g.nbrs v2).erase v1, g.edgeK y v2 u = ∏ u ∈ (g.nbrs v2).erase v1, g.edgeK (Function.update x v2 t) v2 u := by
      refine Finset.prod_congr rfl fun u hu => ?_
      obtain ⟨hne, hu⟩ := Finset.mem_erase.mp hu
      have hu1 : u ≠ v2 := by
        rintro rfl
        have := (Finset.mem_filter.mp hu).2
        rw [hg.toInv.loopless] at this
        exact absurd this (by simp)
      refine edgeK_congr_env (by rw [y2, Function.update_self]) ?_
      rw [yo u hne hu1, Function.update_of_ne hu1]
    have e3 : g.wOn U y = g.wOn U x := wOn_congr_env fun u hu => yo u ((hU1 u).mp hu).2.1 ((hU1 u).mp hu).2.2
    rw [e1, e2, e3]
    unfold kern
    rw [if_pos rfl]
    ring
  rw [show ({v1, v2} : Finset ℕ) = insert v1 {v2} from rfl, psum_insert_env (by simpa using h12),
    show ({v2} : Finset ℕ) = insert v2 ∅ from rfl, psum_insert_env (by simp), psum_insert_env (by simp)]
  simp only [psum_empty, hw]
  ring

set_option maxHeartbeats 1000000 in
theorem strongComp_sound {g : Graph} {ord : ℕ → List ℕ} (hg : g.WF) (ho : Rules.NbrOrder g ord) {v1 v2 : ℕ}
    (hc : checkStrongComp g v1 v2 = true) : ∃ g', strongComp g ord v1 v2 = some (g', true) ∧
      (v1 ∉ g'.verts ∧ v2 ∉ g'.verts) ∧ Preserves g g' := by
  obtain ⟨hty, hp1, hp2, hadj⟩ := checkStrongComp_iff hc
  obtain ⟨h1, h2, h12, -, -⟩ := hg.edge hadj
  have hb1 : g.ty v1 = .Z ∨ g.ty v1 = .X := by tauto
  have hb2 : g.ty v2 = .Z ∨ g.ty v2 = .X := by tauto
  have hx : g.isX v1 = !g.isX v2 := by
    unfold isX; rcases hty with ⟨a, b⟩ | ⟨a, b⟩ <;> rw [a, b] <;> rfl
  have hx' : g.isX v2 = !g.isX v1 := by rw [hx, Bool.not_not]
  have hmem : ∀ v ∈ g.verts, ∀ u, u ∈ ord v ↔ u ∈ g.nbrs v := fun v hv u => by rw [← (ho v hv).2, List.mem_toFinset]
  have hnadj : ∀ v ∈ g.verts, ∀ u ∈ ord v, g.adj v u ≠ none := fun v hv u hu =>
    Option.ne_none_iff_isSome.mpr (Finset.mem_filter.mp ((hmem v hv u).mp hu)).2
  have hnv : ∀ v ∈ g.verts, ∀ u ∈ ord v, u ∈ g.verts := fun v hv u hu => (Finset.mem_filter.mp ((hmem v hv u).mp hu)).1
  have hnself : ∀ v ∈ g.verts, v ∉ ord v := fun v hv h => hnadj v hv v h (hg.toInv.loopless v)
  obtain ⟨gA, as, wA, a1, a2, a3, a4, a5, -, a6⟩ := strongCompLoop_spec (ord v1) [] hg h1 h2 hb2 hx' (hnadj v1 h1)
  have hsA : ∀ v ∈ g.verts, v ∈ gA.verts := fun v hv => by rw [a2.verts]; exact Finset.mem_union_left _ hv
  obtain ⟨gB, bs, wB, b1, b2, b3, b4, b5, -, b6⟩ := strongCompLoop_spec (ord v2) [] a2.wf (hsA v2 h2) (hsA v1 h1)
    (by rw [a2.ty v1 h1]; exact hb1) (by unfold isX at hx ⊢; rw [a2.ty v1 h1, a2.ty v2 h2]; exact hx)
    (fun u hu => by rw [a2.adj v2 h2 u (hnv v2 h2 u hu)]; exact hnadj v2 h2 u hu)
  rw [List.nil_append] at a1 b1
  set A := as.toFinset with hA
  set B := bs.toFinset with hB
  have hsB : ∀ v ∈ gA.verts, v ∈ gB.verts := fun v hv => by rw [b2.verts]; exact Finset.mem_union_left _ hv
  have hAA : ∀ n ∈ A, n ∈ gA.verts := fun n hn => by rw [a2.verts]; exact Finset.mem_union_right _ hn
  have hBB : ∀ n ∈ B, n ∈ gB.verts := fun n hn => by rw [b2.verts]; exact Finset.mem_union_right _ hn
  have hAB : Disjoint A B := Finset.disjoint_of_subset_left hAA b2.disj
  have hgA : Disjoint g.verts A := a2.disj
  have hgB : Disjoint g.verts B := Finset.disjoint_of_subset_left hsA b2.disj
  have tA : ∀ n ∈ A, gB.ty n = g.ty v2 := fun n hn => by rw [b2.ty n (hAA n hn), a5 n (List.mem_toFinset.mp hn)]
  have tB : ∀ n ∈ B, gB.ty n = g.ty v1 := fun n hn => by rw [b5 n (List.mem_toFinset.mp hn), a2.ty v1 h1]
  set es := as.flatMap fun n1 => bs.map fun n2 => (n1, n2) with hes
  have hesm : ∀ p, p ∈ es ↔ p.1 ∈ A ∧ p.2 ∈ B := by
    intro p
    simp only [hes, List.mem_flatMap, List.mem_map, hA, hB, List.mem_toFinset]
    constructor
    · rintro ⟨a, ha, b, hb, rfl⟩; exact ⟨ha, hb⟩
    · rintro ⟨ha, hb⟩; exact ⟨p.1, ha, p.2, hb, rfl⟩
  obtain ⟨gC, c1, c2, c3, c4, c5⟩ := addEdgeList_spec (e := .simple) (by simp) es b2.wf (by
    intro p hp
    obtain ⟨ha, hb⟩ := (hesm p).mp hp
    refine ⟨hsB _ (hAA _ ha), hBB _ hb, fun h => Finset.disjoint_left.mp hAB ha (h ▸ hb), ?_, ?_⟩
    · rw [tA _ ha]; rcases hb2 with h | h <;> rw [h] <;> simp
    · rw [tB _ hb]; rcases hb1 with h | h <;> rw [h] <;> simp)
  have hCv : gC.verts = g.verts ∪ A ∪ B := by rw [c3.verts, b2.verts, a2.verts]
  have hCp : ∀ v ∈ g.verts, gC.phase v = g.phase v := by
    intro v hv
    rw [c4 v (fun p hp h => Finset.disjoint_left.mp hgA hv (h ▸ ((hesm p).mp hp).1)), b2.phase v (hsA v hv), a2.phase v hv]
  set g3 := gC.addPower (((as.length : ℤ) - 1) * ((bs.length : ℤ) - 1)) with hg3
  have w3 : g3.WF := c2.congr (c2.toInv.congr rfl rfl rfl rfl rfl rfl) rfl rfl rfl rfl rfl
  set g4 := if g3.phase v1 = 1 ∧ g3.phase v2 = 1 then g3.addScalarPhase 1 else g3 with hg4
  have w4f : g4.WF ∧ g4.verts = gC.verts ∧ g4.ty = gC.ty ∧ g4.inputs = gC.inputs ∧ g4.outputs = gC.outputs ∧
      ∀ S x, g4.wOn S x = gC.wOn S x * sq2 ^ (((as.length : ℤ) - 1) * ((bs.length : ℤ) - 1)) *
        sgn (decide (g.phase v1 = 1) && decide (g.phase v2 = 1)) := by
    have p1 : g3.phase v1 = g.phase v1 := hCp v1 h1
    have p2 : g3.phase v2 = g.phase v2 := hCp v2 h2
    rw [hg4, p1, p2]
    by_cases hb : g.phase v1 = 1 ∧ g.phase v2 = 1
    · rw [if_pos hb]
      refine ⟨w3.congr (w3.toInv.congr rfl rfl rfl rfl rfl rfl) rfl rfl rfl rfl rfl, rfl, rfl, rfl, rfl, fun S x => ?_⟩
      rw [wOn_addScalarPhase, wOn_addPower, hb.1, hb.2]
      simp [sgn]
    · rw [if_neg hb]
      refine ⟨w3, rfl, rfl, rfl, rfl, fun S x => ?_⟩
      have : (decide (g.phase v1 = 1) && decide (g.phase v2 = 1)) = false := by
        rw [Bool.and_eq_false_iff, decide_eq_false_iff_not, decide_eq_false_iff_not]; tauto
      rw [wOn_addPower, this]
      simp [sgn]
  obtain ⟨w4, v4, t4, i4, o4, wt4⟩ := w4f
  have m1 : v1 ∈ g4.verts := by rw [v4, hCv]; simp [h1]
  have m2 : v2 ∈ g4.verts := by rw [v4, hCv]; simp [h2]
  obtain ⟨g5, e5⟩ := removeVertices_isSome w4.toInv (vs := [v1]) (by simp) (by simpa using m1)
  obtain ⟨r5, -, -, w5⟩ := removeVertices_spec e5
  have w5 := w5 w4
  obtain ⟨g6, e6⟩ := removeVertices_isSome w5.toInv (vs := [v2]) (by simp) (by rw [r5.verts]; simp [m2, Ne.symm h12])
  obtain ⟨r6, -, -, w6⟩ := removeVertices_spec e6
  have w6 := w6 w5
  have nb1 : g.ty v1 ≠ .boundary := by rcases hb1 with h | h <;> rw [h] <;> simp
  have nb2 : g.ty v2 ≠ .boundary := by rcases hb2 with h | h <;> rw [h] <;> simp
  refine ⟨g6, ?_, ⟨?_, ?_⟩, ?_⟩
  · unfold strongComp
    rw [if_neg (by rw [hc]; simp)]
    unfold strongCompLoop
    rw [a1, Option.bind_some, b1, Option.bind_some, c1, Option.bind_some]
    simp only [← hg3, ← hg4]
    rw [e5, Option.bind_some, e6, Option.map_some]
  · rw [r6.verts, r5.verts]; simp
  · rw [r6.verts]; simp
  have t6 : g6.ty = gB.ty := by rw [r6.ty, r5.ty, t4, c3.ty]
  have hverts : g6.verts = (g.verts \ {v1, v2}) ∪ (A ∪ B) := by
    rw [r6.verts, r5.verts, v4, hCv]
    ext u
    simp only [List.toFinset_cons, List.toFinset_nil, Finset.mem_sdiff, Finset.mem_union, Finset.mem_insert, Finset.mem_singleton,
      Finset.notMem_empty, or_false]
    have k1 : u ∈ A → u ≠ v1 ∧ u ≠ v2 := fun h =>
      ⟨fun he => Finset.disjoint_left.mp hgA h1 (he ▸ h), fun he => Finset.disjoint_left.mp hgA h2 (he ▸ h)⟩
    have k2 : u ∈ B → u ≠ v1 ∧ u ≠ v2 := fun h =>
      ⟨fun he => Finset.disjoint_left.mp hgB h1 (he ▸ h), fun he => Finset.disjoint_left.mp hgB h2 (he ▸ h)⟩
    clear * - k1 k2
    tauto
  have hio : ∀ l : List ℕ, (∀ v ∈ l, g.ty v = .boundary) → (l.filter (· ∉ [v1].toFinset)).filter (· ∉ [v2].toFinset) = l := by
    intro l hl
    rw [List.filter_filter, List.filter_eq_self]
    intro v hv
    have n1 : v ≠ v1 := fun h => nb1 (h ▸ hl v hv)
    have n2 : v ≠ v2 := fun h => nb2 (h ▸ hl v hv)
    simp [n1, n2]
  refine replace_preserves hg w6 (R := {v1, v2}) (N := A ∪ B) ?_ (Finset.disjoint_union_right.mpr ⟨hgA, hgB⟩) hverts ?_ ?_ ?_ ?_ ?_
  · intro u hu
    simp only [Finset.mem_insert, Finset.mem_singleton] at hu
    rcases hu with rfl | rfl
    · exact Finset.mem_filter.mpr ⟨h1, nb1⟩
    · exact Finset.mem_filter.mpr ⟨h2, nb2⟩
  · intro n hn
    rw [t6]
    rcases Finset.mem_union.mp hn with hn | hn
    · rw [tA n hn]; exact nb2
    · rw [tB n hn]; exact nb1
  · intro v hv _
    rw [t6, b2.ty v (hsA v hv), a2.ty v hv]
  · rw [r6.inputs, r5.inputs, i4, c3.inputs, b2.inputs, a2.inputs]
    exact hio _ fun v hv => hg.io v (Or.inl hv)
  · rw [r6.outputs, r5.outputs, o4, c3.outputs, b2.outputs, a2.outputs]
    exact hio _ fun v hv => hg.io v (Or.inr hv)
  intro x
  set U := g.verts \ {v1, v2} with hU
  have hUg : U ⊆ g.verts := Finset.sdiff_subset
  have hwAm : ∀ n ∈ A, wA n ∈ U := by
    intro n hn
    have : wA n ∈ as.map wA := List.mem_map_of_mem (List.mem_toFinset.mp hn)
    rw [a4] at this
    obtain ⟨k1, k2⟩ := List.mem_filter.mp this
    simp only [hU, Finset.mem_sdiff, Finset.mem_insert, Finset.mem_singleton, not_or]
    exact ⟨hnv v1 h1 _ k1, fun h => hnself v1 h1 (h ▸ k1), by simpa using k2⟩
  have hwBm : ∀ n ∈ B, wB n ∈ U := by
    intro n hn
    have : wB n ∈ bs.map wB := List.mem_map_of_mem (List.mem_toFinset.mp hn)
    rw [b4] at this
    obtain ⟨k1, k2⟩ := List.mem_filter.mp this
    simp only [hU, Finset.mem_sdiff, Finset.mem_insert, Finset.mem_singleton, not_or]
    exact ⟨hnv v2 h2 _ k1, by simpa using k2, fun h => hnself v2 h2 (h ▸ k1)⟩
  have hUS : ∀ vi ∈ g.verts, ∀ vj, (∀ u, u ∈ U ↔ u ∈ g.verts ∧ u ≠ vi ∧ u ≠ vj) → ∀ u ∈ ord vi, u ≠ vj → u ∈ U :=
    fun vi hvi vj hh u hu hne => (hh u).mpr ⟨hnv vi hvi u hu, fun h => hnself vi hvi (h ▸ hu), hne⟩
  have hU1 : ∀ u, u ∈ U ↔ u ∈ g.verts ∧ u ≠ v1 ∧ u ≠ v2 := by intro u; simp [hU]
  have hU2 : ∀ u, u ∈ U ↔ u ∈ g.verts ∧ u ≠ v2 ∧ u ≠ v1 := by intro u; simp [hU, and_comm]
  have hdU1 : ∀ v, v = v1 ∨ v = v2 → v ∉ U ∪ (A ∪ B) := by
    intro v hv h
    have hvg : v ∈ g.verts := by rcases hv with rfl | rfl <;> assumption
    rcases Finset.mem_union.mp h with h | h
    · have := (hU1 v).mp h; clear * - this hv; tauto
    · rcases Finset.mem_union.mp h with h | h
      · exact Finset.disjoint_left.mp hgA hvg h
      · exact Finset.disjoint_left.mp hgB hvg h
  set C := g.wOn U x * sq2 ^ (((as.length : ℤ) - 1) * ((bs.length : ℤ) - 1)) *
        sgn (decide (g.phase v1 = 1) && decide (g.phase v2 = 1)) with hC
  set f : ℕ → Bool → ℂ := fun n c => (if c then ph (g.phase v2) else 1) * kern (!hadTo g v1 (wA n)) c (x (wA n)) with hf
  set k : ℕ → Bool → ℂ := fun n c => (if c then ph (g.phase v1) else 1) * kern (!hadTo g v2 (wB n)) c (x (wB n)) with hk
  have hL : psum (A ∪ B) g6.weight x =
      psum (A ∪ B) (fun y => C * ((∏ n ∈ A, f n (y n)) * (∏ m ∈ B, k m (y m)) * ∏ n ∈ A, ∏ m ∈ B, hmat (y n) (y m))) x := by
    refine psum_congr fun y hy => ?_
    have hyU : ∀ u ∈ U, y u = x u := by
      intro u hu
      refine hy u fun h => ?_
      rcases Finset.mem_union.mp h with h | h
      · exact Finset.disjoint_left.mp hgA (hUg hu) h
      · exact Finset.disjoint_left.mp hgB (hUg hu) h
    rw [weight_eq_wOn, hverts, r6.wOn _ (by simpa using hdU1 v2 (Or.inr rfl)), r5.wOn _ (by simpa using hdU1 v1 (Or.inl rfl)), wt4,
      c5 _ (fun p hp => ⟨by simp [((hesm p).mp hp).1], by simp [((hesm p).mp hp).2]⟩), ← Finset.union_assoc,
      b6 (U ∪ A) (by rw [a2.verts]; exact Finset.union_subset_union_left hUg)
        (fun u hu hne => Finset.mem_union_left _ (hUS v2 h2 v1 hU2 u hu hne)), a6 U hUg (hUS v1 h1 v2 hU1)]
    have q1 : g.wOn U y = g.wOn U x := wOn_congr_env hyU
    have q2 : ∏ n ∈ A, legW g v1 v2 wA y n = ∏ n ∈ A, f n (y n) := by
      refine Finset.prod_congr rfl fun n hn => ?_
      unfold legW
      rw [hyU _ (hwAm n hn)]
    have q3 : ∏ n ∈ B, legW gA v2 v1 wB y n = ∏ n ∈ B, k n (y n) := by
      refine Finset.prod_congr rfl fun n hn => ?_
      unfold legW
      rw [hyU _ (hwBm n hn), a2.phase v1 h1, hadTo_ext a2 h2 (hUg (hwBm n hn))]
    have q4 : (es.map fun p => kern (gB.eff p.1 p.2 .simple) (y p.1) (y p.2)).prod = ∏ n ∈ A, ∏ m ∈ B, hmat (y n) (y m) := by
      have hnd : es.Nodup := by
        have : es = as.product bs := rfl
        rw [this]; exact a3.product b3
      rw [← List.prod_toFinset _ hnd, ← Finset.prod_product']
      refine Finset.prod_congr ?_ fun p hp => ?_
      · ext p; rw [List.mem_toFinset, hesm, Finset.mem_product]
      · obtain ⟨ha, hb⟩ := Finset.mem_product.mp hp
        have : gB.eff p.1 p.2 .simple = true := by
          unfold eff isX
          rw [tA _ ha, tB _ hb]
          rcases hty with ⟨a, b⟩ | ⟨a, b⟩ <;> rw [a, b] <;> rfl
        rw [this]; rfl
    rw [q1, q2, q3, q4, hC]
    ring
  have vα : g.vval v1 = sgn (decide (g.phase v1 = 1)) := by
    rw [← ph_pauli hp1]; unfold vval; rcases hb1 with h | h <;> rw [h]
  have vβ : g.vval v2 = sgn (decide (g.phase v2 = 1)) := by
    rw [← ph_pauli hp2]; unfold vval; rcases hb2 with h | h <;> rw [h]
  rw [hL, psum_const_mul, bialg_sum hAB, psum_two hg h12 h1 h2 hx hadj vα vβ]
  have L1 : ∀ s, ∏ n ∈ A, (f n false + sgn s * f n true) = _ := fun s => leg_prod (ho v1 h1).1 a3 a4 hp2 (hnadj v1 h1) x s (hnself v1 h1)
  have L2 : ∀ s, ∏ n ∈ B, (k n false + sgn s * k n true) = _ := fun s => leg_prod (ho v2 h2).1 b3 b4 hp1 (hnadj v2 h2) x s (hnself v2 h2)
  rw [L1 false, L1 true, L2 false, L2 true, (ho v1 h1).2, (ho v2 h2).2]
  set K1 : Bool → ℂ := fun s => ∏ u ∈ (g.nbrs v1).erase v2, g.edgeK (Function.update x v1 s) v1 u with hK1
  set K2 : Bool → ℂ := fun s => ∏ u ∈ (g.nbrs v2).erase v1, g.edgeK (Function.update x v2 s) v2 u with hK2
  have cA : A.card = as.length := List.toFinset_card_of_nodup a3
  have cB : B.card = bs.length := List.toFinset_card_of_nodup b3
  rw [cA, cB]
  show C * (2⁻¹ * sq2⁻¹ ^ (as.length * bs.length) * (sq2 ^ bs.length * K2 (xor (decide (g.phase v1 = 1)) false) *
      (sq2 ^ as.length * K1 (xor (decide (g.phase v2 = 1)) false) + sq2 ^ as.length * K1 (xor (decide (g.phase v2 = 1)) true)) +
      sq2 ^ bs.length * K2 (xor (decide (g.phase v1 = 1)) true) *
      (sq2 ^ as.length * K1 (xor (decide (g.phase v2 = 1)) false) - sq2 ^ as.length * K1 (xor (decide (g.phase v2 = 1)) true)))) = g.wOn U x * _
  rw [← bialg_algebra (decide (g.phase v1 = 1)) (decide (g.phase v2 = 1)) K1 K2, hC]
  simp only [Bool.xor_false, Bool.xor_true]
  have e := sq2_pow_bialg as.length bs.length
  generalize sq2 ^ (((as.length : ℤ) - 1) * ((bs.length : ℤ) - 1)) = p1 at e ⊢
  generalize sq2⁻¹ ^ (as.length * bs.length) = p2 at e ⊢
  rw [← e]
  ring

theorem copyX_sound {g : Graph} {ord : ℕ → List ℕ} (hg : g.WF) (ho : Rules.NbrOrder g ord) {v : ℕ} :
    ∃ g' b, copyX g ord v = some (g', b) ∧ Preserves g g' ∧ (b = checkCopyX g ord v) := by
  unfold copyX
  by_cases hc : checkCopyX g ord v = false
  · rw [if_pos hc]; exact ⟨g, false, rfl, Preserves.refl hg, hc.symm⟩
  · rw [if_neg hc]
    rw [Bool.not_eq_false] at hc
    rcases hh : (ord v).head? with _ | nv
    · simp [checkCopyX, hh] at hc
    · simp only
      by_cases hs : checkStrongComp g v nv = true
      · obtain ⟨g', h1, -, h2⟩ := strongComp_sound hg ho hs
        exact ⟨g', true, by rw [h1]; rfl, h2, hc.symm⟩
      · refine ⟨g, true, ?_, Preserves.refl hg, hc.symm⟩
        unfold strongComp
        rw [if_pos (by simpa using hs)]; rfl

end Basic
end PyZX
