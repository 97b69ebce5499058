import Verif.Model.MatchGadget
import Verif.Proofs.Match

/-!
# Moving a phase to a new vertex
-/

namespace PyZX
namespace Graph

instance (p q : ℕ × ℕ) : Decidable (SamePair p q) := by unfold SamePair; infer_instance

/-- `wOn_vval_mul` for graphs that agree on `S` only. -/
theorem wOn_vval_mul' {g g' : Graph} {S : Finset ℕ} {x : ℕ → Bool} {s : ℕ} {c : ℂ} (hs : s ∈ S)
    (hsc : g'.scalar.toNumber = g.scalar.toNumber) (he : ∀ u ∈ S, ∀ v ∈ S, u < v → g'.edgeK x u v = g.edgeK x u v)
    (hv : g'.vval s = g.vval s * c) (ho : ∀ v ∈ S, v ≠ s → g'.vval v = g.vval v) :
    g'.wOn S x = g.wOn S x * (if x s then c else 1) := by
  unfold wOn
  have hp : pairProd S (g'.edgeK x) = pairProd S (g.edgeK x) := pairProd_congr fun a ha b hb h => he a ha b hb h
  rw [hsc, hp, ← Finset.mul_prod_erase _ _ hs, ← Finset.mul_prod_erase _ _ hs]
  have h1 : ∏ v ∈ S.erase s, g'.vwt v (x v) = ∏ v ∈ S.erase s, g.vwt v (x v) :=
    Finset.prod_congr rfl fun v hv' => by
      obtain ⟨h1, h2⟩ := Finset.mem_erase.mp hv'
      unfold vwt; rw [ho v h2 h1]
  have h2 : g'.vwt s (x s) = g.vwt s (x s) * (if x s then c else 1) := by
    unfold vwt; split <;> simp [hv]
  rw [h1, h2]; ring

/-- The new graph is `G` with new interior vertices `N`; summing them out gives back `G`. -/
theorem extend_preserves {G G' : Graph} (hG : G.WF) (hG' : G'.WF) {N : Finset ℕ} (hN : Disjoint G.verts N)
    (hverts : G'.verts = G.verts ∪ N) (hNi : ∀ v ∈ N, G'.ty v ≠ .boundary)
    (hty : ∀ v ∈ G.verts, G'.ty v = G.ty v) (hin : G'.inputs = G.inputs) (hout : G'.outputs = G.outputs)
    (h : ∀ x, psum N G'.weight x = G.weight x) : Preserves G G' := by
  have hv : G.verts = G'.verts \ N := by
    rw [hverts, Finset.union_sdiff_cancel_right hN]
  have hbd : ∀ v ∈ G.verts, (G.ty v = .boundary ↔ G'.ty v = .boundary) := fun v hv => by rw [hty v hv]
  refine ⟨hG', hin, hout, fun v => ?_, fun b => ?_⟩
  · constructor
    · rintro ⟨h1, h2⟩
      rw [hverts, Finset.mem_union] at h1
      rcases h1 with h1 | h1
      · exact ⟨h1, (hbd v h1).mpr h2⟩
      · exact absurd h2 (hNi v h1)
    · rintro ⟨h1, h2⟩
      exact ⟨by rw [hverts]; exact Finset.mem_union_left _ h1, (hbd v h1).mp h2⟩
  · rw [sem_eq_amp hG', sem_eq_amp hG]
    refine (amp_of_removed (R := N) ?_ hv hbd h b).symm
    intro v hvN
    exact Finset.mem_filter.mpr ⟨by rw [hverts]; exact Finset.mem_union_right _ hvN, hNi v hvN⟩

/-- The effect of `add_edges` on fresh pairs. -/
def plain (g : Graph) (el : List (ℕ × ℕ)) (e : EType) : Graph :=
  { g with
    adj := fun a b => if ∃ p ∈ el, SamePair (a, b) p then some e else g.adj a b
    nedges := g.nedges + el.length }

theorem samePair_iff {a b s t : ℕ} : SamePair (a, b) (s, t) ↔ (a = s ∧ b = t) ∨ (a = t ∧ b = s) := Iff.rfl

theorem plain_nil (g : Graph) (e : EType) : g.plain [] e = g := by
  simp [plain]

theorem plain_cons (g : Graph) (p : ℕ × ℕ) (el : List (ℕ × ℕ)) (e : EType) :
    g.plain (p :: el) e = ({ g.setAdj p.1 p.2 (some e) with nedges := g.nedges + 1 } : Graph).plain el e := by
  unfold plain setAdj
  have h1 : (g.nedges + ((p :: el).length : ℤ)) = g.nedges + 1 + (el.length : ℤ) := by push_cast [List.length_cons]; ring
  simp only [h1, Graph.mk.injEq, true_and, and_true]
  funext a b
  by_cases h : ∃ q ∈ el, SamePair (a, b) q
  · have : ∃ q ∈ p :: el, SamePair (a, b) q := by
      obtain ⟨q, hq, hs⟩ := h; exact ⟨q, List.mem_cons_of_mem _ hq, hs⟩
    rw [if_pos h, if_pos this]
  · rw [if_neg h]
    by_cases h2 : SamePair (a, b) p
    · have : ∃ q ∈ p :: el, SamePair (a, b) q := ⟨p, by simp, h2⟩
      rw [if_pos this]; exact (if_pos h2).symm
    · have : ¬ ∃ q ∈ p :: el, SamePair (a, b) q := by
        rintro ⟨q, hq, hs⟩
        rcases List.mem_cons.mp hq with rfl | hq
        · exact h2 hs
        · exact h ⟨q, hq, hs⟩
      rw [if_neg this]; exact (if_neg h2).symm

theorem addEdges_eq {g : Graph} {el : List (ℕ × ℕ)} (e : EType) (h : ∀ p ∈ el, p.1 ∈ g.verts ∧ p.2 ∈ g.verts) :
    g.addEdges el e = some (g.plain el e) := by
  induction el generalizing g with
  | nil => rw [plain_nil]; rfl
  | cons p el ih =>
    have hp := h p (by simp)
    have h0 : g.addEdge0 p.1 p.2 e = some { g.setAdj p.1 p.2 (some e) with nedges := g.nedges + 1 } := by
      unfold addEdge0; rw [if_neg (by tauto)]
    unfold addEdges
    rw [List.foldlM_cons, h0, plain_cons]
    exact ih (g := { g.setAdj p.1 p.2 (some e) with nedges := g.nedges + 1 }) fun q hq => h q (List.mem_cons_of_mem _ hq)

theorem plain_wf {g : Graph} (hg : g.WF) {el : List (ℕ × ℕ)} {e : EType} (he : e ≠ .wio)
    (h : ∀ p ∈ el, p.1 ∈ g.verts ∧ p.2 ∈ g.verts ∧ p.1 ≠ p.2 ∧ g.adj p.1 p.2 = none)
    (hp : el.Pairwise fun p q => ¬ SamePair p q) : (g.plain el e).WF := by
  induction el generalizing g with
  | nil => rw [plain_nil]; exact hg
  | cons p el ih =>
    rw [plain_cons]
    obtain ⟨h1, h2, h3, h4⟩ := h p (by simp)
    rw [List.pairwise_cons] at hp
    have hI := hg.toInv.setAdj h1 h2 h3 (some e) 1 (by simp [h4])
    refine ih (g := { g.setAdj p.1 p.2 (some e) with nedges := g.nedges + 1 })
      { hI with noWio := ?_, types := hg.types, io := hg.io } ?_ hp.2
    · intro u v
      show (g.setAdj p.1 p.2 (some e)).adj u v ≠ some .wio
      simp only [Graph.setAdj]
      split
      · simpa using he
      · exact hg.noWio u v
    · intro q hq
      obtain ⟨q1, q2, q3, q4⟩ := h q (List.mem_cons_of_mem _ hq)
      refine ⟨q1, q2, q3, ?_⟩
      show (g.setAdj p.1 p.2 (some e)).adj q.1 q.2 = none
      have hns := hp.1 q hq
      rw [setAdj_adj_other g _ (fun hh => hns (Or.inl ⟨hh.1.symm, hh.2.symm⟩)) (fun hh => hns (Or.inr ⟨hh.2.symm, hh.1.symm⟩))]
      exact q4

theorem hang_edgeK {G G' : Graph} {x : ℕ → Bool} {S : Finset ℕ} (hadj : ∀ a ∈ S, ∀ b ∈ S, G'.adj a b = G.adj a b)
    (hty : ∀ u ∈ S, G'.ty u = G.ty u) : ∀ u ∈ S, ∀ v ∈ S, u < v → G.edgeK x u v = G'.edgeK x u v := by
  intro a ha b hb _
  unfold edgeK eff isX
  rw [hadj a ha b hb, hty a ha, hty b hb]

theorem hang_vval {G G' : Graph} {u : ℕ} (h1 : G'.ty u = G.ty u) (h2 : G'.phase u = G.phase u) (h3 : G'.label u = G.label u) :
    G.vval u = G'.vval u := by unfold vval; rw [h1, h2, h3]

/-- Unfusing the phase of a Z-spider `w` onto a new leaf `v` joined by a plain edge. -/
theorem hang_simple {G G' : Graph} (hG : G.WF) (hG' : G'.WF) {v w : ℕ} (hv : v ∉ G.verts) (hw : w ∈ G.verts)
    (hwt : G.ty w = .Z) (hverts : G'.verts = insert v G.verts)
    (hadj : ∀ a b, G'.adj a b = if SamePair (a, b) (v, w) then some .simple else G.adj a b)
    (hty : ∀ u ∈ G.verts, G'.ty u = G.ty u) (htv : G'.ty v = .Z)
    (hpv : ph (G'.phase v) = ph (G.phase w)) (hpw : G'.phase w = 0)
    (hp : ∀ u ∈ G.verts, u ≠ w → G'.phase u = G.phase u) (hl : ∀ u ∈ G.verts, G'.label u = G.label u)
    (hs : G'.scalar = G.scalar) (hin : G'.inputs = G.inputs) (hout : G'.outputs = G.outputs) : Preserves G G' := by
  simp only [samePair_iff] at hadj
  have hvw : v ≠ w := fun e => hv (e ▸ hw)
  have hadjS : ∀ a ∈ G.verts, ∀ b ∈ G.verts, G'.adj a b = G.adj a b := by
    intro a ha b hb
    rw [hadj, if_neg]
    rintro (⟨h1, -⟩ | ⟨-, h1⟩)
    · exact hv (h1 ▸ ha)
    · exact hv (h1 ▸ hb)
  refine extend_preserves hG hG' (N := {v}) (by simpa using hv) (by rw [hverts, Finset.insert_eq, Finset.union_comm])
    (by simp [htv]) hty hin hout fun x => ?_
  have hW : ∀ y, G'.weight y = G'.vwt v (y v) * dmat (y v) (y w) * G'.wOn G.verts y := by
    intro y
    rw [weight_eq_wOn, hverts, wOn_insert hG'.symm hv]
    congr 2
    rw [Finset.prod_eq_single w]
    · rw [edgeK_some (e := .simple) (by rw [hadj, if_pos (Or.inl ⟨rfl, rfl⟩)])]
      simp [kern, eff, isX, htv, hty w hw, hwt]
    · intro u hu huw
      refine edgeK_none ?_
      rw [hadj, if_neg]
      · by_contra hne; exact hv (hG.mem _ _ hne)
      · rintro (⟨-, h1⟩ | ⟨h1, h2⟩)
        · exact huw h1
        · exact hvw h1
    · intro h; exact absurd hw h
  have hV : G'.vval v = ph (G.phase w) := by unfold vval; rw [htv]; exact hpv
  have hfin : G.wOn G.verts x = G'.wOn G.verts x * (if x w then ph (G.phase w) else 1) := by
    refine wOn_vval_mul' hw (by rw [hs]) (hang_edgeK hadjS hty) ?_ ?_
    · have : G'.vval w = 1 := by unfold vval; rw [hty w hw, hwt, hpw]; exact ph_zero
      rw [this, one_mul]; unfold vval; rw [hwt]
    · intro u hu huw
      exact hang_vval (hty u hu) (hp u hu huw) (hl u hu)
  have hins : ∀ c, G'.wOn G.verts (Function.update x v c) = G'.wOn G.verts x := by
    intro c
    refine wOn_congr_env fun u hu => ?_
    rw [Function.update_of_ne]
    rintro rfl; exact hv hu
  rw [psum_one, Fintype.sum_bool, weight_eq_wOn G, hfin, hW, hW, hins, hins]
  simp only [Function.update_self, Function.update_of_ne hvw.symm, vwt, hV]
  cases x w <;> simp [dmat]; ring

theorem had_had (p : ℂ) (c : Bool) :
    hmat false false * hmat false c + hmat false true * hmat true c +
      p * (hmat true false * hmat false c + hmat true true * hmat true c) = if c then p else 1 := by
  have hs : sq2⁻¹ * sq2⁻¹ = (2 : ℂ)⁻¹ := by rw [← mul_inv, sq2_mul_self]
  cases c <;> simp [hmat]
  · linear_combination (2 : ℂ) * hs
  · linear_combination (2 * p : ℂ) * hs

/-- Moving the phase of a Z-spider `w` onto a new leaf `v` joined to `w` through a new spider `u`, with Hadamard edges. -/
theorem hang_had {G G' : Graph} (hG : G.WF) (hG' : G'.WF) {v u w : ℕ} (hv : v ∉ G.verts) (hu : u ∉ G.verts) (huv : u ≠ v)
    (hw : w ∈ G.verts) (hwt : G.ty w = .Z) (hverts : G'.verts = insert v (insert u G.verts))
    (hadj : ∀ a b, G'.adj a b = if SamePair (a, b) (w, u) ∨ SamePair (a, b) (v, u) then some .had else G.adj a b)
    (hty : ∀ z ∈ G.verts, G'.ty z = G.ty z) (htv : G'.ty v = .Z) (htu : G'.ty u = .Z)
    (hpv : ph (G'.phase v) = ph (G.phase w)) (hpu : G'.phase u = 0) (hpw : G'.phase w = 0)
    (hp : ∀ z ∈ G.verts, z ≠ w → G'.phase z = G.phase z) (hl : ∀ z ∈ G.verts, G'.label z = G.label z)
    (hs : G'.scalar = G.scalar) (hin : G'.inputs = G.inputs) (hout : G'.outputs = G.outputs) : Preserves G G' := by
  simp only [samePair_iff] at hadj
  have hvw : v ≠ w := fun e => hv (e ▸ hw)
  have huw : u ≠ w := fun e => hu (e ▸ hw)
  have hadjS : ∀ a ∈ G.verts, ∀ b ∈ G.verts, G'.adj a b = G.adj a b := by
    intro a ha b hb
    rw [hadj, if_neg]
    rintro ((⟨-, h1⟩ | ⟨h1, -⟩) | (⟨h1, -⟩ | ⟨h1, -⟩))
    · exact hu (h1 ▸ hb)
    · exact hu (h1 ▸ ha)
    · exact hv (h1 ▸ ha)
    · exact hu (h1 ▸ ha)
  refine extend_preserves hG hG' (N := {v, u}) (by simp [hv, hu]) (by
    rw [hverts]; ext z; simp only [Finset.mem_insert, Finset.mem_union, Finset.mem_singleton]; tauto)
    (by simp [htv, htu]) hty hin hout fun x => ?_
  have hW : ∀ y, G'.weight y = G'.vwt v (y v) * hmat (y v) (y u) * (hmat (y u) (y w) * G'.wOn G.verts y) := by
    intro y
    have hGv : ∀ z, G.adj v z = none := fun z => by by_contra hne; exact hv (hG.mem _ _ hne)
    have hGu : ∀ z, G.adj u z = none := fun z => by by_contra hne; exact hu (hG.mem _ _ hne)
    rw [weight_eq_wOn, hverts, wOn_insert hG'.symm (by simp [hv, Ne.symm huv]), wOn_insert hG'.symm hu, Finset.prod_insert hu]
    have e1 : G'.edgeK y v u = hmat (y v) (y u) := by
      rw [edgeK_some (e := .had) (by rw [hadj, if_pos (Or.inr (Or.inl ⟨rfl, rfl⟩))])]
      simp [kern, eff, isX, htv, htu]
    have e2 : ∏ z ∈ G.verts, G'.edgeK y v z = 1 := by
      refine Finset.prod_eq_one fun z hz => edgeK_none ?_
      rw [hadj, if_neg, hGv]
      rintro ((⟨h1, -⟩ | ⟨h1, -⟩) | (⟨-, h1⟩ | ⟨h1, -⟩))
      · exact hvw h1
      · exact huv h1.symm
      · exact hu (h1 ▸ hz)
      · exact huv h1.symm
    have e3 : ∏ z ∈ G.verts, G'.edgeK y u z = hmat (y u) (y w) := by
      rw [Finset.prod_eq_single w]
      · rw [edgeK_some (e := .had) (by rw [hadj, if_pos (Or.inl (Or.inr ⟨rfl, rfl⟩))])]
        simp [kern, eff, isX, htu, hty w hw, hwt]
      · intro z hz hzw
        refine edgeK_none ?_
        rw [hadj, if_neg, hGu]
        rintro ((⟨h1, -⟩ | ⟨-, h1⟩) | (⟨h1, -⟩ | ⟨-, h1⟩))
        · exact huw h1
        · exact hzw h1
        · exact huv h1
        · exact hv (h1 ▸ hz)
      · intro h; exact absurd hw h
    have e4 : G'.vwt u (y u) = 1 := by
      unfold vwt vval; rw [htu, hpu]; split
      · exact ph_zero
      · rfl
    rw [e1, e2, e3, e4]; ring
  have hV : G'.vval v = ph (G.phase w) := by unfold vval; rw [htv]; exact hpv
  have hfin : G.wOn G.verts x = G'.wOn G.verts x * (if x w then ph (G.phase w) else 1) := by
    refine wOn_vval_mul' hw (by rw [hs]) (hang_edgeK hadjS hty) ?_ ?_
    · have : G'.vval w = 1 := by unfold vval; rw [hty w hw, hwt, hpw]; exact ph_zero
      rw [this, one_mul]; unfold vval; rw [hwt]
    · intro z hz hzw
      exact hang_vval (hty z hz) (hp z hz hzw) (hl z hz)
  have hins : ∀ c d, G'.wOn G.verts (Function.update (Function.update x v c) u d) = G'.wOn G.verts x := by
    intro c d
    refine wOn_congr_env fun z hz => ?_
    rw [Function.update_of_ne, Function.update_of_ne]
    · rintro rfl; exact hv hz
    · rintro rfl; exact hu hz
  rw [psum_two (Ne.symm huv), weight_eq_wOn G, hfin]
  simp only [hW, hins, Function.update_self, Function.update_of_ne huv, Function.update_of_ne (Ne.symm huv), Function.update_of_ne hvw.symm,
    Function.update_of_ne huw.symm, vwt, hV]
  have := had_had (ph (G.phase w)) (x w)
  rw [← this]
  simp
  ring

end Graph
end PyZX
