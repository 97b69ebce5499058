import Verif.Model.Basic
import Verif.Sem.Frame
import Verif.Proofs.Ids

/-!
# Colour change
-/

namespace PyZX
open Finset

namespace Graph

theorem nbrs_congr {g g' : Graph} (hv : g'.verts = g.verts) (h : ∀ a b, (g'.adj a b).isSome = (g.adj a b).isSome) (v : ℕ) :
    g'.nbrs v = g.nbrs v := by
  unfold nbrs; rw [hv]; exact Finset.filter_congr fun w _ => by rw [h]

/-- The invariant only depends on which edges exist. -/
theorem Inv.congr_isSome {g g' : Graph} (h : g.Inv) (hv : g'.verts = g.verts) (hs : ∀ a b, g'.adj a b = g'.adj b a)
    (ha : ∀ a b, (g'.adj a b).isSome = (g.adj a b).isSome)
    (hi : g'.vindex = g.vindex) (hn : g'.nedges = g.nedges) (hin : g'.inputs = g.inputs)
    (hout : g'.outputs = g.outputs) : g'.Inv := by
  have hnone : ∀ a b, g'.adj a b = none ↔ g.adj a b = none := by
    intro a b
    have := ha a b
    cases h1 : g'.adj a b <;> cases h2 : g.adj a b <;> simp_all
  constructor
  · exact hs
  · intro u v huv; rw [hv]; exact h.mem u v (fun e => huv ((hnone u v).mpr e))
  · rw [hv, hi]; exact h.lt
  · rw [hv, hin]; exact h.inp
  · rw [hv, hout]; exact h.out
  · intro v; rw [hnone]; exact h.loopless v
  · rw [hn, hv, h.count]
    exact pairSum_congr fun a _ b _ _ => by rw [ha]

end Graph

namespace Basic
open Graph

theorem toggle_isSome (e : Option EType) : (e.map EType.toggle).isSome = e.isSome := by cases e <;> rfl

theorem toggleEdges_frame (v : ℕ) (ns : List ℕ) : ∀ g : Graph, toggleEdges g v ns = { g with adj := (toggleEdges g v ns).adj } := by
  induction ns with
  | nil => intro g; rfl
  | cons w r ih =>
    intro g
    change toggleEdges (toggleEdge g v w) v r = { g with adj := (toggleEdges (toggleEdge g v w) v r).adj }
    rw [ih (toggleEdge g v w)]
    rfl

theorem toggleEdges_adj {v : ℕ} (ns : List ℕ) : ∀ {g : Graph}, (∀ a b, g.adj a b = g.adj b a) → ns.Nodup → v ∉ ns → ∀ a b,
    (toggleEdges g v ns).adj a b = if (a = v ∧ b ∈ ns) ∨ (b = v ∧ a ∈ ns) then (g.adj a b).map EType.toggle else g.adj a b := by
  induction ns with
  | nil => intro g _ _ _ a b; simp [toggleEdges]
  | cons w r ih =>
    intro g hs hn hv a b
    obtain ⟨hw, hr⟩ := List.nodup_cons.mp hn
    simp only [List.mem_cons, not_or] at hv
    change (toggleEdges (toggleEdge g v w) v r).adj a b = _
    rw [ih (g := toggleEdge g v w) (setAdj_symm hs v w _) hr hv.2]
    have h1 : (toggleEdge g v w).adj a b = if (a = v ∧ b = w) ∨ (a = w ∧ b = v) then (g.adj a b).map EType.toggle else g.adj a b := by
      simp only [toggleEdge, Graph.setAdj]
      by_cases h : (a = v ∧ b = w) ∨ (a = w ∧ b = v)
      · rw [if_pos h, if_pos h]
        rcases h with ⟨rfl, rfl⟩ | ⟨rfl, rfl⟩
        · rfl
        · rw [hs]
      · rw [if_neg h, if_neg h]
    rw [h1]
    by_cases ha : (a = v ∧ b ∈ r) ∨ (b = v ∧ a ∈ r)
    · have hnot : ¬ ((a = v ∧ b = w) ∨ (a = w ∧ b = v)) := by
        rintro (⟨h2, h3⟩ | ⟨h2, h3⟩)
        · rcases ha with ⟨-, h⟩ | ⟨h, h'⟩
          · exact hw (h3 ▸ h)
          · exact hv.1 (h.symm.trans h3)
        · rcases ha with ⟨h, h'⟩ | ⟨-, h⟩
          · exact hv.1 (h.symm.trans h2)
          · exact hw (h2 ▸ h)
      rw [if_pos ha, if_neg hnot, if_pos]
      rcases ha with ⟨h, h'⟩ | ⟨h, h'⟩
      · exact Or.inl ⟨h, List.mem_cons_of_mem _ h'⟩
      · exact Or.inr ⟨h, List.mem_cons_of_mem _ h'⟩
    · rw [if_neg ha]
      by_cases hb : (a = v ∧ b = w) ∨ (a = w ∧ b = v)
      · rw [if_pos hb, if_pos]
        rcases hb with ⟨h, h'⟩ | ⟨h, h'⟩
        · exact Or.inl ⟨h, by simp [h']⟩
        · exact Or.inr ⟨h', by simp [h]⟩
      · rw [if_neg hb, if_neg]
        rintro (⟨h, h'⟩ | ⟨h, h'⟩)
        · rcases List.mem_cons.mp h' with h'' | h''
          · exact hb (Or.inl ⟨h, h''⟩)
          · exact ha (Or.inl ⟨h, h''⟩)
        · rcases List.mem_cons.mp h' with h'' | h''
          · exact hb (Or.inr ⟨h'', h⟩)
          · exact ha (Or.inr ⟨h, h''⟩)

/-- All edges at `v` toggled. -/
theorem toggleEdges_all {g : Graph} (hg : g.WF) {ord : ℕ → List ℕ} (hord : Rules.NbrOrder g ord) {v : ℕ} (hv : v ∈ g.verts) (g0 : Graph)
    (h0 : g0.adj = g.adj) (a b : ℕ) :
    (toggleEdges g0 v (ord v)).adj a b = if a = v ∨ b = v then (g.adj a b).map EType.toggle else g.adj a b := by
  obtain ⟨hn, hset⟩ := hord v hv
  have hmem : ∀ w, w ∈ ord v ↔ g.adj v w ≠ none := by
    intro w; rw [← mem_nbrs hg.toInv, ← hset, List.mem_toFinset]
  have hvn : v ∉ ord v := by rw [hmem]; simp [hg.loopless]
  rw [toggleEdges_adj (ord v) (by rw [h0]; exact hg.symm) hn hvn, h0]
  by_cases h : (a = v ∧ b ∈ ord v) ∨ (b = v ∧ a ∈ ord v)
  · rw [if_pos h, if_pos (by tauto)]
  · rw [if_neg h]
    by_cases h' : a = v ∨ b = v
    · rw [if_pos h']
      have : g.adj a b = none := by
        by_contra hne
        rcases h' with rfl | rfl
        · exact h (Or.inl ⟨rfl, (hmem b).mpr hne⟩)
        · exact h (Or.inr ⟨rfl, (hmem a).mpr (by rw [hg.symm]; exact hne)⟩)
      rw [this]; rfl
    · rw [if_neg h']

/-- The result of toggling all edges at a vertex is well-formed. -/
theorem toggleEdges_wf {g : Graph} (hg : g.WF) {ord : ℕ → List ℕ} (hord : Rules.NbrOrder g ord) {v : ℕ} {g' : Graph}
    (hadj : ∀ a b, g'.adj a b = if a = v ∨ b = v then (g.adj a b).map EType.toggle else g.adj a b)
    (h1 : g'.verts = g.verts) (h2 : g'.vindex = g.vindex) (h3 : g'.nedges = g.nedges) (h4 : g'.inputs = g.inputs)
    (h5 : g'.outputs = g.outputs)
    (h6 : ∀ w ∈ g.verts, g'.ty w = .boundary ∨ g'.ty w = .Z ∨ g'.ty w = .X ∨ g'.ty w = .zbox)
    (h7 : ∀ w ∈ g.verts, g'.ty w = .boundary ↔ g.ty w = .boundary) : g'.WF ∧ Rules.NbrOrder g' ord := by
  have hsome : ∀ a b, (g'.adj a b).isSome = (g.adj a b).isSome := by
    intro a b; rw [hadj]; split
    · exact toggle_isSome _
    · rfl
  have hinv : g'.Inv := hg.toInv.congr_isSome h1 (by
    intro a b; rw [hadj, hadj, hg.symm a b]; simp only [or_comm]) hsome h2 h3 h4 h5
  refine ⟨{ hinv with noWio := ?_, types := ?_, io := ?_ }, ?_⟩
  · intro a b
    rw [hadj]
    split
    · cases h : g.adj a b with
      | none => simp
      | some e => cases e <;> simp [EType.toggle]
    · exact hg.noWio a b
  · rw [h1]; exact h6
  · rw [h4, h5]
    intro w hw
    exact (h7 w (hw.elim (hg.inp w) (hg.out w))).mpr (hg.io w hw)
  · intro w hw
    rw [nbrs_congr h1 hsome]
    exact hord w (by rw [← h1]; exact hw)

theorem toggle_eff {e : EType} (he : e ≠ .wio) : decide (e.toggle = .had) = !decide (e = .had) := by
  cases e <;> simp_all [EType.toggle]

theorem vtoggle_X {t : VType} (h : t.isZX = true) : decide (t.toggle = .X) = !decide (t = .X) := by
  cases t <;> simp_all [VType.isZX, VType.toggle]

theorem vtoggle_boundary {t : VType} (h : t.isZX = true) : t.toggle = .boundary ↔ t = .boundary := by
  revert h; cases t <;> simp [VType.isZX, VType.toggle]

theorem vtoggle_types {t : VType} (h : t.isZX = true) : t.toggle = .boundary ∨ t.toggle = .Z ∨ t.toggle = .X ∨ t.toggle = .zbox := by
  revert h; cases t <;> simp [VType.isZX, VType.toggle]

/-- Changing the colour of a spider and toggling its edges does not change any kernel. -/
theorem colorChange_sound {g : Graph} (hg : g.WF) {ord : ℕ → List ℕ} (hord : Rules.NbrOrder g ord) {v : ℕ} (hv : v ∈ g.verts) :
    Preserves g (colorChange g ord v).1 ∧ Rules.NbrOrder (colorChange g ord v).1 ord ∧
      (∀ a b, ((colorChange g ord v).1.adj a b).isSome = (g.adj a b).isSome) ∧ (colorChange g ord v).1.verts = g.verts ∧
      (∀ w, (colorChange g ord v).1.ty w = .boundary ↔ g.ty w = .boundary) := by
  unfold colorChange
  by_cases hz : (g.ty v).isZX = true
  swap
  · rw [if_neg hz]; exact ⟨Preserves.refl hg, hord, fun _ _ => rfl, rfl, fun _ => Iff.rfl⟩
  rw [if_pos hz]
  simp only
  set g0 := g.setType v (g.ty v).toggle with hg0
  set g' := toggleEdges g0 v (ord v) with hg'
  have hfr : g' = { g0 with adj := g'.adj } := toggleEdges_frame v (ord v) g0
  have hadj : ∀ a b, g'.adj a b = if a = v ∨ b = v then (g.adj a b).map EType.toggle else g.adj a b :=
    toggleEdges_all hg hord hv g0 rfl
  have hty : g'.ty = Function.update g.ty v (g.ty v).toggle := by rw [hfr]; rfl
  have hverts : g'.verts = g.verts := by rw [hfr]; rfl
  have hb : ∀ w, g'.ty w = .boundary ↔ g.ty w = .boundary := by
    intro w
    rw [hty]
    by_cases hw : w = v
    · subst hw
      simp only [Function.update_self]
      exact vtoggle_boundary hz
    · rw [Function.update_of_ne hw]
  have hwf := toggleEdges_wf hg hord hadj hverts (by rw [hfr]; rfl) (by rw [hfr]; rfl) (by rw [hfr]; rfl) (by rw [hfr]; rfl) (by
      intro w hw
      rw [hty]
      by_cases e : w = v
      · subst e
        simp only [Function.update_self]
        exact vtoggle_types hz
      · rw [Function.update_of_ne e]; exact hg.types w hw) (fun w _ => hb w)
  have hX : ∀ w, g'.isX w = if w = v then !g.isX w else g.isX w := by
    intro w
    unfold isX
    rw [hty]
    by_cases e : w = v
    · subst e
      rw [Function.update_self, if_pos rfl]
      exact vtoggle_X hz
    · rw [Function.update_of_ne e, if_neg e]
  have hK : ∀ x a b, a ≠ b → g'.edgeK x a b = g.edgeK x a b := by
    intro x a b hab
    unfold edgeK
    rw [hadj]
    by_cases hav : a = v ∨ b = v
    · rw [if_pos hav]
      cases h : g.adj a b with
      | none => rfl
      | some e =>
        simp only [Option.map_some]
        have he : e ≠ .wio := by rintro rfl; exact hg.noWio _ _ h
        have : g'.eff a b e.toggle = g.eff a b e := by
          unfold eff
          rw [toggle_eff he, hX, hX]
          rcases hav with rfl | rfl
          · rw [if_pos rfl, if_neg (Ne.symm hab)]; simp
          · rw [if_pos rfl, if_neg hab]; simp
        rw [this]
    · rw [if_neg hav]
      push Not at hav
      cases h : g.adj a b with
      | none => rfl
      | some e =>
        simp only
        have : g'.eff a b e = g.eff a b e := by
          unfold eff; rw [hX, hX, if_neg hav.1, if_neg hav.2]
        rw [this]
  have hvv : ∀ w, g'.vval w = g.vval w := by
    intro w
    unfold vval
    have h1 : g'.phase w = g.phase w := by rw [hfr]; rfl
    have h2 : g'.label w = g.label w := by rw [hfr]; rfl
    rw [h1, h2, hty]
    by_cases e : w = v
    · subst e
      rw [Function.update_self]
      revert hz
      clear * -
      cases g.ty w <;> simp [VType.isZX, VType.toggle]
    · rw [Function.update_of_ne e]
  refine ⟨⟨hwf.1, by rw [hfr]; rfl, by rw [hfr]; rfl, fun w => by rw [hverts, hb], fun b => ?_⟩, hwf.2, ?_, hverts, hb⟩
  · rw [sem_eq_amp hwf.1, sem_eq_amp hg]
    unfold amp
    have hI : g'.interior = g.interior := by
      unfold Graph.interior; rw [hverts]; exact Finset.filter_congr fun w _ => by rw [Ne, hb]
    rw [hI]
    refine psum_congr fun x _ => ?_
    rw [weight_eq_wOn, weight_eq_wOn, hverts]
    exact wOn_congr (by rw [hfr]; rfl) (fun w _ => hvv w) fun a _ b _ hab => hK x a b (Nat.ne_of_lt hab)
  · intro a b
    rw [hadj]
    split
    · exact toggle_isSome _
    · rfl

/-! ### The whole diagram -/

/-- Apply a Hadamard to the boundary `v` of a tensor. -/
noncomputable def hadAt (v : ℕ) (f : (ℕ → Bool) → ℂ) : (ℕ → Bool) → ℂ := fun b =>
  hmat (b v) false * f (Function.update b v false) + hmat (b v) true * f (Function.update b v true)

theorem toggleBoundary_sound {g : Graph} (hg : g.WF) {ord : ℕ → List ℕ} (hord : Rules.NbrOrder g ord) {v : ℕ} (hv : v ∈ g.verts)
    (hb : g.ty v = .boundary) (hd : g.degree v = 1) :
    (toggleEdges g v (ord v)).WF ∧ Rules.NbrOrder (toggleEdges g v (ord v)) ord ∧
      (∀ a b, ((toggleEdges g v (ord v)).adj a b).isSome = (g.adj a b).isSome) ∧
      (toggleEdges g v (ord v)) = { g with adj := (toggleEdges g v (ord v)).adj } ∧
      ∀ b, (toggleEdges g v (ord v)).sem b = hadAt v g.sem b := by
  set g' := toggleEdges g v (ord v) with hg'
  have hfr : g' = { g with adj := g'.adj } := toggleEdges_frame v (ord v) g
  have hadj : ∀ a b, g'.adj a b = if a = v ∨ b = v then (g.adj a b).map EType.toggle else g.adj a b :=
    toggleEdges_all hg hord hv g rfl
  have hty : g'.ty = g.ty := by rw [hfr]
  have hverts : g'.verts = g.verts := by rw [hfr]
  have hwf := toggleEdges_wf hg hord hadj hverts (by rw [hfr]) (by rw [hfr]) (by rw [hfr]) (by rw [hfr])
    (by rw [hty]; exact hg.types) (fun w _ => by rw [hty])
  have hsome : ∀ a b, (g'.adj a b).isSome = (g.adj a b).isSome := by
    intro a b; rw [hadj]; split
    · exact toggle_isSome _
    · rfl
  refine ⟨hwf.1, hwf.2, hsome, hfr, fun b => ?_⟩
  unfold hadAt
  rw [sem_eq_amp hwf.1, sem_eq_amp hg, sem_eq_amp hg]
  obtain ⟨w, hw⟩ := Finset.card_eq_one.mp hd
  have hvw : g.adj v w ≠ none := by rw [← mem_nbrs hg.toInv, hw]; simp
  obtain ⟨e, he⟩ := Option.ne_none_iff_exists'.mp hvw
  have hwv : w ≠ v := by rintro rfl; rw [hg.loopless] at hvw; exact hvw rfl
  have hewio : e ≠ .wio := by rintro rfl; exact hg.noWio _ _ he
  have hother : ∀ u, u ≠ w → g.adj v u = none := by
    intro u hu
    by_contra hne
    have : u ∈ g.nbrs v := (mem_nbrs hg.toInv).mpr hne
    rw [hw, Finset.mem_singleton] at this
    exact hu this
  have hvI : v ∉ g.interior := by simp [Graph.interior, hb]
  have hI : g'.interior = g.interior := by unfold Graph.interior; rw [hverts, hty]
  -- weight in terms of the rest
  have hwt : ∀ (G : Graph) (hG : G.WF), G.verts = g.verts → G.ty = g.ty → (∀ a b, (G.adj a b).isSome = (g.adj a b).isSome) → ∀ e',
      G.adj v w = some e' → ∀ x, G.weight x = kern (G.eff v w e') (x v) (x w) * G.wOn (g.verts.erase v) x := by
    intro G hG h1 h2 h3 e' he' x
    rw [weight_eq_wOn, h1, wOn_erase hG.symm hv]
    have : ∏ u ∈ g.verts.erase v, G.edgeK x v u = G.edgeK x v w := by
      refine Finset.prod_eq_single w (fun u _ hu => edgeK_none ?_) fun hn => ?_
      · have := h3 v u
        rw [hother u hu] at this
        cases hh : G.adj v u with
        | none => rfl
        | some e => rw [hh] at this; simp at this
      · exact absurd (Finset.mem_erase.mpr ⟨hwv, hg.mem' hvw⟩) hn
    rw [this, edgeK_some he']
    have hone : G.vwt v (x v) = 1 := by unfold vwt vval; rw [h2, hb]; simp
    rw [hone, one_mul]
  have hrest : ∀ x, g'.wOn (g.verts.erase v) x = g.wOn (g.verts.erase v) x := by
    intro x
    refine wOn_congr (by rw [hfr]) (fun u _ => by rw [hfr]; rfl) fun a ha c hc _ => ?_
    unfold edgeK eff isX
    rw [hadj, if_neg (not_or.mpr ⟨(Finset.mem_erase.mp ha).1, (Finset.mem_erase.mp hc).1⟩), hty]
  have he' : g'.adj v w = some e.toggle := by rw [hadj, if_pos (Or.inl rfl), he]; rfl
  unfold amp
  rw [hI, ← psum_const_mul, ← psum_const_mul]
  -- pull the updates into the summand
  have hpull : ∀ c, psum g.interior (fun x => hmat (b v) c * g.weight x) (Function.update b v c) =
      psum g.interior (fun x => hmat (b v) c * g.weight (Function.update x v c)) b := by
    intro c
    unfold psum
    refine Finset.sum_congr rfl fun T _ => ?_
    congr 2
    funext u
    unfold setOn
    by_cases hu : u = v
    · subst hu; simp [hvI]
    · simp [hu]
  rw [hpull, hpull, ← psum_add]
  refine psum_congr fun x hx => ?_
  have hxv : x v = b v := hx v hvI
  rw [hwt g' hwf.1 hverts hty hsome _ he', hwt g hg rfl rfl (fun _ _ => rfl) e he, hwt g hg rfl rfl (fun _ _ => rfl) e he, hrest]
  have hupd : ∀ c, g.wOn (g.verts.erase v) (Function.update x v c) = g.wOn (g.verts.erase v) x := by
    intro c
    exact wOn_congr_env fun u hu => Function.update_of_ne (Finset.mem_erase.mp hu).1 _ _
  rw [hupd, hupd]
  simp only [Function.update_self, Function.update_of_ne hwv]
  have heff : g'.eff v w e.toggle = !g.eff v w e := by
    unfold eff isX; rw [toggle_eff hewio, hty]; simp
  rw [heff, hxv]
  have hk := kern_comp true (g.eff v w e) (b v) (x w)
  have hx1 : xor true (g.eff v w e) = !g.eff v w e := by simp
  rw [hx1] at hk
  rw [← hk]
  have h1 : ∀ c, kern true c (b v) = hmat (b v) c := fun c => by simp [kern, hmat_comm]
  rw [h1, h1]
  ring

/-- `color_change_diagram` applies a Hadamard to every boundary of the tensor. -/
theorem colorChangeDiagram_sound (ord : ℕ → List ℕ) : ∀ (vs : List ℕ) (g : Graph), g.WF → Rules.NbrOrder g ord → (∀ v ∈ vs, v ∈ g.verts) →
    (∀ v ∈ vs, g.ty v = .boundary → g.degree v = 1) →
    ∃ g', colorChangeDiagram g ord vs = some g' ∧ g'.WF ∧ g'.verts = g.verts ∧ g'.inputs = g.inputs ∧ g'.outputs = g.outputs ∧
      (∀ w, g'.ty w = .boundary ↔ g.ty w = .boundary) ∧
      ∀ b, g'.sem b = ((vs.filter fun v => g.ty v = .boundary).foldl (fun f v => hadAt v f) g.sem) b := by
  intro vs
  induction vs with
  | nil => intro g hg _ _ _; exact ⟨g, rfl, hg, rfl, rfl, rfl, fun _ => Iff.rfl, fun _ => rfl⟩
  | cons v r ih =>
    intro g hg hord hmem hdeg
    have hv := hmem v (by simp)
    have hdegree : ∀ {g1 : Graph}, g1.verts = g.verts → (∀ a b, (g1.adj a b).isSome = (g.adj a b).isSome) → ∀ w, g1.degree w = g.degree w := by
      intro g1 h1 h2 w; unfold degree; rw [nbrs_congr h1 h2]
    unfold colorChangeDiagram
    rw [List.foldlM_cons]
    by_cases hb : g.ty v = .boundary
    · have hd := hdeg v (by simp) hb
      obtain ⟨h1, h2, h3, h4, h5⟩ := toggleBoundary_sound hg hord hv hb hd
      set g1 := toggleEdges g v (ord v) with hg1
      have hstep : colorChangeStep ord g v = some g1 := by
        rw [colorChangeStep, if_pos hb, if_neg (by simp [hd])]
      have hv1 : g1.verts = g.verts := by rw [h4]
      have ht1 : g1.ty = g.ty := by rw [h4]
      obtain ⟨g', e1, e2, e3, e4, e5, e6, e7⟩ := ih g1 h1 h2 (by rw [hv1]; exact fun w hw => hmem w (by simp [hw])) (by
        intro w hw hwb
        rw [hdegree hv1 h3]
        exact hdeg w (by simp [hw]) (by rw [← ht1]; exact hwb))
      refine ⟨g', by rw [hstep]; exact e1, e2, e3.trans hv1, by rw [e4, h4], by rw [e5, h4], fun w => by rw [e6, ht1], fun b => ?_⟩
      rw [e7, ht1]
      have hs : g1.sem = hadAt v g.sem := funext h5
      rw [List.filter_cons_of_pos (by simp [hb]), List.foldl_cons, hs]
    · have hstep : colorChangeStep ord g v = some (colorChange g ord v).1 := by
        rw [colorChangeStep, if_neg hb]
        by_cases hz : (g.ty v).isZX = true
        · rw [if_pos hz]
        · rw [if_neg hz, colorChange, if_neg hz]
      obtain ⟨hp, h2, h3, h4, h5⟩ := colorChange_sound hg hord hv
      set g1 := (colorChange g ord v).1 with hg1
      obtain ⟨g', e1, e2, e3, e4, e5, e6, e7⟩ := ih g1 hp.wf h2 (by rw [h4]; exact fun w hw => hmem w (by simp [hw])) (by
        intro w hw hwb
        rw [hdegree h4 h3]
        exact hdeg w (by simp [hw]) ((h5 w).mp hwb))
      refine ⟨g', by rw [hstep]; exact e1, e2, e3.trans h4, by rw [e4, hp.inputs], by rw [e5, hp.outputs], fun w => by rw [e6, h5], fun b => ?_⟩
      rw [e7, List.filter_cons_of_neg (by simp [hb])]
      have hs : g1.sem = g.sem := funext hp.sem
      rw [hs]
      have hf : (r.filter fun v => g1.ty v = .boundary) = r.filter fun v => g.ty v = .boundary :=
        List.filter_congr fun w _ => by simp [h5]
      rw [hf]

end Basic
end PyZX
