import Verif.Proofs.ExtTot2

/-!
# Circuit extraction does not get stuck: `apply_cnots`
-/

namespace PyZX
namespace Extract

open Finset Graph Simplify

theorem cnotGates_total {qmap : ℕ → Option ℕ} {fs : List ℕ} (hq : ∀ f ∈ fs, ∃ q, qmap f = some q) : ∀ (cs : List (ℕ × ℕ)),
    (∀ c ∈ cs, c.1 < fs.length ∧ c.2 < fs.length) → ∃ l, cnotGates qmap fs cs = some l := by
  intro cs
  induction cs with
  | nil => exact fun _ => ⟨[], rfl⟩
  | cons c cs ih =>
    intro h
    obtain ⟨l, hl⟩ := ih fun d hd => h d (by simp [hd])
    obtain ⟨h1, h2⟩ := h c (by simp)
    obtain ⟨a, ha⟩ := hq _ (List.getElem_mem h1)
    obtain ⟨b, hb⟩ := hq _ (List.getElem_mem h2)
    refine ⟨.cnot a b :: l, ?_⟩
    unfold cnotGates at hl ⊢
    rw [List.mapM_cons, List.getElem?_eq_getElem h1, List.getElem?_eq_getElem h2, Option.bind_some, Option.bind_some, ha, hb, hl]
    rfl

theorem connStep_total {g : Graph} (hg : g.WF) {m : Mat2.Data} {ns fs : List ℕ} {p : ℕ × ℕ} (h1 : fs.getD p.1 0 ∈ g.verts)
    (h2 : ns.getD p.2 0 ∈ g.verts) (hne : fs.getD p.1 0 ≠ ns.getD p.2 0) :
    ∃ g', connStep m ns fs g p = some g' ∧ g'.WF ∧ g'.verts = g.verts := by
  unfold connStep
  simp only
  generalize fs.getD p.1 0 = r at *
  generalize ns.getD p.2 0 = l at *
  by_cases hm : Mat2.get m p.1 p.2 = true
  · rw [if_pos hm]
    by_cases hn : g.adj r l = none
    · rw [if_pos hn]
      have e := addEdge_total (g := g) .had h1 h2 hn
      exact ⟨_, e, hg.addEdge e hne (by simp), rfl⟩
    · rw [if_neg hn]; exact ⟨g, rfl, hg, rfl⟩
  · rw [if_neg hm]
    by_cases hn : g.adj r l = none
    · rw [if_pos hn]; exact ⟨g, rfl, hg, rfl⟩
    · rw [if_neg hn]
      obtain ⟨g', e⟩ : ∃ g', g.removeEdge r l = some g' := by
        unfold removeEdge; rw [if_neg (by tauto)]; exact ⟨_, rfl⟩
      refine ⟨g', e, hg.removeEdge e, ?_⟩
      obtain ⟨-, -, e2⟩ := removeEdge_eq e
      rw [e2]; rfl

theorem connectivity_total {g : Graph} (hg : g.WF) (m : Mat2.Data) {ns fs : List ℕ} (hf : ∀ f ∈ fs, f ∈ g.verts) (hn : ∀ j ∈ ns, j ∈ g.verts)
    (hd : ∀ j ∈ ns, j ∉ fs) : ∃ g', connectivity g m ns fs = some g' := by
  have key : ∀ (l : List (ℕ × ℕ)) {h : Graph}, (∀ p ∈ l, p.1 < fs.length ∧ p.2 < ns.length) → h.WF → h.verts = g.verts →
      ∃ h', l.foldlM (connStep m ns fs) h = some h' := by
    intro l
    induction l with
    | nil => exact fun _ _ _ => ⟨_, rfl⟩
    | cons p l ih =>
      intro h hl hw hv
      obtain ⟨p1, p2⟩ := hl p (by simp)
      have hne : fs.getD p.1 0 ≠ ns.getD p.2 0 := fun e => hd _ (getD_mem p2) (by rw [← e]; exact getD_mem p1)
      obtain ⟨h1, e1, w1, v1⟩ := connStep_total hw (m := m) (by rw [hv]; exact hf _ (getD_mem p1)) (by rw [hv]; exact hn _ (getD_mem p2)) hne
      obtain ⟨h2, e2⟩ := ih (fun q hq => hl q (by simp [hq])) w1 (v1.trans hv)
      exact ⟨h2, by rw [List.foldlM_cons, e1]; exact e2⟩
  refine key _ (fun p hp => ?_) hg rfl
  rwa [List.mem_product, List.mem_range, List.mem_range] at hp

/-- The invariant of the loop on `good_verts` with the facts that show that it does not get stuck. -/
structure XT (g0 : Graph) (s : State) (l : List (ℕ × ℕ)) : Prop where
  ei : EI g0 s l
  gads : s.gadgets = ∅
  tb : TB s.g
  fin : FinP s.g s.frontier
  far : ∀ p ∈ l, Far s.g p.2 ∧ ∃ i ∈ s.g.inputs, s.g.adj p.2 i ≠ none
  nodup2 : (l.map (·.2)).Nodup

theorem removeVertices_total {g : Graph} (hg : g.WF) {v : ℕ} (hv : v ∈ g.verts) : ∃ g', g.removeVertices [v] = some g' ∧
    g'.verts = g.verts.erase v ∧ ∀ a b, a ≠ v → b ≠ v → g'.adj a b = g.adj a b := by
  unfold removeVertices
  rw [List.foldlM_cons]
  unfold removeVertex1
  rw [if_neg (by
    rintro (h | h)
    · exact h hv
    · exact h (hg.loopless v))]
  refine ⟨_, rfl, rfl, fun a b h1 h2 => ?_⟩
  exact if_neg (by tauto)

theorem extractVert_total {o : Orders} (ho : o.OK) {g0 : Graph} {s : State} {f w : ℕ} {l : List (ℕ × ℕ)} (h : XT g0 s ((f, w) :: l)) :
    ∃ s', extractVert o s (f, w) = some s' ∧ XT g0 s' l ∧ mu s'.g < mu s.g := by
  have hgl := h.ei.inv.gl
  have hwf := hgl.zx.wf
  obtain ⟨hf, hph⟩ := h.ei.mem (f, w) (by simp)
  obtain ⟨hhad, hwz⟩ := h.ei.had (f, w) (by simp)
  simp only at hf hph hhad hwz
  obtain ⟨hfz, q, b', k1, k2, k3⟩ := h.ei.inv.front.each f hf
  have hfm : f ∈ s.g.verts := hwf.mem _ _ k3
  obtain ⟨b, hb⟩ := outputOf_some ho hwf (List.mem_of_getElem? k2) k3
  obtain ⟨hbo, hfb⟩ := outputOf_spec ho hwf hfm hb
  have hbt : s.g.ty b = .boundary := hwf.io b (Or.inr hbo)
  have hlf := hgl.leaf hbt hfb
  have hfw : s.g.adj f w ≠ none := by rw [hhad]; simp
  have hwne : w ≠ f := by rintro rfl; rw [hwf.loopless] at hhad; simp at hhad
  have hbf : b ≠ f := by rintro rfl; rw [hbt] at hfz; simp at hfz
  have hbw : b ≠ w := by rintro rfl; rw [hbt] at hwz; simp at hwz
  obtain ⟨g1, e1, v1, a1⟩ := removeVertices_total hwf hfm
  have e2 := addEdge_total (g := g1) (s := w) (t := b) .simple (by rw [v1]; exact Finset.mem_erase.mpr ⟨hwne, hwf.toInv.mem' hfw⟩)
    (by rw [v1]; exact Finset.mem_erase.mpr ⟨hbf, hlf.mem⟩) (by
      rw [a1 w b hwne hbf]
      by_contra hc
      exact hwne (hlf.only w (by rw [hwf.symm]; exact hc)))
  generalize hg2 : ({ g1.setAdj w b (some .simple) with nedges := g1.nedges + 1 } : Graph) = g2 at e2
  have hP := pulled_of_ops hwf hlf hfz hwz hwne e1 e2
  have e : extractVert o s (f, w) = some { s with g := g2, gates := s.gates ++ [.had q], qmap := Function.update s.qmap w (some q), frontier := s.frontier.erase f ++ [w] } := by
    unfold extractVert
    simp only
    rw [k1, Option.bind_some, hb, Option.bind_some, e1, Option.bind_some, e2]
    rfl
  refine ⟨_, e, ?_⟩
  have hE := extractVert_spec ho h.ei e
  obtain ⟨⟨hwZ, hwfar⟩, i0, hi0, hwi0⟩ := h.far (f, w) (by simp)
  simp only at hwZ hwfar hwi0
  -- adjacency
  have hadjf : ∀ x, g2.adj f x = none := fun x => by
    rw [hP.adj, if_neg (by tauto), if_pos (Or.inl rfl)]
  have hadjf' : ∀ x, g2.adj x f = none := fun x => by rw [hP.wf.symm]; exact hadjf x
  have hadj : ∀ a c, a ≠ f → c ≠ f → ¬ (a = w ∧ c = b) → ¬ (a = b ∧ c = w) → g2.adj a c = s.g.adj a c := by
    intro a c h1 h2 h3 h4
    rw [hP.adj, if_neg (by tauto), if_neg (by tauto)]
  have hwb : g2.adj w b ≠ none := by rw [hP.adj, if_pos (Or.inl ⟨rfl, rfl⟩)]; simp
  have hin : ∀ i ∈ s.g.inputs, i ≠ f ∧ i ≠ b ∧ i ≠ w := by
    intro i hi
    have ht := hwf.io i (Or.inl hi)
    refine ⟨?_, ?_, ?_⟩
    · rintro rfl; rw [ht] at hfz; simp at hfz
    · rintro rfl; exact hgl.io.disj _ hi hbo
    · rintro rfl; rw [ht] at hwz; simp at hwz
  have hout : ∀ i ∈ s.g.outputs, i ≠ f ∧ i ≠ w := by
    intro i hi
    have ht := hwf.io i (Or.inr hi)
    refine ⟨?_, ?_⟩
    · rintro rfl; rw [ht] at hfz; simp at hfz
    · rintro rfl; rw [ht] at hwz; simp at hwz
  have hfar : ∀ x, x ≠ f → Far g2 x → Far s.g x := by
    rintro x hx ⟨h1, h2⟩
    rw [hP.ty] at h1
    rw [hP.outputs] at h2
    refine ⟨h1, fun o1 ho1 => ?_⟩
    have hne : x ≠ b := by rintro rfl; rw [hbt] at h1; simp at h1
    by_cases c1 : o1 = b
    · subst c1
      by_contra hc
      exact hx (hlf.only x (by rw [hwf.symm]; exact hc))
    · rw [← hadj x o1 hx (hout o1 ho1).1 (by tauto) (by tauto)]
      exact h2 o1 ho1
  have hnfar : ¬ Far g2 w := fun hc => hwb (hc.2 b (by rw [hP.outputs]; exact hbo))
  have hI : ∀ i ∈ s.g.inputs, ∀ x, x ≠ f → g2.adj x i = s.g.adj x i := by
    intro i hi x hx
    obtain ⟨n1, n2, n3⟩ := hin i hi
    exact hadj x i hx n1 (by tauto) (by tauto)
  have hI' : ∀ i ∈ s.g.inputs, ∀ x, x ≠ f → g2.adj i x = s.g.adj i x := by
    intro i hi x hx
    rw [hP.wf.symm, hwf.symm]; exact hI i hi x hx
  have hnf : ∀ x y, g2.adj x y ≠ none → x ≠ f ∧ y ≠ f := by
    intro x y hxy
    refine ⟨?_, ?_⟩
    · rintro rfl; exact hxy (hadjf y)
    · rintro rfl; exact hxy (hadjf' x)
  refine ⟨⟨hE, h.gads, ?_, ?_, ?_, ?_⟩, mu_lt hP.inputs ?_ ?_ hi0 ⟨w, by rw [hwf.symm]; exact hwi0, hwZ, hwfar⟩ ?_⟩
  · intro x y hx hxy
    have hx : g2.ty x = .Z := hx
    have hxy : g2.adj x y ≠ none := hxy
    show ∃ b1, g2.adj x b1 ≠ none ∧ g2.ty b1 = .boundary
    obtain ⟨n1, n2⟩ := hnf x y hxy
    rw [hP.ty] at hx ⊢
    by_cases c1 : x = w
    · exact ⟨b, c1 ▸ hwb, hbt⟩
    · have c2 : x ≠ b := by rintro rfl; rw [hbt] at hx; simp at hx
      rw [hadj x y n1 n2 (by tauto) (by tauto)] at hxy
      obtain ⟨b1, h1, h2⟩ := h.tb x y hx hxy
      refine ⟨b1, ?_, h2⟩
      rw [hadj x b1 n1 (by rintro rfl; rw [h2] at hfz; simp at hfz) (by tauto) (by tauto)]
      exact h1
  · intro x hx o1 ho1 ha
    have hx : g2.ty x = .Z := hx
    have ho1 : o1 ∈ g2.outputs := ho1
    have ha : g2.adj x o1 ≠ none := ha
    show x ∈ s.frontier.erase f ++ [w] ∨ (g2.phase x = 0 ∧ ∃ i ∈ g2.inputs, g2.adj x i ≠ none)
    rw [hP.ty] at hx
    rw [hP.outputs] at ho1
    rw [hP.phase, hP.inputs]
    obtain ⟨n1, n2⟩ := hnf x o1 ha
    by_cases c1 : x = w
    · exact Or.inl (by simp [c1])
    · have c2 : x ≠ b := by rintro rfl; rw [hbt] at hx; simp at hx
      rw [hadj x o1 n1 n2 (by tauto) (by tauto)] at ha
      rcases h.fin x hx o1 ho1 ha with h1 | ⟨h1, i, h2, h3⟩
      · exact Or.inl (List.mem_append_left _ ((h.ei.inv.front.nodup.mem_erase_iff).mpr ⟨n1, h1⟩))
      · exact Or.inr ⟨h1, i, h2, by rw [hI i h2 x n1]; exact h3⟩
  · intro p hp
    obtain ⟨⟨h1, h2⟩, i, h3, h4⟩ := h.far p (by simp [hp])
    have hnd := h.nodup2
    rw [List.map_cons, List.nodup_cons] at hnd
    have n1 : p.2 ≠ w := fun hc => hnd.1 (List.mem_map.mpr ⟨p, hp, hc⟩)
    have n2 : p.2 ≠ f := fun hc => h.ei.sep (f, w) (by simp) p (by simp [hp]) hc.symm
    have n3 : p.2 ≠ b := by intro hc; rw [hc, hbt] at h1; simp at h1
    refine ⟨⟨by show g2.ty p.2 = _; rw [hP.ty]; exact h1, fun o1 ho1 => ?_⟩, i, by show i ∈ g2.inputs; rw [hP.inputs]; exact h3, ?_⟩
    · show g2.adj p.2 o1 = none
      replace ho1 : o1 ∈ s.g.outputs := by rw [← hP.outputs]; exact ho1
      rw [hadj p.2 o1 n2 (hout o1 ho1).1 (by tauto) (by tauto)]; exact h2 o1 ho1
    · show g2.adj p.2 i ≠ none
      rw [hI i h3 p.2 n2]; exact h4
  · have hnd := h.nodup2
    rw [List.map_cons, List.nodup_cons] at hnd
    exact hnd.2
  · rintro b1 hb1 ⟨x, h1, h2⟩
    have n1 := (hnf b1 x h1).2
    rw [hI' b1 hb1 x n1] at h1
    exact ⟨x, h1, hfar x n1 h2⟩
  · rintro b1 hb1 ⟨x, y, h1, h2, h3⟩
    obtain ⟨-, n1⟩ := hnf b1 x h1
    obtain ⟨-, n2⟩ := hnf x y h2
    rw [hI' b1 hb1 x n1] at h1
    have c1 : ¬ (x = w ∧ y = b) := by
      rintro ⟨-, rfl⟩
      have := h3.1
      rw [show ({ s with g := g2, gates := s.gates ++ [.had q], qmap := Function.update s.qmap w (some q), frontier := s.frontier.erase f ++ [w] } : State).g.ty = s.g.ty from hP.ty, hbt] at this
      simp at this
    have c2 : ¬ (x = b ∧ y = w) := by
      rintro ⟨-, rfl⟩; exact hnfar h3
    have h2 : g2.adj x y ≠ none := h2
    rw [hadj x y n1 n2 c1 c2] at h2
    exact ⟨x, y, h1, h2, hfar y n2 h3⟩
  · rintro ⟨x, h1, h2⟩
    have h1 : g2.adj i0 x ≠ none := h1
    have n1 := (hnf i0 x h1).2
    rw [hI' i0 hi0 x n1] at h1
    have : x = w := hgl.zx.bdeg i0 (hwf.inp _ hi0) (hwf.io i0 (Or.inl hi0)) x w h1 (by rw [hwf.symm]; exact hwi0)
    subst this
    exact hnfar h2

theorem extractVerts_total {o : Orders} (ho : o.OK) {g0 : Graph} (l : List (ℕ × ℕ)) {s : State} (h : XT g0 s l) :
    ∃ s', l.foldlM (extractVert o) s = some s' ∧ TI g0 s' ∧ mu s'.g ≤ mu s.g ∧ (l ≠ [] → mu s'.g < mu s.g) := by
  induction l generalizing s with
  | nil => exact ⟨s, rfl, ⟨h.ei.inv, h.gads, h.tb, h.fin⟩, le_refl _, fun hc => absurd rfl hc⟩
  | cons p l ih =>
    obtain ⟨s1, e1, x1, m1⟩ := extractVert_total ho h
    obtain ⟨s2, e2, t2, m2, -⟩ := ih x1
    exact ⟨s2, by rw [List.foldlM_cons, e1]; exact e2, t2, by omega, fun _ => by omega⟩

end Extract
end PyZX
