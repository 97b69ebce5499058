import Verif.Proofs.OptLin

/-!
# Helper lemmas for `basic_optimization`: moving a CNOT next to a CZ
-/

namespace PyZX
namespace Optimize

open scoped List

theorem pair_trans {α : Type} {x y z : α} : ∀ {l : List α}, l.Nodup → [x, y] <+ l → [y, z] <+ l → [x, z] <+ l
  | [], _, h, _ => absurd h pair_nil
  | w :: l, hn, h, h' => by
    obtain ⟨h1, h2⟩ := List.nodup_cons.mp hn
    rcases pair_cons.mp h with ⟨e, hy⟩ | k
    · rcases pair_cons.mp h' with ⟨e', hx⟩ | k'
      · exact absurd (e' ▸ hy) h1
      · exact pair_cons.mpr (Or.inl ⟨e, (pair_mem k').2⟩)
    · rcases pair_cons.mp h' with ⟨e', hx⟩ | k'
      · exact absurd (e' ▸ (pair_mem k).2) h1
      · exact pair_cons.mpr (Or.inr (pair_trans h2 k k'))

variable {gates gates' : ℕ → List SG} {L : List SG}

/-- Insert a one-qubit gate. -/
theorem Lin.insert {A B : List SG} (h : Lin gates (A ++ B)) {t : ℕ} {z : SG} (hz : Stored z.gate) (hzq : z.gate.qubits = [t])
    (hi : z.idx ∉ (A ++ B).map SG.idx) {P Q : List SG} (ht : gates t = P ++ Q) (hP : ∀ x ∈ P, DepAt t x.gate z.gate → x ∈ A)
    (hQ : ∀ y ∈ Q, DepAt t z.gate y.gate → y ∈ B) (hg : ∀ q, gates' q = if q = t then P ++ z :: Q else gates q) : Lin gates' (A ++ z :: B) := by
  have hperm : (A ++ z :: B).Perm (z :: (A ++ B)) := List.perm_middle
  have hzL : z ∉ A ++ B := fun h' => hi (List.mem_map_of_mem h')
  have hmem : ∀ x, x ∈ A ++ z :: B ↔ x = z ∨ x ∈ A ++ B := fun x => by rw [hperm.mem_iff, List.mem_cons]
  have hzt : z ∉ P ++ Q := by rw [← ht]; exact fun h' => hzL ((h.mem t z).mp h').1
  have hup : ∀ {x y}, [x, y] <+ A ++ B → [x, y] <+ A ++ z :: B := fun h' => h'.trans ((List.Sublist.refl A).append (List.sublist_cons_self z B))
  refine ⟨?_, ?_, ?_, ?_, ?_⟩
  · rw [(hperm.map SG.idx).nodup_iff, List.map_cons, List.nodup_cons]
    exact ⟨hi, h.idx⟩
  · intro x hx
    rcases (hmem x).mp hx with rfl | hx
    · exact hz
    · exact h.stored x hx
  · intro q x
    rw [hg, hmem]
    by_cases hq : q = t
    · subst hq
      rw [if_pos rfl, List.perm_middle.mem_iff, List.mem_cons, ← ht, h.mem]
      constructor
      · rintro (rfl | ⟨h1, h2⟩)
        · exact ⟨Or.inl rfl, by simp [hzq]⟩
        · exact ⟨Or.inr h1, h2⟩
      · rintro ⟨rfl | h1, h2⟩
        · exact Or.inl rfl
        · exact Or.inr ⟨h1, h2⟩
    · rw [if_neg hq, h.mem]
      constructor
      · rintro ⟨h1, h2⟩; exact ⟨Or.inr h1, h2⟩
      · rintro ⟨rfl | h1, h2⟩
        · rw [hzq, List.mem_singleton] at h2; exact absurd h2 hq
        · exact ⟨h1, h2⟩
  · intro q
    rw [hg]
    split
    · rw [List.perm_middle.nodup_iff, List.nodup_cons]
      exact ⟨hzt, by rw [← ht]; exact h.nodup t⟩
    · exact h.nodup q
  · intro q x y hxy hd
    rw [hg] at hxy
    by_cases hq : q = t
    · subst hq
      rw [if_pos rfl] at hxy
      have base : [x, y] <+ P ++ Q → [x, y] <+ A ++ z :: B := fun h' => hup (h.ord q x y (by rw [ht]; exact h') hd)
      rcases pair_append.mp hxy with h1 | ⟨h1, h2⟩ | h1
      · exact base (h1.trans (List.sublist_append_left _ _))
      · rcases List.mem_cons.mp h2 with rfl | h2
        · exact pair_append.mpr (Or.inr (Or.inl ⟨hP x h1 hd, by simp⟩))
        · exact base (pair_append.mpr (Or.inr (Or.inl ⟨h1, h2⟩)))
      · rcases pair_cons.mp h1 with ⟨rfl, h2⟩ | h2
        · exact pair_append.mpr (Or.inr (Or.inr (pair_cons.mpr (Or.inl ⟨rfl, hQ y h2 hd⟩))))
        · exact base (h2.trans (List.sublist_append_right _ _))
    · rw [if_neg hq] at hxy
      exact hup (h.ord q x y hxy hd)

/-- A CNOT that is followed on its control by gates that act like phase gates, and on its target by gates that act like NOT gates and then by
gates that act like phase gates, can be moved up to the last ones; a CZ on the same qubits commutes with what comes after it then. -/
theorem Lin.czMove (h : Lin gates L) {c t : ℕ} (hct : c ≠ t) {g : SG} (hgate : g.gate = .cnot c t) {X1 X2 Av Y1 Y2 : List SG}
    (ht : gates t = (X1 ++ g :: X2) ++ Av) (hX2 : ∀ x ∈ X2, kind x.gate t = some .x) (hAv : ∀ x ∈ Av, kind x.gate t = some .z)
    (hc : gates c = Y1 ++ g :: Y2) (hY2 : ∀ x ∈ Y2, kind x.gate c = some .z)
    (hg : ∀ q, gates' q = if q = t then (X1 ++ X2) ++ g :: Av else if q = c then Y1 ++ Y2 ++ [g] else gates q) :
    ∃ A B, A ++ B = L.erase g ∧ g ∈ L ∧ Lin gates' (A ++ g :: B) ∧ (∀ ψ, semGates (L.map SG.gate) ψ = semGates ((A ++ g :: B).map SG.gate) ψ) ∧
      (∀ y ∈ B, ∀ q, ¬ DepAt q (.cz c t) y.gate) ∧ (∀ x ∈ X1 ++ X2, x ∈ A) ∧ ∀ x ∈ Av, x ∈ B := by
  have kc : kind g.gate c = some .z := by rw [hgate]; simp [kind]
  have kt : kind g.gate t = some .x := by rw [hgate]; simp [kind, Ne.symm hct]
  have hgt : g ∈ gates t := by rw [ht]; simp
  have hgL : g ∈ L := ((h.mem t g).mp hgt).1
  have hnt := h.nodup t
  have hnc := h.nodup c
  rw [ht] at hnt
  rw [hc] at hnc
  have hdisj : ∀ x ∈ X1 ++ g :: X2, x ∉ Av := fun x h1 h2 => (List.nodup_append.mp hnt).2.2 x h1 x h2 rfl
  set P : SG → Bool := fun x => decide (x ∉ Av) with hP
  have hsplit : L.takeWhile P ++ L.dropWhile P = L := List.takeWhile_append_dropWhile
  -- the gates in front of the available ones are in the first part
  have hfirst : ∀ x ∈ X1 ++ g :: X2, x ∈ L.takeWhile P := by
    intro x hx
    have hxL : x ∈ L := ((h.mem t x).mp (by rw [ht]; exact List.mem_append_left _ hx)).1
    rw [← hsplit] at hxL
    rcases List.mem_append.mp hxL with h1 | h1
    · exact h1
    · exfalso
      rcases hd : L.dropWhile P with _ | ⟨b, r⟩
      · rw [hd] at h1; exact absurd h1 (by simp)
      · have hb : b ∈ Av := by
          have := List.head_dropWhile_not P (l := L) (by rw [hd]; simp)
          have e : (L.dropWhile P).head (by rw [hd]; simp) = b := by simp [hd]
          rw [e] at this
          simpa [hP] using this
        have hne : x ≠ b := fun e => hdisj x hx (e ▸ hb)
        rw [hd] at h1
        have hxr : x ∈ r := (List.mem_cons.mp h1).resolve_left hne
        have hbx : [b, x] <+ L := by
          rw [← hsplit, hd]
          exact (pair_cons.mpr (Or.inl ⟨rfl, hxr⟩)).trans (List.sublist_append_right _ _)
        have hxb : [x, b] <+ gates t := by rw [ht]; exact pair_append.mpr (Or.inr (Or.inl ⟨hx, hb⟩))
        have kb := hAv b hb
        have hgb : [g, b] <+ L := h.ord t g b (by rw [ht]; exact pair_append.mpr (Or.inr (Or.inl ⟨by simp, hb⟩)))
          ⟨_, _, kt, kb, Or.inl (by simp)⟩
        rcases hk : kind x.gate t with _ | k
        · have := ((h.mem t x).mp (by rw [ht]; exact List.mem_append_left _ hx)).2
          exact (mem_qubits_iff (h.stored x ((h.mem t x).mp (by rw [ht]; exact List.mem_append_left _ hx)).1).placed t).mp this hk
        · by_cases hkz : k = .z
          · subst hkz
            rcases List.mem_append.mp hx with hx1 | hx1
            · have hxg : [x, g] <+ L := h.ord t x g (by
                rw [ht]; exact (pair_append.mpr (Or.inr (Or.inl ⟨hx1, by simp⟩))).trans (List.sublist_append_left _ _))
                ⟨_, _, hk, kt, Or.inl (by simp)⟩
              exact pair_asymm h.lnodup (pair_trans h.lnodup hxg hgb) hbx
            · rcases List.mem_cons.mp hx1 with rfl | hx2
              · rw [kt] at hk; cases hk
              · rw [hX2 x hx2] at hk; cases hk
          · exact pair_asymm h.lnodup (h.ord t x b hxb ⟨_, _, hk, kb, Or.inl hkz⟩) hbx
  have hAvB : ∀ x ∈ Av, x ∈ L.dropWhile P := by
    intro x hx
    have hxL : x ∈ L := ((h.mem t x).mp (by rw [ht]; exact List.mem_append_right _ hx)).1
    rw [← hsplit] at hxL
    rcases List.mem_append.mp hxL with h1 | h1
    · have := (List.all_eq_true.mp List.all_takeWhile) x h1
      simp [hP] at this
      exact absurd hx this
    · exact h1
  have hA1 : ∀ x ∈ L.takeWhile P, x ∉ Av := by
    intro x hx
    have := (List.all_eq_true.mp List.all_takeWhile) x hx
    simpa [hP] using this
  generalize L.takeWhile P = A1 at hsplit hfirst hA1
  generalize L.dropWhile P = B at hsplit hAvB
  have hn1 : A1.Nodup := by
    have := h.lnodup
    rw [← hsplit] at this
    exact (List.nodup_append.mp this).1
  obtain ⟨A, C, e, e', hgA, hgC⟩ := split_mem (hfirst g (by simp)) hn1
  have hL : L = A ++ g :: (C ++ B) := by rw [← hsplit, e]; simp
  have hgB : g ∉ B := by
    have := h.lnodup
    rw [← hsplit] at this
    exact fun h' => (List.nodup_append.mp this).2.2 g (hfirst g (by simp)) g h' rfl
  have her : A ++ C ++ B = L.erase g := by
    rw [hL, List.erase_append_right _ hgA, List.erase_cons_head, List.append_assoc]
  -- what follows the CNOT on the target
  have aft : ∀ y, [g, y] <+ gates t → y ∈ X2 ++ Av := by
    intro y hy
    rw [ht, List.append_assoc, List.cons_append] at hy
    rcases pair_append.mp hy with h1 | ⟨h1, -⟩ | h1
    · exact absurd (pair_mem h1).1 fun h' => by
        rw [List.append_assoc, List.cons_append, List.nodup_append] at hnt; exact hnt.2.2 g h' g (by simp) rfl
    · exact absurd h1 fun h' => by
        rw [List.append_assoc, List.cons_append, List.nodup_append] at hnt; exact hnt.2.2 g h' g (by simp) rfl
    · rcases pair_cons.mp h1 with ⟨-, h2⟩ | h2
      · exact h2
      · exact (pair_mem h2).2
  have afc : ∀ y, [g, y] <+ gates c → y ∈ Y2 := by
    intro y hy
    rw [hc] at hy
    have hgY : g ∉ Y1 := fun h' => (List.nodup_append.mp hnc).2.2 g h' g (by simp) rfl
    rcases pair_append.mp hy with h1 | ⟨h1, -⟩ | h1
    · exact absurd (pair_mem h1).1 hgY
    · exact absurd h1 hgY
    · rcases pair_cons.mp h1 with ⟨-, h2⟩ | h2
      · exact h2
      · exact (pair_mem h2).2
  have qg : ∀ q, q ∈ g.gate.qubits ↔ q = c ∨ q = t := by intro q; rw [hgate]; simp [Gate.qubits]
  have hmemg : ∀ x, x ∈ A ++ C ++ g :: B ↔ x ∈ L := by
    intro x; rw [hL]; simp only [List.mem_append, List.mem_cons]; tauto
  have hup : ∀ {x y}, [x, y] <+ L → x ≠ g → y ≠ g → [x, y] <+ A ++ C ++ g :: B := by
    intro x y hxy h1 h2
    have := pair_erase hxy h1 h2
    rw [← her] at this
    exact this.trans ((List.Sublist.refl _).append (List.sublist_cons_self g B))
  refine ⟨A ++ C, B, her, hgL, ⟨?_, ?_, ?_, ?_, ?_⟩, ?_, ?_, ?_, hAvB⟩
  · have hperm : (A ++ C ++ g :: B).Perm L := by
      rw [hL, List.append_assoc]
      exact List.Perm.append_left A List.perm_middle
    exact (hperm.map SG.idx).nodup_iff.mpr h.idx
  · intro x hx; exact h.stored x ((hmemg x).mp hx)
  · intro q x
    rw [hg, hmemg, ← h.mem]
    by_cases h1 : q = t
    · rw [if_pos h1, h1, ht]; simp only [List.mem_append, List.mem_cons]; tauto
    · rw [if_neg h1]
      by_cases h2 : q = c
      · rw [if_pos h2, h2, hc]; simp only [List.mem_append, List.mem_cons, List.not_mem_nil, or_false]; tauto
      · rw [if_neg h2]
  · intro q
    rw [hg]
    split
    · have hperm : (X1 ++ X2 ++ g :: Av).Perm (X1 ++ g :: X2 ++ Av) := by
        rw [List.append_assoc, List.append_assoc, List.cons_append]
        exact List.Perm.append_left X1 List.perm_middle
      exact hperm.nodup_iff.mpr hnt
    · split
      · have hperm : (Y1 ++ Y2 ++ [g]).Perm (Y1 ++ g :: Y2) := by
          rw [List.append_assoc]
          exact List.Perm.append_left Y1 (List.perm_append_singleton g Y2)
        exact hperm.nodup_iff.mpr hnc
      · exact h.nodup q
  · intro q x y hxy hd
    rw [hg] at hxy
    by_cases h1 : q = t
    · rw [if_pos h1] at hxy
      subst h1
      have base : x ≠ g → y ≠ g → [x, y] <+ X1 ++ X2 ++ Av → [x, y] <+ A ++ C ++ g :: B := by
        intro hx hy h'
        refine hup (h.ord q x y ?_ hd) hx hy
        rw [ht]
        refine h'.trans (List.Sublist.append ?_ (List.Sublist.refl _))
        exact (List.Sublist.refl _).append (List.sublist_cons_self _ _)
      have hgX : g ∉ X1 ++ X2 := by
        intro h'
        rw [List.append_assoc, List.cons_append, List.nodup_append] at hnt
        rcases List.mem_append.mp h' with h' | h'
        · exact hnt.2.2 g h' g (by simp) rfl
        · exact (List.nodup_cons.mp hnt.2.1).1 (List.mem_append_left _ h')
      have hgV : g ∉ Av := hdisj g (by simp)
      have hXA : ∀ x ∈ X1 ++ X2, x ∈ A ++ C := by
        intro x hx
        have h2 : x ∈ A1 := hfirst x (by
          rcases List.mem_append.mp hx with h3 | h3
          · exact List.mem_append_left _ h3
          · exact List.mem_append_right _ (List.mem_cons_of_mem _ h3))
        rw [e] at h2
        have hxg : x ≠ g := fun e => hgX (e ▸ hx)
        simp only [List.mem_append, List.mem_cons] at h2 ⊢
        tauto
      rcases pair_append.mp hxy with h2 | ⟨h2, h3⟩ | h2
      · obtain ⟨hx, hy⟩ := pair_mem h2
        exact base (fun e => hgX (e ▸ hx)) (fun e => hgX (e ▸ hy)) (h2.trans (List.sublist_append_left _ _))
      · rcases List.mem_cons.mp h3 with rfl | h3
        · exact pair_append.mpr (Or.inr (Or.inl ⟨hXA x h2, by simp⟩))
        · exact base (fun e => hgX (e ▸ h2)) (fun e => hgV (e ▸ h3)) (pair_append.mpr (Or.inr (Or.inl ⟨h2, h3⟩)))
      · rcases pair_cons.mp h2 with ⟨rfl, h3⟩ | h3
        · exact pair_append.mpr (Or.inr (Or.inr (pair_cons.mpr (Or.inl ⟨rfl, hAvB y h3⟩))))
        · obtain ⟨hx, hy⟩ := pair_mem h3
          exact base (fun e => hgV (e ▸ hx)) (fun e => hgV (e ▸ hy)) (h3.trans (List.sublist_append_right _ _))
    · rw [if_neg h1] at hxy
      by_cases h2 : q = c
      · rw [if_pos h2] at hxy
        subst h2
        have hgY : g ∉ Y1 ++ Y2 := by
          intro h'
          rcases List.mem_append.mp h' with h' | h'
          · exact (List.nodup_append.mp hnc).2.2 g h' g (by simp) rfl
          · exact (List.nodup_cons.mp (List.nodup_append.mp hnc).2.1).1 h'
        rcases pair_append.mp hxy with h3 | ⟨h3, h4⟩ | h3
        · obtain ⟨hx, hy⟩ := pair_mem h3
          refine hup (h.ord q x y ?_ hd) (fun e => hgY (e ▸ hx)) (fun e => hgY (e ▸ hy))
          rw [hc]
          exact h3.trans ((List.Sublist.refl _).append (List.sublist_cons_self _ _))
        · rw [List.mem_singleton] at h4
          subst h4
          have hx1 : x ∈ Y1 := by
            rcases List.mem_append.mp h3 with h3 | h3
            · exact h3
            · obtain ⟨k, l, h5, h6, h7⟩ := hd
              rw [hY2 x h3] at h5
              rw [kc] at h6
              cases h5; cases h6
              simp at h7
          have hxg : [x, y] <+ L := h.ord q x y (by rw [hc]; exact pair_append.mpr (Or.inr (Or.inl ⟨hx1, by simp⟩))) hd
          have hxA : x ∈ A := by
            rw [hL] at hxg
            rcases pair_append.mp hxg with h5 | ⟨h5, -⟩ | h5
            · exact (pair_mem h5).1
            · exact h5
            · rcases pair_cons.mp h5 with ⟨-, h6⟩ | h6
              · exact absurd h6 (by simp [hgC, hgB])
              · exact absurd (pair_mem h6).2 (by simp [hgC, hgB])
          exact pair_append.mpr (Or.inr (Or.inl ⟨by simp [hxA], by simp⟩))
        · exact absurd h3.length_le (by simp)
      · rw [if_neg h2] at hxy
        have hgq : g ∉ gates q := fun h' => by
          rcases (qg q).mp ((h.mem q g).mp h').2 with h3 | h3
          · exact h2 h3
          · exact h1 h3
        obtain ⟨hx, hy⟩ := pair_mem hxy
        exact hup (h.ord q x y hxy hd) (fun e => hgq (e ▸ hx)) (fun e => hgq (e ▸ hy))
  · intro ψ
    have e1 : (A ++ C ++ g :: B).map SG.gate = A.map SG.gate ++ ((C.map SG.gate ++ [g.gate]) ++ B.map SG.gate) := by simp
    have e2 : L.map SG.gate = A.map SG.gate ++ ((g.gate :: C.map SG.gate) ++ B.map SG.gate) := by rw [hL]; simp
    rw [e1, e2]
    simp only [semGates_append (A.map SG.gate), semGates_append (C.map SG.gate ++ [g.gate]), semGates_append (g.gate :: C.map SG.gate)]
    congr 1
    refine move_right (h.stored g hgL).placed _ ?_ _
    intro y' hy'
    obtain ⟨y, hy, rfl⟩ := List.mem_map.mp hy'
    have hyL : y ∈ L := by rw [hL]; simp [hy]
    refine ⟨(h.stored y hyL).placed, fun q hd => ?_⟩
    have hp : [g, y] <+ L := by rw [hL]; exact pair_append.mpr (Or.inr (Or.inr (pair_cons.mpr (Or.inl ⟨rfl, by simp [hy]⟩))))
    have hp' := h.ord' hp hd
    have hq := (qg q).mp (hd.mem (h.stored g hgL).placed (h.stored y hyL).placed).1
    obtain ⟨k, l, h5, h6, h7⟩ := hd
    rcases hq with rfl | rfl
    · rw [hY2 y (afc y hp')] at h6
      rw [kc] at h5
      cases h5; cases h6
      simp at h7
    · rcases List.mem_append.mp (aft y hp') with h8 | h8
      · rw [hX2 y h8] at h6
        rw [kt] at h5
        cases h5; cases h6
        simp at h7
      · exact hA1 y (by rw [e]; simp [hy]) h8
  · intro y hy q hd
    have hyL : y ∈ L := by rw [hL]; simp [hy]
    have hcz : Placed (.cz c t) := hct
    have hp : [g, y] <+ L := by rw [hL]; exact pair_append.mpr (Or.inr (Or.inr (pair_cons.mpr (Or.inl ⟨rfl, by simp [hy]⟩))))
    have hq : q = c ∨ q = t := by
      have := (hd.mem hcz (h.stored y hyL).placed).1
      simpa [Gate.qubits] using this
    have hyq := (h.mem q y).mpr ⟨hyL, (hd.mem hcz (h.stored y hyL).placed).2⟩
    obtain ⟨k, l, h5, h6, h7⟩ := hd
    have hk : k = .z := by
      rcases hq with rfl | rfl <;> · simp [kind] at h5; exact h5.symm
    subst hk
    have hl : l ≠ .z := fun e => by rw [e] at h7; simp at h7
    rcases hq with rfl | rfl
    · have := h.ord' hp ⟨_, _, kc, h6, Or.inl (Ne.symm hl)⟩
      rw [hY2 y (afc y this)] at h6
      cases h6
      exact hl rfl
    · rw [ht] at hyq
      rcases List.mem_append.mp hyq with h8 | h8
      · have hyA : y ∈ A1 := hfirst y h8
        have := h.lnodup
        rw [← hsplit] at this
        exact (List.nodup_append.mp this).2.2 y hyA y hy rfl
      · rw [hAv y h8] at h6
        cases h6
        exact hl rfl
  · intro x hx
    have h2 : x ∈ A1 := hfirst x (by
      rcases List.mem_append.mp hx with h3 | h3
      · exact List.mem_append_left _ h3
      · exact List.mem_append_right _ (List.mem_cons_of_mem _ h3))
    have hxg : x ≠ g := by
      rintro rfl
      rw [List.append_assoc, List.cons_append, List.nodup_append] at hnt
      rcases List.mem_append.mp hx with h' | h'
      · exact hnt.2.2 x h' x (by simp) rfl
      · exact (List.nodup_cons.mp hnt.2.1).1 (List.mem_append_left _ h')
    rw [e] at h2
    simp only [List.mem_append, List.mem_cons] at h2 ⊢
    tauto

end Optimize
end PyZX
