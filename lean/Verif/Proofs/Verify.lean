import Verif.Proofs.Norm
import Verif.Proofs.ToGraphZX
import Verif.Proofs.ExtEnd
import Verif.Proofs.FullReduce
import Verif.Model.Verify

/-!
# Diagrams that consist of wires
-/

namespace PyZX

open Graph

namespace Graph

variable {g : Graph}

/-- A simple edge between two boundary vertices. -/
theorem sem_wire_zero (hg : g.WF) (hbd : g.BDeg) {i j : ℕ} (hi : i ∈ g.verts) (hj : j ∈ g.verts) (hib : g.ty i = .boundary)
    (hjb : g.ty j = .boundary) (ha : g.adj i j = some .simple) {b : ℕ → Bool} (hb : b i ≠ b j) : g.sem b = 0 := by
  have hleaf : Leaf g i j := ⟨hi, hib, by rw [ha]; simp, fun w hw => hbd i hi hib w j hw (by rw [ha]; simp)⟩
  rw [sem_eq_amp hg]
  unfold amp psum
  refine Finset.sum_eq_zero fun T hT => ?_
  rw [weight_eq_wOn, wOn_leaf hg.toInv hleaf hi hj, edgeK_leaf hib (isX_bnd hjb) ha]
  have e : ∀ v, g.ty v = .boundary → setOn g.interior T b v = b v := by
    intro v hv
    unfold setOn
    rw [if_neg (notMem_interior hv)]
  rw [e i hib, e j hjb]
  have : kern (decide (EType.simple = .had)) (b i) (b j) = 0 := by
    unfold kern
    rw [if_neg (by simp)]
    unfold dmat
    rw [if_neg hb]
  rw [this]
  ring

/-- A diagram without spiders and Hadamard edges that denotes an injective map is a permutation of the wires. -/
theorem wires_mat {P : ℚ → Prop} {n : ℕ} (hz : g.ZX P) (hio : g.IO) (hin : g.inputs.length = n) (hout : g.outputs.length = n) (hw : g.onlyWires n)
    (hne : ∀ x, ∃ y, g.mat x y ≠ 0) :
    ∃ σ : List ℕ, IsPerm σ ∧ σ.length = n ∧ (g.straight = true → σ = List.range n) ∧
      ∃ z, ∀ x y, g.mat x y = z * basisState n x fun q => y (σ.getD q 0) := by
  have hg := hz.wf
  have hbd := hz.bdeg
  have hti : ∀ o ∈ g.inputs, g.ty o = .boundary := fun o ho => hg.io o (Or.inl ho)
  have hto : ∀ o ∈ g.outputs, g.ty o = .boundary := fun o ho => hg.io o (Or.inr ho)
  -- every vertex is an input or an output
  have hall : ∀ v ∈ g.verts, v ∈ g.inputs ∨ v ∈ g.outputs := by
    have hnd : (g.inputs ++ g.outputs).Nodup := List.Nodup.append hio.nodupIn hio.nodupOut fun v h1 h2 => hio.disj v h1 h2
    have e : (g.inputs ++ g.outputs).toFinset = g.verts := by
      refine Finset.eq_of_subset_of_card_le ?_ ?_
      · intro v hv
        rcases List.mem_append.mp (List.mem_toFinset.mp hv) with h | h
        · exact hg.inp v h
        · exact hg.out v h
      · rw [List.toFinset_card_of_nodup hnd, List.length_append, hin, hout, hw.1]
        omega
    intro v hv
    rw [← e] at hv
    exact List.mem_append.mp (List.mem_toFinset.mp hv)
  have hex : ∀ i, ∃ o, i ∈ g.inputs → g.adj i o ≠ none := by
    intro i
    by_cases c : i ∈ g.inputs
    · obtain ⟨o, ho⟩ := hz.badj i (hg.inp i c) (hti i c)
      exact ⟨o, fun _ => ho⟩
    · exact ⟨0, fun h => absurd h c⟩
  choose ni hni using hex
  have hnm : ∀ i ∈ g.inputs, ni i ∈ g.verts := fun i hi => hg.mem (ni i) i (by rw [hg.symm]; exact hni i hi)
  have hsim : ∀ i ∈ g.inputs, g.adj i (ni i) = some .simple := fun i hi => hw.2 i (hg.inp i hi) (ni i) (hnm i hi) (hni i hi)
  have hno : ∀ i ∈ g.inputs, ni i ∈ g.outputs := by
    intro i hi
    rcases hall _ (hnm i hi) with h | h
    swap
    · exact h
    exfalso
    have hne' : i ≠ ni i := by
      intro e
      have := hni i hi
      rw [← e] at this
      exact this (hg.loopless i)
    obtain ⟨y, hy⟩ := hne fun q => decide (q = g.inputs.idxOf i)
    refine hy (sem_wire_zero hg hbd (hg.inp i hi) (hnm i hi) (hti i hi) (hti _ h) (hsim i hi) ?_)
    unfold bval
    rw [if_pos hi, if_pos h]
    have : g.inputs.idxOf (ni i) ≠ g.inputs.idxOf i := fun e => hne' ((List.idxOf_inj h).mp e).symm
    simp [this]
  have hninj : ∀ i ∈ g.inputs, ∀ j ∈ g.inputs, ni i = ni j → i = j := by
    intro i hi j hj e
    have h1 := hni i hi
    have h2 := hni j hj
    rw [hg.symm] at h1 h2
    rw [← e] at h2
    exact hbd (ni i) (hnm i hi) (hto _ (hno i hi)) i j h1 h2
  have hsur : ∀ o ∈ g.outputs, ∃ i ∈ g.inputs, ni i = o := by
    have h1 : (g.inputs.map ni).Nodup := List.Nodup.map_on hninj hio.nodupIn
    have h2 : (g.inputs.map ni).toFinset = g.outputs.toFinset := by
      refine Finset.eq_of_subset_of_card_le ?_ ?_
      · intro a ha
        obtain ⟨o, ho, rfl⟩ := List.mem_map.mp (List.mem_toFinset.mp ha)
        exact List.mem_toFinset.mpr (hno o ho)
      · rw [List.toFinset_card_of_nodup h1, List.toFinset_card_of_nodup hio.nodupOut, List.length_map, hin, hout]
    intro o ho
    have := List.mem_toFinset.mpr ho
    rw [← h2, List.mem_toFinset, List.mem_map] at this
    exact this
  have hex2 : ∀ o, ∃ i, o ∈ g.outputs → i ∈ g.inputs ∧ ni i = o := by
    intro o
    by_cases c : o ∈ g.outputs
    · obtain ⟨i, hi, e⟩ := hsur o c
      exact ⟨i, fun _ => ⟨hi, e⟩⟩
    · exact ⟨0, fun h => absurd h c⟩
  choose nb hnb using hex2
  have hnbi : ∀ i ∈ g.inputs, nb (ni i) = i := fun i hi => hninj _ (hnb _ (hno i hi)).1 i hi (hnb _ (hno i hi)).2
  have hnba : ∀ o ∈ g.outputs, g.adj o (nb o) = some .simple := by
    intro o ho
    obtain ⟨h1, h2⟩ := hnb o ho
    have := hsim _ h1
    rw [h2, hg.symm] at this
    exact this
  obtain ⟨z, hmat⟩ := mat_wires hg hio hbd (fun o ho => ⟨(hnb o ho).1, by rw [hnba o ho]; simp⟩) (hin.trans hout.symm)
  refine ⟨g.inputs.map fun i => g.outputs.idxOf (ni i), ⟨?_, ?_⟩, by rw [List.length_map, hin], ?_, z, fun x y => ?_⟩
  · refine List.Nodup.map_on ?_ hio.nodupIn
    intro i hi j hj e
    exact hninj i hi j hj ((List.idxOf_inj (hno i hi)).mp e)
  · intro v hv
    obtain ⟨i, hi, rfl⟩ := List.mem_map.mp hv
    rw [List.length_map, hin, ← hout]
    exact List.idxOf_lt_length_of_mem (hno i hi)
  · intro hs
    refine List.ext_getElem (by rw [List.length_map, List.length_range, hin]) fun q h1 h2 => ?_
    rw [List.getElem_map, List.getElem_range]
    have hq : q < n := by simpa using h2
    have hqi : q < g.inputs.length := by omega
    have hqo : q < g.outputs.length := by omega
    have hp : (g.inputs[q], g.outputs[q]) ∈ g.inputs.zip g.outputs := by
      rw [List.mem_iff_getElem]
      exact ⟨q, by rw [List.length_zip]; omega, by rw [List.getElem_zip]⟩
    have hc := List.all_eq_true.mp hs _ hp
    have hm := List.getElem_mem hqi
    have : ni g.inputs[q] = g.outputs[q] :=
      hbd _ (hg.inp _ hm) (hti _ hm) _ _ (hni _ hm) (by rw [← Option.isSome_iff_ne_none]; exact hc)
    rw [this, hio.nodupOut.idxOf_getElem]
  · rw [hmat]
    congr 1
    have hσ : ∀ q (hq : q < g.inputs.length), (g.inputs.map fun i => g.outputs.idxOf (ni i)).getD q 0 = g.outputs.idxOf (ni g.inputs[q]) := by
      intro q hq
      rw [List.getD_eq_getElem _ _ (by rw [List.length_map]; exact hq), List.getElem_map]
    have hbo : ∀ o ∈ g.outputs, g.bval x y o = y (g.outputs.idxOf o) := by
      intro o ho
      unfold bval
      rw [if_neg fun hc => hio.disj o hc ho]
    have hbi : ∀ i ∈ g.inputs, g.bval x y i = x (g.inputs.idxOf i) := by
      intro i hi
      unfold bval
      rw [if_pos hi]
    unfold basisState
    by_cases c : ∀ q < n, y ((g.inputs.map fun i => g.outputs.idxOf (ni i)).getD q 0) = x q
    · rw [if_pos c]
      refine List.prod_eq_one fun a ha => ?_
      obtain ⟨o, ho, rfl⟩ := List.mem_map.mp ha
      obtain ⟨h1, h2⟩ := hnb o ho
      have hq := List.idxOf_lt_length_of_mem h1
      have := c (g.inputs.idxOf (nb o)) (by omega)
      rw [hσ _ hq, List.getElem_idxOf, h2] at this
      rw [hbo o ho, hbi _ h1, hnba o ho, this]
      simp [kern, dmat]
    · rw [if_neg c]
      push Not at c
      obtain ⟨q, hq, hc⟩ := c
      have hqi : q < g.inputs.length := by omega
      have hm := List.getElem_mem hqi
      rw [hσ q hqi] at hc
      refine List.prod_eq_zero (List.mem_map.mpr ⟨ni g.inputs[q], hno _ hm, ?_⟩)
      rw [hbo _ (hno _ hm), hnbi _ hm, hbi _ hm, hio.nodupIn.idxOf_getElem]
      have e := hnba _ (hno _ hm)
      rw [hnbi _ hm] at e
      rw [e]
      simp [kern, dmat, hc]

end Graph

/-- A map that is known on the basis states. -/
theorem local_ext {n : ℕ} {F G : QState →ₗ[ℂ] QState} (h : ∀ x, F (basisState n x) = G (basisState n x)) {ψ : QState} (hψ : ψ.Local n) : F ψ = G ψ := by
  have : ψ ∈ LinearMap.eqLocus F G := local_span hψ fun y => h y
  exact this

/-- A renaming of the qubits as a linear map. -/
def permLin (σ : List ℕ) : QState →ₗ[ℂ] QState where
  toFun ψ y := ψ fun q => y (σ.getD q 0)
  map_add' _ _ := rfl
  map_smul' _ _ := rfl

theorem norm2_ne {n : ℕ} {ψ : QState} (h : ψ.norm2 n = 1) : ∃ y, ψ y ≠ 0 := by
  by_contra hc
  push Not at hc
  unfold QState.norm2 at h
  simp [hc] at h

end PyZX
