import Verif.Props.CubCartan
import Verif.Props.Extremal

/-! # Standard elements: C94 -/

set_option linter.unusedSectionVars false

namespace Comch.Props
open Comch Elem CElem Serre

/-- The torsion an element is built with: `none` selects the default. -/
theorem one_emod_torsion {t : Nat} (ht : t ≠ 1) (h0 : t ≠ 0) : (1 : Int) % t = 1 :=
  Int.emod_eq_of_lt (by omega) (by omega)

theorem simplicial_standard_data {n t : Nat} {tor : Option Nat} (ht : tor ≠ some 1) :
    (Simplicial.standardElement n t tor).data = [(List.replicate t (List.range (n + 1)), 1)] := by
  have hnd : Simplex.isDegenerate (List.range (n + 1)) = false := by
    rw [Comch.isDegenerate_eq, List.range_eq_range', hasRep_range']
    simp
  unfold Simplicial.standardElement
  rw [show ((n : Int) + 1).toNat = n + 1 by omega]
  cases tor with
  | none => simp [Elem.new, preferredRep, zeroDropped, basePreferredRep, simplicial, hnd]
  | some m =>
    by_cases hm : m = 0
    · subst hm
      simp [Elem.new, preferredRep, zeroDropped, basePreferredRep, simplicial, hnd]
    · have h1 := one_emod_torsion (t := m) (by simpa using ht) hm
      simp [Elem.new, preferredRep, zeroDropped, basePreferredRep, simplicial, hnd, h1]

theorem cubical_standard_data {n t : Nat} {tor : Option Nat} (ht : tor ≠ some 1) :
    (Cubical.standardElement n t tor).data = [(List.replicate t (List.replicate n 2), 1)] := by
  unfold Cubical.standardElement
  cases tor with
  | none => simp [Elem.new, preferredRep, zeroDropped, basePreferredRep, cubical]
  | some m =>
    by_cases hm : m = 0
    · subst hm
      simp [Elem.new, preferredRep, zeroDropped, basePreferredRep, cubical]
    · have h1 := one_emod_torsion (t := m) (by simpa using ht) hm
      simp [Elem.new, preferredRep, zeroDropped, basePreferredRep, cubical, h1]

/-- `Simplicial.standard_element(n, t)` is the tensor of `t` copies of `(0, …, n)`. -/
theorem C94_simplicial (n t : Nat) {tor : Option Nat} (ht : tor ≠ some 1) :
    (Simplicial.standardElement n t tor).data = [(List.replicate t (List.range (n + 1)), 1)] ∧
    (Simplicial.standardElement n t tor).torsion = tor.getD 0 ∧
    (Simplicial.standardElement n t tor).degree = some ((n * t : Nat) : Int) ∧
    (Simplicial.standardElement n t tor).arity = some t := by
  refine ⟨simplicial_standard_data ht, rfl, ?_, ?_⟩
  · rw [SElem.degree, simplicial_standard_data ht]
    simp [uniqueValue, SElem.keyDegree, Simplex.dimension, mul_comm]
  · rw [SElem.arity, simplicial_standard_data ht]
    simp [uniqueValue]

/-- `Cubical.standard_element(n, t)` is the tensor of `t` copies of `(2, …, 2)`. -/
theorem C94_cubical (n t : Nat) {tor : Option Nat} (ht : tor ≠ some 1) :
    (Cubical.standardElement n t tor).data = [(List.replicate t (List.replicate n 2), 1)] ∧
    (Cubical.standardElement n t tor).torsion = tor.getD 0 ∧
    (Cubical.standardElement n t tor).degree = some (n * t) ∧
    (Cubical.standardElement n t tor).arity = some t := by
  refine ⟨cubical_standard_data ht, rfl, ?_, ?_⟩
  · rw [CElem.degree, cubical_standard_data ht]
    simp [uniqueValue, CElem.keyDegree, Cube.dimension, Cube.intervals, mul_comm]
  · rw [CElem.arity, cubical_standard_data ht]
    simp [uniqueValue]

/-- With torsion 1 the module is zero; a negative dimension gives no simplex but the cube of dimension 0. -/
theorem C94_degenerate (n : Int) (t : Nat) (tor : Option Nat) :
    (Simplicial.standardElement n t (some 1)).data = [] ∧ (Cubical.standardElement n t (some 1)).data = [] ∧
    (n < 0 → 1 ≤ t → (Simplicial.standardElement n t tor).data = []) ∧
    (n < 0 → Cubical.standardElement n t tor = Cubical.standardElement 0 t tor) := by
  refine ⟨?_, ?_, fun hn h1 => ?_, fun hn => ?_⟩
  · unfold Simplicial.standardElement
    simp only [Elem.new, preferredRep, zeroDropped, basePreferredRep]
    simp
  · unfold Cubical.standardElement
    simp [Elem.new, preferredRep, zeroDropped, basePreferredRep, cubical]
  · unfold Simplicial.standardElement
    rw [show (n + 1).toNat = 0 by omega]
    have : (List.replicate t ([] : Simplex)).any (fun s => Simplex.isDegenerate s) = true := by
      rw [List.any_eq_true]
      exact ⟨[], by simp; omega, by decide⟩
    have h2 : Simplex.isDegenerate [] = true := by decide
    have h3 : ¬ t = 0 := by omega
    simp only [Elem.new, preferredRep, zeroDropped, basePreferredRep, simplicial]
    simp only [List.map_cons, List.map_nil, this, if_true]
    split <;> simp [h2, h3]
  · unfold Cubical.standardElement
    rw [show n.toNat = 0 by omega]
    rfl

theorem cartanSerre_replicate (n : Nat) : Cube.cartanSerre (List.replicate n 2) = List.range (n + 1) := by
  induction n with
  | zero => rfl
  | succ n ih =>
    rw [List.replicate_succ, cartanSerre_cons (by decide), if_pos rfl, ih, List.range_succ_eq_map (n := n + 1)]

/-- The Cartan–Serre map takes the standard cube to the standard simplex. -/
theorem C94_cartan_serre (n t : Nat) (tor : Option Nat) :
    pyEq (cartanSerreMap (Cubical.standardElement n t tor)) (Simplicial.standardElement n t tor) = true := by
  have hnf : (Cubical.standardElement n t tor).NF cubical := nf_new _ (by simp [Dict.KeysNodup]) _ _
  have hnf' : (Simplicial.standardElement n t tor).NF simplicial := nf_new _ (by simp [Dict.KeysNodup]) _ _
  have htc : (Cubical.standardElement n t tor).torsion = tor.getD 0 := rfl
  obtain ⟨nc, tc, -, dc⟩ := csMap_ok hnf
  refine pyEq_of_den (n := tor.getD 0) nc hnf' (tc.trans htc) rfl ?_
  have h0 : ((tor.getD 0 : Nat) : ZMod (tor.getD 0)) = 0 := by simp
  rw [htc] at dc
  rw [dc]
  unfold Cubical.standardElement Simplicial.standardElement
  rw [den_new _ _ _ _ h0, den_new _ _ _ _ h0, show ((n : Int) + 1).toNat = n + 1 by omega, Int.toNat_natCast]
  have hkept : ∀ c ∈ List.replicate t (List.replicate n 2), CubCS.Kept c := by
    intro c hc
    rw [List.eq_of_mem_replicate hc]
    unfold CubCS.Kept
    rw [cartanSerre_replicate]
    simp [Simplex.dimension, Cube.dimension, Cube.intervals]
  have hd : simplicial.drops (List.replicate t (List.range (n + 1))) = false := by
    have hnd : Simplex.isDegenerate (List.range (n + 1)) = false := by
      rw [Comch.isDegenerate_eq, List.range_eq_range', hasRep_range']
      simp
    simp [simplicial, hnd]
  rw [pr_den_of_forall (by simp [cubical]), pr_den_of_forall (by simpa using hd)]
  simp only [den_cons, den_nil, add_zero, Int.cast_one]
  rw [tm_single, one_smul, CubCS.tmK_kept hkept, List.map_replicate, cartanSerre_replicate]

example : (Simplicial.standardElement 2 3 (some 5)).data = [([[0, 1, 2], [0, 1, 2], [0, 1, 2]], 1)] := by decide
example : (Cubical.standardElement 2 2).data = [([[2, 2], [2, 2]], 1)] := by decide
example : (cartanSerreMap (Cubical.standardElement 2 2)).data = [([[0, 1, 2], [0, 1, 2]], 1)] := by decide

end Comch.Props
