import Verif.Lib.TableRedMay
import Verif.Props.TableReduction
import Verif.Props.Steenrod

/-! # C80: table reduction carries the May-Steenrod structure of the Barratt-Eccles operad to the one of the
surjection operad -/

set_option linter.unusedSectionVars false

namespace Comch.Props
open Comch Elem Spec IsPerm BElem
open Finsupp (single)

/-- `BarrattEccles.may_steenrod_structure(r, d, n).table_reduction() ==
Surjection.may_steenrod_structure(r, d, n, 'Berger-Fresse')`. -/
theorem C80_structure {r : Nat} (hr : 2 ≤ r) (d n : Nat) :
    ∃ x z w, BarrattEccles.maySteenrodStructure r d (some n) = .ok x ∧ tableReduction x = .ok z ∧
      Surjection.maySteenrodStructure r d (some n) .bergerFresse = .ok w ∧ z.attrs = w.attrs ∧ pyEq z w = true := by
  obtain ⟨x, ex, hx, tx, kx, dx⟩ := may_ok hr d n
  obtain ⟨w, ew, hw, aw, dw⟩ := surjMay_ok .bergerFresse hr d n
  obtain ⟨z, ez, nz, az, dz⟩ := TR.tableReduction_ok (by omega) hx tx
  refine ⟨x, z, w, ex, ez, ew, ?_, pyEq_of_den (n := n) nz hw.nf (by rw [Elem.torsion, az]; exact tx)
    (by rw [Elem.torsion, aw]) ?_⟩
  · rw [az, aw, tx]
  · have hO := trL_supported hx n
    rw [dz, dw, convS_bf, SurjMay.pr_drops_of_OK (r := r) (by omega) hO, dx, TR.trL_psiV hr]

/-- The same without the argument `torsion`. -/
theorem C80_structure_default {r : Nat} (hr : 2 ≤ r) (d : Nat) :
    ∃ x z w, BarrattEccles.maySteenrodStructure r d = .ok x ∧ tableReduction x = .ok z ∧
      Surjection.maySteenrodStructure r d none .bergerFresse = .ok w ∧ pyEq z w = true := by
  obtain ⟨x, z, w, h1, h2, h3, -, h5⟩ := C80_structure hr d 0
  exact ⟨x, z, w, h1, h2, h3, h5⟩

/-- The zero elements correspond. -/
theorem tr_zero {p : Nat} (hp : 1 ≤ p) (c : Convention) : ∃ z,
    tableReduction (Elem.new barrattEccles [] (some p)) = .ok z ∧
      pyEq z (Elem.new surjection [] (some p) c) = true := by
  have hx : InBE p (Elem.new barrattEccles [] (some p)) :=
    ⟨nf_new _ (by simp [Dict.KeysNodup]) _ _, by simp [Elem.new, preferredRep, zeroDropped, basePreferredRep]⟩
  obtain ⟨z, ez, nz, az, dz⟩ := TR.tableReduction_ok hp hx rfl
  refine ⟨z, ez, pyEq_of_den (n := p) nz (nf_new _ (by simp [Dict.KeysNodup]) _ _)
    (by rw [Elem.torsion, az]; rfl) rfl ?_⟩
  have e : (Elem.new barrattEccles [] (some p)).data = [] := by
    simp [Elem.new, preferredRep, zeroDropped, basePreferredRep]
  have e2 : (Elem.new surjection [] (some p) c).data = [] := by
    simp [Elem.new, preferredRep, zeroDropped, basePreferredRep]
  have hz : den (ZMod p) z.data = 0 := by
    refine dz.trans ?_
    rw [e, den_nil, map_zero, map_zero]
    rfl
  rw [hz, e2, den_nil]

/-- A multiple of the structure. -/
theorem tr_smul_structure {r : Nat} (hr : 2 ≤ r) (d : Nat) (c : Int) {m : BElem}
    (hm : BarrattEccles.maySteenrodStructure r d (some r) = .ok m) :
    ∃ z w, tableReduction (m.smul barrattEccles c) = .ok z ∧
      Surjection.maySteenrodStructure r d (some r) .bergerFresse = .ok w ∧
      pyEq z (w.smul surjection c) = true := by
  obtain ⟨x, ex, hx, tx, kx, dx⟩ := may_ok hr d r
  rw [hm] at ex; cases ex
  obtain ⟨w, ew, hw, aw, dw⟩ := surjMay_ok .bergerFresse hr d r
  have hsm : InBE r (m.smul barrattEccles c) := ⟨nf_smul hx.nf c, keysP_smul (P := fun k => ∀ σ ∈ k, IsPerm r σ) c hx.perm⟩
  obtain ⟨z, ez, nz, az, dz⟩ := TR.tableReduction_ok (by omega) hsm ((smul_torsion _ c m).trans tx)
  have tw : w.torsion = r := by rw [Elem.torsion, aw]
  refine ⟨z, w, ez, ew, pyEq_of_den (n := r) nz (nf_smul hw.nf c)
    (by rw [Elem.torsion, az]; exact (smul_torsion _ c m).trans tx) ((smul_torsion _ c w).trans tw) ?_⟩
  have hO := trL_supported hx r
  rw [dz, den_smul hx.nf c (by simp) (by rw [tx]; simp), den_smul hw.nf c (by simp) (by rw [tw]; simp), dw, convS_bf,
    map_smul, map_smul, SurjMay.pr_drops_of_OK (r := r) (by omega) hO, dx, TR.trL_psiV hr]

/-- `steenrod_operation` of the two operads raise for the same arguments, with the same exception, and otherwise
table reduction takes the one of the Barratt-Eccles operad to the one of the surjection operad. -/
theorem C80_operation {p : Nat} (hp : 2 ≤ p) (s q : Int) (b : Bool) :
    (∃ e, BarrattEccles.steenrodOperation p s q b = .error e ∧
      Surjection.steenrodOperation p s q b .bergerFresse = .error e) ∨
    (∃ x z w, BarrattEccles.steenrodOperation p s q b = .ok x ∧ tableReduction x = .ok z ∧
      Surjection.steenrodOperation p s q b .bergerFresse = .ok w ∧ pyEq z w = true) := by
  unfold BarrattEccles.steenrodOperation Surjection.steenrodOperation
  by_cases h2 : p = 2
  · subst h2
    rw [if_pos rfl, if_pos rfl]
    cases b
    · right
      by_cases h : s - q < 0
      · obtain ⟨z, ez, h1⟩ := tr_zero (p := 2) (by omega) .bergerFresse
        refine ⟨_, z, Elem.new surjection [] (some 2), by simp [h], ez, by simp [h], ?_⟩
        exact h1
      · obtain ⟨m, em, -⟩ := may_ok le_rfl (s - q).toNat 2
        obtain ⟨z, w, ez, ew, h1⟩ := tr_smul_structure le_rfl (s - q).toNat 1 em
        refine ⟨m.smul barrattEccles 1, z, w.smul surjection 1, ?_, ez, ?_, h1⟩
        · simp only [Bool.false_eq_true, if_false, if_neg h, em]; rfl
        · simp only [Bool.false_eq_true, if_false, if_neg h, ew]; rfl
    · left
      exact ⟨.typeError, by simp, by simp⟩
  · rw [if_neg h2, if_neg h2]
    dsimp only
    cases hc : steenrodCoeff p s q with
    | error e =>
      left
      refine ⟨e, ?_, ?_⟩ <;> (split <;> rfl)
    | ok c =>
      right
      by_cases h : steenrodDegree p s q b < 0
      · obtain ⟨z, ez, h1⟩ := tr_zero (p := p) (by omega) .bergerFresse
        refine ⟨_, z, Elem.new surjection [] (some p) .bergerFresse, by rw [if_pos h]; rfl, ez, by rw [if_pos h]; rfl, h1⟩
      · obtain ⟨m, em, -⟩ := may_ok hp (steenrodDegree p s q b).toNat p
        obtain ⟨z, w, ez, ew, h1⟩ := tr_smul_structure hp (steenrodDegree p s q b).toNat c em
        refine ⟨m.smul barrattEccles c, z, w.smul surjection c, ?_, ez, ?_, h1⟩
        · rw [if_neg h]; simp only [bind, Except.bind, em]
        · rw [if_neg h]; simp only [bind, Except.bind, ew]

/-! ## A concrete case -/

/-- The second case of `C80_operation` with a non-zero operation. -/
example : ((BarrattEccles.steenrodOperation 3 (-1) (-3) false).toOption.bind fun x =>
    (tableReduction x).toOption.map Elem.data) ≠ some [] ∧
    ((BarrattEccles.steenrodOperation 3 (-1) (-3) false).toOption.bind fun x =>
    (tableReduction x).toOption.map fun z => z.data.map Prod.fst) =
    some [[1, 2, 3, 1, 2], [1, 3, 1, 2, 3], [1, 2, 3, 2, 3]] := by decide +kernel

end Comch.Props
