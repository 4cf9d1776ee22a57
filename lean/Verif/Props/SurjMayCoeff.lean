import Verif.Props.TableReductionMay
import Verif.Props.BEClosed

/-! # The coefficients of the structure elements of the surjection operad: C135 -/

set_option linter.unusedSectionVars false

namespace Comch.Props
open Comch Elem Spec IsPerm BElem
open Finsupp (single)

theorem sum_ind {K R : Type} [CommRing R] (P : K → Prop) [DecidablePred P] (d : List (K × Int)) :
    (((d.map fun p => if P p.1 then p.2 else 0).sum : Int) : R) =
      Finsupp.linearCombination R (fun k => if P k then (1 : R) else 0) (den R d) := by
  induction d with
  | nil => simp
  | cons p d ih =>
    rw [List.map_cons, List.sum_cons, Int.cast_add, ih, den_cons, map_add, Finsupp.linearCombination_single]
    congr 1
    split <;> simp

theorem ind_sum {ι K R : Type} [CommRing R] (P : K → Prop) [DecidablePred P] (l : List ι) (f : ι → K) :
    Finsupp.linearCombination R (fun k => if P k then (1 : R) else 0) ((l.map fun i => bv R (f i)).sum) =
      ((l.countP fun i => decide (P (f i)) : Nat) : R) := by
  induction l with
  | nil => simp
  | cons i l ih =>
    rw [List.map_cons, List.sum_cons, map_add, ih, Finsupp.linearCombination_single, List.countP_cons]
    by_cases h : P (f i) <;> simp [h, add_comm]

open Classical in
/-- The coefficient of a nondegenerate surjection in the structure element of arity `r` and degree `d` is the number of
those sequences of rotations of C132 from which it can be read off by table reduction. -/
theorem C135_coefficient {r : Nat} (hr : 2 ≤ r) (d n : Nat) :
    ∃ w, Surjection.maySteenrodStructure r d (some n) .bergerFresse = .ok w ∧ w.torsion = n ∧
      ∀ m : Surj, NonDegenerate r m →
        w.coeff m ≡ (((increments r d).countP fun l => decide (IsTableReading (rotations r 0 l) m) : Nat) : Int) [ZMOD n] := by
  obtain ⟨x, ex, hx, tx, -, dx⟩ := may_ok hr d n
  obtain ⟨x', z, w, ex', ez, ew, az, hzw⟩ := C80_structure hr d n
  obtain rfl : x = x' := by rw [ex] at ex'; exact Except.ok.inj ex'
  obtain ⟨z', ez', hz, tz, -⟩ := C42_no_exception (by omega) hx
  obtain rfl : z = z' := by rw [ez] at ez'; exact Except.ok.inj ez'
  obtain ⟨w', ew', hw, aw, -⟩ := surjMay_ok .bergerFresse hr d n
  obtain rfl : w = w' := by rw [ew] at ew'; exact Except.ok.inj ew'
  have tw : w.torsion = n := by show w.attrs.torsion = n; rw [aw]
  refine ⟨w, ew, tw, fun m hm => ?_⟩
  have h1 := C42_coeff (by omega) hx ez hm
  rw [tx, ← ZMod.intCast_eq_intCast_iff, sum_ind (R := ZMod n) (fun k => IsTableReading k m), dx, psiV_rotations hr, ind_sum] at h1
  rw [← ZMod.intCast_eq_intCast_iff, Int.cast_natCast, ← h1]
  have h2 := (pyEq_iff_den hz.nf hw.nf (by rw [tz, tx, tw])).1 hzw
  rw [tz, tx] at h2
  have h3 := DFunLike.congr_fun h2 m
  rw [Dict.den_apply hz.nf.nodup, Dict.den_apply hw.nf.nodup] at h3
  exact h3.symm

theorem convS_apply {R : Type} [CommRing R] (c : Convention) (v : List Nat →₀ R) (m : List Nat) :
    convS c v m = sg R (convE c m) * v m := by
  induction v using Finsupp.induction_linear with
  | zero => simp
  | add a b ha hb => rw [map_add, Finsupp.add_apply, ha, hb, Finsupp.add_apply, mul_add]
  | single k r =>
    rw [convS_single, Finsupp.smul_apply]
    by_cases h : k = m
    · subst h; simp [mul_comm]
    · simp [h]

/-- In the McClure-Smith convention the coefficients are the same up to signs. -/
theorem C135_mcclure_smith {r : Nat} (hr : 2 ≤ r) (d n : Nat) :
    ∃ w w', Surjection.maySteenrodStructure r d (some n) .bergerFresse = .ok w ∧
      Surjection.maySteenrodStructure r d (some n) .mcClureSmith = .ok w' ∧ w'.torsion = n ∧
      ∀ m : Surj, w'.coeff m ≡ w.coeff m [ZMOD n] ∨ w'.coeff m ≡ -w.coeff m [ZMOD n] := by
  obtain ⟨w, ew, hw, aw, dw⟩ := surjMay_ok .bergerFresse hr d n
  obtain ⟨w', ew', hw', aw', dw'⟩ := surjMay_ok .mcClureSmith hr d n
  refine ⟨w, w', ew, ew', by show w'.attrs.torsion = n; rw [aw'], fun m => ?_⟩
  have h1 := DFunLike.congr_fun dw m
  have h2 := DFunLike.congr_fun dw' m
  rw [Dict.den_apply hw.nf.nodup, convS_apply] at h1
  rw [Dict.den_apply hw'.nf.nodup, convS_apply] at h2
  have h0 : sg (ZMod n) ((convE .bergerFresse m : Nat) : Int) = 1 := by
    rw [show convE .bergerFresse m = 0 from rfl]; simp
  rw [h0, one_mul] at h1
  rw [← h1] at h2
  rw [← ZMod.intCast_eq_intCast_iff, ← ZMod.intCast_eq_intCast_iff, Int.cast_neg]
  rcases sg_cases (R := ZMod n) ((convE .mcClureSmith m : Nat) : Int) with h | h
  · left; rw [h, one_mul] at h2; exact h2
  · right; rw [h, neg_one_mul] at h2; exact h2

/-- Arity 3, degree 2: the two sequences, and a surjection read off the second one. -/
example : (increments 3 2).map (rotations 3 0) = [[[1, 2, 3], [2, 3, 1], [3, 1, 2]], [[1, 2, 3], [3, 1, 2], [1, 2, 3]]] ∧
    IsTableReading [[1, 2, 3], [3, 1, 2], [1, 2, 3]] [1, 3, 1, 2, 3] :=
  ⟨by decide, [[1], [3], [1, 2, 3]], by decide, by decide, by decide⟩

example : (Surjection.maySteenrodStructure 3 2 (some 0) .bergerFresse).toOption.map Elem.data =
    some [([1, 2, 3, 1, 2], 1), ([1, 3, 1, 2, 3], 1), ([1, 2, 3, 2, 3], 1)] := by decide +kernel

end Comch.Props
