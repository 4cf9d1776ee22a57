import Verif.Props.CochainsPrimes

/-! # Integral values of the structure elements -/

set_option linter.unusedSectionVars false

namespace Comch.Coch
open Comch.Spec Elem SurjComp SurjElem IsPerm SurjMay Comch.Props
open BElem (stepV stepV_supported PermSet stepV_mul)
open Finsupp (single)

variable {p q m r d : Nat} {X : OrderedComplex} {σ : List Nat}

theorem pr_den_filter {R K : Type} [CommRing R] (drops : K → Bool) (E : List (K × Int)) :
    pr drops (den R E) = den R (E.filter fun p => !drops p.1) := by
  induction E with
  | nil => simp
  | cons p E ih =>
    rw [den_cons, map_add, pr_single, ih, List.filter_cons]
    by_cases h : drops p.1 <;> simp [h]

/-- The values of the structure elements come from one integral chain. -/
theorem W_integral (hr : 2 ≤ r) (hσ : σ ≠ []) (d : Nat) : ∃ E : List (SKey × Int), ∀ n, W r n d (bv (ZMod n) [σ]) = den (ZMod n) E := by
  obtain ⟨N, hN, -⟩ := norm_ok' (R := Int) (r := r) (by omega)
  obtain ⟨z, -, hz, -, -, hden⟩ := surjPsi_ok .mcClureSmith hr hN d
  refine ⟨(z.data.flatMap fun p => (allCuts p.1.length σ).map fun ps =>
    (assemble r p.1 ps, p.2 * pySign (sortingExponent p.1 ps + concatenationExponent p.1 ps))).filter fun p => !lany p.1,
    fun n => ?_⟩
  unfold W
  rw [LinearMap.comp_apply, ← pr_den_filter, ← hden (ZMod n), den_flatMap]
  congr 1
  have hnn : ∀ p ∈ z.data, p.1 ≠ [] := fun p hp => onto_ne_nil hz.nf hp
  generalize z.data = l at hnn
  induction l with
  | nil => simp
  | cons p l ih =>
    rw [den_cons, map_add, LinearMap.add_apply, ih fun x hx => hnn x (by simp [hx]), List.map_cons, List.sum_cons]
    congr 1
    rw [single_eq_smul_bv, map_smul, LinearMap.smul_apply, callV_one _ _ _ rfl, List.head!_cons,
      sact_apply r (hnn p (by simp)) hσ, den_map, List.smul_sum, List.map_map]
    congr 1
    refine List.map_congr_left fun ps _ => ?_
    rw [Function.comp, smul_smul, Finsupp.smul_single, smul_eq_mul, mul_one]
    push_cast
    rfl

theorem tensorValue_cast {R S : Type} [CommRing R] [CommRing S] (f : R →+* S) : ∀ (L : List (Nat × (List Nat → R))) (k : SKey),
    tensorValue (L.map fun x => (x.1, fun τ => f (x.2 τ))) k = f (tensorValue L k)
  | [], [] => by simp [tensorValue]
  | [], _ :: _ => by simp [tensorValue]
  | _ :: _, [] => by simp [tensorValue]
  | (q, α) :: L, g :: k => by
    rw [List.map_cons, tensorValue, tensorValue, tensorValue_cast f L k, map_mul]
    split <;> simp

theorem cob_cast {R S : Type} [CommRing R] [CommRing S] (f : R →+* S) (α : List Nat → R) (σ : List Nat) :
    coboundary (fun τ => f (α τ)) σ = f (coboundary α σ) := by
  unfold coboundary
  split
  · simp
  · rw [map_list_sum, List.map_map]
    congr 1
    refine List.map_congr_left fun i _ => ?_
    simp

/-- The integral values. -/
theorem exists_wz (hr : 2 ≤ r) (d : Nat) : ∃ wz : List (Nat × (List Nat → Int)) → List Nat → Int, ∀ n L σ, σ ≠ [] →
    wv r n d (L.map fun x => (x.1, fun τ => ((x.2 τ : Int) : ZMod n))) σ = ((wz L σ : Int) : ZMod n) := by
  classical
  refine ⟨fun L σ => if hσ : σ ≠ [] then evF L (den Int (W_integral hr hσ d).choose) else 0, fun n L σ hσ => ?_⟩
  simp only [dif_pos hσ]
  rw [wv, (W_integral hr hσ d).choose_spec n]
  generalize (W_integral hr hσ d).choose = E
  induction E with
  | nil => simp
  | cons p E ih =>
    rw [den_cons, den_cons, map_add, map_add, Int.cast_add, ih, evF_single, evF_single]
    have := tensorValue_cast (Int.castRingHom (ZMod n)) L p.1
    simp only [Int.coe_castRingHom] at this
    rw [this]
    push_cast
    rfl

end Comch.Coch
