import Verif.Lib.Common
import Verif.Model.Simplicial

/-! # Simplicial chains: linear description of the model -/

set_option linter.unusedSectionVars false

namespace Comch
open Finsupp Elem

variable {R : Type} [CommRing R]

theorem isDegenerate_eq (s : Simplex) : s.isDegenerate = (decide (s = []) || hasRep s) := by
  unfold Simplex.isDegenerate
  rw [any_pairwise_eq]
  congr 1
  apply decide_eq_decide.2
  simp only [Simplex.dimension]
  constructor
  · intro h; exact List.length_eq_zero_iff.1 (by omega)
  · rintro rfl; rfl

theorem simplicial_drops (k : SKey) :
    simplicial.drops k = k.any fun s => decide (s = []) || hasRep s := by
  show (k.any fun s => s.isDegenerate) = _
  simp only [isDegenerate_eq]

theorem simplicial_drops_eq :
    simplicial.drops = fun k : SKey => k.any fun s => decide (s = []) || hasRep s :=
  funext simplicial_drops

@[simp] theorem simplicial_defaultTorsion : simplicial.defaultTorsion = 0 := rfl

/-- `pr` of the deletion differential vanishes on dropped simplices. -/
theorem pr_delK_dropped (s : Simplex) (h : (decide (s = []) || hasRep s) = true) :
    pr (fun s : Simplex => decide (s = []) || hasRep s) (delK (R := R) s) = 0 := by
  simp only [Bool.or_eq_true, decide_eq_true_eq] at h
  rcases h with rfl | h
  · simp [delK]
  · exact pr_delK_of_hasRep (fun k hk => by simp [hk]) s h

theorem sgn1_consV_gen {α : Type} (f : List α → Int) (a : α) (hf : ∀ k, f (a :: k) = f k + 1)
    (v : List α →₀ R) : sgn1 f (consV a v) = - consV a (sgn1 f v) := by
  induction v using Finsupp.induction_linear with
  | zero => simp
  | add f g hf hg => simp only [map_add, hf, hg]; abel
  | single k r => simp [sgn1, hf, sg_succ]

theorem sgn1_delK {α : Type} (f : List α → Int) (hf : ∀ a k, f (a :: k) = f k + 1) (k : List α) :
    sgn1 f (delK (R := R) k) = - (sg R (f k) • delK k) := by
  induction k with
  | nil => simp [delK]
  | cons a k ih =>
    simp only [delK, map_sub, sgn1_consV_gen f a (hf a), ih, hf, sg_succ]
    simp [sgn1, smul_sub]
    abel

theorem dim_cons (a : Nat) (s : Simplex) : Simplex.dimension (a :: s) = Simplex.dimension s + 1 := by
  simp only [Simplex.dimension, List.length_cons]; push_cast; ring

theorem lin_delK_delK {α : Type} (k : List α) : lin delK (delK (R := R) k) = 0 := del_delK k

/-- The differential on all tensor powers, before degenerate terms are removed. -/
noncomputable abbrev simplicialD : (SKey →₀ R) →ₗ[R] (SKey →₀ R) := tens delK Simplex.dimension

theorem simplicialD_sq (v : SKey →₀ R) : simplicialD (simplicialD v) = 0 :=
  tens_tens lin_delK_delK (sgn1_delK _ dim_cons) v

theorem pr_simplicialD (k : SKey) (h : simplicial.drops k = true) :
    pr simplicial.drops (simplicialD (R := R) (single k 1)) = 0 := by
  rw [simplicial_drops_eq]
  rw [simplicial_drops] at h
  simp only [simplicialD, tens_single, one_smul]
  exact pr_tensK pr_delK_dropped k h

theorem boundaryEvents_cons (a : Simplex) (k : SKey) (v : Int) :
    SElem.boundaryEvents (a :: k) v =
      ((List.range a.length).map fun (i : Nat) => (a.face i :: k, v * pySign i)) ++
      (SElem.boundaryEvents k (v * pySign a.dimension)).map fun p => (a :: p.1, p.2) := by
  unfold SElem.boundaryEvents
  rw [enumerate_cons, List.flatMap_cons, List.flatMap_map]
  congr 1
  · simp [SElem.keyDegree]
  · simp only [List.map_flatMap, List.map_map]
    congr 1
    funext p
    apply List.map_congr_left
    intro i _
    simp [SElem.keyDegree, pySign_add, mul_assoc]

theorem den_boundaryEvents (k : SKey) (v : Int) :
    den R (SElem.boundaryEvents k v) = (v : R) • tensK delK Simplex.dimension k := by
  induction k generalizing v with
  | nil => simp [SElem.boundaryEvents, enumerate, tensK]
  | cons a k ih =>
    rw [boundaryEvents_cons, den_append, ← mapK_den (a :: ·)]
    rw [ih, tensK, smul_add, den_map]
    congr 1
    · rw [delK_eq_sum, cat_one_bv, map_list_sum, List.smul_sum, List.map_map, List.map_map]
      congr 1
      apply List.map_congr_left
      intro i _
      simp [Simplex.face, cast_pySign]
    · simp only [Int.cast_mul, cast_pySign, map_smul, smul_smul]
      rfl

end Comch
