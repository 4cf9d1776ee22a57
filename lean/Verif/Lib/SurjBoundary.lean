import Verif.Spec.Surjections
import Verif.Lib.Common
import Verif.Lib.BarrattEccles

/-! # Boundary of surjections: the recursive vector form and `∂∂ = 0` -/

set_option linter.unusedSectionVars false

namespace Comch
open Spec Elem
open Finsupp (single)

variable {R : Type} [CommRing R]

/-- Recursive description of the boundary (convention of Berger and Fresse). -/
noncomputable def sdel : List Nat → (List Nat →₀ R)
  | [] => 0
  | x :: t => (if x ∈ t then bv R t - consV x (sdel t) else consV x (sdel t)) -
      (if t.count x = 1 then bv R (x :: t.erase x) else 0)

/-- `m` has the same values as `k`. -/
def SameVals (k m : List Nat) : Prop := ∀ v, v ∈ m ↔ v ∈ k

theorem SameVals.cons {k m : List Nat} (h : SameVals k m) (x : Nat) : SameVals (x :: k) (x :: m) := by
  intro v; simp [h v]

theorem sdel_supported (k : List Nat) : sdel (R := R) k ∈ Finsupp.supported R R {m | SameVals k m} := by
  induction k with
  | nil => simp [sdel]
  | cons x t ih =>
    have h1 : consV x (sdel (R := R) t) ∈ Finsupp.supported R R {m | SameVals (x :: t) m} :=
      mapK_supported _ (fun m hm => SameVals.cons hm x) ih
    rw [sdel]
    apply Submodule.sub_mem
    · split
      · rename_i h
        apply Submodule.sub_mem _ _ h1
        apply Finsupp.single_mem_supported
        intro v
        simp only [List.mem_cons]
        exact ⟨Or.inr, fun h' => h'.elim (fun e => e ▸ h) id⟩
      · exact h1
    · split
      · rename_i h
        apply Finsupp.single_mem_supported
        intro v
        simp only [List.mem_cons]
        by_cases e : v = x
        · simp [e]
        · simp [e, List.mem_erase_of_ne e]
      · exact Submodule.zero_mem _

/-- A property of the count of one value is kept up to one. -/
theorem sdel_supported_count (k : List Nat) (x : Nat) :
    sdel (R := R) k ∈ Finsupp.supported R R {m | k.count x ≤ m.count x + 1 ∧ m.count x ≤ k.count x} := by
  induction k with
  | nil => simp [sdel]
  | cons y t ih =>
    have h1 : consV y (sdel (R := R) t) ∈ Finsupp.supported R R
        {m | (y :: t).count x ≤ m.count x + 1 ∧ m.count x ≤ (y :: t).count x} := by
      refine mapK_supported _ (fun m hm => ?_) ih
      simp only [Set.mem_ofPred_eq, List.count_cons] at hm ⊢
      omega
    rw [sdel]
    apply Submodule.sub_mem
    · split
      · apply Submodule.sub_mem _ _ h1
        apply Finsupp.single_mem_supported
        simp only [Set.mem_ofPred_eq, List.count_cons]
        split <;> omega
      · exact h1
    · split
      · rename_i h
        apply Finsupp.single_mem_supported
        simp only [Set.mem_ofPred_eq, List.count_cons, List.count_erase]
        split <;> (try split) <;> omega
      · exact Submodule.zero_mem _

/-- Linear extension. -/
noncomputable def sdelL : (List Nat →₀ R) →ₗ[R] (List Nat →₀ R) := lin sdel

@[simp] theorem sdelL_single (k : List Nat) (r : R) : sdelL (single k r) = r • sdel k := by
  simp [sdelL]

/-- Erasing the only occurrence of `x`. -/
noncomputable def eraseOne (x : Nat) : (List Nat →₀ R) →ₗ[R] (List Nat →₀ R) :=
  lin fun u => if u.count x = 1 then bv R (u.erase x) else 0

@[simp] theorem eraseOne_single (x : Nat) (k : List Nat) (r : R) :
    eraseOne x (single k r) = if k.count x = 1 then single (k.erase x) r else 0 := by
  unfold eraseOne
  rw [lin_single]
  split <;> simp

theorem eraseOne_consV_ne {x y : Nat} (h : y ≠ x) (v : List Nat →₀ R) :
    eraseOne x (consV y v) = consV y (eraseOne x v) := by
  induction v using Finsupp.induction_linear with
  | zero => simp
  | add f g hf hg => simp only [map_add, hf, hg]
  | single k c =>
    simp only [consV_single, eraseOne_single]
    rw [List.count_cons_of_ne h, List.erase_cons_tail (by simpa using h)]
    split <;> simp

theorem eraseOne_sdel {t : List Nat} {x : Nat} (h : t.count x = 1) :
    eraseOne x (sdel (R := R) t) = sdel (t.erase x) := by
  induction t with
  | nil => simp at h
  | cons y t ih =>
    by_cases e : y = x
    · subst e
      have hc : t.count y = 0 := by simpa using h
      have hn : y ∉ t := by rwa [List.count_eq_zero] at hc
      rw [List.erase_cons_head, sdel, if_neg hn, hc]
      simp only [zero_ne_one, if_false, sub_zero]
      have hs := sdel_supported (R := R) t
      have := BElem.lin_ext_supported (R := R) (f := (eraseOne y).comp (consV y)) (g := LinearMap.id)
        (S := {m | SameVals t m}) (fun m hm => by
          have : y ∉ m := fun h => hn ((hm y).1 h)
          simp [List.count_cons_self, List.count_eq_zero.2 this]) hs
      simpa using this
    · rw [List.count_cons_of_ne e] at h
      have ih := ih h
      have hmem : y ∈ t.erase x ↔ y ∈ t := List.mem_erase_of_ne e
      have hcnt : (t.erase x).count y = t.count y := List.count_erase_of_ne (Ne.symm (Ne.symm e))
      rw [List.erase_cons_tail (by simpa using e), sdel, sdel, hcnt, map_sub]
      congr 1
      · by_cases hy : y ∈ t
        · rw [if_pos hy, if_pos (hmem.2 hy), map_sub, eraseOne_consV_ne e, ih]
          simp [h]
        · rw [if_neg hy, if_neg (fun h => hy (hmem.1 h)), eraseOne_consV_ne e, ih]
      · split
        · rw [eraseOne_single, List.count_cons_of_ne e, List.count_erase_of_ne (Ne.symm e), if_pos h,
            List.erase_cons_tail (by simpa using e), List.erase_comm]
        · simp

theorem eraseOne_sdel_two {t : List Nat} {x : Nat} (h : 2 ≤ t.count x) :
    eraseOne x (sdel (R := R) t) = 0 := by
  induction t with
  | nil => simp at h
  | cons y t ih =>
    by_cases e : y = x
    · subst e
      have hc : 1 ≤ t.count y := by simpa using h
      have hm : y ∈ t := List.count_pos_iff.1 (by omega)
      rw [sdel, if_pos hm, map_sub, map_sub]
      have hs := sdel_supported (R := R) t
      have h0 : eraseOne y (consV y (sdel (R := R) t)) = 0 := by
        have := BElem.lin_ext_supported (R := R) (f := (eraseOne y).comp (consV y)) (g := 0)
          (S := {m | SameVals t m}) (fun m hm' => by
            have : y ∈ m := (hm' y).2 hm
            have := List.count_pos_iff.2 this
            simp only [LinearMap.comp_apply, consV_single, eraseOne_single, List.count_cons_self]
            rw [if_neg (by omega)]
            simp) hs
        simpa using this
      rw [h0]
      by_cases h1 : t.count y = 1
      · rw [if_pos h1]
        simp [h1, List.count_cons_self, List.count_erase_self]
      · rw [if_neg h1]
        simp [h1]
    · rw [List.count_cons_of_ne e] at h
      have ih := ih h
      rw [sdel, map_sub]
      have h1 : eraseOne x (bv R t) = 0 := by simp; omega
      have h2 : eraseOne x (bv R (y :: t.erase y)) = 0 := by
        rw [eraseOne_single, List.count_cons_of_ne e, List.count_erase_of_ne (Ne.symm e), if_neg (by omega)]
      split <;> split <;> simp only [map_sub, eraseOne_consV_ne e, ih, h1, h2, map_zero, sub_zero]

/-- `δ(x :: v)` when all terms of `v` contain `x`. -/
theorem sdelL_consV_mem {x : Nat} {v : List Nat →₀ R}
    (hv : v ∈ Finsupp.supported R R {m | x ∈ m}) :
    sdelL (consV x v) = v - consV x (sdelL v) - consV x (eraseOne x v) := by
  have := BElem.lin_ext_supported (R := R) (f := sdelL.comp (consV x))
    (g := LinearMap.id - (consV x).comp sdelL - (consV x).comp (eraseOne x)) (S := {m | x ∈ m})
    (fun m hm => by
      simp only [LinearMap.comp_apply, LinearMap.sub_apply, consV_single, sdelL_single, one_smul,
        LinearMap.id_apply, eraseOne_single]
      rw [sdel, if_pos (show x ∈ m from hm)]
      congr 1
      split <;> simp) hv
  simpa using this

theorem sdelL_consV_not_mem {x : Nat} {v : List Nat →₀ R}
    (hv : v ∈ Finsupp.supported R R {m | x ∉ m}) :
    sdelL (consV x v) = consV x (sdelL v) := by
  have := BElem.lin_ext_supported (R := R) (f := sdelL.comp (consV x))
    (g := (consV x).comp sdelL) (S := {m | x ∉ m})
    (fun m hm => by
      have hm : x ∉ m := hm
      simp only [LinearMap.comp_apply, consV_single, sdelL_single, one_smul]
      rw [sdel, if_neg hm, List.count_eq_zero.2 hm]
      simp) hv
  simpa using this

theorem sdelL_sdel (k : List Nat) : sdelL (sdel (R := R) k) = 0 := by
  induction k with
  | nil => simp [sdel]
  | cons x t ih =>
    have hs := sdel_supported (R := R) t
    rw [sdel]
    by_cases hx : x ∈ t
    · have hv : sdel (R := R) t ∈ Finsupp.supported R R {m | x ∈ m} :=
        Finsupp.supported_mono (fun m hm => (hm x).2 hx) hs
      rw [if_pos hx, map_sub, map_sub, sdelL_consV_mem hv, ih]
      by_cases h1 : t.count x = 1
      · rw [if_pos h1, eraseOne_sdel h1]
        have hn : x ∉ t.erase x := by
          rw [← List.count_eq_zero, List.count_erase_self]; omega
        have h2 : sdelL (bv R (x :: t.erase x)) = consV x (sdel (t.erase x)) := by
          rw [sdelL_single, one_smul, sdel, if_neg hn, List.count_eq_zero.2 hn]
          simp
        rw [h2]
        simp
      · rw [if_neg h1, eraseOne_sdel_two (by have := List.count_pos_iff.2 hx; omega)]
        simp
    · have hv : sdel (R := R) t ∈ Finsupp.supported R R {m | x ∉ m} :=
        Finsupp.supported_mono (fun m hm => fun h => hx ((hm x).1 h)) hs
      rw [if_neg hx, List.count_eq_zero.2 hx, map_sub, sdelL_consV_not_mem hv, ih]
      simp

theorem sdelL_sdelL (v : List Nat →₀ R) : sdelL (sdelL v) = 0 := by
  induction v using Finsupp.induction_linear with
  | zero => simp
  | add f g hf hg => simp only [map_add, hf, hg, add_zero]
  | single k r => simp [sdelL_sdel]

/-! ### degenerate surjections -/

theorem hasRep_erase {t : List Nat} {x : Nat} (h : hasRep t = true) (h1 : t.count x = 1) :
    hasRep (t.erase x) = true := by
  induction t with
  | nil => simp [hasRep] at h
  | cons a t ih =>
    cases t with
    | nil => simp [hasRep] at h
    | cons b t =>
      simp only [hasRep, Bool.or_eq_true, beq_iff_eq] at h
      by_cases ha : a = x
      · subst ha
        rw [List.erase_cons_head]
        rcases h with rfl | h
        · simp at h1
        · exact h
      · rw [List.erase_cons_tail (by simpa using ha)]
        rw [List.count_cons_of_ne ha] at h1
        rcases h with rfl | h
        · rw [List.erase_cons_tail (by simpa using ha)]
          simp [hasRep]
        · exact hasRep_cons (ih h h1)

theorem pr_hasRep_consV {x : Nat} {v : List Nat →₀ R} (hv : pr hasRep v = 0) :
    pr hasRep (consV x v) = 0 := pr_consV (fun _ h => hasRep_cons h) hv

theorem pr_hasRep_cc (x : Nat) (v : List Nat →₀ R) : pr hasRep (consV x (consV x v)) = 0 := by
  induction v using Finsupp.induction_linear with
  | zero => simp
  | add f g hf hg => simp only [map_add, hf, hg, add_zero]
  | single k c => simp [hasRep]

theorem pr_hasRep_sdel {k : List Nat} (h : hasRep k = true) : pr hasRep (sdel (R := R) k) = 0 := by
  induction k with
  | nil => simp [sdel]
  | cons x t ih =>
    by_cases ht : hasRep t = true
    · have h1 := pr_hasRep_consV (x := x) (ih ht)
      have h2 : pr hasRep (bv R t) = 0 := by simp [ht]
      have h3 : t.count x = 1 → pr hasRep (bv R (x :: t.erase x)) = 0 := by
        intro hc
        simp [hasRep_cons (hasRep_erase ht hc)]
      rw [sdel]
      split <;> split <;> simp_all
    · cases t with
      | nil => simp [hasRep] at h
      | cons y t =>
        simp only [hasRep, Bool.or_eq_true, beq_iff_eq] at h
        rcases h with rfl | h
        · rw [sdel, if_pos (by simp), sdel]
          simp only [map_sub, List.count_cons_self, List.erase_cons_head]
          have hcc : consV x (bv R t) = bv R (x :: t) := by simp
          by_cases hm : x ∈ t
          · have hc := List.count_pos_iff.2 hm
            rw [if_pos hm, map_sub, hcc]
            simp only [map_sub, pr_hasRep_cc]
            rw [if_neg (show ¬ t.count x + 1 = 1 by omega)]
            have : pr hasRep (consV x (if t.count x = 1 then bv R (x :: t.erase x) else 0)) = 0 := by
              split
              · simp [hasRep]
              · simp
            rw [this]
            simp
          · rw [if_neg hm, List.count_eq_zero.2 hm]
            simp [pr_hasRep_cc]
        · exact absurd h ht

/-! ### the class `drops` -/

theorem hasRepeat_eq (k : Surj) : Surj.hasRepeat k = hasRep k := by
  rw [← any_pairwise_eq]
  unfold Surj.hasRepeat
  rfl

theorem pyMax_le_iff {l : List Nat} {n : Nat} : pyMax l ≤ n ↔ ∀ a ∈ l, a ≤ n := by
  unfold pyMax
  induction l with
  | nil => simp
  | cons c l ih => simp only [List.foldr_cons, max_le_iff, ih, List.mem_cons, forall_eq_or_imp]

theorem le_pyMax {l : List Nat} {a : Nat} (h : a ∈ l) : a ≤ pyMax l := pyMax_le_iff.1 le_rfl a h

theorem pyMax_mem {l : List Nat} (h : l ≠ []) : pyMax l ∈ l := by
  unfold pyMax
  induction l with
  | nil => simp at h
  | cons a l ih =>
    rw [List.foldr_cons]
    rcases Nat.le_total (l.foldr max 0) a with h' | h'
    · simp [h']
    · rw [max_eq_right h']
      by_cases hl : l = []
      · subst hl; simp at h' ⊢; omega
      · exact List.mem_cons_of_mem _ (ih hl)

theorem SameVals.pyMax {k m : List Nat} (h : SameVals k m) : pyMax m = pyMax k := by
  apply le_antisymm
  · exact pyMax_le_iff.2 fun a ha => le_pyMax ((h a).1 ha)
  · exact pyMax_le_iff.2 fun a ha => le_pyMax ((h a).2 ha)

theorem isOnto_iff {k : Surj} : k.isOnto = true ↔ ∀ v, v ∈ k ↔ 1 ≤ v ∧ v ≤ pyMax k := by
  unfold Surj.isOnto
  simp only [Bool.and_eq_true, List.all_eq_true, List.contains_iff_mem, mem_pyRange]
  constructor
  · rintro ⟨h1, h2⟩ v
    refine ⟨fun h => by have := h1 v h; omega, fun h => h2 v (by omega)⟩
  · intro h
    exact ⟨fun v hv => by have := (h v).1 hv; omega, fun v hv => (h v).2 (by omega)⟩

theorem SameVals.isOnto {k m : List Nat} (h : SameVals k m) : Surj.isOnto m = Surj.isOnto k := by
  rw [Bool.eq_iff_iff, isOnto_iff, isOnto_iff, h.pyMax]
  constructor
  · intro h' v; rw [← h' v, h v]
  · intro h' v; rw [← h' v, h v]

theorem surj_drops (k : Surj) : surjection.drops k = (k.isEmpty || !k.isOnto || hasRep k) := by
  rw [← hasRepeat_eq]; rfl

@[simp] theorem surj_defaultTorsion : surjection.defaultTorsion = 0 := rfl

theorem surj_kept_iff {k : Surj} : surjection.drops k = false ↔
    k ≠ [] ∧ (∀ v, v ∈ k ↔ 1 ≤ v ∧ v ≤ pyMax k) ∧ hasRep k = false := by
  rw [surj_drops, Bool.or_eq_false_iff, Bool.or_eq_false_iff, Bool.not_eq_false', isOnto_iff]
  simp [and_assoc, List.isEmpty_eq_false_iff]

theorem pr_surj_eq (v : List Nat →₀ R) : pr surjection.drops v = pr surjection.drops (pr hasRep v) := by
  ext k
  rw [pr_apply, pr_apply, pr_apply, surj_drops]
  cases hasRep k <;> simp

theorem SameVals.isEmpty {k m : List Nat} (h : SameVals k m) : m.isEmpty = k.isEmpty := by
  rw [Bool.eq_iff_iff, List.isEmpty_iff, List.isEmpty_iff, List.eq_nil_iff_forall_not_mem,
    List.eq_nil_iff_forall_not_mem]
  constructor
  · intro h' v hv; exact h' v ((h v).2 hv)
  · intro h' v hv; exact h' v ((h v).1 hv)

theorem pr_surj_sdel {k : Surj} (h : surjection.drops k = true) :
    pr surjection.drops (sdel (R := R) k) = 0 := by
  rw [surj_drops] at h
  by_cases hr : hasRep k = true
  · rw [pr_surj_eq, pr_hasRep_sdel hr, map_zero]
  · have h2 : k.isEmpty || !Surj.isOnto k := by simpa [hr] using h
    have := BElem.lin_ext_supported (R := R) (f := pr surjection.drops) (g := 0) (S := {m | SameVals k m})
      (fun m (hm : SameVals k m) => by
        rw [pr_single, surj_drops, hm.isEmpty, hm.isOnto, h2]
        simp) (sdel_supported (R := R) k)
    simpa using this

end Comch
