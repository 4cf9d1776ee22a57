import Verif.Lib.SurjCompose
import Mathlib.Tactic.LinearCombination
import Mathlib.Tactic.Module

/-! # Words with labelled letters and the path sum behind the action on simplices

A word is a list of pairs (letter, vertex).  The interval cuts of a simplex, labelled by the letters of
a surjection, are the staircase paths `pth k V`; the deletion complex of words restricts to the
deletion complexes of `k` and of `V` (`pth_leibniz`). -/

set_option linter.unusedSectionVars false

namespace Comch.SurjComp
open Spec Elem
open Finsupp (single)

variable {R : Type} [CommRing R]

/-- Words: letters labelled by vertices. -/
abbrev LW := List (Nat × Nat)

/-- The letters of a word. -/
def letters (w : LW) : List Nat := w.map Prod.fst

@[simp] theorem letters_nil : letters [] = [] := rfl
@[simp] theorem letters_cons (x a : Nat) (w : LW) : letters ((x, a) :: w) = x :: letters w := by
  simp [letters]

/-- Erase the first entry with letter `x`. -/
def eraseL (x : Nat) (w : LW) : LW := w.eraseP fun p => p.1 == x

theorem eraseL_cons_self (x a : Nat) (w : LW) : eraseL x ((x, a) :: w) = w := by
  simp [eraseL]

theorem eraseL_cons_ne {x y : Nat} (h : y ≠ x) (a : Nat) (w : LW) :
    eraseL x ((y, a) :: w) = (y, a) :: eraseL x w := by
  simp [eraseL, List.eraseP_cons, h]

/-- Deletion complex of words: the sign depends on the letters only. -/
noncomputable def sdelW : LW → (LW →₀ R)
  | [] => 0
  | p :: w => (if p.1 ∈ letters w then bv R w - consV p (sdelW w) else consV p (sdelW w)) -
      (if (letters w).count p.1 = 1 then bv R (p :: eraseL p.1 w) else 0)

noncomputable def sdelWL : (LW →₀ R) →ₗ[R] (LW →₀ R) := lin sdelW

@[simp] theorem sdelWL_single (k : LW) (r : R) : sdelWL (single k r) = r • sdelW k := by
  simp [sdelWL]

/-- Erasing the only occurrence of the letter `x`. -/
noncomputable def eraseOneW (x : Nat) : (LW →₀ R) →ₗ[R] (LW →₀ R) :=
  lin fun u => if (letters u).count x = 1 then bv R (eraseL x u) else 0

@[simp] theorem eraseOneW_single (x : Nat) (k : LW) (r : R) :
    eraseOneW x (single k r) = if (letters k).count x = 1 then single (eraseL x k) r else 0 := by
  unfold eraseOneW
  rw [lin_single]
  split <;> simp

theorem eraseOneW_consV_ne {x y : Nat} (h : y ≠ x) (a : Nat) (v : LW →₀ R) :
    eraseOneW x (consV (y, a) v) = consV (y, a) (eraseOneW x v) := by
  induction v using Finsupp.induction_linear with
  | zero => simp
  | add f g hf hg => simp only [map_add, hf, hg]
  | single k c =>
    simp only [consV_single, eraseOneW_single, letters_cons]
    rw [List.count_cons_of_ne h, eraseL_cons_ne h]
    split <;> simp

theorem eraseOneW_consV_mem {x : Nat} (a : Nat) {v : LW →₀ R}
    (hv : v ∈ Finsupp.supported R R {m : LW | x ∈ letters m}) :
    eraseOneW x (consV (x, a) v) = 0 := by
  have := BElem.lin_ext_supported (R := R) (f := (eraseOneW x).comp (consV (x, a))) (g := 0)
    (S := {m : LW | x ∈ letters m}) (fun m hm => by
      have := List.count_pos_iff.2 (show x ∈ letters m from hm)
      simp only [LinearMap.comp_apply, consV_single, eraseOneW_single, letters_cons,
        List.count_cons_self]
      rw [if_neg (by omega)]
      simp) hv
  simpa using this

theorem eraseOneW_consV_not_mem {x : Nat} (a : Nat) {v : LW →₀ R}
    (hv : v ∈ Finsupp.supported R R {m : LW | x ∉ letters m}) :
    eraseOneW x (consV (x, a) v) = v := by
  have := BElem.lin_ext_supported (R := R) (f := (eraseOneW x).comp (consV (x, a)))
    (g := LinearMap.id)
    (S := {m : LW | x ∉ letters m}) (fun m hm => by
      have := List.count_eq_zero.2 (show x ∉ letters m from hm)
      simp only [LinearMap.comp_apply, consV_single, eraseOneW_single, letters_cons,
        List.count_cons_self]
      rw [if_pos (by omega), eraseL_cons_self]
      simp) hv
  simpa using this

theorem sdelWL_consV_mem {x a : Nat} {v : LW →₀ R}
    (hv : v ∈ Finsupp.supported R R {m : LW | x ∈ letters m}) :
    sdelWL (consV (x, a) v) = v - consV (x, a) (sdelWL v) - consV (x, a) (eraseOneW x v) := by
  have := BElem.lin_ext_supported (R := R) (f := sdelWL.comp (consV (x, a)))
    (g := LinearMap.id - (consV (x, a)).comp sdelWL - (consV (x, a)).comp (eraseOneW x))
    (S := {m : LW | x ∈ letters m})
    (fun m hm => by
      simp only [LinearMap.comp_apply, LinearMap.sub_apply, consV_single, sdelWL_single, one_smul,
        LinearMap.id_apply, eraseOneW_single]
      rw [sdelW, if_pos (show x ∈ letters m from hm)]
      congr 1
      split <;> simp) hv
  simpa using this

theorem sdelWL_consV_not_mem {x a : Nat} {v : LW →₀ R}
    (hv : v ∈ Finsupp.supported R R {m : LW | x ∉ letters m}) :
    sdelWL (consV (x, a) v) = consV (x, a) (sdelWL v) := by
  have := BElem.lin_ext_supported (R := R) (f := sdelWL.comp (consV (x, a)))
    (g := (consV (x, a)).comp sdelWL) (S := {m : LW | x ∉ letters m})
    (fun m hm => by
      have hm : x ∉ letters m := hm
      simp only [LinearMap.comp_apply, consV_single, sdelWL_single, one_smul]
      rw [sdelW, if_neg hm, List.count_eq_zero.2 hm]
      simp) hv
  simpa using this

/-! ### paths -/

/-- Staircase paths: at each step either the vertex or the letter advances.  A step of the vertices
carries the sign of the degree of the remaining surjection. -/
noncomputable def pth : List Nat → List Nat → (LW →₀ R)
  | [], _ => 0
  | _ :: _, [] => 0
  | x :: t, a :: w =>
    (if t = [] ∧ w = [] then bv R [(x, a)] else 0) +
      (-1 : R) ^ sdeg (x :: t) • consV (x, a) (pth (x :: t) w) + consV (x, a) (pth t (a :: w))
termination_by k V => k.length + V.length

@[simp] theorem pth_nil_left (V : List Nat) : pth (R := R) [] V = 0 := by rw [pth]
@[simp] theorem pth_nil_right (k : List Nat) : pth (R := R) k [] = 0 := by cases k <;> rw [pth]
theorem pth_cons (x : Nat) (t : List Nat) (a : Nat) (w : List Nat) :
    pth (R := R) (x :: t) (a :: w) = (if t = [] ∧ w = [] then bv R [(x, a)] else 0) +
      (-1 : R) ^ sdeg (x :: t) • consV (x, a) (pth (x :: t) w) + consV (x, a) (pth t (a :: w)) := by
  rw [pth]

theorem pth_induction {P : List Nat → List Nat → Prop} (h1 : ∀ V, P [] V) (h2 : ∀ k, P k [])
    (h3 : ∀ x t a w, P (x :: t) w → P t (a :: w) → P (x :: t) (a :: w)) (k V : List Nat) : P k V := by
  induction k generalizing V with
  | nil => exact h1 V
  | cons x t iht =>
    induction V with
    | nil => exact h2 _
    | cons a w ihw => exact h3 x t a w ihw (iht _)

/-- The words of a path: the letters are those of `k`, the vertices those of `V`. -/
theorem pth_supported (k V : List Nat) :
    pth (R := R) k V ∈ Finsupp.supported R R
      {m : LW | (∀ x, x ∈ letters m ↔ x ∈ k) ∧ ∀ x, k.count x ≤ (letters m).count x} := by
  refine pth_induction (P := fun k V => pth (R := R) k V ∈ Finsupp.supported R R
      {m : LW | (∀ x, x ∈ letters m ↔ x ∈ k) ∧ ∀ x, k.count x ≤ (letters m).count x})
    (fun V => by simp) (fun k => by simp) (fun x t a w ih1 ih2 => ?_) k V
  rw [pth_cons]
  refine Submodule.add_mem _ (Submodule.add_mem _ ?_ (Submodule.smul_mem _ _ ?_)) ?_
  · split
    · rename_i h
      apply Finsupp.single_mem_supported
      simp [h.1]
    · exact Submodule.zero_mem _
  · refine mapK_supported _ (fun m hm => ?_) ih1
    refine ⟨fun y => ?_, fun y => ?_⟩
    · rw [letters_cons, List.mem_cons, hm.1 y]; simp
    · have := hm.2 y
      rw [letters_cons, List.count_cons (a := y) (b := x) (l := letters m)]
      omega
  · refine mapK_supported _ (fun m hm => ?_) ih2
    refine ⟨fun y => ?_, fun y => ?_⟩
    · rw [letters_cons, List.mem_cons, List.mem_cons, hm.1 y]
    · have := hm.2 y
      rw [letters_cons, List.count_cons, List.count_cons]
      omega

theorem pth_mem {k V : List Nat} {x : Nat} (h : x ∈ k) :
    pth (R := R) k V ∈ Finsupp.supported R R {m : LW | x ∈ letters m} :=
  Finsupp.supported_mono (fun m hm => (hm.1 x).2 h) (pth_supported k V)

theorem pth_not_mem {k V : List Nat} {x : Nat} (h : x ∉ k) :
    pth (R := R) k V ∈ Finsupp.supported R R {m : LW | x ∉ letters m} :=
  Finsupp.supported_mono (fun m hm => fun h' => h ((hm.1 x).1 h')) (pth_supported k V)

/-- Erasing a letter which occurs only once. -/
theorem eraseOneW_pth_two {k : List Nat} {x : Nat} (h : 2 ≤ k.count x) (V : List Nat) :
    eraseOneW x (pth (R := R) k V) = 0 := by
  have := BElem.lin_ext_supported (R := R) (f := eraseOneW x) (g := 0)
    (S := {m : LW | (∀ x, x ∈ letters m ↔ x ∈ k) ∧ ∀ x, k.count x ≤ (letters m).count x})
    (fun m hm => by
      have := hm.2 x
      rw [eraseOneW_single, if_neg (by omega)]
      simp) (pth_supported k V)
  simpa using this

theorem eraseOneW_pth {k : List Nat} {x : Nat} (h : k.count x = 1) (V : List Nat) :
    eraseOneW x (pth (R := R) k V) = pth (k.erase x) V +
      if k = [x] ∧ V.length = 1 then bv R [] else 0 := by
  refine pth_induction (P := fun k V => k.count x = 1 → eraseOneW x (pth (R := R) k V) =
    pth (k.erase x) V + if k = [x] ∧ V.length = 1 then bv R [] else 0)
    (fun V h => by simp at h) (fun k h => by simp) (fun y t a w ih1 ih2 h => ?_) k V h
  by_cases e : y = x
  · subst e
    have hc : t.count y = 0 := by simpa using h
    have hn : y ∉ t := by rwa [List.count_eq_zero] at hc
    rw [List.erase_cons_head, pth_cons, map_add, map_add, map_smul,
      eraseOneW_consV_mem a (pth_mem (by simp)), eraseOneW_consV_not_mem a (pth_not_mem hn), smul_zero,
      add_zero, add_comm]
    congr 1
    by_cases h1 : t = [] ∧ w = []
    · rw [if_pos h1]
      simp [h1.1, h1.2, eraseL]
    · rw [if_neg h1, if_neg, map_zero]
      simpa using h1
  · rw [List.count_cons_of_ne e] at h
    have ht : t ≠ [] := by rintro rfl; simp at h
    have ih1 := ih1 (by rw [List.count_cons_of_ne e]; exact h)
    have ih2 := ih2 h
    have hmem : y ∈ t.erase x ↔ y ∈ t := List.mem_erase_of_ne e
    have hsd : sdeg (y :: t.erase x) = sdeg (y :: t) := by
      simp only [sdeg, hmem, sdeg_erase h]
    rw [List.erase_cons_tail (by simpa using e)] at ih1 ⊢
    have n1 : ¬ (t = [] ∧ w = []) := fun h => ht h.1
    have n2 : ¬ (y :: t = [x] ∧ w.length = 1) := fun h => ht (by simpa using (List.cons.inj h.1).2)
    have n3 : ¬ (y :: t = [x] ∧ (a :: w).length = 1) := fun h => ht (by simpa using (List.cons.inj h.1).2)
    rw [pth_cons, pth_cons, map_add, map_add, map_smul, eraseOneW_consV_ne e, eraseOneW_consV_ne e,
      ih1, ih2, hsd, if_neg n1, if_neg n2, if_neg n3]
    simp only [map_zero, zero_add, add_zero, map_add]
    have hiff : (t.erase x = [] ∧ w = []) ↔ (t = [x] ∧ (a :: w).length = 1) := by
      simp only [List.length_cons, Nat.add_eq_right, List.length_eq_zero_iff]
      refine and_congr_left fun _ => ⟨fun h' => ?_, fun h' => by simp [h']⟩
      have hm : x ∈ t := List.count_pos_iff.1 (by omega)
      have h3 := List.length_erase_of_mem hm
      rw [h'] at h3
      obtain ⟨b, rfl⟩ := List.length_eq_one_iff.1
        (show t.length = 1 by have := List.length_pos_of_mem hm; simp at h3; omega)
      simp at hm
      rw [hm]
    simp only [hiff]
    split
    · simp only [consV_single]
      abel
    · simp

/-- Linear in the surjection. -/
noncomputable def pthA (V : List Nat) : (List Nat →₀ R) →ₗ[R] (LW →₀ R) := lin fun k => pth k V

/-- Linear in the simplex. -/
noncomputable def pthB (k : List Nat) : (List Nat →₀ R) →ₗ[R] (LW →₀ R) := lin fun V => pth k V

@[simp] theorem pthA_single (V k : List Nat) (r : R) : pthA V (single k r) = r • pth k V := by
  simp [pthA]

@[simp] theorem pthB_single (k V : List Nat) (r : R) : pthB k (single V r) = r • pth k V := by
  simp [pthB]

theorem pthA_nil (v : List Nat →₀ R) : pthA [] v = 0 := by
  induction v using Finsupp.induction_linear with
  | zero => simp
  | add f g hf hg => simp only [map_add, hf, hg, add_zero]
  | single k c => simp

theorem pthB_nil (v : List Nat →₀ R) : pthB [] v = 0 := by
  induction v using Finsupp.induction_linear with
  | zero => simp
  | add f g hf hg => simp only [map_add, hf, hg, add_zero]
  | single k c => simp

theorem pthA_consV {x : Nat} {e : Nat} {v : List Nat →₀ R} (a : Nat) (w : List Nat)
    (hv : v ∈ Finsupp.supported R R {m : List Nat | m ≠ [] ∧ sdeg (x :: m) = e}) :
    pthA (a :: w) (consV x v) = (-1 : R) ^ e • consV (x, a) (pthA w (consV x v)) +
      consV (x, a) (pthA (a :: w) v) := by
  have := BElem.lin_ext_supported (R := R) (f := (pthA (a :: w)).comp (consV x))
    (g := (-1 : R) ^ e • (consV (x, a)).comp ((pthA w).comp (consV x)) +
      (consV (x, a)).comp (pthA (a :: w)))
    (S := {m : List Nat | m ≠ [] ∧ sdeg (x :: m) = e})
    (fun m hm => by
      simp only [LinearMap.comp_apply, LinearMap.add_apply, LinearMap.smul_apply, consV_single,
        pthA_single, one_smul]
      rw [pth_cons, if_neg (fun h => hm.1 h.1), hm.2, zero_add]) hv
  simpa using this

theorem pthB_consV (x : Nat) (t : List Nat) (a : Nat) (u : List Nat →₀ R) :
    pthB (x :: t) (consV a u) = (if t = [] then u [] • bv R [(x, a)] else 0) +
      (-1 : R) ^ sdeg (x :: t) • consV (x, a) (pthB (x :: t) u) +
      consV (x, a) (pthB t (consV a u)) := by
  induction u using Finsupp.induction_linear with
  | zero => simp
  | add f g hf hg =>
    simp only [map_add, hf, hg, smul_add, Finsupp.add_apply, add_smul]
    split <;> module
  | single k c =>
    simp only [consV_single, pthB_single, pth_cons, smul_add, map_smul]
    congr 1
    rw [smul_comm]
    congr 1
    by_cases ht : t = []
    · by_cases hk : k = []
      · simp [ht, hk]
      · simp [ht, hk]
    · simp [ht]

theorem delK_apply_nil {w : List Nat} : delK (R := R) w [] = if w.length = 1 then 1 else 0 := by
  have hc : ∀ (a : Nat) (v : List Nat →₀ R), consV a v [] = 0 := by
    intro a v
    induction v using Finsupp.induction_linear with
    | zero => simp
    | add f g hf hg => simp only [map_add, Finsupp.add_apply, hf, hg, add_zero]
    | single k c => simp
  cases w with
  | nil => simp [delK]
  | cons a w =>
    rw [delK, Finsupp.sub_apply, hc]
    by_cases h : w = [] <;> simp [h]

/-- The path sum is compatible with the deletion complexes. -/
theorem pth_leibniz (k V : List Nat) :
    sdelWL (pth (R := R) k V) = pthA V (sdel k) + (-1 : R) ^ sdeg k • pthB k (delK V) := by
  refine pth_induction (P := fun k V => sdelWL (pth (R := R) k V) =
    pthA V (sdel k) + (-1 : R) ^ sdeg k • pthB k (delK V))
    (fun V => by simp [sdel, pthB_nil]) (fun k => by simp [pthA_nil, delK])
    (fun x t a w ih1 ih2 => ?_) k V
  have hsupp := sdel_face (R := R) t
  have hA := pth_mem (R := R) (k := x :: t) (V := w) (x := x) (by simp)
  have hE : ((-1 : R) ^ sdeg (x :: t)) * (-1) ^ sdeg (x :: t) = 1 := by
    rw [← pow_add]; exact Even.neg_one_pow ⟨_, rfl⟩
  by_cases hx : x ∈ t
  · have ht : t ≠ [] := by rintro rfl; simp at hx
    have hs : sdeg (x :: t) = sdeg t + 1 := by simp [sdeg, hx, Nat.add_comm]
    have hB := pth_mem (R := R) (k := t) (V := a :: w) (x := x) hx
    have hc : pthA (a :: w) (consV x (sdel (R := R) t)) =
        (-1 : R) ^ sdeg t • consV (x, a) (pthA w (consV x (sdel t))) +
          consV (x, a) (pthA (a :: w) (sdel t)) := by
      apply pthA_consV
      refine Finsupp.supported_mono (fun m hm => ?_) hsupp
      have hxm : x ∈ m := (hm.1 x).2 hx
      refine ⟨by rintro rfl; simp at hxm, ?_⟩
      have := hm.2
      simp only [sdeg, hxm, if_true]
      omega
    have h2 : 2 ≤ (x :: t).count x := by
      have := List.count_pos_iff.2 hx
      rw [List.count_cons_self]; omega
    have hBx : pthB (x :: t) (delK (R := R) (a :: w)) = pth (x :: t) w -
        ((-1 : R) ^ sdeg (x :: t) • consV (x, a) (pthB (x :: t) (delK w)) +
          consV (x, a) (pthB t (consV a (delK w)))) := by
      rw [delK, map_sub, pthB_single, one_smul, pthB_consV, if_neg ht, zero_add]
    have hBt : pthB t (delK (R := R) (a :: w)) = pth t w - pthB t (consV a (delK w)) := by
      rw [delK, map_sub, pthB_single, one_smul]
    rw [pth_cons, if_neg (fun h => ht h.1), zero_add, map_add, map_smul, sdelWL_consV_mem hA,
      sdelWL_consV_mem hB, ih1, ih2, eraseOneW_pth_two h2, hBx, hBt]
    have hE2 : ((-1 : R) ^ sdeg t) * (-1) ^ sdeg t = 1 := by
      rw [← pow_add]; exact Even.neg_one_pow ⟨_, rfl⟩
    by_cases h1 : t.count x = 1
    · have hec : pth (R := R) (x :: t.erase x) (a :: w) =
          (if t.erase x = [] ∧ w = [] then bv R [(x, a)] else 0) +
          (-1 : R) ^ sdeg t • consV (x, a) (pth (x :: t.erase x) w) +
          consV (x, a) (pth (t.erase x) (a :: w)) := by
        rw [pth_cons]
        have hn : x ∉ t.erase x := by
          rw [← List.count_eq_zero, List.count_erase_self]; omega
        have : sdeg (x :: t.erase x) = sdeg t := by
          simp [sdeg, hn, sdeg_erase h1]
        rw [this]
      have hd : sdel (R := R) (x :: t) = bv R t - consV x (sdel t) - bv R (x :: t.erase x) := by
        rw [sdel, if_pos hx, if_pos h1]
      have hif : (if t = [x] ∧ (a :: w).length = 1 then bv R ([] : LW) else 0) =
          if t.erase x = [] ∧ w = [] then bv R [] else 0 := by
        have hiff : (t.erase x = [] ∧ w = []) ↔ (t = [x] ∧ (a :: w).length = 1) := by
          simp only [List.length_cons, Nat.add_eq_right, List.length_eq_zero_iff]
          refine and_congr_left fun _ => ⟨fun h' => ?_, fun h' => by simp [h']⟩
          have h3 := List.length_erase_of_mem hx
          rw [h'] at h3
          obtain ⟨b, rfl⟩ := List.length_eq_one_iff.1
            (show t.length = 1 by have := List.length_pos_of_mem hx; simp at h3; omega)
          simp at hx
          rw [hx]
        simp only [hiff]
      have hif2 : (if t.erase x = [] ∧ w = [] then bv R [(x, a)] else 0) =
          consV (x, a) (if t.erase x = [] ∧ w = [] then bv R ([] : LW) else 0) := by
        split <;> simp
      rw [hd]
      simp only [map_sub, pthA_single, one_smul, map_add, map_smul, hc, hec, eraseOneW_pth h1, hif, hif2,
        map_zero]
      rw [hs, pow_succ] at hE ⊢
      generalize (-1 : R) ^ sdeg t = ε at *
      match_scalars <;> linear_combination (norm := ring_nf) (0 : R)
    · have hd : sdel (R := R) (x :: t) = bv R t - consV x (sdel t) := by
        rw [sdel, if_pos hx, if_neg h1, sub_zero]
      have h2' : 2 ≤ t.count x := by have := List.count_pos_iff.2 hx; omega
      rw [hd]
      simp only [map_sub, pthA_single, one_smul, map_add, map_smul, hc, eraseOneW_pth_two h2', map_zero]
      rw [hs, pow_succ] at hE ⊢
      generalize (-1 : R) ^ sdeg t = ε at *
      match_scalars <;> linear_combination (norm := ring_nf) (0 : R)
  · have hs : sdeg (x :: t) = sdeg t := by simp [sdeg, hx]
    have hB := pth_not_mem (R := R) (k := t) (V := a :: w) (x := x) hx
    have hc1 : (x :: t).count x = 1 := by rw [List.count_cons_self, List.count_eq_zero.2 hx]
    have hd : sdel (R := R) (x :: t) = consV x (sdel t) := by
      rw [sdel, if_neg hx, List.count_eq_zero.2 hx]; simp
    have hc : (-1 : R) ^ sdeg t • pthA (a :: w) (consV x (sdel (R := R) t)) =
        - consV (x, a) (pthA w (consV x (sdel t))) +
          (-1 : R) ^ sdeg t • consV (x, a) (pthA (a :: w) (sdel t)) := by
      by_cases ht : t = []
      · subst ht; simp [sdel]
      · by_cases hz : sdeg t = 0
        · have : sdel (R := R) t = 0 := by
            have := BElem.lin_ext_supported (R := R) (f := LinearMap.id) (g := 0)
              (S := {m | Face t m}) (fun m hm => by have := hm.2; omega) hsupp
            simpa using this
          simp [this]
        · obtain ⟨e, he⟩ := Nat.exists_eq_succ_of_ne_zero hz
          rw [pthA_consV (e := e), he, Nat.succ_eq_add_one, pow_succ]
          · have hE2 : ((-1 : R) ^ e) * (-1) ^ e = 1 := by
              rw [← pow_add]; exact Even.neg_one_pow ⟨_, rfl⟩
            rw [smul_add, smul_smul]
            congr 1
            rw [mul_right_comm, hE2]
            simp
          · refine Finsupp.supported_mono (fun m hm => ?_) hsupp
            have hxm : x ∉ m := fun h => hx ((hm.1 x).1 h)
            have := hm.2
            refine ⟨?_, ?_⟩
            · rintro rfl
              apply ht
              rw [List.eq_nil_iff_forall_not_mem]
              intro v hv
              have := (hm.1 v).2 hv
              simp at this
            · simp only [sdeg, hxm, if_false]
              omega
    have hBx : pthB (x :: t) (delK (R := R) (a :: w)) = pth (x :: t) w -
        ((if t = [] then (if w.length = 1 then (1 : R) else 0) • bv R [(x, a)] else 0) +
        (-1 : R) ^ sdeg (x :: t) • consV (x, a) (pthB (x :: t) (delK w)) +
          consV (x, a) (pthB t (consV a (delK w)))) := by
      rw [delK, map_sub, pthB_single, one_smul, pthB_consV, delK_apply_nil]
    have hBt : pthB t (delK (R := R) (a :: w)) = pth t w - pthB t (consV a (delK w)) := by
      rw [delK, map_sub, pthB_single, one_smul]
    have h0 : sdelWL (if t = [] ∧ w = [] then bv R [(x, a)] else 0) = 0 := by
      split
      · simp [sdelW]
      · simp
    have hEA := eraseOneW_pth (R := R) hc1 w
    have hif : (if t = [] then (if w.length = 1 then (1 : R) else 0) • bv R [(x, a)] else 0) =
        consV (x, a) (if x :: t = [x] ∧ w.length = 1 then bv R ([] : LW) else 0) := by
      by_cases ht : t = [] <;> by_cases hw : w.length = 1 <;> simp [ht, hw]
    rw [List.erase_cons_head] at hEA
    rw [hif] at hBx
    rw [pth_cons, map_add, map_add, h0, zero_add, map_smul, sdelWL_consV_mem hA,
      sdelWL_consV_not_mem hB, ih1, ih2, hEA, hBx, hBt, hd]
    simp only [map_add, map_sub, map_smul]
    rw [hs] at hE ⊢
    generalize (-1 : R) ^ sdeg t = ε at *
    generalize pthA (a :: w) (consV x (sdel (R := R) t)) = Z at *
    have hZ : Z = - (ε • consV (x, a) (pthA w (consV x (sdel t)))) +
          consV (x, a) (pthA (a :: w) (sdel t)) := by
      have := congrArg (fun z => ε • z) hc
      simp only [smul_add, smul_neg, smul_smul, hE, one_smul] at this
      exact this
    rw [hZ]
    match_scalars <;> linear_combination (norm := ring_nf) (0 : R)

end Comch.SurjComp
