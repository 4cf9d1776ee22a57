import Verif.Lib.SurjWords

/-! # From words to tensors: sorting a word by its letters

`tensorOf r w` collects the labels of the letters `1, …, r`.  The boundary of this tensor is the
deletion complex of the word in the convention of McClure and Smith (`ltens_tensorOf`). -/

set_option linter.unusedSectionVars false

namespace Comch.SurjComp
open Spec Elem SurjElem
open Finsupp (single)

variable {R : Type} [CommRing R]

theorem letters_length (w : LW) : (letters w).length = w.length := by simp [letters]

theorem letters_eraseIdx (w : LW) (i : Nat) : letters (w.eraseIdx i) = (letters w).eraseIdx i := by
  simp [letters, List.eraseIdx_map]

/-- The labels of the letter `x`. -/
def labels (w : LW) (x : Nat) : List Nat := (w.filter fun p => p.1 == x).map Prod.snd

@[simp] theorem labels_nil (x : Nat) : labels [] x = [] := rfl
theorem labels_cons (y a : Nat) (w : LW) (x : Nat) :
    labels ((y, a) :: w) x = if y = x then a :: labels w x else labels w x := by
  unfold labels
  rw [List.filter_cons]
  by_cases h : y = x <;> simp [h]

theorem labels_append (u w : LW) (x : Nat) : labels (u ++ w) x = labels u x ++ labels w x := by
  simp [labels]

theorem labels_length (w : LW) (x : Nat) : (labels w x).length = (letters w).count x := by
  induction w with
  | nil => rfl
  | cons p w ih =>
    obtain ⟨y, a⟩ := p
    rw [labels_cons, letters_cons, List.count_cons]
    by_cases h : y = x <;> simp [h, ih]

/-- Erasing an entry from a word: only the labels of its letter change. -/
theorem labels_eraseIdx_ne {w : LW} {i : Nat} (hi : i < w.length) {x : Nat}
    (hx : (letters w).getD i 0 ≠ x) : labels (w.eraseIdx i) x = labels w x := by
  induction w generalizing i with
  | nil => simp
  | cons p w ih =>
    obtain ⟨y, a⟩ := p
    cases i with
    | zero =>
      rw [letters_cons, List.getD_cons_zero] at hx
      rw [List.eraseIdx_cons_zero, labels_cons, if_neg hx]
    | succ i =>
      rw [letters_cons, List.getD_cons_succ] at hx
      rw [List.eraseIdx_cons_succ, labels_cons, labels_cons, ih (by simpa using hi) hx]

theorem labels_eraseIdx_self {w : LW} {i : Nat} (hi : i < w.length) {x : Nat}
    (hx : (letters w).getD i 0 = x) :
    labels (w.eraseIdx i) x = (labels w x).eraseIdx (((letters w).take i).count x) := by
  induction w generalizing i with
  | nil => simp at hi
  | cons p w ih =>
    obtain ⟨y, a⟩ := p
    cases i with
    | zero =>
      rw [letters_cons, List.getD_cons_zero] at hx
      subst hx
      rw [List.eraseIdx_cons_zero, labels_cons, if_pos rfl]
      simp
    | succ i =>
      rw [letters_cons, List.getD_cons_succ] at hx
      rw [List.eraseIdx_cons_succ, labels_cons, labels_cons, ih (by simpa using hi) hx, letters_cons,
        List.take_succ_cons, List.count_cons]
      by_cases h : y = x <;> simp [h]

/-- Sum form of the deletion complex. -/
theorem sum_only_occurrenceW {M : Type} [AddCommMonoid M] {t : LW} {x : Nat}
    (h : (letters t).count x = 1) (f : LW → M) :
    ((List.range t.length).map fun i => if (letters t).getD i 0 = x then f (t.eraseIdx i) else 0).sum =
      f (eraseL x t) := by
  induction t generalizing f with
  | nil => simp at h
  | cons p t ih =>
    obtain ⟨y, a⟩ := p
    rw [List.length_cons, List.range_succ_eq_map, List.map_cons, List.sum_cons, List.map_map]
    rw [letters_cons] at h ⊢
    by_cases e : y = x
    · subst e
      have hn : y ∉ letters t := by
        rw [← List.count_eq_zero]; simpa using h
      have h0 : ((List.range t.length).map ((fun i => if (y :: letters t).getD i 0 = y then
          f (((y, a) :: t).eraseIdx i) else 0) ∘ Nat.succ)).sum = 0 := by
        apply List.sum_eq_zero
        intro b hb
        obtain ⟨i, hi, rfl⟩ := List.mem_map.1 hb
        rw [List.mem_range] at hi
        simp only [Function.comp]
        rw [if_neg]
        rw [List.getD_cons_succ, List.getD_eq_getElem _ _ (by rwa [letters_length])]
        intro h'
        exact hn (h' ▸ List.getElem_mem _)
      rw [h0, eraseL_cons_self]
      simp
    · rw [List.count_cons_of_ne e] at h
      rw [eraseL_cons_ne e, ← ih h fun u => f ((y, a) :: u)]
      simp [e, Function.comp_def]

theorem sdelW_eq_sum (k : LW) :
    sdelW (R := R) k = ((List.range k.length).map fun i =>
      if 2 ≤ (letters k).count ((letters k).getD i 0) then
        sg R (bfE (letters k) i) • bv R (k.eraseIdx i) else 0).sum := by
  induction k with
  | nil => simp [sdelW]
  | cons p t ih =>
    obtain ⟨x, a⟩ := p
    rw [List.length_cons, List.range_succ_eq_map, List.map_cons, List.sum_cons, List.map_map]
    have hsplit : ∀ i ∈ List.range t.length,
        ((fun i => if 2 ≤ (letters ((x, a) :: t)).count ((letters ((x, a) :: t)).getD i 0) then
          sg R (bfE (letters ((x, a) :: t)) i) • bv R (((x, a) :: t).eraseIdx i) else 0) ∘ Nat.succ) i =
        (if x ∈ letters t then -1 else 1 : R) •
          consV (x, a) (if 2 ≤ (letters t).count ((letters t).getD i 0) then
          sg R (bfE (letters t) i) • bv R (t.eraseIdx i) else 0) -
        (if (letters t).count x = 1 then
          (if (letters t).getD i 0 = x then bv R ((x, a) :: t.eraseIdx i) else 0) else 0) := by
      intro i hi
      rw [List.mem_range] at hi
      have hpos := count_getD_pos (t := letters t) (i := i) (by rwa [letters_length])
      simp only [Function.comp, Nat.succ_eq_add_one, letters_cons, List.getD_cons_succ,
        List.eraseIdx_cons_succ, bfE]
      by_cases h2 : 2 ≤ (letters t).count ((letters t).getD i 0)
      · rw [if_pos (by rw [List.count_cons]; omega), if_pos h2, if_pos h2]
        have : (if (letters t).count x = 1 then
            (if (letters t).getD i 0 = x then bv R ((x, a) :: t.eraseIdx i) else 0) else 0)
            = 0 := by
          split
          · rename_i hc
            rw [if_neg]
            intro he
            rw [he] at h2
            omega
          · rfl
        rw [this, sub_zero, map_smul, consV_single]
        split
        · push_cast
          rw [sg_succ]
          simp
        · simp
      · rw [if_neg h2, if_neg h2, map_zero, smul_zero, zero_sub]
        by_cases he : (letters t).getD i 0 = x
        · have hc : (letters t).count x = 1 := by rw [he] at h2 hpos; omega
          rw [if_pos (by rw [he, List.count_cons_self]; omega), if_pos hc, if_pos he]
          simp
        · rw [if_neg (by rw [List.count_cons_of_ne (Ne.symm he)]; exact h2), if_neg he]
          simp
    rw [List.map_congr_left hsplit, sdelW, ih]
    have hsub : ∀ (l : List Nat) (f g : Nat → (LW →₀ R)),
        (l.map fun i => f i - g i).sum = (l.map f).sum - (l.map g).sum := by
      intro l f g
      induction l with
      | nil => simp
      | cons a l ih => simp only [List.map_cons, List.sum_cons, ih]; abel
    have hpull : ∀ (l : List Nat) (f : Nat → (LW →₀ R)) (c : R),
        (l.map fun i => c • consV (x, a) (f i)).sum = c • consV (x, a) (l.map f).sum := by
      intro l f c
      induction l with
      | nil => simp
      | cons a l ih => simp only [List.map_cons, List.sum_cons, ih, map_add, smul_add]
    rw [hsub, hpull]
    have hlast : ((List.range t.length).map fun i =>
        if (letters t).count x = 1 then
          (if (letters t).getD i 0 = x then bv R ((x, a) :: t.eraseIdx i) else 0) else 0).sum =
        if (letters t).count x = 1 then bv R ((x, a) :: eraseL x t) else 0 := by
      by_cases hc : (letters t).count x = 1
      · simp only [if_pos hc]
        exact sum_only_occurrenceW hc fun u => bv R ((x, a) :: u)
      · simp only [if_neg hc]
        simp
    rw [hlast]
    have hx : (2 ≤ (letters ((x, a) :: t)).count ((letters ((x, a) :: t)).getD 0 0)) ↔ x ∈ letters t := by
      rw [letters_cons, List.getD_cons_zero, List.count_cons_self, ← List.count_pos_iff]
      omega
    by_cases hm : x ∈ letters t
    · rw [if_pos hm, if_pos (hx.2 hm), if_pos hm]
      simp only [letters_cons, bfE, List.eraseIdx_cons_zero, Nat.cast_zero, sg_zero, one_smul, neg_smul]
      abel
    · rw [if_neg hm, if_neg (fun h => hm (hx.1 h)), if_neg hm]
      simp only [one_smul, zero_add]

/-! ### the tensor of a word -/

/-- The tensor of a word: the labels of the letters `a, …, a + n - 1`. -/
def tensorFrom (a n : Nat) (w : LW) : List (List Nat) := (List.range' a n).map (labels w)

/-- The tensor of a word: the labels of the letters `1, …, r`. -/
def tensorOf (r : Nat) (w : LW) : List (List Nat) := tensorFrom 1 r w

/-- Sign operator on words. -/
noncomputable def convW : (LW →₀ R) →ₗ[R] (LW →₀ R) := lin fun w => sg R (invE (letters w)) • bv R w

@[simp] theorem convW_single (w : LW) (r : R) :
    convW (single w r) = (r * sg R (invE (letters w))) • bv R w := by
  simp [convW]

/-- Boundary of a tensor of labels as a sum over letters and positions. -/
theorem tensK_tensorFrom (w : LW) (a n : Nat) :
    tensK (delK (R := R)) ldim (tensorFrom a n w) =
      ((List.range' a n).map fun x => sg R (((List.range' a (x - a)).map fun l =>
        ((letters w).count l : Int) - 1).sum) •
          ((List.range ((letters w).count x)).map fun (i : Nat) => sg R i •
            bv R ((List.range' a n).map fun l => if l = x then (labels w x).eraseIdx i else labels w l)).sum).sum := by
  induction n generalizing a with
  | zero => simp [tensorFrom, tensK]
  | succ n ih =>
    have ht : tensorFrom a (n + 1) w = labels w a :: tensorFrom (a + 1) n w := by
      simp [tensorFrom, List.range'_succ]
    rw [ht, tensK, ih, List.range'_succ, List.map_cons, List.sum_cons]
    congr 1
    · rw [cat_one_bv, delK_eq_sum, labels_length]
      simp only [Nat.sub_self, List.range'_zero, List.map_nil, List.sum_nil, sg_zero, one_smul]
      rw [map_list_sum, List.map_map]
      congr 1
      apply List.map_congr_left
      intro i _
      simp only [Function.comp, map_smul, mapK_single, removeAt_eq_eraseIdx, List.map_cons, if_true]
      congr 3
      unfold tensorFrom
      apply List.map_congr_left
      intro l hl
      rw [List.mem_range'_1] at hl
      rw [if_neg (by omega)]
    · rw [map_list_sum, List.smul_sum, List.map_map, List.map_map]
      congr 1
      apply List.map_congr_left
      intro x hx
      rw [List.mem_range'_1] at hx
      simp only [Function.comp, map_smul]
      rw [smul_smul, ldim, labels_length, ← sg_add]
      have h1 : x - a = (x - (a + 1)) + 1 := by omega
      rw [h1, List.range'_succ, List.map_cons, List.sum_cons]
      congr 1
      rw [map_list_sum, List.map_map]
      congr 1
      apply List.map_congr_left
      intro i _
      simp only [Function.comp, map_smul, consV_single, List.map_cons]
      rw [if_neg (by omega)]

/-- The boundary of the tensor of a word, modulo empty factors. -/
theorem pr_ltens_tensorOf {r : Nat} {w : LW} (hw : ∀ x, x ∈ letters w ↔ 1 ≤ x ∧ x ≤ r) :
    pr lany (ltens (bv R (tensorOf r w))) =
      pr lany (mapK (tensorOf r) (convW (sdelWL (convW (bv R w))))) := by
  have hcnt : ∀ l, 1 ≤ l → l ≤ r → 1 ≤ (letters w).count l := fun l h1 h2 =>
    List.count_pos_iff.2 ((hw l).2 ⟨h1, h2⟩)
  rw [convW_single, one_mul, map_smul, sdelWL_single, one_smul, sdelW_eq_sum]
  have hR : mapK (tensorOf r) (convW (sg R (invE (letters w)) • ((List.range w.length).map fun i =>
      if 2 ≤ (letters w).count ((letters w).getD i 0) then
        sg R (bfE (letters w) i) • bv R (w.eraseIdx i) else 0).sum)) =
      ((List.range (letters w).length).map fun i =>
        if 2 ≤ (letters w).count ((letters w).getD i 0) then
          sg R (msExponent (letters w) i) • bv R (tensorOf r (w.eraseIdx i)) else 0).sum := by
    rw [letters_length, map_smul, map_smul, map_list_sum, List.map_map, map_list_sum, List.map_map, List.smul_sum, List.map_map]
    congr 1
    apply List.map_congr_left
    intro i hi
    rw [List.mem_range] at hi
    simp only [Function.comp]
    by_cases h : 2 ≤ (letters w).count ((letters w).getD i 0)
    · rw [if_pos h, if_pos h, map_smul, convW_single, map_smul, map_smul, mapK_single, smul_smul,
        smul_smul, one_mul, letters_eraseIdx]
      congr 1
      rw [← sg_add, ← sg_add]
      apply sg_congr
      have := ms_bf (k := letters w) (i := i) (by rwa [letters_length]) h
      omega
    · rw [if_neg h, if_neg h, map_zero, map_zero, smul_zero]
  rw [hR]
  have hperm := perm_flatMap_positions (letters w) (List.range' 1 r) List.nodup_range'
    (fun a ha => by rw [List.mem_range'_1]; have := (hw a).1 ha; omega)
  rw [← (hperm.map _).sum_eq, List.map_flatMap, sum_flatMap]
  rw [tens_single, one_smul, tensorOf, tensK_tensorFrom, map_list_sum, map_list_sum, List.map_map,
    List.map_map]
  congr 1
  apply List.map_congr_left
  intro x hx
  rw [List.mem_range'_1] at hx
  have hcx := hcnt x hx.1 (by omega)
  simp only [Function.comp]
  -- the positions of `x`
  have hpc := positions_count (letters w) x
  rw [positions_length] at hpc
  rw [map_smul, ← hpc, List.map_map, map_list_sum, List.map_map, List.smul_sum, List.map_map, map_list_sum,
    List.map_map]
  congr 1
  apply List.map_congr_left
  intro i hi
  rw [positions_eq] at hi
  simp only [List.mem_filter, List.mem_range, beq_iff_eq] at hi
  obtain ⟨hi, hix⟩ := hi
  have hi' : i < w.length := by rwa [letters_length] at hi
  simp only [Function.comp, map_smul]
  have hten : (List.range' 1 r).map (fun l => if l = x then
      (labels w x).eraseIdx (((letters w).take i).count x) else labels w l) = tensorOf r (w.eraseIdx i) := by
    unfold tensorOf tensorFrom
    apply List.map_congr_left
    intro l _
    by_cases hl : l = x
    · rw [if_pos hl, hl, labels_eraseIdx_self hi' hix]
    · rw [if_neg hl, labels_eraseIdx_ne hi' (by rw [hix]; exact Ne.symm hl)]
  rw [hten, hix]
  by_cases h2 : 2 ≤ (letters w).count x
  · rw [if_pos h2, map_smul, smul_smul, ← sg_add]
    congr 1
    apply sg_congr
    rw [msExponent, hix]
    have hsum : (((List.range x).map fun l => (letters w).count l - 1).sum : Nat) =
        ((List.range' 1 (x - 1)).map fun l => ((letters w).count l : Int) - 1).sum := by
      have : List.range x = 0 :: List.range' 1 (x - 1) := by
        rw [List.range_eq_range', show x = (x - 1) + 1 by omega, List.range'_succ]
        simp
      rw [this, List.map_cons, List.sum_cons]
      have h0 : (letters w).count 0 = 0 := List.count_eq_zero.2 fun h => by
        have := (hw 0).1 h
        omega
      rw [h0, Nat.zero_sub, Nat.zero_add, Nat.cast_list_sum, List.map_map]
      congr 1
      apply List.map_congr_left
      intro l hl
      rw [List.mem_range'_1] at hl
      have := hcnt l hl.1 (by omega)
      simp only [Function.comp]
      omega
    push_cast [hsum]
    rw [← hsum]
  · rw [if_neg h2, map_zero]
    have h1 : (letters w).count x = 1 := by omega
    have : pr lany (bv R (tensorOf r (w.eraseIdx i))) = 0 := by
      rw [pr_single, if_pos]
      unfold lany tensorOf tensorFrom
      rw [List.any_eq_true]
      refine ⟨[], ?_, by simp [ldrop]⟩
      rw [List.mem_map]
      refine ⟨x, by rw [List.mem_range'_1]; exact hx, ?_⟩
      rw [← List.length_eq_zero_iff, labels_length, letters_eraseIdx, count_eraseIdx hi, hix]
      simp [h1]
    rw [this]
    simp

end Comch.SurjComp
