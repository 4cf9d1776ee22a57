import Verif.Lib.FreeModule
import Verif.Lib.Sign
import Verif.Model.Py

/-!
# Free modules on lists: concatenation product, deletion complex, tensor powers of a complex
-/

set_option linter.unusedSectionVars false

namespace Comch
open Finsupp

variable {R : Type} [CommRing R] {A B α : Type}

/-- Basis vector. -/
noncomputable abbrev bv {K : Type} (R : Type) [CommRing R] (k : K) : K →₀ R := single k 1

theorem single_eq_smul_bv {K : Type} (k : K) (r : R) : single k r = r • bv R k := by simp

/-- Linear extension of a map on keys. -/
noncomputable def mapK {K K' : Type} (f : K → K') : (K →₀ R) →ₗ[R] (K' →₀ R) :=
  lin fun k => bv R (f k)

@[simp] theorem mapK_single {K K' : Type} (f : K → K') (k : K) (r : R) :
    mapK f (single k r) = single (f k) r := by simp [mapK]

theorem mapK_den {K K' : Type} (f : K → K') (d : List (K × Int)) :
    mapK f (den R d) = den R (d.map fun p => (f p.1, p.2)) := by
  induction d with
  | nil => simp
  | cons p d ih => simp [ih]

/-- Concatenation of lists, extended bilinearly. -/
noncomputable def cat : (List A →₀ R) →ₗ[R] (List A →₀ R) →ₗ[R] (List A →₀ R) :=
  Finsupp.linearCombination R fun k => mapK (k ++ ·)

@[simp] theorem cat_single_single (k l : List A) (r s : R) :
    cat (single k r) (single l s) = single (k ++ l) (r * s) := by
  simp [cat]

theorem cat_single (k : List A) (v : List A →₀ R) : cat (bv R k) v = mapK (k ++ ·) v := by
  simp [cat]

theorem cat_assoc (u v w : List A →₀ R) : cat (cat u v) w = cat u (cat v w) := by
  induction u using Finsupp.induction_linear with
  | zero => simp
  | add f g hf hg => simp [hf, hg]
  | single k r =>
    induction v using Finsupp.induction_linear with
    | zero => simp
    | add f g hf hg => simp only [map_add, LinearMap.add_apply, hf, hg]
    | single l s =>
      induction w using Finsupp.induction_linear with
      | zero => simp
      | add f g hf hg => simp only [map_add, hf, hg]
      | single m t => simp [mul_assoc]

@[simp] theorem cat_nil_left (v : List A →₀ R) : cat (bv R []) v = v := by
  rw [cat_single]
  induction v using Finsupp.induction_linear with
  | zero => simp
  | add f g hf hg => simp only [map_add, hf, hg]
  | single l s => simp

@[simp] theorem cat_nil_right (v : List A →₀ R) : cat v (bv R []) = v := by
  induction v using Finsupp.induction_linear with
  | zero => simp
  | add f g hf hg => simp only [map_add, LinearMap.add_apply, hf, hg]
  | single l s => simp

/-- Vectors of factors as vectors of one-element lists. -/
noncomputable def one : (A →₀ R) →ₗ[R] (List A →₀ R) := mapK fun a => [a]

@[simp] theorem one_single (a : A) (r : R) : one (single a r) = single [a] r := by simp [one]

theorem cat_one_bv (u : A →₀ R) (k : List A) : cat (one u) (bv R k) = mapK (· :: k) u := by
  induction u using Finsupp.induction_linear with
  | zero => simp
  | add f g hf hg => simp only [map_add, LinearMap.add_apply, hf, hg]
  | single a r => simp

/-- `a :: v`. -/
noncomputable def consV (a : A) : (List A →₀ R) →ₗ[R] (List A →₀ R) := mapK (a :: ·)

@[simp] theorem consV_single (a : A) (k : List A) (r : R) :
    consV a (single k r) = single (a :: k) r := by simp [consV]

theorem consV_eq_cat (a : A) (v : List A →₀ R) : consV a v = cat (bv R [a]) v := by
  rw [cat_single]; rfl

theorem pr_consV {drops : List A → Bool} {a : A}
    (h : ∀ k, drops k = true → drops (a :: k) = true) {v : List A →₀ R}
    (hv : pr drops v = 0) : pr drops (consV a v) = 0 := by
  have : (pr drops).comp ((consV a).comp (pr drops)) = (pr drops).comp (consV (R := R) a) := by
    apply lin_ext
    intro k
    simp only [LinearMap.comp_apply, pr_single]
    split
    · rename_i hk; simp [h k hk]
    · simp
  have h2 := LinearMap.congr_fun this v
  simp only [LinearMap.comp_apply, hv, map_zero] at h2
  exact h2.symm

/-! ### deletion complex -/

/-- `Σ_i (-1)^i removeAt k i`, recursively. -/
noncomputable def delK : List α → (List α →₀ R)
  | [] => 0
  | a :: k => bv R k - consV a (delK k)

/-- Alternating sum of the lists with one entry deleted. -/
noncomputable def del : (List α →₀ R) →ₗ[R] (List α →₀ R) := lin delK

@[simp] theorem del_single (k : List α) (r : R) : del (single k r) = r • delK k := by
  simp [del]

theorem del_consV (a : α) (v : List α →₀ R) : del (consV a v) = v - consV a (del v) := by
  induction v using Finsupp.induction_linear with
  | zero => simp
  | add f g hf hg => simp only [map_add, hf, hg]; abel
  | single k r => simp [delK, smul_sub]

theorem del_delK (k : List α) : del (delK (R := R) k) = 0 := by
  induction k with
  | nil => simp [delK]
  | cons a k ih => simp [delK, del_consV, ih]

theorem del_del (v : List α →₀ R) : del (del v) = 0 := by
  induction v using Finsupp.induction_linear with
  | zero => simp
  | add f g hf hg => simp only [map_add, hf, hg, add_zero]
  | single k r => simp [del_delK]

@[simp] theorem removeAt_zero (a : α) (k : List α) : removeAt (a :: k) 0 = k := by
  simp [removeAt]

@[simp] theorem removeAt_succ (a : α) (k : List α) (i : Nat) :
    removeAt (a :: k) (i + 1) = a :: removeAt k i := by
  simp [removeAt]

theorem removeAt_eq_eraseIdx (k : List α) (i : Nat) : removeAt k i = k.eraseIdx i := by
  induction k generalizing i with
  | nil => simp [removeAt]
  | cons a k ih => cases i <;> simp [ih]

theorem delK_eq_sum (k : List α) :
    delK (R := R) k = ((List.range k.length).map fun (i : Nat) =>
      sg R i • bv R (removeAt k i)).sum := by
  induction k with
  | nil => simp [delK]
  | cons a k ih =>
    simp only [delK, List.length_cons, List.range_succ_eq_map, List.map_cons, List.sum_cons,
      Nat.cast_zero, sg_zero, one_smul, removeAt_zero, List.map_map, sub_eq_add_neg, ih]
    congr 1
    rw [map_list_sum, List.map_map, ← neg_one_smul R, List.smul_sum, List.map_map]
    congr 1
    apply List.map_congr_left
    intro i _
    simp only [Function.comp, removeAt_succ, map_smul, Nat.cast_succ, sg_succ,
      consV_single, neg_smul, one_smul]

/-- Two equal consecutive entries. -/
def hasRep [DecidableEq α] : List α → Bool
  | [] => false
  | [_] => false
  | a :: b :: k => a == b || hasRep (b :: k)

theorem any_pairwise_eq [DecidableEq α] (k : List α) :
    ((pairwise k).any fun ij => ij.1 == ij.2) = hasRep k := by
  induction k with
  | nil => rfl
  | cons a k ih =>
    cases k with
    | nil => rfl
    | cons b k =>
      simp only [pairwise, List.tail_cons] at ih
      simp [pairwise, hasRep, ih]

theorem hasRep_cons [DecidableEq α] {a : α} {k : List α} (h : hasRep k = true) :
    hasRep (a :: k) = true := by
  cases k with
  | nil => simp [hasRep] at h
  | cons b k => simp [hasRep, h]

/-- The deletions of a degenerate list are degenerate or cancel. -/
theorem pr_delK_of_hasRep [DecidableEq α] {drops : List α → Bool}
    (hd : ∀ k, hasRep k = true → drops k = true)
    (k : List α) (h : hasRep k = true) : pr drops (delK (R := R) k) = 0 := by
  have key : ∀ k : List α, hasRep k = true → pr hasRep (delK (R := R) k) = 0 := by
    intro k
    induction k with
    | nil => intro _; simp [delK]
    | cons a k ih =>
      intro h
      cases k with
      | nil => simp [hasRep] at h
      | cons b k =>
        simp only [hasRep, Bool.or_eq_true, beq_iff_eq] at h
        by_cases h2 : hasRep (b :: k) = true
        · rw [delK, map_sub, pr_single, if_pos h2, zero_sub, neg_eq_zero]
          exact pr_consV (fun k hk => hasRep_cons hk) (ih h2)
        · have hab : a = b := by tauto
          subst hab
          simp only [delK, map_sub, consV_single, sub_sub_cancel]
          have : ∀ v : List α →₀ R, pr hasRep (consV a (consV a v)) = 0 := by
            intro v
            induction v using Finsupp.induction_linear with
            | zero => simp
            | add f g hf hg => simp only [map_add, hf, hg, add_zero]
            | single k r => simp [hasRep]
          simpa using this (delK k)
  have h1 := key k h
  have h2 : (pr drops).comp (pr hasRep) = (pr drops : (List α →₀ R) →ₗ[R] _) := by
    apply lin_ext
    intro k
    simp only [LinearMap.comp_apply, pr_single]
    by_cases hk : hasRep k = true
    · simp [hk, hd k hk]
    · simp [hk]
  rw [← h2, LinearMap.comp_apply, h1, map_zero]

/-! ### tensor powers of a complex -/

section Tensor
variable (d : A → (A →₀ R)) (deg : A → Int)

/-- Differential of the tensor powers on a basis element: the graded Leibniz rule. -/
noncomputable def tensK : List A → (List A →₀ R)
  | [] => 0
  | a :: k => cat (one (d a)) (bv R k) + sg R (deg a) • consV a (tensK k)

/-- Differential of the tensor powers. -/
noncomputable def tens : (List A →₀ R) →ₗ[R] (List A →₀ R) := lin (tensK d deg)

/-- Total degree. -/
def totDeg : List A → Int
  | [] => 0
  | a :: k => deg a + totDeg k

theorem totDeg_eq_sum (k : List A) : totDeg deg k = (k.map deg).sum := by
  induction k with
  | nil => rfl
  | cons a k ih => simp [totDeg, ih]

theorem totDeg_append (k l : List A) : totDeg deg (k ++ l) = totDeg deg k + totDeg deg l := by
  simp [totDeg_eq_sum]

/-- Sign operator. -/
noncomputable def sgn : (List A →₀ R) →ₗ[R] (List A →₀ R) :=
  lin fun k => sg R (totDeg deg k) • bv R k

@[simp] theorem sgn_single (k : List A) (r : R) :
    sgn deg (single k r) = (r * sg R (totDeg deg k)) • bv R k := by simp [sgn]

@[simp] theorem tens_single (k : List A) (r : R) :
    tens d deg (single k r) = r • tensK d deg k := by simp [tens]

/-- Sign operator on single factors. -/
noncomputable def sgn1 : (A →₀ R) →ₗ[R] (A →₀ R) := lin fun a => sg R (deg a) • bv R a

theorem one_sgn1 (u : A →₀ R) : one (sgn1 deg u) = sgn deg (one u) := by
  induction u using Finsupp.induction_linear with
  | zero => simp
  | add f g hf hg => simp only [map_add, hf, hg]
  | single a r => simp [sgn1, totDeg]

theorem tens_consV (a : A) (v : List A →₀ R) :
    tens d deg (consV a v) = cat (one (d a)) v + sg R (deg a) • consV a (tens d deg v) := by
  induction v using Finsupp.induction_linear with
  | zero => simp
  | add f g hf hg => simp only [map_add, hf, hg, smul_add]; abel
  | single k r =>
    simp only [consV_single, tens_single, tensK, smul_add, map_smul]
    rw [smul_comm]
    congr 1
    rw [single_eq_smul_bv k r, map_smul]

/-- Graded Leibniz rule for concatenation. -/
theorem tens_cat (u v : List A →₀ R) :
    tens d deg (cat u v) = cat (tens d deg u) v + cat (sgn deg u) (tens d deg v) := by
  induction u using Finsupp.induction_linear with
  | zero => simp
  | add f g hf hg => simp only [map_add, LinearMap.add_apply, hf, hg]; abel
  | single k r =>
    rw [single_eq_smul_bv]
    simp only [map_smul, LinearMap.smul_apply, ← smul_add]
    congr 1
    induction k with
    | nil => simp [tensK, totDeg]
    | cons a k ih =>
      have h1 : cat (bv R (a :: k)) v = consV a (cat (bv R k) v) := by
        rw [consV_eq_cat, ← cat_assoc]; simp
      rw [h1, tens_consV, ih]
      simp only [tens_single, sgn_single, one_smul, one_mul, tensK, map_add, LinearMap.add_apply,
        map_smul, LinearMap.smul_apply, totDeg, sg_add, smul_add, mul_smul]
      rw [cat_assoc, add_assoc]
      congr 2
      · rw [consV_eq_cat, consV_eq_cat, cat_assoc]
      · rw [consV_eq_cat, ← cat_assoc]
        simp

theorem tens_one (u : A →₀ R) : tens d deg (one u) = one (lin d u) := by
  induction u using Finsupp.induction_linear with
  | zero => simp
  | add f g hf hg => simp only [map_add, hf, hg]
  | single a r => simp [tensK]

variable {d deg}

/-- If `d² = 0` and `d` lowers the degree by one, the same holds for the tensor powers. -/
theorem tens_tens (h2 : ∀ a, lin d (d a) = 0)
    (hdeg : ∀ a, sgn1 deg (d a) = - (sg R (deg a) • d a)) (v : List A →₀ R) :
    tens d deg (tens d deg v) = 0 := by
  induction v using Finsupp.induction_linear with
  | zero => simp
  | add f g hf hg => simp only [map_add, hf, hg, add_zero]
  | single k r =>
    rw [tens_single, map_smul]
    suffices h : tens d deg (tensK d deg k) = 0 by rw [h, smul_zero]
    induction k with
    | nil => simp [tensK]
    | cons a k ih =>
      simp only [tensK, map_add, map_smul, tens_cat, tens_consV, ih, tens_one, h2, ← one_sgn1, hdeg]
      simp

theorem pr_cat {dr : A → Bool} {k : List A} {a : A} :
    (List.any (k ++ [a]) dr) = (k.any dr || dr a) := by simp

theorem pr_any_cat (dr : A → Bool) (u v : List A →₀ R) :
    pr (fun k => k.any dr) (cat u v) =
      cat (pr (fun k => k.any dr) u) (pr (fun k => k.any dr) v) := by
  induction u using Finsupp.induction_linear with
  | zero => simp
  | add f g hf hg => simp only [map_add, LinearMap.add_apply, hf, hg]
  | single k r =>
    induction v using Finsupp.induction_linear with
    | zero => simp
    | add f g hf hg => simp only [map_add, hf, hg]
    | single l s =>
      simp only [cat_single_single, pr_single, List.any_append]
      by_cases h1 : k.any dr = true <;> by_cases h2 : l.any dr = true <;> simp [h1, h2]

theorem pr_any_one (dr : A → Bool) (u : A →₀ R) :
    pr (fun k => k.any dr) (one u) = one (pr dr u) := by
  induction u using Finsupp.induction_linear with
  | zero => simp
  | add f g hf hg => simp only [map_add, hf, hg]
  | single a r =>
    simp only [one_single, pr_single, List.any_cons, List.any_nil, Bool.or_false]
    split <;> simp

/-- Tensors with a degenerate factor form a subcomplex. -/
theorem pr_tensK {dr : A → Bool} (hdr : ∀ a, dr a = true → pr dr (d a) = 0) (k : List A)
    (hk : k.any dr = true) : pr (fun k => k.any dr) (tensK d deg k) = 0 := by
  induction k with
  | nil => simp at hk
  | cons a k ih =>
    simp only [tensK, map_add, map_smul, consV_eq_cat, pr_any_cat, pr_any_one]
    simp only [List.any_cons, Bool.or_eq_true] at hk
    rcases hk with hk | hk
    · simp [hdr a hk, hk]
    · simp [ih hk, hk]

/-! ### applying a map at one coordinate -/

/-- Apply `f` to the factor at position `c` (counted from 0). -/
noncomputable def atK (f : A → (List A →₀ R)) : Nat → List A → (List A →₀ R)
  | _, [] => 0
  | 0, a :: k => cat (f a) (bv R k)
  | c + 1, a :: k => consV a (atK f c k)

/-- Apply `f` to the factor at position `c`, linearly. -/
noncomputable def atL (f : A → (List A →₀ R)) (c : Nat) : (List A →₀ R) →ₗ[R] (List A →₀ R) :=
  lin (atK f c)

@[simp] theorem atL_single (f : A → (List A →₀ R)) (c : Nat) (k : List A) (r : R) :
    atL f c (single k r) = r • atK f c k := by simp [atL]

theorem atL_consV (f : A → (List A →₀ R)) (c : Nat) (a : A) (v : List A →₀ R) :
    atL f (c + 1) (consV a v) = consV a (atL f c v) := by
  induction v using Finsupp.induction_linear with
  | zero => simp
  | add f g hf hg => simp only [map_add, hf, hg]
  | single k r => simp [atK]

theorem atL_cat_one_zero (f : A → (List A →₀ R)) (u : A →₀ R) (v : List A →₀ R) :
    atL f 0 (cat (one u) v) = cat (lin f u) v := by
  induction u using Finsupp.induction_linear with
  | zero => simp
  | add f g hf hg => simp only [map_add, LinearMap.add_apply, hf, hg]
  | single a r =>
    induction v using Finsupp.induction_linear with
    | zero => simp
    | add f g hf hg => simp only [map_add, hf, hg]
    | single k s =>
      rw [single_eq_smul_bv k s]
      simp only [map_smul, LinearMap.smul_apply, one_single, cat_single_single, lin_single,
        mul_one, List.singleton_append, atL_single, atK]

theorem atL_cat_one_succ (f : A → (List A →₀ R)) (c : Nat) (u : A →₀ R) (v : List A →₀ R) :
    atL f (c + 1) (cat (one u) v) = cat (one u) (atL f c v) := by
  induction u using Finsupp.induction_linear with
  | zero => simp
  | add f g hf hg => simp only [map_add, LinearMap.add_apply, hf, hg]
  | single a r =>
    rw [single_eq_smul_bv]
    simp only [map_smul, LinearMap.smul_apply, one_single, ← consV_eq_cat, atL_consV]

/-- A degree 0 chain map at one coordinate is a chain map of the tensor powers. -/
theorem tens_atL {f : A → (List A →₀ R)} (hf : ∀ a, tens d deg (f a) = lin f (d a))
    (hs : ∀ a, sgn deg (f a) = sg R (deg a) • f a) (c : Nat) (v : List A →₀ R) :
    tens d deg (atL f c v) = atL f c (tens d deg v) := by
  induction v using Finsupp.induction_linear with
  | zero => simp
  | add f g hf hg => simp only [map_add, hf, hg]
  | single k r =>
    simp only [atL_single, tens_single, map_smul]
    congr 1
    induction k generalizing c with
    | nil => cases c <;> simp [atK, tensK]
    | cons a k ih =>
      cases c with
      | zero =>
        simp only [atK, tens_cat, hf, hs, tensK, map_add, map_smul, atL_cat_one_zero,
          LinearMap.smul_apply, consV_eq_cat]
        rw [show bv R [a] = one (bv R a) by simp, atL_cat_one_zero]
        simp
      | succ c =>
        simp only [atK, tens_consV, ih, tensK, map_add, map_smul, atL_cat_one_succ, atL_single,
          one_smul, atL_consV]

/-- The same modulo tensors with a degenerate factor. -/
theorem pr_tens_atL {dr : A → Bool} {f : A → (List A →₀ R)}
    (hf : ∀ a, pr (fun k => k.any dr) (tens d deg (f a)) = pr (fun k => k.any dr) (lin f (d a)))
    (hs : ∀ a, sgn deg (f a) = sg R (deg a) • f a) (c : Nat) (v : List A →₀ R) :
    pr (fun k => k.any dr) (tens d deg (atL f c v)) =
      pr (fun k => k.any dr) (atL f c (tens d deg v)) := by
  induction v using Finsupp.induction_linear with
  | zero => simp
  | add f g hf hg => simp only [map_add, hf, hg]
  | single k r =>
    simp only [atL_single, tens_single, map_smul]
    congr 1
    induction k generalizing c with
    | nil => cases c <;> simp [atK, tensK]
    | cons a k ih =>
      cases c with
      | zero =>
        simp only [atK, tens_cat, hs, tensK, map_add, map_smul, atL_cat_one_zero,
          LinearMap.smul_apply, consV_eq_cat]
        rw [show bv R [a] = one (bv R a) by simp, atL_cat_one_zero]
        rw [pr_any_cat, hf, ← pr_any_cat]
        simp
      | succ c =>
        simp only [atK, tens_consV, tensK, map_add, map_smul, atL_cat_one_succ, atL_single,
          one_smul, atL_consV]
        simp only [consV_eq_cat, pr_any_cat, ih]

theorem pr_atL {dr : A → Bool} {f : A → (List A →₀ R)}
    (hf : ∀ a, dr a = true → pr (fun k => k.any dr) (f a) = 0) (c : Nat) (k : List A)
    (hk : k.any dr = true) : pr (fun k => k.any dr) (atL f c (single k 1)) = 0 := by
  simp only [atL_single, one_smul]
  induction k generalizing c with
  | nil => simp at hk
  | cons a k ih =>
    simp only [List.any_cons, Bool.or_eq_true] at hk
    cases c with
    | zero =>
      rw [atK, pr_any_cat]
      rcases hk with hk | hk
      · rw [hf a hk]; simp
      · simp [hk]
    | succ c =>
      rw [atK, consV_eq_cat, pr_any_cat]
      rcases hk with hk | hk
      · simp [hk]
      · rw [ih c hk]; simp

end Tensor
end Comch
