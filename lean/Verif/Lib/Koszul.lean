import Verif.Lib.Tensor
import Mathlib.Data.List.Sort

/-!
# Permuting tensor factors with Koszul signs

Factors are labelled by natural numbers and sorted by their labels; exchanging two factors `a`, `b`
costs the sign `(-1)^(|a||b|)`.
-/

set_option linter.unusedSectionVars false

namespace Comch
open Finsupp

variable {R : Type} [CommRing R] {A : Type}

section
variable (deg : A → Int)

/-- Insert a labelled factor in front of the first factor with a label that is not smaller. -/
noncomputable def insK (x : Nat × A) : List (Nat × A) → (List (Nat × A) →₀ R)
  | [] => bv R [x]
  | y :: l => if x.1 ≤ y.1 then bv R (x :: y :: l)
      else sg R (deg x.2 * deg y.2) • consV y (insK x l)

noncomputable def insB : (Nat × A →₀ R) →ₗ[R] (List (Nat × A) →₀ R) →ₗ[R] (List (Nat × A) →₀ R) :=
  Finsupp.linearCombination R fun x => lin (insK deg x)

noncomputable def ins (x : Nat × A) : (List (Nat × A) →₀ R) →ₗ[R] (List (Nat × A) →₀ R) :=
  lin (insK deg x)

theorem insB_single (x : Nat × A) (v : List (Nat × A) →₀ R) :
    insB deg (bv R x) v = ins deg x v := by simp [insB, ins]

@[simp] theorem ins_single (x : Nat × A) (l : List (Nat × A)) (r : R) :
    ins deg x (single l r) = r • insK deg x l := by simp [ins]

theorem ins_consV_of_le {x y : Nat × A} (h : x.1 ≤ y.1) (v : List (Nat × A) →₀ R) :
    ins deg x (consV y v) = consV x (consV y v) := by
  induction v using Finsupp.induction_linear with
  | zero => simp
  | add f g hf hg => simp only [map_add, hf, hg]
  | single k r => simp [insK, h]

theorem ins_consV_of_gt {x y : Nat × A} (h : y.1 < x.1) (v : List (Nat × A) →₀ R) :
    ins deg x (consV y v) = sg R (deg x.2 * deg y.2) • consV y (ins deg x v) := by
  induction v using Finsupp.induction_linear with
  | zero => simp
  | add f g hf hg => simp only [map_add, hf, hg, smul_add]
  | single k r =>
    simp only [consV_single, ins_single, insK, if_neg (not_le.2 h), map_smul]
    rw [smul_comm]

/-- Sign operator twisted by `m`. -/
noncomputable def sgnm (m : Int) : (A →₀ R) →ₗ[R] (A →₀ R) :=
  lin fun a => sg R (deg a * m) • bv R a

theorem sgnm_apply_d {d : A → (A →₀ R)} (hdeg : ∀ a, sgn1 deg (d a) = - (sg R (deg a) • d a))
    (m : Int) (a : A) : sgnm deg m (d a) = sg R ((deg a - 1) * m) • d a := by
  rcases Int.emod_two_eq_zero_or_one m with hm | hm
  · have h1 : (sgnm deg m : (A →₀ R) →ₗ[R] (A →₀ R)) = LinearMap.id := by
      apply lin_ext
      intro b
      have : sg R (deg b * m) = 1 := by
        refine (sg_congr (b := 0) ?_).trans sg_zero; rw [Int.mul_emod, hm]; simp
      simp [sgnm, this]
    have h2 : sg R ((deg a - 1) * m) = 1 := by
      refine (sg_congr (b := 0) ?_).trans sg_zero; rw [Int.mul_emod, hm]; simp
    rw [h1, h2]; simp
  · have h1 : (sgnm deg m : (A →₀ R) →ₗ[R] (A →₀ R)) = sgn1 deg := by
      apply lin_ext
      intro b
      have : sg R (deg b * m) = sg R (deg b) := by
        apply sg_congr; rw [Int.mul_emod, hm]; simp
      simp [sgnm, sgn1, this]
    have h2 : sg R ((deg a - 1) * m) = - sg R (deg a) := by
      rw [← sg_pred]; apply sg_congr; rw [Int.mul_emod, hm]; simp
    rw [h1, h2, hdeg]; simp

/-- Label every factor with `l`. -/
noncomputable def lab (l : Nat) : (A →₀ R) →ₗ[R] (Nat × A →₀ R) := mapK fun a => (l, a)

@[simp] theorem lab_single (l : Nat) (a : A) (r : R) : lab l (single a r) = single (l, a) r := by
  simp [lab]

theorem ins_cat_lab_of_le {x : Nat × A} {l : Nat} (h : x.1 ≤ l) (u : A →₀ R)
    (v : List (Nat × A) →₀ R) :
    ins deg x (cat (one (lab l u)) v) = consV x (cat (one (lab l u)) v) := by
  induction u using Finsupp.induction_linear with
  | zero => simp
  | add f g hf hg => simp only [map_add, LinearMap.add_apply, hf, hg]
  | single a r =>
    rw [single_eq_smul_bv]
    simp only [map_smul, LinearMap.smul_apply, lab_single, one_single, ← consV_eq_cat]
    rw [ins_consV_of_le deg (by exact h)]

theorem ins_cat_lab_of_gt {x : Nat × A} {l : Nat} (h : l < x.1) (u : A →₀ R)
    (v : List (Nat × A) →₀ R) :
    ins deg x (cat (one (lab l u)) v) =
      cat (one (lab l (sgnm deg (deg x.2) u))) (ins deg x v) := by
  induction u using Finsupp.induction_linear with
  | zero => simp
  | add f g hf hg => simp only [map_add, LinearMap.add_apply, hf, hg]
  | single a r =>
    rw [single_eq_smul_bv]
    simp only [map_smul, LinearMap.smul_apply, lab_single, one_single, ← consV_eq_cat, sgnm,
      lin_single, one_smul]
    rw [ins_consV_of_gt deg (by exact h), mul_comm]

theorem insB_lab_consV_of_le {y : Nat × A} {l : Nat} (h : l ≤ y.1) (u : A →₀ R)
    (v : List (Nat × A) →₀ R) :
    insB deg (lab l u) (consV y v) = cat (one (lab l u)) (consV y v) := by
  induction u using Finsupp.induction_linear with
  | zero => simp
  | add f g hf hg => simp only [map_add, LinearMap.add_apply, hf, hg]
  | single a r =>
    rw [single_eq_smul_bv]
    simp only [map_smul, LinearMap.smul_apply, lab_single, one_single, ← consV_eq_cat, insB_single]
    rw [ins_consV_of_le deg (by exact h)]

theorem insB_lab_consV_of_gt {y : Nat × A} {l : Nat} (h : y.1 < l) (u : A →₀ R)
    (v : List (Nat × A) →₀ R) :
    insB deg (lab l u) (consV y v) = consV y (insB deg (lab l (sgnm deg (deg y.2) u)) v) := by
  induction u using Finsupp.induction_linear with
  | zero => simp
  | add f g hf hg => simp only [map_add, LinearMap.add_apply, hf, hg]
  | single a r =>
    rw [single_eq_smul_bv]
    simp only [map_smul, LinearMap.smul_apply, lab_single, insB_single, sgnm, lin_single, one_smul]
    rw [ins_consV_of_gt deg (by exact h)]

variable (d : A → (A →₀ R))

/-- Differential of labelled factors. -/
noncomputable abbrev dl (x : Nat × A) : (Nat × A →₀ R) := lab x.1 (d x.2)

/-- Degree of labelled factors. -/
abbrev degl (x : Nat × A) : Int := deg x.2

variable {d}

theorem tens_ins (hdeg : ∀ a, sgn1 deg (d a) = - (sg R (deg a) • d a)) (x : Nat × A)
    (v : List (Nat × A) →₀ R) :
    tens (dl d) (degl deg) (ins deg x v) =
      insB deg (dl d x) v + sg R (deg x.2) • ins deg x (tens (dl d) (degl deg) v) := by
  induction v using Finsupp.induction_linear with
  | zero => simp
  | add f g hf hg => simp only [map_add, hf, hg, smul_add]; abel
  | single l r =>
    rw [single_eq_smul_bv]
    simp only [map_smul]
    rw [smul_comm (sg R _) r, ← smul_add]
    congr 1
    induction l with
    | nil =>
      have h1 : ∀ u : Nat × A →₀ R, insB deg u (bv R []) = one u := by
        intro u
        induction u using Finsupp.induction_linear with
        | zero => simp
        | add f g hf hg => simp only [map_add, LinearMap.add_apply, hf, hg]
        | single a r => 
          rw [single_eq_smul_bv]
          simp only [map_smul, LinearMap.smul_apply, insB_single, ins_single, insK, one_single,
            one_smul]
      rw [h1]
      simp [insK, tensK]
    | cons y l ih =>
      have hyl : bv R (y :: l) = consV y (bv R l) := by simp
      rw [hyl]
      by_cases hxy : x.1 ≤ y.1
      · rw [ins_consV_of_le deg hxy, tens_consV, insB_lab_consV_of_le deg hxy, tens_consV]
        rw [map_add (ins deg x), map_smul (ins deg x), ins_cat_lab_of_le deg hxy, ins_consV_of_le deg hxy]
        simp only [map_add, map_smul]
      · have hlt : y.1 < x.1 := not_le.1 hxy
        rw [ins_consV_of_gt deg hlt, map_smul, tens_consV, ih, insB_lab_consV_of_gt deg hlt,
          tens_consV, sgnm_apply_d deg hdeg, map_add (ins deg x), map_smul (ins deg x),
          ins_cat_lab_of_gt deg hlt, sgnm_apply_d deg hdeg, ins_consV_of_gt deg hlt]
        simp only [map_smul, map_add, LinearMap.smul_apply, smul_add, smul_smul, degl]
        have e1 : (deg x.2 - 1) * deg y.2 = deg x.2 * deg y.2 - deg y.2 := by ring
        have e2 : (deg y.2 - 1) * deg x.2 = deg x.2 * deg y.2 - deg x.2 := by ring
        rw [e1, e2, sg_sub, sg_sub]
        have e3 : sg R (deg x.2) * (sg R (deg x.2 * deg y.2) * sg R (deg x.2)) =
            sg R (deg x.2 * deg y.2) := by
          rw [mul_comm (sg R (deg x.2 * deg y.2)), ← mul_assoc, sg_mul_self, one_mul]
        rw [e3]
        have e4 : sg R (deg x.2 * deg y.2) * (sg R (deg y.2) * sg R (deg x.2)) =
            sg R (deg x.2) * (sg R (deg y.2) * sg R (deg x.2 * deg y.2)) := by ring
        rw [e4]
        abel

/-- Sorting by labels, with Koszul signs. -/
noncomputable def srtK : List (Nat × A) → (List (Nat × A) →₀ R)
  | [] => bv R []
  | x :: l => ins deg x (srtK l)

noncomputable def srt : (List (Nat × A) →₀ R) →ₗ[R] (List (Nat × A) →₀ R) := lin (srtK deg)

@[simp] theorem srt_single (l : List (Nat × A)) (r : R) : srt deg (single l r) = r • srtK deg l := by
  simp [srt]

theorem srt_consV (x : Nat × A) (v : List (Nat × A) →₀ R) :
    srt deg (consV x v) = ins deg x (srt deg v) := by
  induction v using Finsupp.induction_linear with
  | zero => simp
  | add f g hf hg => simp only [map_add, hf, hg]
  | single k r => simp [srtK]

theorem srt_cat_one (u : Nat × A →₀ R) (v : List (Nat × A) →₀ R) :
    srt deg (cat (one u) v) = insB deg u (srt deg v) := by
  induction u using Finsupp.induction_linear with
  | zero => simp
  | add f g hf hg => simp only [map_add, LinearMap.add_apply, hf, hg]
  | single a r =>
    rw [single_eq_smul_bv]
    simp only [map_smul, LinearMap.smul_apply, one_single, ← consV_eq_cat, srt_consV, insB_single]

theorem tens_srt (hdeg : ∀ a, sgn1 deg (d a) = - (sg R (deg a) • d a))
    (v : List (Nat × A) →₀ R) :
    tens (dl d) (degl deg) (srt deg v) = srt deg (tens (dl d) (degl deg) v) := by
  induction v using Finsupp.induction_linear with
  | zero => simp
  | add f g hf hg => simp only [map_add, hf, hg]
  | single l r =>
    simp only [srt_single, tens_single, map_smul]
    congr 1
    induction l with
    | nil => simp [srtK, tensK]
    | cons x l ih =>
      simp only [srtK, tensK, tens_ins deg hdeg, ih, map_add, map_smul, srt_consV, srt_cat_one,
        srt_single, one_smul]

theorem ins_ins {x y : Nat × A} (h : x.1 ≠ y.1) (v : List (Nat × A) →₀ R) :
    ins deg x (ins deg y v) = sg R (deg x.2 * deg y.2) • ins deg y (ins deg x v) := by
  -- enough to treat `x.1 < y.1`
  have main : ∀ {x y : Nat × A}, x.1 < y.1 → ∀ l, ins deg x (insK deg y l) =
      sg R (deg x.2 * deg y.2) • ins deg y (insK (R := R) deg x l) := by
    intro x y h l
    induction l with
    | nil =>
      have h1 : insK (R := R) deg y [] = consV y (bv R []) := by simp [insK]
      have h2 : insK (R := R) deg x [] = consV x (bv R []) := by simp [insK]
      rw [h1, h2, ins_consV_of_le deg h.le, ins_consV_of_gt deg h, smul_smul,
        mul_comm (deg y.2), sg_mul_self, one_smul]
      simp [insK]
    | cons z l ih =>
      have hzl : bv R (z :: l) = consV z (bv R l) := by simp
      by_cases hx : x.1 ≤ z.1
      · have h2 : insK (R := R) deg x (z :: l) = consV x (consV z (bv R l)) := by simp [insK, hx]
        rw [h2, ins_consV_of_gt deg h, smul_smul, mul_comm (deg y.2), sg_mul_self, one_smul]
        by_cases hy : y.1 ≤ z.1
        · have h1 : insK (R := R) deg y (z :: l) = consV y (consV z (bv R l)) := by simp [insK, hy]
          rw [h1, ins_consV_of_le deg h.le, ins_consV_of_le deg hy]
        · have h1 : insK (R := R) deg y (z :: l) =
              sg R (deg y.2 * deg z.2) • consV z (insK deg y l) := by simp [insK, hy]
          rw [h1, map_smul, ins_consV_of_le deg hx, ins_consV_of_gt deg (not_le.1 hy)]
          simp
      · have hy : ¬ y.1 ≤ z.1 := by omega
        have h1 : insK (R := R) deg y (z :: l) =
              sg R (deg y.2 * deg z.2) • consV z (insK deg y l) := by simp [insK, hy]
        have h2 : insK (R := R) deg x (z :: l) =
              sg R (deg x.2 * deg z.2) • consV z (insK deg x l) := by simp [insK, hx]
        rw [h1, h2, map_smul, map_smul, ins_consV_of_gt deg (not_le.1 hx),
          ins_consV_of_gt deg (not_le.1 hy), ih]
        simp only [map_smul, smul_smul]
        congr 1
        ring
  induction v using Finsupp.induction_linear with
  | zero => simp
  | add f g hf hg => simp only [map_add, hf, hg, smul_add]
  | single l r =>
    simp only [ins_single, map_smul]
    rw [smul_comm (sg R _) r]
    congr 1
    rcases lt_or_gt_of_ne h with h | h
    · exact main h l
    · rw [main h l, smul_smul, mul_comm (deg y.2), sg_mul_self, one_smul]

/-! ### explicit form -/

/-- Exponent of the Koszul sign of sorting. -/
def kos : List (Nat × A) → Int
  | [] => 0
  | x :: l => deg x.2 * ((l.filter fun y => y.1 < x.1).map fun y => deg y.2).sum + kos l

/-- Sorted labelled factors. -/
def sortl (l : List (Nat × A)) : List (Nat × A) := l.insertionSort fun a b => a.1 ≤ b.1

theorem sortl_perm (l : List (Nat × A)) : (sortl l).Perm l := List.perm_insertionSort _ _

theorem sortl_pairwise (l : List (Nat × A)) : (sortl l).Pairwise fun a b => a.1 ≤ b.1 := by
  have : Std.Total (fun a b : Nat × A => a.1 ≤ b.1) := ⟨fun a b => le_total _ _⟩
  have : IsTrans (Nat × A) (fun a b => a.1 ≤ b.1) := ⟨fun a b c => le_trans⟩
  exact List.pairwise_insertionSort _ _

theorem insK_eq (x : Nat × A) (l : List (Nat × A)) (h : l.Pairwise fun a b => a.1 ≤ b.1) :
    insK (R := R) deg x l =
      sg R (deg x.2 * ((l.filter fun y => y.1 < x.1).map fun y => deg y.2).sum) •
        bv R (l.orderedInsert (fun a b => a.1 ≤ b.1) x) := by
  induction l with
  | nil => simp [insK]
  | cons y l ih =>
    rw [List.pairwise_cons] at h
    by_cases hxy : x.1 ≤ y.1
    · have : (y :: l).filter (fun y => y.1 < x.1) = [] := by
        rw [List.filter_eq_nil_iff]
        intro z hz
        rcases List.mem_cons.1 hz with rfl | hz
        · simpa using hxy
        · have := h.1 z hz; simp; omega
      rw [this]
      simp [insK, hxy]
    · have hlt : y.1 < x.1 := not_le.1 hxy
      rw [List.filter_cons_of_pos (by simpa using hlt)]
      simp only [insK, if_neg hxy, ih h.2, map_smul, consV_single, smul_smul, List.map_cons,
        List.sum_cons, List.orderedInsert, mul_add, sg_add]

theorem srtK_eq (l : List (Nat × A)) : srtK (R := R) deg l = sg R (kos deg l) • bv R (sortl l) := by
  induction l with
  | nil => simp [srtK, kos, sortl]
  | cons x l ih =>
    simp only [srtK, ih, map_smul, ins_single, one_smul]
    rw [insK_eq deg x _ (sortl_pairwise l), smul_smul]
    simp only [kos, sg_add]
    rw [mul_comm (sg R (kos deg l))]
    congr 3
    · have hp : ((sortl l).filter fun y => y.1 < x.1).Perm (l.filter fun y => y.1 < x.1) :=
        (sortl_perm l).filter _
      rw [(hp.map fun y => deg y.2).sum_eq]

/-- Change the labels. -/
def relab (f : Nat → Nat) (l : List (Nat × A)) : List (Nat × A) := l.map fun x => (f x.1, x.2)

theorem srt_relab_ins (f : Nat → Nat) (x : Nat × A) (l : List (Nat × A))
    (hf : ∀ y ∈ l, f y.1 ≠ f x.1) :
    srt deg (mapK (relab f) (insK (R := R) deg x l)) =
      ins deg (f x.1, x.2) (srtK deg (relab f l)) := by
  induction l with
  | nil => simp [insK, relab, srtK]
  | cons y l ih =>
    simp only [List.mem_cons, forall_eq_or_imp] at hf
    by_cases hxy : x.1 ≤ y.1
    · simp [insK, hxy, relab, srtK]
    · have hc : ∀ v : List (Nat × A) →₀ R,
          mapK (relab f) (consV y v) = consV (f y.1, y.2) (mapK (relab f) v) := by
        intro v
        induction v using Finsupp.induction_linear with
        | zero => simp
        | add f g hf hg => simp only [map_add, hf, hg]
        | single k r => simp [relab]
      simp only [insK, if_neg hxy, map_smul, hc, srt_consV, ih hf.2]
      rw [ins_ins deg (by exact hf.1), smul_smul, mul_comm (deg y.2), sg_mul_self, one_smul]
      rfl

/-- Sorting, relabelling, sorting again is sorting for the new labels. -/
theorem srt_relab_srt (f : Nat → Nat) (l : List (Nat × A))
    (hf : (l.map fun x => f x.1).Nodup) :
    srt deg (mapK (relab f) (srtK (R := R) deg l)) = srtK deg (relab f l) := by
  induction l with
  | nil => simp [srtK, relab]
  | cons x l ih =>
    simp only [List.map_cons, List.nodup_cons, List.mem_map, not_exists, not_and] at hf
    have h1 : srtK (R := R) deg (relab f (x :: l)) =
        ins deg (f x.1, x.2) (srtK deg (relab f l)) := rfl
    rw [h1, ← ih hf.2]
    simp only [srtK]
    rw [srtK_eq]
    simp only [map_smul, ins_single, one_smul, mapK_single, srt_single]
    rw [srt_relab_ins deg f x]
    intro y hy
    exact hf.1 y ((sortl_perm l).mem_iff.1 hy)

end

end Comch
