import Verif.Lib.Cubical
import Verif.Lib.ActElem
import Verif.Lib.BEMay

/-! # The Serre diagonal of a cube -/

set_option linter.unusedSectionVars false

namespace Comch.Serre
open Finsupp (single)

variable {R : Type} [CommRing R]

/-- Put the digit `e` in front of all factors. -/
noncomputable abbrev pre (e : Nat) : (CKey →₀ R) →ₗ[R] (CKey →₀ R) := mapK (List.map (e :: ·))

/-- Put the iterated diagonal of an interval in front of the factors. -/
noncomputable def tK : CKey → (CKey →₀ R)
  | [] => 0
  | a :: k => bv R ((2 :: a) :: k.map (1 :: ·)) + sg R (cdim a) • consV (0 :: a) (tK k)

noncomputable def tL : (CKey →₀ R) →ₗ[R] (CKey →₀ R) := lin tK

@[simp] theorem tL_single (k : CKey) (r : R) : tL (single k r) = r • tK k := by simp [tL]

theorem tL_consV (a : Cube) (v : CKey →₀ R) :
    tL (consV a v) = consV (2 :: a) (pre 1 v) + sg R (cdim a) • consV (0 :: a) (tL v) := by
  induction v using Finsupp.induction_linear with
  | zero => simp
  | add f g hf hg => simp only [map_add, hf, hg, smul_add]; abel
  | single k r =>
    simp only [consV_single, tL_single, tK, mapK_single, map_smul, smul_add]
    rw [smul_comm, single_eq_smul_bv _ r]

theorem pre_consV (e : Nat) (a : Cube) (v : CKey →₀ R) : pre e (consV a v) = consV (e :: a) (pre e v) := by
  induction v using Finsupp.induction_linear with
  | zero => simp
  | add f g hf hg => simp only [map_add, hf, hg]
  | single k r => simp

theorem pre_cat (e : Nat) (u v : CKey →₀ R) : pre e (cat u v) = cat (pre e u) (pre e v) := by
  induction u using Finsupp.induction_linear with
  | zero => simp
  | add f g hf hg => simp only [map_add, LinearMap.add_apply, hf, hg]
  | single k r =>
    induction v using Finsupp.induction_linear with
    | zero => simp
    | add f g hf hg => simp only [map_add, hf, hg]
    | single l s => simp

theorem pre_one (e : Nat) (u : Cube →₀ R) : pre e (one u) = one (consV e u) := by
  induction u using Finsupp.induction_linear with
  | zero => simp
  | add f g hf hg => simp only [map_add, hf, hg]
  | single k r => simp

theorem cdim_cons_ne {e : Nat} (h : e ≠ 2) (c : Cube) : cdim (e :: c) = cdim c := by rw [cdim_cons, if_neg h, add_zero]
theorem cdim_two (c : Cube) : cdim (2 :: c) = cdim c + 1 := by rw [cdim_cons, if_pos rfl]

theorem cubicalD_pre {e : Nat} (he : e ≠ 2) (v : CKey →₀ R) : cubicalD (pre e v) = pre e (cubicalD v) := by
  induction v using Finsupp.induction_linear with
  | zero => simp
  | add f g hf hg => simp only [map_add, hf, hg]
  | single k r =>
    rw [single_eq_smul_bv]
    simp only [map_smul]
    congr 1
    induction k with
    | nil => simp [tensK]
    | cons a k ih =>
      have h1 : bv R (a :: k) = consV a (bv R k) := by simp
      rw [h1, pre_consV, tens_consV, ih, tens_consV, map_add, map_smul, pre_consV, pre_cat, pre_one,
        cdim_cons_ne he, cubeD, if_neg he]

/-- The sum over all positions of the interval is a homotopy. -/
theorem cubicalD_tK (k : CKey) :
    cubicalD (tK (R := R) k) = pre 1 (bv R k) - pre 0 (bv R k) - tL (cubicalD (bv R k)) := by
  induction k with
  | nil => simp [tK, tensK]
  | cons a k ih =>
    have hT : ∀ (u : Cube →₀ R) (v : CKey →₀ R), tL (cat (one u) v) =
        cat (one (consV 2 u)) (pre 1 v) + cat (one (consV 0 (sgn1 cdim u))) (tL v) := by
      intro u v
      induction u using Finsupp.induction_linear with
      | zero => simp
      | add f g hf hg => simp only [map_add, LinearMap.add_apply, hf, hg]; abel
      | single b r =>
        rw [single_eq_smul_bv]
        simp only [map_smul, LinearMap.smul_apply, ← smul_add]
        congr 1
        rw [one_single, ← consV_eq_cat, tL_consV]
        have e : consV 0 (sgn1 cdim (bv R b)) = sg R (cdim b) • bv R (0 :: b) := by
          rw [sgn1, lin_single, one_smul, map_smul, consV_single]
        rw [e, consV_single, one_single, map_smul, map_smul, LinearMap.smul_apply, one_single, consV_eq_cat,
          consV_eq_cat]
    have h1 : bv R (a :: k) = consV a (bv R k) := by simp
    rw [tK]
    have h2 : bv R ((2 :: a) :: k.map (1 :: ·)) = consV (2 :: a) (pre 1 (bv R k)) := by simp
    rw [h2, h1, map_add, map_smul, tens_consV, tens_consV, ih, cubicalD_pre (by decide), tens_consV, pre_consV, pre_consV,
      cubeD, if_pos rfl, cubeD, if_neg (by decide), cdim_two, cdim_cons_ne (by decide), sg_succ, map_add, map_smul,
      tL_consV, hT, sgn1_cubeD]
    simp only [consV_eq_cat, one_single, map_add, map_sub, map_smul, LinearMap.sub_apply, LinearMap.smul_apply, smul_add, smul_sub, smul_smul,
      sg_mul_self, map_neg, LinearMap.neg_apply, smul_neg, neg_smul, one_smul]
    have e1 : tL (bv R k) = tK k := by simp
    rw [e1]
    module

theorem cubicalD_tL (v : CKey →₀ R) : cubicalD (tL v) = pre 1 v - pre 0 v - tL (cubicalD v) := by
  induction v using Finsupp.induction_linear with
  | zero => simp
  | add f g hf hg => simp only [map_add, hf, hg]; abel
  | single k r =>
    rw [single_eq_smul_bv]
    simp only [map_smul]
    rw [← smul_sub, ← smul_sub, ← cubicalD_tK]
    simp

/-- The iterated diagonal of a cube. -/
noncomputable def serre (t : Nat) : Cube → (CKey →₀ R)
  | [] => bv R (List.replicate (t + 1) [])
  | e :: c => if e = 2 then tL (serre t c) else pre e (serre t c)

theorem lin_serre_consV (t e : Nat) (v : Cube →₀ R) :
    lin (serre t) (consV e v) = if e = 2 then tL (lin (serre t) v) else pre e (lin (serre t) v) := by
  induction v using Finsupp.induction_linear with
  | zero => simp
  | add f g hf hg =>
    simp only [map_add, hf, hg]
    split <;> rfl
  | single k a =>
    by_cases h : e = 2
    · simp [serre, h]
    · simp [serre, h]

/-- The diagonal is a chain map. -/
theorem cubicalD_serre (t : Nat) (c : Cube) : cubicalD (serre (R := R) t c) = lin (serre t) (cubeD c) := by
  induction c with
  | nil =>
    rw [serre, cubeD, map_zero, tens_single, one_smul]
    have : ∀ n, tensK (R := R) cubeD cdim (List.replicate n []) = 0 := by
      intro n
      induction n with
      | zero => rfl
      | succ n ih => rw [List.replicate_succ, tensK, ih]; simp [cubeD]
    exact this _
  | cons e c ih =>
    by_cases h : e = 2
    · subst h
      rw [serre, if_pos rfl, cubicalD_tL, ih, cubeD, if_pos rfl, map_sub, map_sub, lin_serre_consV, if_pos rfl]
      simp [serre]
    · rw [serre, if_neg h, cubicalD_pre h, ih, cubeD, if_neg h, lin_serre_consV, if_neg h]

/-! ### degrees and number of factors -/

/-- Tuples of `n` cubes of total degree `d`. -/
def ND (n : Nat) (d : Int) : Set CKey := {k | k.length = n ∧ totDeg cdim k = d}

theorem totDeg_map_cons {e : Nat} (he : e ≠ 2) (k : CKey) : totDeg cdim (k.map (e :: ·)) = totDeg cdim k := by
  induction k with
  | nil => rfl
  | cons a k ih => rw [List.map_cons, totDeg, totDeg, ih, cdim_cons_ne he]

theorem tK_supported (k : CKey) :
    tK (R := R) k ∈ Finsupp.supported R R (ND k.length (totDeg cdim k + 1)) := by
  induction k with
  | nil => simp [tK]
  | cons a k ih =>
    rw [tK]
    refine Submodule.add_mem _ (Finsupp.single_mem_supported R _ ⟨by simp, ?_⟩) (Submodule.smul_mem _ _ ?_)
    · rw [totDeg, totDeg, totDeg_map_cons (by decide), cdim_two]; ring
    · refine mapK_supported (S := ND k.length (totDeg cdim k + 1)) (T := ND (a :: k).length (totDeg cdim (a :: k) + 1)) _
        (fun m hm => ?_) ih
      obtain ⟨h1, h2⟩ := hm
      refine ⟨by simp [h1], ?_⟩
      rw [totDeg, totDeg, h2, cdim_cons_ne (by decide)]; ring

theorem serre_supported (t : Nat) (c : Cube) :
    serre (R := R) t c ∈ Finsupp.supported R R (ND (t + 1) (cdim c)) := by
  induction c with
  | nil =>
    rw [serre]
    refine Finsupp.single_mem_supported R _ ⟨by simp, ?_⟩
    rw [totDeg_eq_sum, List.map_replicate]
    simp [cdim, Cube.dimension]
  | cons e c ih =>
    by_cases h : e = 2
    · subst h
      rw [serre, if_pos rfl]
      refine lin_supported _ (fun k hk => ?_) ih
      obtain ⟨h1, h2⟩ := hk
      have := tK_supported (R := R) k
      rw [h1, h2] at this
      rwa [cdim_two]
    · rw [serre, if_neg h]
      refine mapK_supported (S := ND (t + 1) (cdim c)) (T := ND (t + 1) (cdim (e :: c))) _ (fun k hk => ?_) ih
      obtain ⟨h1, h2⟩ := hk
      exact ⟨by simpa using h1, by rw [totDeg_map_cons h, h2, cdim_cons_ne h]⟩

theorem sgn_serre (t : Nat) (c : Cube) : sgn cdim (serre (R := R) t c) = sg R (cdim c) • serre t c := by
  refine BElem.lin_ext_supported (R := R) (f := sgn cdim) (g := sg R (cdim c) • LinearMap.id) ?_ (serre_supported t c)
  intro k hk
  rw [sgn_single, one_mul, hk.2]
  rfl

/-! ### coassociativity -/

theorem tL_cat (u v : CKey →₀ R) : tL (cat u v) = cat (tL u) (pre 1 v) + cat (pre 0 (sgn cdim u)) (tL v) := by
  induction u using Finsupp.induction_linear with
  | zero => simp
  | add f g hf hg => simp only [map_add, LinearMap.add_apply, hf, hg]; abel
  | single k r =>
    rw [single_eq_smul_bv]
    simp only [map_smul, LinearMap.smul_apply, ← smul_add]
    congr 1
    induction k with
    | nil => simp [tK, totDeg]
    | cons a k ih =>
      have h1 : bv R (a :: k) = consV a (bv R k) := by simp
      have h2 : ∀ u : CKey →₀ R, cat (consV a u) v = consV a (cat u v) := by
        intro u; rw [consV_eq_cat, consV_eq_cat, cat_assoc]
      have h3 : sgn cdim (consV a (bv R k)) = sg R (cdim a) • consV a (sgn cdim (bv R k)) := by
        simp only [consV_single, sgn_single, one_mul, map_smul, totDeg, sg_add, smul_smul]
      rw [h1, h2, tL_consV, tL_consV, ih, h3, map_smul, pre_consV, pre_cat, map_add, map_add, LinearMap.add_apply, map_smul,
        LinearMap.smul_apply, map_smul, LinearMap.smul_apply]
      have h4 : ∀ (b : Cube) (u w : CKey →₀ R), cat (consV b u) w = consV b (cat u w) := by
        intro b u w; rw [consV_eq_cat, consV_eq_cat, cat_assoc]
      rw [h4, h4, h4, smul_add, add_assoc]

theorem atL_serre_pre {e : Nat} (he : e ≠ 2) (b j : Nat) (v : CKey →₀ R) :
    atL (serre b) j (pre e v) = pre e (atL (serre b) j v) := by
  induction v using Finsupp.induction_linear with
  | zero => simp
  | add f g hf hg => simp only [map_add, hf, hg]
  | single k r =>
    rw [single_eq_smul_bv]
    simp only [map_smul]
    congr 1
    simp only [mapK_single, atL_single, one_smul]
    induction k generalizing j with
    | nil => cases j <;> simp [atK]
    | cons a k ih =>
      cases j with
      | zero => rw [List.map_cons, atK, atK, pre_cat, serre, if_neg he]; simp
      | succ j => rw [List.map_cons, atK, atK, pre_consV, ih]

theorem atL_serre_tL (b j : Nat) (v : CKey →₀ R) :
    atL (serre b) j (tL v) = tL (atL (serre b) j v) := by
  induction v using Finsupp.induction_linear with
  | zero => simp
  | add f g hf hg => simp only [map_add, hf, hg]
  | single k r =>
    rw [single_eq_smul_bv]
    simp only [map_smul]
    congr 1
    simp only [tL_single, atL_single, one_smul]
    induction k generalizing j with
    | nil => cases j <;> simp [atK, tK]
    | cons a k ih =>
      cases j with
      | zero =>
        have h0 : ∀ (b' : Cube) (w : CKey →₀ R), atL (serre (R := R) b) 0 (consV b' w) = cat (serre b b') w := by
          intro b' w
          rw [consV_eq_cat, show bv R [b'] = one (bv R b') by simp, atL_cat_one_zero]; simp
        have h2 : bv R ((2 :: a) :: k.map (1 :: ·)) = consV (2 :: a) (bv R (k.map (1 :: ·))) := by simp
        rw [tK, atK, h2, map_add, map_smul, h0, h0, tL_cat, sgn_serre, serre, if_pos rfl, serre, if_neg (by decide)]
        simp
      | succ j =>
        have h2 : bv R ((2 :: a) :: k.map (1 :: ·)) = consV (2 :: a) (pre 1 (bv R k)) := by simp
        rw [tK, atK, h2, map_add, map_smul, atL_consV, atL_consV, ih, tL_consV, atL_serre_pre (by decide)]
        simp

theorem atL_serre_serre (a b j : Nat) (hj : j ≤ a) (c : Cube) :
    atL (serre (R := R) b) j (serre a c) = serre (a + b) c := by
  induction c with
  | nil =>
    rw [serre, serre, atL_single, one_smul]
    have : ∀ (n j : Nat), j < n → atK (serre (R := R) b) j (List.replicate n []) = bv R (List.replicate (n + b) []) := by
      intro n
      induction n with
      | zero => intro j h; omega
      | succ n ih =>
        intro j h
        cases j with
        | zero =>
          rw [List.replicate_succ, atK, serre, cat_single_single, mul_one, ← List.replicate_add]
          congr 2; omega
        | succ j =>
          rw [List.replicate_succ, atK, ih j (by omega), consV_single, ← List.replicate_succ]
          congr 2; omega
    rw [this _ _ (by omega)]
    congr 2; omega
  | cons e c ih =>
    by_cases h : e = 2
    · rw [serre, if_pos h, serre, if_pos h, atL_serre_tL, ih]
    · rw [serre, if_neg h, serre, if_neg h, atL_serre_pre h, ih]

end Comch.Serre

namespace Comch
open Finsupp (single)
variable {R : Type} [CommRing R] {A : Type}

/-- Applying a map inside the first factor of a concatenation. -/
theorem atL_cat_left (f : A → (List A →₀ R)) (j : Nat) {u : List A →₀ R} (v : List A →₀ R)
    (hu : u ∈ Finsupp.supported R R {m : List A | j < m.length}) :
    atL f j (cat u v) = cat (atL f j u) v := by
  refine BElem.lin_ext_supported (R := R) (f := (atL f j).comp ((cat (R := R) (A := A)).flip v))
    (g := ((cat (R := R) (A := A)).flip v).comp (atL f j)) ?_ hu
  intro m hm
  replace hm : j < m.length := hm
  simp only [LinearMap.comp_apply, LinearMap.flip_apply, atL_single, one_smul]
  clear hu
  induction m generalizing j with
  | nil => simp at hm
  | cons e m ih =>
    have h1 : cat (bv R (e :: m)) v = consV e (cat (bv R m) v) := by
      rw [consV_eq_cat, ← cat_assoc]; simp
    rw [h1]
    cases j with
    | zero =>
      rw [consV_eq_cat, show bv R [e] = one (bv R e) by simp, atL_cat_one_zero, atK, cat_assoc]; simp
    | succ j =>
      rw [atL_consV, ih j (by simpa using hm), atK, consV_eq_cat,
        consV_eq_cat, cat_assoc]

/-- A map applied inside the image of another one. -/
theorem atL_atL_inside (f g h : A → (List A →₀ R)) (j : Nat)
    (hf : ∀ a, f a ∈ Finsupp.supported R R {m : List A | j < m.length})
    (hg : ∀ a, atL g j (f a) = h a) (c : Nat) (v : List A →₀ R) :
    atL g (c + j) (atL f c v) = atL h c v := by
  induction v using Finsupp.induction_linear with
  | zero => simp
  | add f g hf hg => simp only [map_add, hf, hg]
  | single k r =>
    simp only [atL_single, map_smul]
    congr 1
    induction k generalizing c with
    | nil => cases c <;> simp [atK]
    | cons q k ih =>
      cases c with
      | zero => rw [atK, atK, zero_add, atL_cat_left _ _ _ (hf q), hg]
      | succ c => rw [show c + 1 + j = (c + j) + 1 by ring, atK, atL_consV, ih, atK]

end Comch
