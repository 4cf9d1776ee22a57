import Verif.Lib.Serre
import Verif.Lib.AW
import Verif.Lib.Simplicial

/-! # The Cartan–Serre collapse as a linear map -/

set_option linter.unusedSectionVars false

namespace Comch.Serre
open Finsupp (single)

variable {R : Type} [CommRing R]

/-! ### tensor powers of a map -/

section TM
variable {A B : Type}

/-- Apply `f` to every factor. -/
noncomputable def tmK (f : A → (B →₀ R)) : List A → (List B →₀ R)
  | [] => bv R []
  | a :: k => cat (one (f a)) (tmK f k)

noncomputable def tm (f : A → (B →₀ R)) : (List A →₀ R) →ₗ[R] (List B →₀ R) := lin (tmK f)

@[simp] theorem tm_single (f : A → (B →₀ R)) (k : List A) (r : R) : tm f (single k r) = r • tmK f k := by simp [tm]

theorem tmK_append (f : A → (B →₀ R)) (k l : List A) : tmK f (k ++ l) = cat (tmK f k) (tmK f l) := by
  induction k with
  | nil => simp [tmK]
  | cons a k ih => rw [List.cons_append, tmK, tmK, ih, cat_assoc]

theorem tm_cat (f : A → (B →₀ R)) (u v : List A →₀ R) : tm f (cat u v) = cat (tm f u) (tm f v) := by
  induction u using Finsupp.induction_linear with
  | zero => simp
  | add f g hf hg => simp only [map_add, LinearMap.add_apply, hf, hg]
  | single k r =>
    induction v using Finsupp.induction_linear with
    | zero => simp
    | add f g hf hg => simp only [map_add, hf, hg]
    | single l s =>
      rw [cat_single_single, tm_single, tm_single, tm_single, tmK_append]
      simp only [map_smul, LinearMap.smul_apply, smul_smul]
      rw [mul_comm]

theorem tm_one (f : A → (B →₀ R)) (u : A →₀ R) : tm f (one u) = one (lin f u) := by
  induction u using Finsupp.induction_linear with
  | zero => simp
  | add f g hf hg => simp only [map_add, hf, hg]
  | single a r => simp [tmK]

theorem tm_consV (f : A → (B →₀ R)) (a : A) (v : List A →₀ R) : tm f (consV a v) = cat (one (f a)) (tm f v) := by
  have : consV a v = cat (one (bv R a)) v := by rw [consV_eq_cat]; simp
  rw [this, tm_cat, tm_one]; simp

/-- A chain map modulo dropped factors gives a chain map of tensor powers. -/
theorem pr_tens_tm {d : A → (A →₀ R)} {deg : A → Int} {d' : B → (B →₀ R)} {deg' : B → Int} {f : A → (B →₀ R)}
    {dr : B → Bool} (hf : ∀ a, pr dr (lin d' (f a)) = pr dr (lin f (d a)))
    (hs : ∀ a, sgn1 deg' (f a) = sg R (deg a) • f a) (v : List A →₀ R) :
    pr (fun k => k.any dr) (tens d' deg' (tm f v)) = pr (fun k => k.any dr) (tm f (tens d deg v)) := by
  induction v using Finsupp.induction_linear with
  | zero => simp
  | add f g hf hg => simp only [map_add, hf, hg]
  | single k r =>
    simp only [tm_single, tens_single, map_smul]
    congr 1
    induction k with
    | nil => simp [tmK, tensK]
    | cons a k ih =>
      have e1 : tm f (bv R k) = tmK f k := by simp
      rw [tmK, tensK, tens_cat, map_add, map_add, map_add, pr_any_cat, pr_any_cat, tens_one, ← one_sgn1, hs, ih,
        tm_cat, pr_any_cat, tm_one, e1]
      simp only [map_smul, LinearMap.smul_apply, tm_consV, pr_any_cat, pr_any_one, hf]

end TM

/-! ### one factor -/

/-- Add one to all vertices. -/
noncomputable abbrev sh : (Simplex →₀ R) →ₗ[R] (Simplex →₀ R) := mapK (List.map (· + 1))

/-- The collapse of a cube, zero when the dimension drops. -/
noncomputable def cs1 : Cube → (Simplex →₀ R)
  | [] => bv R [0]
  | e :: c => if e = 2 then consV 0 (sh (cs1 c)) else if e = 0 then (if cdim c = 0 then bv R [0] else 0)
    else sh (cs1 c)

theorem cartanSerre_nil : Cube.cartanSerre [] = [0] := rfl

theorem cartanSerre_zero (c : Cube) : Cube.cartanSerre (0 :: c) = [0] := by
  simp [Cube.cartanSerre]

theorem cartanSerre_cons {e : Nat} (he : e ≠ 0) (c : Cube) :
    Cube.cartanSerre (e :: c) = if e = 2 then 0 :: (Cube.cartanSerre c).map (· + 1)
      else (Cube.cartanSerre c).map (· + 1) := by
  have h1 : ((e :: c).contains 0) = c.contains 0 := by
    simp [List.contains_cons, Ne.symm he]
  have h2 : (e :: c).idxOf 0 = c.idxOf 0 + 1 := by rw [List.idxOf_cons_ne _ he]
  have h3 : (if (e :: c).contains 0 then (e :: c).idxOf 0 else (e :: c).length) =
      (if c.contains 0 then c.idxOf 0 else c.length) + 1 := by
    rw [h1, h2]
    split <;> simp
  unfold Cube.cartanSerre
  rw [h3]
  generalize (if c.contains 0 then c.idxOf 0 else c.length) = N
  simp only [Cube.intervals_cons]
  split
  · simp [List.filter_map, Function.comp_def]
  · simp [List.filter_map, Function.comp_def]

theorem cartanSerre_ne_nil (c : Cube) : Cube.cartanSerre c ≠ [] := by simp [Cube.cartanSerre]

theorem dim_cartanSerre_le (c : Cube) : Simplex.dimension (Cube.cartanSerre c) ≤ cdim c := by
  induction c with
  | nil => simp [cartanSerre_nil, Simplex.dimension]
  | cons e c ih =>
    rw [cdim_cons]
    by_cases h0 : e = 0
    · subst h0
      rw [cartanSerre_zero]
      simp [Simplex.dimension]
    · rw [cartanSerre_cons h0]
      split
      · rw [dim_cons]
        simp only [Simplex.dimension, List.length_map] at ih ⊢
        omega
      · simp only [Simplex.dimension, List.length_map] at ih ⊢
        omega

theorem cs1_eq (c : Cube) : cs1 (R := R) c =
    if cdim c = Simplex.dimension (Cube.cartanSerre c) then bv R (Cube.cartanSerre c) else 0 := by
  induction c with
  | nil => simp [cs1, cartanSerre_nil, Simplex.dimension, Cube.dimension]
  | cons e c ih =>
    rw [cs1]
    by_cases h2 : e = 2
    · subst h2
      rw [if_pos rfl, ih, cartanSerre_cons (by decide), if_pos rfl, cdim_cons, if_pos rfl, dim_cons]
      have : Simplex.dimension ((Cube.cartanSerre c).map (· + 1)) = Simplex.dimension (Cube.cartanSerre c) := by
        simp [Simplex.dimension]
      rw [this]
      by_cases h : cdim c = Simplex.dimension (Cube.cartanSerre c)
      · rw [if_pos h, if_pos (by omega)]; simp
      · rw [if_neg h, if_neg (by omega)]; simp
    · rw [if_neg h2, cdim_cons, if_neg h2, add_zero]
      by_cases h0 : e = 0
      · subst h0
        rw [if_pos rfl, cartanSerre_zero]
        simp [Simplex.dimension]
      · rw [if_neg h0, ih, cartanSerre_cons h0, if_neg h2]
        have : Simplex.dimension ((Cube.cartanSerre c).map (· + 1)) = Simplex.dimension (Cube.cartanSerre c) := by
          simp [Simplex.dimension]
        rw [this]
        split <;> simp

theorem sgn1_cs1 (c : Cube) : sgn1 Simplex.dimension (cs1 (R := R) c) = sg R (cdim c) • cs1 c := by
  rw [cs1_eq]
  split
  · rename_i h
    rw [h]; simp [sgn1]
  · simp

theorem lin_cs1_consV_two (v : Cube →₀ R) : lin cs1 (consV 2 v) = consV 0 (sh (lin cs1 v)) := by
  induction v using Finsupp.induction_linear with
  | zero => simp
  | add f g hf hg => simp only [map_add, hf, hg]
  | single k a => simp [cs1]

theorem lin_cs1_consV_ne {e : Nat} (h2 : e ≠ 2) (h0 : e ≠ 0) (v : Cube →₀ R) :
    lin cs1 (consV e v) = sh (lin cs1 v) := by
  induction v using Finsupp.induction_linear with
  | zero => simp
  | add f g hf hg => simp only [map_add, hf, hg]
  | single k a => simp [cs1, h2, h0]

/-- The augmentation of cubes. -/
noncomputable def eps : (Cube →₀ R) →ₗ[R] R := Finsupp.linearCombination R fun c => if cdim c = 0 then 1 else 0

@[simp] theorem eps_single (c : Cube) (r : R) : eps (single c r) = if cdim c = 0 then r else 0 := by
  simp [eps]

theorem lin_cs1_consV_zero (v : Cube →₀ R) : lin cs1 (consV 0 v) = eps v • bv R [0] := by
  induction v using Finsupp.induction_linear with
  | zero => simp
  | add f g hf hg => simp only [map_add, hf, hg, add_smul]
  | single k a =>
    simp only [consV_single, lin_single, eps_single, cs1]
    split <;> simp_all

theorem eps_consV (e : Nat) (v : Cube →₀ R) : eps (consV e v) = if e = 2 then 0 else eps v := by
  induction v using Finsupp.induction_linear with
  | zero => simp
  | add f g hf hg => simp only [map_add, hf, hg]; split <;> simp
  | single k a =>
    simp only [consV_single, eps_single]
    rw [cdim_cons]
    split
    · rw [if_neg]; have := Int.natCast_nonneg (Cube.dimension k); simp only [cdim]; omega
    · simp

theorem eps_cubeD (c : Cube) : eps (cubeD (R := R) c) = 0 := by
  induction c with
  | nil => simp [cubeD]
  | cons e c ih =>
    rw [cubeD]
    split
    · rw [map_sub, map_sub, eps_consV, if_pos rfl]
      simp [cdim_cons]
    · rw [eps_consV, ih]; simp

theorem delK_sh (s : Simplex) : delK (R := R) (s.map (· + 1)) = sh (delK s) := by
  rw [BElem.delK_map]

theorem lin_delK_sh (v : Simplex →₀ R) : lin delK (sh v) = sh (lin delK v) := by
  induction v using Finsupp.induction_linear with
  | zero => simp
  | add f g hf hg => simp only [map_add, hf, hg]
  | single k r => simp [delK_sh]

theorem lin_delK_consV (a : Nat) (v : Simplex →₀ R) : lin delK (consV a v) = v - consV a (lin delK v) := by
  induction v using Finsupp.induction_linear with
  | zero => simp
  | add f g hf hg => simp only [map_add, hf, hg]; abel
  | single k r =>
    rw [single_eq_smul_bv]
    simp only [map_smul, ← smul_sub]
    congr 1
    simp [delK]

/-- The collapse is a chain map of augmented complexes. -/
theorem delK_cs1 (c : Cube) :
    lin delK (cs1 (R := R) c) = lin cs1 (cubeD c) + (if cdim c = 0 then bv R [] else 0) := by
  induction c with
  | nil => simp [cs1, cubeD, delK, Cube.dimension]
  | cons e c ih =>
    have hpos := Int.natCast_nonneg (Cube.dimension c)
    rw [cs1, cubeD]
    by_cases h2 : e = 2
    · subst h2
      have hc : ¬ cdim (2 :: c) = 0 := by rw [cdim_two]; simp only [cdim]; omega
      rw [if_pos rfl, if_pos rfl, lin_delK_consV, lin_delK_sh, ih, map_sub, map_sub, lin_cs1_consV_two, if_neg hc,
        add_zero]
      have e1 : lin cs1 (bv R (1 :: c)) = sh (cs1 (R := R) c) := by simp [cs1]
      have e0 : lin cs1 (bv R (0 :: c)) = if cdim c = 0 then bv R [0] else 0 := by simp [cs1]
      rw [e1, e0]
      simp only [map_add]
      split
      · simp; abel
      · simp
    · rw [if_neg h2, if_neg h2, cdim_cons, if_neg h2, add_zero]
      by_cases h0 : e = 0
      · subst h0
        rw [if_pos rfl, lin_cs1_consV_zero, eps_cubeD]
        split <;> simp [delK]
      · rw [if_neg h0, lin_cs1_consV_ne h2 h0, lin_delK_sh, ih, map_add]
        split <;> simp

/-! ### compatibility with diagonals -/

/-- Put the vertex 0 in front, at the first possible places. -/
noncomputable def wK : SKey → (SKey →₀ R)
  | [] => 0
  | s :: k => bv R ((0 :: s) :: k) + if s.length = 1 then consV [0] (wK k) else 0

noncomputable def wL : (SKey →₀ R) →ₗ[R] (SKey →₀ R) := lin wK

@[simp] theorem wL_single (k : SKey) (r : R) : wL (single k r) = r • wK k := by simp [wL]

theorem wL_consV (s : Simplex) (v : SKey →₀ R) :
    wL (consV s v) = consV (0 :: s) v + if s.length = 1 then consV [0] (wL v) else 0 := by
  induction v using Finsupp.induction_linear with
  | zero => simp
  | add f g hf hg =>
    simp only [map_add, hf, hg]
    split
    · abel
    · simp
  | single k r =>
    simp only [consV_single, wL_single, wK, smul_add]
    split <;> simp

/-- shift of all factors -/
noncomputable abbrev shT : (SKey →₀ R) →ₗ[R] (SKey →₀ R) := mapK (List.map (List.map (· + 1)))

theorem shT_cat (u v : SKey →₀ R) : shT (cat u v) = cat (shT u) (shT v) := by
  induction u using Finsupp.induction_linear with
  | zero => simp
  | add f g hf hg => simp only [map_add, LinearMap.add_apply, hf, hg]
  | single k r =>
    induction v using Finsupp.induction_linear with
    | zero => simp
    | add f g hf hg => simp only [map_add, hf, hg]
    | single m s => simp

theorem shT_one (u : Simplex →₀ R) : shT (one u) = one (sh u) := by
  induction u using Finsupp.induction_linear with
  | zero => simp
  | add f g hf hg => simp only [map_add, hf, hg]
  | single k r => simp

theorem tm_pre_ne {e : Nat} (h2 : e ≠ 2) (h0 : e ≠ 0) (v : CKey →₀ R) : tm cs1 (pre e v) = shT (tm cs1 v) := by
  induction v using Finsupp.induction_linear with
  | zero => simp
  | add f g hf hg => simp only [map_add, hf, hg]
  | single k r =>
    simp only [mapK_single, tm_single, map_smul]
    congr 1
    induction k with
    | nil => simp [tmK]
    | cons a k ih =>
      rw [List.map_cons, tmK, tmK, ih, shT_cat, shT_one, cs1, if_neg h2, if_neg h0]

theorem wL_cat_zero (S : Simplex) (v : SKey →₀ R) :
    wL (cat (one (bv R S)) v) = consV (0 :: S) v + if S.length = 1 then consV [0] (wL v) else 0 := by
  rw [← wL_consV]
  congr 1
  rw [consV_eq_cat]; simp

theorem cs1_ne_zero_of (a : Cube) (h : cs1 (R := R) a ≠ 0 ∨ cdim a = 0) :
    cs1 (R := R) a = bv R (Cube.cartanSerre a) ∧ cdim a = Simplex.dimension (Cube.cartanSerre a) := by
  rw [cs1_eq] at h ⊢
  by_cases e : cdim a = Simplex.dimension (Cube.cartanSerre a)
  · exact ⟨if_pos e, e⟩
  · rcases h with h | h
    · exact absurd (if_neg e) h
    · exfalso
      apply e
      have h1 := dim_cartanSerre_le a
      have h2 := List.length_pos_iff.2 (cartanSerre_ne_nil a)
      rw [h] at h1 ⊢
      simp only [Simplex.dimension] at h1 ⊢
      omega

theorem tm_tK (k : CKey) : tm (R := R) cs1 (tK k) = wL (shT (tmK cs1 k)) := by
  induction k with
  | nil => simp [tK, tmK, wK]
  | cons a k ih =>
    have e1 : tmK (R := R) cs1 (k.map (1 :: ·)) = shT (tmK cs1 k) := by
      have := tm_pre_ne (R := R) (e := 1) (by decide) (by decide) (bv R k)
      simpa using this
    rw [tK, map_add, tm_single, one_smul, tmK, e1, map_smul, tm_consV, ih, tmK, shT_cat, shT_one]
    by_cases h : cs1 (R := R) a ≠ 0 ∨ cdim a = 0
    · obtain ⟨h1, h2⟩ := cs1_ne_zero_of a h
      have e2 : cs1 (R := R) (2 :: a) = bv R (0 :: (Cube.cartanSerre a).map (· + 1)) := by
        rw [cs1, if_pos rfl, h1]; simp
      have e3 : sh (cs1 (R := R) a) = bv R ((Cube.cartanSerre a).map (· + 1)) := by rw [h1]; simp
      rw [e2, e3, wL_cat_zero, consV_eq_cat, one_single]
      congr 1
      have e4 : ((Cube.cartanSerre a).map (· + 1)).length = 1 ↔ cdim a = 0 := by
        rw [h2, List.length_map, Simplex.dimension]; omega
      simp only [e4]
      rw [cs1, if_neg (by decide), if_pos rfl]
      by_cases h5 : cdim a = 0
      · rw [if_pos h5, if_pos h5, h5, sg_zero, one_smul, consV_eq_cat, one_single]
      · rw [if_neg h5, if_neg h5]; simp
    · rw [not_or, not_not] at h
      have e2 : cs1 (R := R) (2 :: a) = 0 := by rw [cs1, if_pos rfl, h.1]; simp
      have e3 : cs1 (R := R) (0 :: a) = 0 := by rw [cs1, if_neg (by decide), if_pos rfl, if_neg h.2]
      rw [e2, e3, h.1]
      simp

theorem tm_tL (v : CKey →₀ R) : tm cs1 (tL v) = wL (shT (tm cs1 v)) := by
  induction v using Finsupp.induction_linear with
  | zero => simp
  | add f g hf hg => simp only [map_add, hf, hg]
  | single k r => simp only [tL_single, tm_single, map_smul, tm_tK]

theorem wL_preV_preV (b a : Nat) (v : SKey →₀ R) : wL (preV b (preV a v)) = preV 0 (preV b (preV a v)) := by
  induction v using Finsupp.induction_linear with
  | zero => simp
  | add f g hf hg => simp only [map_add, hf, hg]
  | single k r => cases k <;> simp [preK, wK]

theorem aw_zero_cons (t : Nat) (s : Simplex) (hs : s ≠ []) : aw (R := R) t (0 :: s) = wL (aw t s) := by
  induction t with
  | zero => simp [aw_zero, wK]
  | succ t ih =>
    rw [aw_cons, ih]
    cases s with
    | nil => exact absurd rfl hs
    | cons b s =>
      rw [aw_cons t b s, map_add, map_add, wL_consV, if_pos (by simp), preV_consV]
      have : wL (preV b (aw (R := R) (t + 1) s)) = preV 0 (preV b (aw (t + 1) s)) := by
        cases s with
        | nil => simp [aw_nil]
        | cons a s =>
          rw [aw_cons t a s]
          simp only [map_add, wL_preV_preV, preV_consV, wL_consV]
          simp
      rw [this]
      abel

theorem shT_consV (s : Simplex) (v : SKey →₀ R) : shT (consV s v) = consV (s.map (· + 1)) (shT v) := by
  induction v using Finsupp.induction_linear with
  | zero => simp
  | add f g hf hg => simp only [map_add, hf, hg]
  | single k r => simp

theorem shT_preV (a : Nat) (v : SKey →₀ R) : shT (preV a v) = preV (a + 1) (shT v) := by
  induction v using Finsupp.induction_linear with
  | zero => simp
  | add f g hf hg => simp only [map_add, hf, hg]
  | single k r => cases k <;> simp [preK]

theorem shT_aw (t : Nat) (s : Simplex) : shT (aw (R := R) t s) = aw t (s.map (· + 1)) := by
  induction t generalizing s with
  | zero => simp [aw_zero]
  | succ t iht =>
    induction s with
    | nil => simp [aw_nil]
    | cons a s ihs => rw [aw_cons, List.map_cons, aw_cons, map_add, shT_consV, shT_preV, iht, ihs]; rfl

theorem aw_vertex (t a : Nat) : aw (R := R) t [a] = bv R (List.replicate (t + 1) [a]) := by
  induction t with
  | zero => simp [aw_zero]
  | succ t ih => rw [aw_cons, ih, aw_nil]; simp [List.replicate_succ]

theorem serre_dim_zero (t : Nat) (c : Cube) (h : cdim c = 0) : serre (R := R) t c = bv R (List.replicate (t + 1) c) := by
  induction c with
  | nil => rfl
  | cons e c ih =>
    have hpos := Int.natCast_nonneg (Cube.dimension c)
    rw [cdim_cons] at h
    have h2 : e ≠ 2 := by rintro rfl; rw [if_pos rfl] at h; simp only [cdim] at h; omega
    rw [if_neg h2, add_zero] at h
    rw [serre, if_neg h2, ih h]
    simp

theorem tmK_zero_vertex (c : Cube) (h : cdim c = 0) (n : Nat) :
    tmK (R := R) cs1 (List.replicate n (0 :: c)) = bv R (List.replicate n [0]) := by
  induction n with
  | zero => rfl
  | succ n ih =>
    rw [List.replicate_succ, tmK, ih, cs1, if_neg (by decide), if_pos rfl, if_pos h]
    simp [List.replicate_succ]

theorem tmK_zero (k : CKey) (h : totDeg cdim k ≠ 0) : tmK (R := R) cs1 (k.map (0 :: ·)) = 0 := by
  induction k with
  | nil => simp [totDeg] at h
  | cons a k ih =>
    rw [List.map_cons, tmK, cs1, if_neg (by decide), if_pos rfl]
    by_cases ha : cdim a = 0
    · rw [totDeg, ha, zero_add] at h
      rw [ih h]; simp
    · rw [if_neg ha]; simp

/-- The collapse takes the Serre diagonal to the Alexander-Whitney diagonal. -/
theorem tm_serre (t : Nat) (c : Cube) : tm (R := R) cs1 (serre t c) = lin (aw t) (cs1 c) := by
  induction c with
  | nil =>
    rw [serre, cs1, tm_single, one_smul, lin_single, one_smul, aw_vertex]
    have : ∀ n, tmK (R := R) cs1 (List.replicate n []) = bv R (List.replicate n [0]) := by
      intro n
      induction n with
      | zero => rfl
      | succ n ih => rw [List.replicate_succ, tmK, ih, cs1]; simp [List.replicate_succ]
    exact this _
  | cons e c ih =>
    by_cases h2 : e = 2
    · subst h2
      rw [serre, if_pos rfl, tm_tL, ih, cs1, if_pos rfl]
      by_cases h : cs1 (R := R) c ≠ 0 ∨ cdim c = 0
      · obtain ⟨h1, -⟩ := cs1_ne_zero_of c h
        rw [h1]
        simp only [mapK_single, consV_single, lin_single, one_smul]
        rw [shT_aw, aw_zero_cons _ _ (by simpa using cartanSerre_ne_nil c)]
      · rw [not_or, not_not] at h
        rw [h.1]; simp
    · rw [serre, if_neg h2, cs1, if_neg h2]
      by_cases h0 : e = 0
      · subst h0
        rw [if_pos rfl]
        by_cases hd : cdim c = 0
        · rw [if_pos hd, serre_dim_zero t c hd, mapK_single, tm_single, List.map_replicate, tmK_zero_vertex c hd]
          simp [aw_vertex]
        · rw [if_neg hd, map_zero]
          refine BElem.lin_ext_supported (R := R) (f := (tm cs1).comp (pre 0)) (g := 0) ?_ (serre_supported t c)
          intro k hk
          rw [LinearMap.comp_apply, mapK_single, tm_single, tmK_zero k (by rw [hk.2]; exact hd)]
          simp
      · rw [if_neg h0, tm_pre_ne h2 h0, ih]
        by_cases h : cs1 (R := R) c ≠ 0 ∨ cdim c = 0
        · obtain ⟨h1, -⟩ := cs1_ne_zero_of c h
          rw [h1]
          simp [shT_aw]
        · rw [not_or, not_not] at h
          rw [h.1]; simp

theorem tm_atL {A B : Type} {f : A → (B →₀ R)} {g : A → (List A →₀ R)} {h : B → (List B →₀ R)}
    (hg : ∀ a, tm f (g a) = lin h (f a)) (c : Nat) (v : List A →₀ R) :
    tm f (atL g c v) = atL h c (tm f v) := by
  induction v using Finsupp.induction_linear with
  | zero => simp
  | add f g hf hg => simp only [map_add, hf, hg]
  | single k r =>
    simp only [atL_single, tm_single, map_smul]
    congr 1
    induction k generalizing c with
    | nil => cases c <;> simp [atK, tmK]
    | cons a k ih =>
      cases c with
      | zero => rw [atK, tm_cat, hg, tmK, atL_cat_one_zero]; simp
      | succ c => rw [atK, tm_consV, ih, tmK, atL_cat_one_succ]

/-- The collapse of a tensor. -/
theorem tmK_cs1 (k : CKey) : tmK (R := R) cs1 k =
    if (CElem.keyDegree k : Int) = SElem.keyDegree (k.map Cube.cartanSerre) then bv R (k.map Cube.cartanSerre) else 0 := by
  have hle : ∀ k : CKey, SElem.keyDegree (k.map Cube.cartanSerre) ≤ (CElem.keyDegree k : Int) := by
    intro k
    induction k with
    | nil => simp [SElem.keyDegree, CElem.keyDegree]
    | cons a k ih =>
      have := dim_cartanSerre_le a
      simp only [SElem.keyDegree, CElem.keyDegree, List.map_cons, List.sum_cons, cdim] at ih this ⊢
      rw [Nat.cast_add]
      omega
  induction k with
  | nil => simp [tmK, SElem.keyDegree, CElem.keyDegree]
  | cons a k ih =>
    have h1 := hle k
    have h2 := dim_cartanSerre_le a
    rw [tmK, ih, cs1_eq]
    have e1 : (CElem.keyDegree (a :: k) : Int) = cdim a + CElem.keyDegree k := by
      simp [CElem.keyDegree, cdim]
    have e2 : SElem.keyDegree ((a :: k).map Cube.cartanSerre) =
        Simplex.dimension (Cube.cartanSerre a) + SElem.keyDegree (k.map Cube.cartanSerre) := by
      simp [SElem.keyDegree]
    rw [e1, e2]
    by_cases a1 : cdim a = Simplex.dimension (Cube.cartanSerre a)
    · by_cases a2 : (CElem.keyDegree k : Int) = SElem.keyDegree (k.map Cube.cartanSerre)
      · rw [if_pos a1, if_pos a2, if_pos (by omega)]; simp
      · have a3 : ¬ cdim a + CElem.keyDegree k =
          Simplex.dimension (Cube.cartanSerre a) + SElem.keyDegree (k.map Cube.cartanSerre) := by omega
        rw [if_neg a2, if_neg a3]; simp
    · have a3 : ¬ cdim a + CElem.keyDegree k =
          Simplex.dimension (Cube.cartanSerre a) + SElem.keyDegree (k.map Cube.cartanSerre) := by omega
      rw [if_neg a1, if_neg a3]; simp

end Comch.Serre
