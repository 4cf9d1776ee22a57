import Verif.Lib.CartanSerre
import Verif.Lib.Bilin
import Mathlib.Tactic.Module
import Mathlib.Tactic.LinearCombination

/-! # The join of cubes as a linear map -/

set_option linter.unusedSectionVars false

namespace Comch.Join
open Finsupp (single)
open Serre (eps eps_single eps_consV eps_cubeD)

variable {R : Type} [CommRing R]

/-- The join of two end points of the interval. -/
def cj (e f : Nat) : Int := if e = 0 ∧ f = 1 then 1 else if e = 1 ∧ f = 0 then -1 else 0

/-- The join of two cubes. -/
noncomputable def j2 : Cube → Cube → (Cube →₀ R)
  | e :: x, f :: y => (if cdim x = 0 then (cj e f : R) • bv R (2 :: y) else 0) +
      if f = 2 then 0 else (if e = 2 then (-1 : R) else 1) • consV e (j2 x y)
  | _, _ => 0

theorem bil_j2_consV (e f : Nat) (u v : Cube →₀ R) :
    bil j2 (consV e u) (consV f v) = (eps u * (cj e f : R)) • consV 2 v +
      if f = 2 then 0 else (if e = 2 then (-1 : R) else 1) • consV e (bil j2 u v) := by
  induction u using Finsupp.induction_linear with
  | zero => simp
  | add f g hf hg =>
    simp only [map_add, LinearMap.add_apply, hf, hg, add_mul]
    split
    · module
    · module
  | single x r =>
    induction v using Finsupp.induction_linear with
    | zero => simp
    | add f g hf hg =>
      simp only [map_add, hf, hg]
      split
      · module
      · module
    | single y s =>
      simp only [consV_single, bil_single, eps_single, j2]
      by_cases h1 : cdim x = 0
      · simp only [h1, if_true]
        split
        · rw [single_eq_smul_bv _ s]; module
        · rw [single_eq_smul_bv _ s, map_smul]; module
      · simp only [h1, if_false]
        split
        · module
        · rw [map_smul]; module

/-- The entries of a cube. -/
def IsCube (n : Nat) (x : Cube) : Prop := x.length = n ∧ ∀ e ∈ x, e ≤ 2

theorem consV_bv (e : Nat) (x : Cube) : bv R (e :: x) = consV e (bv R x) := by simp

/-- The join is a homotopy. -/
theorem cubeD_j2 {n : Nat} {x y : Cube} (hx : IsCube n x) (hy : IsCube n y) :
    lin cubeD (j2 (R := R) x y) = eps (bv R x) • bv R y - eps (bv R y) • bv R x -
      bil j2 (cubeD x) (bv R y) - sg R (cdim x) • bil j2 (bv R x) (cubeD y) := by
  induction n generalizing x y with
  | zero =>
    obtain rfl := List.length_eq_zero_iff.1 hx.1
    obtain rfl := List.length_eq_zero_iff.1 hy.1
    simp [j2, cubeD]
  | succ n ih =>
    obtain ⟨e, x, rfl⟩ := List.exists_cons_of_length_pos (l := x) (by rw [hx.1]; omega)
    obtain ⟨f, y, rfl⟩ := List.exists_cons_of_length_pos (l := y) (by rw [hy.1]; omega)
    have hx' : IsCube n x := ⟨by simpa using hx.1, fun e he => hx.2 e (by simp [he])⟩
    have hy' : IsCube n y := ⟨by simpa using hy.1, fun e he => hy.2 e (by simp [he])⟩
    have ih := ih hx' hy'
    have he : e ≤ 2 := hx.2 e (by simp)
    have hf : f ≤ 2 := hy.2 f (by simp)
    have hb : j2 (R := R) (e :: x) (f :: y) = bil j2 (consV e (bv R x)) (consV f (bv R y)) := by simp
    have hj : j2 (R := R) x y = bil j2 (bv R x) (bv R y) := by simp
    have hs : eps (bv R x) * sg R (cdim x) = eps (bv R x) := by
      rw [eps_single]
      split
      · rename_i h; rw [h]; simp
      · simp
    have hD2 : ∀ c : Cube, cubeD (R := R) (2 :: c) = consV 1 (bv R c) - consV 0 (bv R c) - consV 2 (cubeD c) := by
      intro c; rw [cubeD, if_pos rfl]; simp
    have hDe : ∀ (e : Nat) (c : Cube), e ≠ 2 → cubeD (R := R) (e :: c) = consV e (cubeD c) := by
      intro e c he; rw [cubeD, if_neg he]
    rw [hj] at ih
    rw [hb, consV_bv, consV_bv, bil_j2_consV, map_add, map_smul, lin_cubeD_consV, if_pos rfl]
    have hDy : lin cubeD (bv R y) = cubeD (R := R) y := by simp
    rw [hDy]
    have he' : e = 0 ∨ e = 1 ∨ e = 2 := by omega
    have hf' : f = 0 ∨ f = 1 ∨ f = 2 := by omega
    have hsx : sg R (cdim (2 :: x)) = - sg R (cdim x) := by rw [Serre.cdim_two, sg_succ]
    have hs0 : sg R (cdim (0 :: x)) = sg R (cdim x) := by rw [Serre.cdim_cons_ne (by decide)]
    have hs1 : sg R (cdim (1 :: x)) = sg R (cdim x) := by rw [Serre.cdim_cons_ne (by decide)]
    clear hb hj hDy he hf hx hy hx' hy'
    have hD2x := hD2 x
    have hD2y := hD2 y
    have hDex := fun e => hDe e x
    have hDey := fun e => hDe e y
    have hedx := eps_cubeD (R := R) x
    clear hD2 hDe
    generalize bv R x = X at *
    generalize bv R y = Y at *
    generalize cubeD (R := R) x = DX at *
    generalize cubeD (R := R) y = DY at *
    rcases he' with rfl | rfl | rfl <;> rcases hf' with rfl | rfl | rfl <;>
      simp only [hD2x, hD2y, hDex, hDey, ne_eq, OfNat.zero_ne_ofNat, OfNat.one_ne_ofNat, not_false_eq_true,
        bil_j2_consV, eps_consV, cj, map_sub, map_add, map_smul, LinearMap.sub_apply, LinearMap.add_apply,
        lin_cubeD_consV, if_true, if_false, ih, hsx, hs0, hs1, hedx, and_true, true_and, and_false, false_and,
        one_ne_zero, zero_ne_one, OfNat.ofNat_ne_zero, OfNat.ofNat_ne_one, Int.cast_one, Int.cast_zero, Int.cast_neg,
        map_zero, and_self] <;>
      match_scalars <;> first | ring1 | (simp; done) | linear_combination hs | linear_combination -hs

theorem eps_j2 (x y : Cube) : eps (j2 (R := R) x y) = 0 := by
  induction x generalizing y with
  | nil => simp [j2]
  | cons e x ih =>
    cases y with
    | nil => simp [j2]
    | cons f y =>
      rw [j2, map_add]
      have h1 : eps (R := R) (if cdim x = 0 then ((cj e f : Int) : R) • bv R (2 :: y) else 0) = 0 := by
        split
        · rw [map_smul, consV_bv, eps_consV, if_pos rfl, smul_zero]
        · simp
      have h2 : eps (R := R) (if f = 2 then 0 else (if e = 2 then (-1 : R) else 1) • consV e (j2 x y)) = 0 := by
        split
        · simp
        · rw [map_smul, eps_consV, ih]; simp
      rw [h1, h2, add_zero]

/-- Cubes of one length and degree. -/
def CD (n : Nat) (d : Int) : Set Cube := {x | IsCube n x ∧ cdim x = d}

theorem j2_supported {n : Nat} {x y : Cube} (hx : IsCube n x) (hy : IsCube n y) :
    j2 (R := R) x y ∈ Finsupp.supported R R (CD n (cdim x + cdim y + 1)) := by
  induction n generalizing x y with
  | zero =>
    obtain rfl := List.length_eq_zero_iff.1 hx.1
    simp [j2]
  | succ n ih =>
    obtain ⟨e, x, rfl⟩ := List.exists_cons_of_length_pos (l := x) (by rw [hx.1]; omega)
    obtain ⟨f, y, rfl⟩ := List.exists_cons_of_length_pos (l := y) (by rw [hy.1]; omega)
    have hx' : IsCube n x := ⟨by simpa using hx.1, fun e he => hx.2 e (by simp [he])⟩
    have hy' : IsCube n y := ⟨by simpa using hy.1, fun e he => hy.2 e (by simp [he])⟩
    have hcons : ∀ (e : Nat) (z : Cube), e ≤ 2 → IsCube n z → IsCube (n + 1) (e :: z) := by
      intro e z he hz
      refine ⟨by simp [hz.1], ?_⟩
      intro a ha
      rcases List.mem_cons.1 ha with rfl | ha
      · exact he
      · exact hz.2 a ha
    rw [j2]
    apply Submodule.add_mem
    · split
      · rename_i h
        by_cases hc : cj e f = 0
        · simp [hc]
        · apply Submodule.smul_mem
          refine Finsupp.single_mem_supported R _ ⟨hcons 2 y le_rfl hy', ?_⟩
          have he : e ≠ 2 ∧ f ≠ 2 := by
            constructor <;> rintro rfl <;> simp [cj] at hc
          rw [Serre.cdim_two, Serre.cdim_cons_ne he.1, Serre.cdim_cons_ne he.2, h]
          ring
      · exact Submodule.zero_mem _
    · split
      · exact Submodule.zero_mem _
      · rename_i hf
        apply Submodule.smul_mem
        refine mapK_supported _ (fun z hz => ?_) (ih hx' hy')
        refine ⟨hcons e z (hx.2 e (by simp)) hz.1, ?_⟩
        rw [cdim_cons, cdim_cons, hz.2, Serre.cdim_cons_ne hf]
        ring

theorem sgn1_j2 {n : Nat} {x y : Cube} (hx : IsCube n x) (hy : IsCube n y) :
    sgn1 cdim (j2 (R := R) x y) = -((sg R (cdim x) * sg R (cdim y)) • j2 x y) := by
  refine BElem.lin_ext_supported (R := R) (f := sgn1 cdim) (g := (-(sg R (cdim x) * sg R (cdim y))) • LinearMap.id) ?_
    (j2_supported hx hy) |>.trans ?_
  · intro z hz
    rw [sgn1, lin_single, hz.2, sg_succ, sg_add]
    simp
  · simp

/-! ### several factors -/

/-- Join the factors of `k` to `v`, one after the other. -/
noncomputable def jnL : List Cube → ((Cube →₀ R) →ₗ[R] (Cube →₀ R))
  | [] => LinearMap.id
  | b :: k => (jnL k).comp ((bil j2).flip (bv R b))

theorem jnL_cons (b : Cube) (k : List Cube) (v : Cube →₀ R) : jnL (b :: k) v = jnL k (bil j2 v (bv R b)) := rfl

/-- The join of a tensor. -/
noncomputable def jn : CKey → (Cube →₀ R)
  | [] => 0
  | a :: k => jnL k (bv R a)

noncomputable def JN : (CKey →₀ R) →ₗ[R] (Cube →₀ R) := lin jn

@[simp] theorem JN_single (k : CKey) (r : R) : JN (single k r) = r • jn k := by simp [JN]

noncomputable def TJ : (Cube →₀ R) →ₗ[R] (CKey →₀ R) →ₗ[R] (Cube →₀ R) := bil fun a m => jnL m (bv R a)

theorem TJ_single (v : Cube →₀ R) (k : CKey) (r : R) : TJ v (single k r) = r • jnL k v := by
  induction v using Finsupp.induction_linear with
  | zero => simp
  | add f g hf hg => simp only [map_add, LinearMap.add_apply, hf, hg, smul_add]
  | single a s =>
    rw [TJ, bil_single, single_eq_smul_bv a s, map_smul, smul_smul, mul_comm]

theorem JN_cat_one (u : Cube →₀ R) (w : CKey →₀ R) : JN (cat (one u) w) = TJ u w := by
  induction u using Finsupp.induction_linear with
  | zero => simp
  | add f g hf hg => simp only [map_add, LinearMap.add_apply, hf, hg]
  | single a s =>
    induction w using Finsupp.induction_linear with
    | zero => simp
    | add f g hf hg => simp only [map_add, hf, hg]
    | single k r =>
      rw [one_single, cat_single_single, JN_single, TJ, bil_single]
      rfl

theorem JN_consV (a : Cube) (w : CKey →₀ R) : JN (consV a w) = TJ (bv R a) w := by
  rw [← JN_cat_one, consV_eq_cat]; simp

theorem TJ_cat_one (v u : Cube →₀ R) (w : CKey →₀ R) : TJ v (cat (one u) w) = TJ (bil j2 v u) w := by
  induction u using Finsupp.induction_linear with
  | zero => simp
  | add f g hf hg => simp only [map_add, LinearMap.add_apply, hf, hg]
  | single a s =>
    induction w using Finsupp.induction_linear with
    | zero => simp
    | add f g hf hg => simp only [map_add, hf, hg]
    | single k r =>
      rw [one_single, cat_single_single, TJ_single, TJ_single, List.singleton_append, jnL_cons,
        single_eq_smul_bv a s]
      simp only [map_smul, smul_smul]
      rw [mul_comm]

theorem TJ_consV (v : Cube →₀ R) (b : Cube) (w : CKey →₀ R) : TJ v (consV b w) = TJ (bil j2 v (bv R b)) w := by
  rw [← TJ_cat_one, consV_eq_cat]; simp

/-- Alternating sum of the ways to omit a vertex. -/
noncomputable def omK : CKey → (CKey →₀ R)
  | [] => 0
  | a :: k => (if cdim a = 0 then bv R k else 0) - consV a (omK k)

noncomputable def om : (CKey →₀ R) →ₗ[R] (CKey →₀ R) := lin omK

@[simp] theorem om_single (k : CKey) (r : R) : om (single k r) = r • omK k := by simp [om]

theorem bil_supported_j2 {n : Nat} {v : Cube →₀ R} {b : Cube}
    (hv : v ∈ Finsupp.supported R R {x | IsCube n x}) (hb : IsCube n b) :
    bil j2 v (bv R b) ∈ Finsupp.supported R R {x | IsCube n x} := by
  refine BElem.bil_supported _ (S := {x | IsCube n x}) (T := {x | IsCube n x}) (fun x hx y hy => ?_) hv
    (Finsupp.single_mem_supported R _ hb)
  exact Finsupp.supported_mono (fun z hz => hz.1) (j2_supported hx hy)

theorem lin_cubeD_bil {n : Nat} {v : Cube →₀ R} {b : Cube}
    (hv : v ∈ Finsupp.supported R R {x | IsCube n x}) (hb : IsCube n b) :
    lin cubeD (bil j2 v (bv R b)) = eps v • bv R b - eps (bv R b) • v - bil j2 (lin cubeD v) (bv R b) -
      bil j2 (sgn1 cdim v) (cubeD b) := by
  have := BElem.lin_ext_supported (R := R) (S := {x | IsCube n x})
    (f := (lin cubeD).comp ((bil j2).flip (bv R b)))
    (g := (eps (R := R)).smulRight (bv R b) - eps (bv R b) • LinearMap.id -
      ((bil j2).flip (bv R b)).comp (lin cubeD) - ((bil j2).flip (cubeD b)).comp (sgn1 cdim)) ?_ hv
  · simp only [LinearMap.comp_apply, LinearMap.flip_apply, LinearMap.sub_apply, LinearMap.smul_apply,
      LinearMap.smulRight_apply, LinearMap.id_apply] at this
    exact this
  · intro x hx
    have h := cubeD_j2 (R := R) hx hb
    simp only [LinearMap.comp_apply, LinearMap.flip_apply, LinearMap.sub_apply, LinearMap.smul_apply,
      LinearMap.smulRight_apply, LinearMap.id_apply, lin_single, sgn1, one_smul, map_smul, LinearMap.smul_apply]
    rw [bil_single, one_mul, one_smul, h]

theorem sgn1_bil {n : Nat} {v : Cube →₀ R} {b : Cube}
    (hv : v ∈ Finsupp.supported R R {x | IsCube n x}) (hb : IsCube n b) :
    sgn1 cdim (bil j2 v (bv R b)) = - (sg R (cdim b) • bil j2 (sgn1 cdim v) (bv R b)) := by
  have := BElem.lin_ext_supported (R := R) (S := {x | IsCube n x})
    (f := (sgn1 cdim).comp ((bil j2).flip (bv R b)))
    (g := - (sg R (cdim b) • ((bil j2).flip (bv R b)).comp (sgn1 cdim))) ?_ hv
  · simpa using this
  · intro x hx
    have h := sgn1_j2 (R := R) hx hb
    simp only [LinearMap.comp_apply, LinearMap.flip_apply, LinearMap.neg_apply, LinearMap.smul_apply]
    rw [bil_single, one_mul, one_smul, h, sgn1, lin_single, one_smul, map_smul, LinearMap.smul_apply, bil_single,
      one_mul, one_smul, smul_smul, mul_comm]

theorem eps_bil (v w : Cube →₀ R) : eps (bil j2 v w) = 0 := by
  induction v using Finsupp.induction_linear with
  | zero => simp
  | add f g hf hg => simp only [map_add, LinearMap.add_apply, hf, hg, add_zero]
  | single a s =>
    induction w using Finsupp.induction_linear with
    | zero => simp
    | add f g hf hg => simp only [map_add, hf, hg, add_zero]
    | single k r => rw [bil_single, map_smul, eps_j2, smul_zero]

theorem cubeD_jnL {n : Nat} (k : CKey) (hk : ∀ c ∈ k, IsCube n c) {v : Cube →₀ R}
    (hv : v ∈ Finsupp.supported R R {x | IsCube n x}) :
    lin cubeD (jnL k v) = (-1 : R) ^ k.length • (jnL k (lin cubeD v) + TJ (sgn1 cdim v) (tensK cubeD cdim k) -
      eps v • jn k + TJ v (omK k)) := by
  induction k generalizing v with
  | nil => simp [jnL, tensK, jn, omK]
  | cons b k ih =>
    have hb := hk b (by simp)
    have hk' : ∀ c ∈ k, IsCube n c := fun c hc => hk c (by simp [hc])
    rw [jnL_cons, ih hk' (bil_supported_j2 hv hb), lin_cubeD_bil hv hb, sgn1_bil hv hb, eps_bil, jnL_cons, tensK, omK,
      jn]
    simp only [map_add, map_sub, map_smul, map_neg, TJ_cat_one, TJ_consV, TJ_single, LinearMap.neg_apply,
      LinearMap.smul_apply, one_smul]
    have e1 : TJ v (if cdim b = 0 then bv R k else 0) = eps (bv R b) • jnL k v := by
      rw [eps_single]
      split
      · rw [TJ_single]
      · simp
    rw [e1, List.length_cons, pow_succ]
    module

/-- The join of a tensor is a homotopy. -/
theorem cubeD_jn {n : Nat} (k : CKey) (hk : ∀ c ∈ k, IsCube n c) :
    lin cubeD (jn (R := R) k) = (-1 : R) ^ (k.length + 1) • (JN (tensK cubeD cdim k) - JN (omK k)) := by
  cases k with
  | nil => simp [jn, tensK, omK]
  | cons a k =>
    rw [jn, cubeD_jnL k (fun c hc => hk c (by simp [hc]))
      (Finsupp.single_mem_supported R _ (hk a (by simp))), tensK, omK]
    simp only [map_add, map_sub, map_smul, JN_cat_one, JN_consV, TJ_single, one_smul]
    have e1 : JN (if cdim a = 0 then bv R k else 0) = eps (bv R a) • jn (R := R) k := by
      rw [eps_single]
      split
      · rw [JN_single]
      · simp
    have e2 : sgn1 cdim (bv R a) = sg R (cdim a) • bv R a := by simp [sgn1]
    rw [e1, e2, List.length_cons, pow_succ, pow_succ]
    simp only [map_smul, LinearMap.smul_apply, lin_single, one_smul]
    module

end Comch.Join
