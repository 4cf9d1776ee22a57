import Verif.Lib.ZigZag
import Verif.Lib.CochainsBock
import Verif.Props.CochainsPrimes

/-! # The contractions of words in a cochain and its coboundary -/

set_option linter.unusedSectionVars false

namespace Comch.Coch
open Comch.Spec Elem SurjComp SurjElem IsPerm SurjMay Comch.Props
open BElem (stepV stepV_supported PermSet stepV_mul)
open Finsupp (single)

variable {R : Type} [CommRing R] (q : Nat)

/-- Degrees: `false` is a cochain of degree `q`, `true` its coboundary. -/
def zdeg (b : Bool) : Nat := if b then q + 1 else q

def zval (γ : List Nat → R) : Bool → List Nat → R
  | false => γ
  | true => coboundary γ

noncomputable def zd : Bool → (Bool →₀ R)
  | false => bv R true
  | true => 0

theorem wd_true : wd (zdeg q) true = (q : Int) + 1 := by simp [wd, zdeg]

theorem wd_false : wd (zdeg q) false = (q : Int) := by simp [wd, zdeg]

theorem zd_sgn (x : Bool) : sgn1 (wd (zdeg q)) (zd (R := R) x) = - (sg R (wd (zdeg q) x) • zd x) := by
  cases x with
  | true => simp [zd]
  | false =>
    rw [zd, sgn1, lin_single, one_smul, wd_true, wd_false, sg_succ]
    simp

theorem zval_d {X : OrderedComplex} {γ : List Nat → R} (x : Bool) (σ : List Nat) (_ : σ ∈ X.simplices) :
    Finsupp.linearCombination R (fun y => v2 (zdeg q) (zval γ) (y, σ)) (zd x) =
      if σ.length = zdeg q x + 2 then coboundary (zval γ x) σ else 0 := by
  cases x with
  | true => simp only [zd, map_zero, zdeg, zval, coboundary_coboundary, ite_self]
  | false =>
    rw [zd, Finsupp.linearCombination_single, one_smul, v2]
    rfl

/-- The contraction of the factor `i`. -/
noncomputable def LK : Nat → List Bool → (List Bool →₀ R)
  | _, [] => 0
  | 0, false :: _ => 0
  | 0, true :: k => bv R (false :: k)
  | i + 1, x :: k => sg R (wd (zdeg q) x) • consV x (LK i k)

theorem lin_LK_true (v : List Bool →₀ R) : lin (LK q 0) (consV true v) = consV false v := by
  induction v using Finsupp.induction_linear with
  | zero => simp
  | add u v hu hv => simp only [map_add, hu, hv]
  | single k c => rw [consV_single, lin_single, LK, consV_single]; simp

theorem lin_LK_false (v : List Bool →₀ R) : lin (LK q 0) (consV false v) = 0 := by
  induction v using Finsupp.induction_linear with
  | zero => simp
  | add u v hu hv => simp only [map_add, hu, hv, add_zero]
  | single k c => rw [consV_single, lin_single, LK, smul_zero]

theorem lin_LK_succ (i : Nat) (x : Bool) (v : List Bool →₀ R) :
    lin (LK q (i + 1)) (consV x v) = sg R (wd (zdeg q) x) • consV x (lin (LK q i) v) := by
  induction v using Finsupp.induction_linear with
  | zero => simp
  | add u v hu hv => simp only [map_add, hu, hv, smul_add]
  | single k c => rw [consV_single, lin_single, lin_single, LK, map_smul, smul_comm]

theorem sg_sq (x : Int) (v : List Bool →₀ R) : sg R x • sg R x • v = v := by
  rw [smul_smul, ← sg_add, sg_congr (b := 0) (by omega)]
  simp

theorem LK_anti_aux (j : Nat) (x : Bool) (w : List Bool) :
    lin (LK (R := R) q 0) (LK q (j + 1) (x :: w)) = - lin (LK q (j + 1)) (LK q 0 (x :: w)) := by
  cases x with
  | true =>
    rw [LK, LK, map_smul, lin_LK_true, lin_single, one_smul, LK, wd_true, wd_false, sg_succ]
    simp
  | false => rw [LK, LK, map_smul, lin_LK_false]; simp

theorem LK_sq (i : Nat) (w : List Bool) : lin (LK (R := R) q i) (LK q i w) = 0 := by
  induction w generalizing i with
  | nil => simp [LK]
  | cons x w ih =>
    cases i with
    | zero =>
      cases x with
      | true => rw [LK, lin_single, LK, smul_zero]
      | false => rw [LK, map_zero]
    | succ i => rw [LK, map_smul, lin_LK_succ, ih]; simp

theorem LK_anti (i j : Nat) (w : List Bool) : lin (LK (R := R) q i) (LK q j w) = - lin (LK q j) (LK q i w) := by
  induction w generalizing i j with
  | nil => simp [LK]
  | cons x w ih =>
    cases i with
    | zero =>
      cases j with
      | zero => rw [LK_sq]; simp
      | succ j => exact LK_anti_aux q j x w
    | succ i =>
      cases j with
      | zero => rw [LK_anti_aux]; simp
      | succ j =>
        rw [LK, LK, map_smul, map_smul, lin_LK_succ, lin_LK_succ, sg_sq, sg_sq, ih]; simp

theorem LK_hom (i : Nat) (w : List Bool) (hi : i < w.length) :
    tens zd (wd (zdeg q)) (LK (R := R) q i w) + lin (LK q i) (tensK zd (wd (zdeg q)) w) = bv R w := by
  induction w generalizing i with
  | nil => simp at hi
  | cons x w ih =>
    cases i with
    | zero =>
      cases x with
      | false =>
        rw [LK, map_zero, zero_add, tensK, map_add, map_smul, lin_LK_false, smul_zero, add_zero, zd, one_single,
          ← consV_eq_cat, lin_LK_true, consV_single]
      | true =>
        rw [LK, tens_single, one_smul, tensK, tensK, wd_true, wd_false, map_add, map_smul, lin_LK_true, zd, zd, one_single,
          ← consV_eq_cat, consV_single, sg_succ]
        simp
    | succ i =>
      have ih := ih i (by simpa using hi)
      rw [LK, map_smul, tens_consV, tensK, map_add, map_smul, lin_LK_succ, smul_add, sg_sq, sg_sq]
      have h : sg R (wd (zdeg q) x) • cat (one (zd x)) (LK (R := R) q i w) + lin (LK q (i + 1)) (cat (one (zd x)) (bv R w)) = 0 := by
        cases x with
        | true => simp [zd]
        | false =>
          rw [zd, one_single, ← consV_eq_cat, ← consV_eq_cat, lin_LK_succ, lin_single, one_smul, wd_true, wd_false, sg_succ]
          simp
      rw [show ∀ a b c d : List Bool →₀ R, a + b + (c + d) = (a + c) + (b + d) by intros; abel, h, zero_add, ← map_add, ih, consV_single]

/-- Words of one length and one number of letters `true`. -/
def Cnt (n k : Nat) : Set (List Bool) := {w | w.length = n ∧ w.count true = k}

theorem LK_supp (i : Nat) (w : List Bool) : LK (R := R) q i w ∈ Finsupp.supported R R (Cnt w.length (w.count true - 1)) := by
  induction w generalizing i with
  | nil => simp [LK]
  | cons x w ih =>
    cases i with
    | zero =>
      cases x with
      | true => exact Finsupp.single_mem_supported R _ ⟨by simp, by simp⟩
      | false => simp [LK]
    | succ i =>
      rw [LK]
      by_cases h0 : w.count true = 0
      · have : ∀ (i : Nat) (w : List Bool), w.count true = 0 → LK (R := R) q i w = 0 := by
          intro i w
          induction w generalizing i with
          | nil => intro _; cases i <;> rfl
          | cons y w ih' =>
            intro h
            cases y with
            | true => simp at h
            | false =>
              cases i with
              | zero => rfl
              | succ i => rw [LK, ih' i (by simpa using h)]; simp
        rw [this i w h0]; simp
      · refine Submodule.smul_mem _ _ (mapK_supported _ (fun k hk => ?_) (ih i))
        have h1 := hk.1
        have h2 := hk.2
        refine ⟨by simp [h1], ?_⟩
        cases x <;> simp [h2] <;> omega

theorem totDeg_count (w : List Bool) : totDeg (wd (zdeg q)) w = w.length * q + w.count true := by
  induction w with
  | nil => simp [totDeg]
  | cons x w ih =>
    rw [totDeg, ih]
    cases x
    · rw [wd_false]; simp; ring
    · rw [wd_true]; simp; ring

theorem LK_append_lt (i : Nat) (w : List Bool) (x : Bool) (hi : i < w.length) :
    LK (R := R) q i (w ++ [x]) = cat (LK q i w) (bv R [x]) := by
  induction w generalizing i with
  | nil => simp at hi
  | cons y w ih =>
    cases i with
    | zero =>
      cases y with
      | true => rw [List.cons_append, LK, LK, cat_single_single]; simp
      | false => rw [List.cons_append, LK, LK]; simp
    | succ i =>
      rw [List.cons_append, LK, LK, ih i (by simpa using hi), map_smul, LinearMap.smul_apply, consV_eq_cat, consV_eq_cat, cat_assoc]

theorem LK_append_eq (w : List Bool) (x : Bool) :
    LK (R := R) q w.length (w ++ [x]) = sg R (totDeg (wd (zdeg q)) w) • cat (bv R w) (LK q 0 [x]) := by
  induction w with
  | nil => simp [totDeg]
  | cons y w ih =>
    rw [List.cons_append, List.length_cons, LK, ih, map_smul, smul_smul, ← sg_add, totDeg, consV_eq_cat, ← cat_assoc, cat_single_single]
    simp

/-- The inverse of the rotation moves the first letter to the end. -/
theorem actK_inv_rho (x : Bool) (k : List Bool) :
    actK (R := R) (wd (zdeg q)) (invL (k.length + 1) (RingElem.rho (k.length + 1))) (x :: k) =
      sg R (wd (zdeg q) x * totDeg (wd (zdeg q)) k) • bv R (k ++ [x]) := by
  have hρ := isPerm_rho (r := k.length + 1) (by omega)
  have h : actK (R := R) (wd (zdeg q)) (RingElem.rho (k.length + 1)) (k ++ [x]) =
      sg R (wd (zdeg q) x * totDeg (wd (zdeg q)) k) • bv R (x :: k) := by
    rw [actK, actL_rho, RingElem.rho, pyRange, show k.length + 1 + 1 - 2 = k.length by omega,
      kos_rho (wd (zdeg q)) x k.length 2 k le_rfl rfl, totDeg_eq_sum]
  have h2 := actK_actK (R := R) (wd (zdeg q)) (isPerm_invL hρ) hρ (k := k ++ [x]) (by simp)
  rw [h, invL_mulL hρ, actK_id _ (by simp), map_smul, lin_single, one_smul] at h2
  rw [← h2, sg_sq]

/-- The rotation. -/
noncomputable def rotZ (p : Nat) : (List Bool →₀ R) →ₗ[R] (List Bool →₀ R) :=
  lin (actK (R := R) (wd (zdeg q)) (invL p (RingElem.rho p)))

theorem rotZ_consV (n k : Nat) (x : Bool) {u : List Bool →₀ R} (hu : u ∈ Finsupp.supported R R (Cnt n k)) :
    rotZ q (n + 1) (consV x u) = sg R (wd (zdeg q) x * (n * q + k : Nat)) • cat u (bv R [x]) := by
  refine supp_ind (P := fun u => rotZ q (n + 1) (consV x u) = sg R (wd (zdeg q) x * (n * q + k : Nat)) • cat u (bv R [x]))
    (by simp) (fun u v hu hv => by simp only [map_add, hu, hv, LinearMap.add_apply, smul_add]) (fun w hw c => ?_) hu
  obtain ⟨h1, h2⟩ := hw
  subst h1
  rw [consV_single, rotZ, lin_single, actK_inv_rho, totDeg_count, h2, cat_single_single, single_eq_smul_bv (w ++ [x]),
    smul_comm, mul_one]
  push_cast
  rfl

theorem rotZ_cons (x : Bool) (k : List Bool) :
    rotZ q (k.length + 1) (bv R (x :: k)) = sg R (wd (zdeg q) x * totDeg (wd (zdeg q)) k) • bv R (k ++ [x]) := by
  rw [rotZ, lin_single, one_smul, actK_inv_rho]

theorem rotZ_LK_succ (i n : Nat) (x : Bool) (w : List Bool) (hn : w.length = n) (hi : i < n) :
    rotZ q (n + 1) (LK (R := R) q (i + 1) (x :: w)) = lin (LK q i) (rotZ q (n + 1) (bv R (x :: w))) := by
  subst hn
  rw [rotZ_cons, map_smul, lin_single, one_smul, LK_append_lt q i w x hi, LK, map_smul]
  by_cases h0 : w.count true = 0
  · have : ∀ (i : Nat) (w : List Bool), w.count true = 0 → LK (R := R) q i w = 0 := by
      intro i w
      induction w generalizing i with
      | nil => intro _; cases i <;> rfl
      | cons y w ih' =>
        intro h
        cases y with
        | true => simp at h
        | false =>
          cases i with
          | zero => rfl
          | succ i => rw [LK, ih' i (by simpa using h)]; simp
    rw [this i w h0]; simp
  · rw [rotZ_consV q _ _ x (LK_supp q i w), smul_smul, ← sg_add, totDeg_count]
    congr 2
    obtain ⟨c, hc⟩ : ∃ c, w.count true = c + 1 := ⟨w.count true - 1, by omega⟩
    rw [hc]
    rw [Nat.add_sub_cancel]
    push_cast
    ring

theorem rotZ_LK_zero (n : Nat) (x : Bool) (w : List Bool) (hn : w.length = n) :
    rotZ q (n + 1) (LK (R := R) q 0 (x :: w)) = lin (LK q n) (rotZ q (n + 1) (bv R (x :: w))) := by
  subst hn
  rw [rotZ_cons, map_smul, lin_single, one_smul, LK_append_eq, smul_smul, ← sg_add]
  cases x with
  | false => simp [LK]
  | true =>
    rw [LK, LK, rotZ_cons, cat_single_single, wd_true, wd_false, mul_one,
      sg_congr (a := (q + 1) * totDeg (wd (zdeg q)) w + totDeg (wd (zdeg q)) w) (b := q * totDeg (wd (zdeg q)) w)]
    rw [show ((q : Int) + 1) * totDeg (wd (zdeg q)) w + totDeg (wd (zdeg q)) w = q * totDeg (wd (zdeg q)) w + 2 * totDeg (wd (zdeg q)) w by ring]
    omega

/-- All contractions of the power of the coboundary. -/
theorem LK_all (n : Nat) : ∃ f : List Bool →₀ R, f = sg R ((q + 1) * (n * (n - 1) / 2 : Nat)) • bv R (List.replicate n false) ∧
    (List.range n).foldr (fun i u => lin (LK q i) u) (bv R (List.replicate n true)) = f := by
  refine ⟨_, rfl, ?_⟩
  have hs : ∀ (l : List Nat) (x : Bool) (u : List Bool →₀ R), (l.map Nat.succ).foldr (fun i u => lin (LK q i) u) (consV x u) =
      sg R (wd (zdeg q) x * l.length) • consV x (l.foldr (fun i u => lin (LK q i) u) u) := by
    intro l x u
    induction l with
    | nil => simp
    | cons i l ih =>
      rw [List.map_cons, List.foldr_cons, ih, map_smul, lin_LK_succ, smul_smul, ← sg_add, List.foldr_cons, List.length_cons]
      push_cast
      rw [mul_add, mul_one, add_comm]
  induction n with
  | zero => simp
  | succ n ih =>
    have e : bv R (true :: List.replicate n true) = consV true (bv R (List.replicate n true)) := (consV_single _ _ _).symm
    rw [List.range_succ_eq_map, List.foldr_cons, List.replicate_succ, e, hs, ih, map_smul, map_smul, map_smul, lin_LK_true, smul_smul, ← sg_add, consV_single, List.length_range, wd_true]
    congr 2
    have : (n + 1) * (n + 1 - 1) / 2 = n * (n - 1) / 2 + n := by
      rw [← Nat.choose_two_right, ← Nat.choose_two_right, Nat.choose_succ_succ' n 1]; simp [add_comm]
    rw [this]; push_cast; ring

/-! ### the operators on words of length `p` -/

section operators
variable {q} {p : Nat}

/-- Words of length `p`. -/
abbrev WV (p : Nat) : Submodule (ZMod p) (List Bool →₀ ZMod p) :=
  Finsupp.supported (ZMod p) (ZMod p) {w : List Bool | w.length = p}

theorem LK_mem (i : Nat) (v : List Bool →₀ ZMod p) (hv : v ∈ WV p) : lin (LK q i) v ∈ WV p :=
  lin_supported _ (fun w hw => Finsupp.supported_mono (fun k hk => hk.1.trans hw) (LK_supp q i w)) hv

theorem rotZ_mem (hp : 1 ≤ p) (v : List Bool →₀ ZMod p) (hv : v ∈ WV p) : rotZ q p v ∈ WV p := by
  unfold rotZ
  refine lin_supported (S := {w : List Bool | w.length = p}) (T := {w : List Bool | w.length = p}) _ (fun w hw => ?_) hv
  rw [actK]
  exact Submodule.smul_mem _ _
    (Finsupp.single_mem_supported _ _ (length_actL (isPerm_invL (isPerm_rho hp)) hw))

theorem zd_mem (v : List Bool →₀ ZMod p) (hv : v ∈ WV p) : tens zd (wd (zdeg q)) v ∈ WV p := by
  refine lin_supported _ (fun w hw => ?_) hv
  have : ∀ w : List Bool, tensK (R := ZMod p) zd (wd (zdeg q)) w ∈
      Finsupp.supported (ZMod p) (ZMod p) {k : List Bool | k.length = w.length} := by
    intro w
    induction w with
    | nil => simp [tensK]
    | cons x w ih =>
      rw [tensK]
      refine Submodule.add_mem _ ?_ (Submodule.smul_mem _ _ (mapK_supported _ (fun k hk => by simpa using hk) ih))
      cases x with
      | true => simp [zd]
      | false =>
        rw [zd, one_single, cat_single_single]
        exact Finsupp.single_mem_supported _ _ (by simp)
  exact Finsupp.supported_mono (fun k hk => hk.trans hw) (this w)

variable (q) in
noncomputable def Lop (i : Nat) : Module.End (ZMod p) (WV p) := (lin (LK q (i % p))).restrict (LK_mem (i % p))

variable (q) in
noncomputable def Top (hp : 1 ≤ p) : Module.End (ZMod p) (WV p) := (rotZ q p).restrict (rotZ_mem hp)

variable (q) in
noncomputable def Dop : Module.End (ZMod p) (WV p) := (tens zd (wd (zdeg q))).restrict zd_mem

theorem end_ext {f g : Module.End (ZMod p) (WV p)} {f' g' : (List Bool →₀ ZMod p) →ₗ[ZMod p] (List Bool →₀ ZMod p)}
    (hf : ∀ v, ((f v : WV p) : List Bool →₀ ZMod p) = f' v) (hg : ∀ v, ((g v : WV p) : List Bool →₀ ZMod p) = g' v)
    (h : ∀ w : List Bool, w.length = p → f' (bv _ w) = g' (bv _ w)) : f = g := by
  ext1 v
  apply Subtype.ext
  rw [hf, hg]
  exact BElem.lin_ext_supported (S := {w : List Bool | w.length = p}) h v.2

theorem Lop_anti (i j : Nat) : Lop (p := p) q i * Lop q j = - (Lop q j * Lop q i) := by
  refine end_ext (f' := (lin (LK q (i % p))).comp (lin (LK q (j % p))))
    (g' := - (lin (LK (R := ZMod p) q (j % p))).comp (lin (LK (R := ZMod p) q (i % p))))
    (fun v => rfl) (fun v => rfl) (fun w _ => ?_)
  simp only [LinearMap.comp_apply, LinearMap.neg_apply, lin_single, one_smul]
  exact LK_anti q _ _ w

theorem Lop_sq (i : Nat) : Lop (p := p) q i * Lop q i = 0 := by
  refine end_ext (f' := (lin (LK q (i % p))).comp (lin (LK q (i % p)))) (g' := 0)
    (fun v => rfl) (fun v => rfl) (fun w _ => ?_)
  simp only [LinearMap.comp_apply, LinearMap.zero_apply, lin_single, one_smul]
  exact LK_sq q _ w

theorem Lop_hom (hp : 1 ≤ p) (i : Nat) : Dop (p := p) q * Lop q i + Lop q i * Dop q = 1 := by
  refine end_ext (f' := (tens zd (wd (zdeg q))).comp (lin (LK q (i % p))) + (lin (LK q (i % p))).comp (tens zd (wd (zdeg q))))
    (g' := LinearMap.id) (fun v => rfl) (fun v => rfl) (fun w hw => ?_)
  simp only [LinearMap.comp_apply, LinearMap.add_apply, lin_single, one_smul, LinearMap.id_apply, tens_single]
  exact LK_hom q _ w (by rw [hw]; exact Nat.mod_lt _ (by omega))

theorem Lop_rot (hp : 1 ≤ p) (i : Nat) (hi : i < p) : Top (p := p) q hp * Lop q (i + 1) = Lop q i * Top q hp := by
  refine end_ext (f' := (rotZ q p).comp (lin (LK q ((i + 1) % p)))) (g' := (lin (LK q (i % p))).comp (rotZ q p))
    (fun v => rfl) (fun v => rfl) (fun w hw => ?_)
  simp only [LinearMap.comp_apply, lin_single, one_smul]
  obtain ⟨n, rfl⟩ : ∃ n, p = n + 1 := ⟨p - 1, by omega⟩
  cases w with
  | nil => simp at hw
  | cons x w =>
    have hw' : w.length = n := by simpa using hw
    rw [Nat.mod_eq_of_lt hi]
    by_cases h : i = n
    · subst h
      rw [Nat.mod_self]
      exact rotZ_LK_zero q i x w hw'
    · rw [Nat.mod_eq_of_lt (by omega)]
      exact rotZ_LK_succ q i n x w hw' (by omega)

theorem Lop_per : Lop (p := p) q p = Lop q 0 := by unfold Lop; congr 3; simp

theorem actD_rho (u : List Bool →₀ ZMod p) : actD (zdeg q) p (bv (ZMod p) (RingElem.rho p)) u = rotZ q p u := by
  rw [actD_single, one_smul]; rfl

theorem Dop_comm (hp : 1 ≤ p) : Commute (Dop (p := p) q) (Top q hp) := by
  have hs : bv (ZMod p) (RingElem.rho p) ∈ Finsupp.supported (ZMod p) (ZMod p) (PermSet p) :=
    Finsupp.single_mem_supported _ _ (isPerm_rho hp)
  refine end_ext (f := Dop q * Top q hp) (g := Top q hp * Dop q) (f' := (tens zd (wd (zdeg q))).comp (rotZ q p))
    (g' := (rotZ q p).comp (tens zd (wd (zdeg q)))) (fun v => rfl) (fun v => rfl) (fun w hw => ?_)
  rw [LinearMap.comp_apply, LinearMap.comp_apply, ← actD_rho, ← actD_rho]
  exact tens_actD (zdeg q) (zd_sgn q) hs (Finsupp.single_mem_supported _ _ hw)

theorem Top_pow (hp : 1 ≤ p) (j : Nat) (v : WV p) :
    (((Top q hp ^ j) v : WV p) : List Bool →₀ ZMod p) = actD (zdeg q) p (bv (ZMod p) (powL p (RingElem.rho p) j)) v := by
  induction j generalizing v with
  | zero =>
    rw [powL, actD_single, one_smul, Comch.invL_id]
    exact (lin_actK_id v.2).symm
  | succ j ih =>
    rw [pow_succ', Module.End.mul_apply]
    show rotZ q p (((Top q hp ^ j) v : WV p) : List Bool →₀ ZMod p) = _
    rw [ih, ← actD_rho, actD_mulV _ (Finsupp.single_mem_supported _ _ (isPerm_powL (isPerm_rho hp) j))
      (Finsupp.single_mem_supported _ _ (isPerm_rho hp)) v.2, mulV_single, one_mul, powL]

theorem Top_norm (hp : 1 ≤ p) (v : WV p) :
    (((∑ j ∈ Finset.range p, Top q hp ^ j) v : WV p) : List Bool →₀ ZMod p) = actD (zdeg q) p (nV (ZMod p) p) v := by
  unfold nV
  rw [actD_list_sum, list_sum_range, LinearMap.sum_apply, AddSubmonoidClass.coe_finsetSum]
  exact Finset.sum_congr rfl fun j _ => Top_pow hp j v

theorem Top_sub (hp : 1 ≤ p) (v : WV p) :
    (((Top q hp - 1) v : WV p) : List Bool →₀ ZMod p) = actD (zdeg q) p (tV (ZMod p) p) v := by
  unfold tV
  rw [sub_eq_add_neg (bv _ _), ← Finsupp.single_neg, actD_add, actD_rho, actD_single, neg_one_smul, Comch.invL_id, ← sub_eq_add_neg]
  have := lin_actK_id (w := wd (zdeg q)) v.2
  rw [this]
  rfl

end operators

end Comch.Coch
