import Verif.Lib.SurjCall

/-! # Applying a homogeneous map at one factor of a tensor, with the Koszul sign -/

set_option linter.unusedSectionVars false

namespace Comch
open Finsupp (single)

variable {R : Type} [CommRing R] {A : Type}

section
variable (deg : A → Int) (e : Int)

/-- Apply the degree `e` map `f` to the factor at position `c`. -/
noncomputable def atKd (f : A → (List A →₀ R)) : Nat → List A → (List A →₀ R)
  | _, [] => 0
  | 0, a :: k => cat (f a) (bv R k)
  | c + 1, a :: k => sg R (deg a * e) • consV a (atKd f c k)

/-- The same, linearly. -/
noncomputable def atLd (f : A → (List A →₀ R)) (c : Nat) : (List A →₀ R) →ₗ[R] (List A →₀ R) :=
  lin (atKd deg e f c)

@[simp] theorem atLd_single (f : A → (List A →₀ R)) (c : Nat) (k : List A) (r : R) :
    atLd deg e f c (single k r) = r • atKd deg e f c k := by simp [atLd]

theorem atLd_consV (f : A → (List A →₀ R)) (c : Nat) (a : A) (v : List A →₀ R) :
    atLd deg e f (c + 1) (consV a v) = sg R (deg a * e) • consV a (atLd deg e f c v) := by
  induction v using Finsupp.induction_linear with
  | zero => simp
  | add f g hf hg => simp only [map_add, hf, hg, smul_add]
  | single k r =>
    simp only [consV_single, atLd_single, atKd, map_smul]
    rw [smul_comm]

theorem atLd_cat_one_zero (f : A → (List A →₀ R)) (u : A →₀ R) (v : List A →₀ R) :
    atLd deg e f 0 (cat (one u) v) = cat (lin f u) v := by
  induction u using Finsupp.induction_linear with
  | zero => simp
  | add f g hf hg => simp only [map_add, LinearMap.add_apply, hf, hg]
  | single a r =>
    induction v using Finsupp.induction_linear with
    | zero => simp
    | add f g hf hg => simp only [map_add, hf, hg]
    | single k s =>
      rw [single_eq_smul_bv k s]
      simp only [map_smul, LinearMap.smul_apply, one_single, cat_single_single, lin_single,
        mul_one, List.singleton_append, atLd_single, atKd]

theorem cat_one_eq (u : A →₀ R) (v : List A →₀ R) : cat (one u) v = lin (fun a => consV a v) u := by
  induction u using Finsupp.induction_linear with
  | zero => simp
  | add f g hf hg => simp only [map_add, LinearMap.add_apply, hf, hg]
  | single a r =>
    rw [single_eq_smul_bv]
    simp only [map_smul, LinearMap.smul_apply, one_single, ← consV_eq_cat, lin_single, one_smul]

variable {deg}

theorem atLd_cat_one_succ (f : A → (List A →₀ R)) (c : Nat) {u : A →₀ R} {b : Int}
    (hu : u ∈ Finsupp.supported R R {a | deg a = b}) (v : List A →₀ R) :
    atLd deg e f (c + 1) (cat (one u) v) = sg R (b * e) • cat (one u) (atLd deg e f c v) := by
  rw [cat_one_eq, cat_one_eq]
  have := BElem.lin_ext_supported (R := R)
    (f := (atLd deg e f (c + 1)).comp (lin fun a => consV a v))
    (g := sg R (b * e) • (lin fun a => consV a (atLd deg e f c v)))
    (fun a ha => by
      have ha : deg a = b := ha
      simp only [LinearMap.comp_apply, LinearMap.smul_apply, lin_single, one_smul]
      rw [atLd_consV, ha]) hu
  simpa using this

variable {d : A → (A →₀ R)}

/-- The Leibniz rule for a homogeneous map at one factor, modulo degenerate tensors. -/
theorem pr_tens_atKd {dr : A → Bool} {f g : A → (List A →₀ R)} {e : Int}
    (hd : ∀ a, d a ∈ Finsupp.supported R R {b | deg b = deg a - 1})
    (hf : ∀ a, pr (fun k => k.any dr) (tens d deg (f a)) =
      pr (fun k => k.any dr) (g a + sg R e • lin f (d a)))
    (hs : ∀ a, sgn deg (f a) = sg R (e + deg a) • f a) (c : Nat) (k : List A) :
    pr (fun k => k.any dr) (tens d deg (atKd deg e f c k)) =
      pr (fun k => k.any dr) (atKd deg (e - 1) g c k + sg R e • atLd deg e f c (tensK d deg k)) := by
  induction k generalizing c with
  | nil => cases c <;> simp [atKd, tensK]
  | cons a k ih =>
    cases c with
    | zero =>
      simp only [atKd, tens_cat, hs, tensK, map_add, map_smul, atLd_cat_one_zero,
        LinearMap.smul_apply, consV_eq_cat]
      rw [show bv R [a] = one (bv R a) by simp, atLd_cat_one_zero, pr_any_cat, hf, pr_any_cat]
      simp only [map_add, map_smul, LinearMap.add_apply, LinearMap.smul_apply, lin_single, one_smul,
        tens_single, pr_any_cat, sg_add, smul_add, smul_smul]
      abel
    | succ c =>
      simp only [atKd, tens_consV, tensK, map_add, map_smul, atLd_cat_one_succ e f c (hd a), atLd_single,
        one_smul, atLd_consV]
      simp only [consV_eq_cat, pr_any_cat, ih, map_add, map_smul, smul_add, smul_smul, ← sg_add]
      have h1 : sg R (deg a * e) = sg R (e + (deg a - 1) * e) := by congr 1; ring
      have h2 : sg R (deg a * e + deg a) = sg R (deg a * (e - 1)) := by
        rw [show deg a * e + deg a = deg a * (e - 1) + (deg a + deg a) by ring, sg_add, sg_add (deg a)]; simp
      have h3 : sg R (deg a * e + (deg a + e)) = sg R (e + (deg a + deg a * e)) := by congr 1; ring
      rw [h1, h2, h3]
      abel

theorem pr_atKd {dr : A → Bool} {f : A → (List A →₀ R)}
    (hf : ∀ a, dr a = true → pr (fun k => k.any dr) (f a) = 0) (c : Nat) (k : List A)
    (hk : k.any dr = true) : pr (fun k => k.any dr) (atKd deg e f c k) = 0 := by
  induction k generalizing c with
  | nil => simp at hk
  | cons a k ih =>
    simp only [List.any_cons, Bool.or_eq_true] at hk
    cases c with
    | zero =>
      rw [atKd, pr_any_cat]
      rcases hk with hk | hk
      · rw [hf a hk]; simp
      · simp [hk]
    | succ c =>
      rw [atKd, consV_eq_cat, map_smul, pr_any_cat]
      rcases hk with hk | hk
      · simp [hk]
      · rw [ih c hk]; simp

theorem pr_atKd_of_zero {dr : A → Bool} {f : A → (List A →₀ R)}
    (hf : ∀ a, pr (fun k => k.any dr) (f a) = 0) (c : Nat) (k : List A) :
    pr (fun k => k.any dr) (atKd deg e f c k) = 0 := by
  induction k generalizing c with
  | nil => cases c <;> simp [atKd]
  | cons a k ih =>
    cases c with
    | zero => rw [atKd, pr_any_cat, hf a]; simp
    | succ c => rw [atKd, consV_eq_cat, map_smul, pr_any_cat, ih c]; simp

theorem atKd_add (f g : A → (List A →₀ R)) (c : Nat) (k : List A) :
    atKd deg e (fun a => f a + g a) c k = atKd deg e f c k + atKd deg e g c k := by
  induction k generalizing c with
  | nil => cases c <;> simp [atKd]
  | cons a k ih =>
    cases c with
    | zero => simp only [atKd, map_add, LinearMap.add_apply]
    | succ c => simp only [atKd, ih, map_add, smul_add]

theorem atKd_smul (r : R) (f : A → (List A →₀ R)) (c : Nat) (k : List A) :
    atKd deg e (fun a => r • f a) c k = r • atKd deg e f c k := by
  induction k generalizing c with
  | nil => cases c <;> simp [atKd]
  | cons a k ih =>
    cases c with
    | zero => simp only [atKd, map_smul, LinearMap.smul_apply]
    | succ c => simp only [atKd, ih, map_smul]; rw [smul_comm]

theorem atKd_lin {K : Type} (F : K → A → (List A →₀ R)) (u : K →₀ R) (c : Nat) (k : List A) :
    atKd deg e (fun a => lin (fun m => F m a) u) c k = lin (fun m => atKd deg e (F m) c k) u := by
  induction u using Finsupp.induction_linear with
  | zero =>
    have := atKd_smul (deg := deg) e (0 : R) (fun _ : A => (0 : List A →₀ R)) c k
    simpa using this
  | add f g hf hg => simp only [map_add, atKd_add, hf, hg]
  | single m r => simp only [lin_single, atKd_smul]

/-- Where the factor is. -/
theorem atKd_eq (f : A → (List A →₀ R)) (c : Nat) (k : List A) (a : A) (h : k[c]? = some a) :
    atKd deg e f c k = sg R (totDeg deg (k.take c) * e) •
      cat (bv R (k.take c)) (cat (f a) (bv R (k.drop (c + 1)))) := by
  induction k generalizing c with
  | nil => simp at h
  | cons b k ih =>
    cases c with
    | zero =>
      simp only [List.getElem?_cons_zero, Option.some.injEq] at h
      subst h
      simp [atKd, totDeg]
    | succ c =>
      rw [atKd, ih c (by simpa using h), consV_eq_cat, map_smul, ← cat_assoc]
      simp [totDeg, add_mul, sg_add, smul_smul]

end
end Comch
