import Verif.Lib.AtDeg

/-! # Applying two homogeneous maps at factors of a tensor -/

set_option linter.unusedSectionVars false

namespace Comch
open Finsupp (single)

variable {R : Type} [CommRing R] {A : Type} {deg : A → Int}

theorem consV_cat (a : A) (u v : List A →₀ R) : cat (consV a u) v = consV a (cat u v) := by
  rw [consV_eq_cat, consV_eq_cat, cat_assoc]

theorem atKd_append_left (e : Int) (g : A → (List A →₀ R)) {j : Nat} {m : List A} (h : j < m.length)
    (k : List A) : atKd deg e g j (m ++ k) = cat (atKd deg e g j m) (bv R k) := by
  induction m generalizing j with
  | nil => simp at h
  | cons a m ih =>
    cases j with
    | zero => rw [List.cons_append, atKd, atKd, cat_assoc]; simp
    | succ j =>
      rw [List.cons_append, atKd, atKd, ih (by simpa using h), map_smul, LinearMap.smul_apply, consV_cat]

theorem atKd_append_right (e : Int) (g : A → (List A →₀ R)) (j : Nat) (m k : List A) :
    atKd deg e g (m.length + j) (m ++ k) = sg R (totDeg deg m * e) • cat (bv R m) (atKd deg e g j k) := by
  induction m with
  | nil => simp [totDeg]
  | cons a m ih =>
    rw [List.cons_append, List.length_cons, Nat.add_right_comm, atKd, ih, map_smul, smul_smul, ← sg_add, totDeg,
      ← consV_cat, consV_single, add_mul]

/-- First `f` at a factor, then `g` at a factor of the value of `f`. -/
theorem atLd_atKd {e1 e2 : Int} {f g : A → (List A →₀ R)} {j : Nat}
    (hf : ∀ a, f a ∈ Finsupp.supported R R {m : List A | j < m.length}) (c : Nat) (k : List A) :
    atLd deg e2 g (c + j) (atKd deg e1 f c k) =
      atKd deg (e1 + e2) (fun a => atLd deg e2 g j (f a)) c k := by
  induction k generalizing c with
  | nil => cases c <;> simp [atKd]
  | cons a k ih =>
    cases c with
    | zero =>
      rw [atKd, atKd, Nat.zero_add]
      have := BElem.lin_ext_supported (R := R)
        (f := (atLd deg e2 g j).comp (mapK fun m => m ++ k)) (g := lin fun m => cat (atKd deg e2 g j m) (bv R k))
        (fun m hm => by
          simp only [LinearMap.comp_apply, mapK_single, lin_single, one_smul, atLd_single]
          exact atKd_append_left e2 g hm k) (hf a)
      have e1 : ∀ v : List A →₀ R, cat v (bv R k) = mapK (fun m => m ++ k) v := by
        intro v
        induction v using Finsupp.induction_linear with
        | zero => simp
        | add f g hf hg => simp only [map_add, LinearMap.add_apply, hf, hg]
        | single m r => simp
      have e2' : ∀ v : List A →₀ R, cat (atLd deg e2 g j v) (bv R k) =
          lin (fun m => cat (atKd deg e2 g j m) (bv R k)) v := by
        intro v
        induction v using Finsupp.induction_linear with
        | zero => simp
        | add f g hf hg => simp only [map_add, LinearMap.add_apply, hf, hg]
        | single m r => simp
      rw [e1, e2']
      exact this
    | succ c =>
      rw [atKd, atKd, Nat.add_right_comm, map_smul, atLd_consV, ih, smul_smul, ← sg_add, mul_add]

/-- `f` and `g` at different factors commute up to the Koszul sign. -/
theorem atLd_comm {e1 e2 : Int} {f g : A → (List A →₀ R)} {r : Nat}
    (hf : ∀ a, f a ∈ Finsupp.supported R R {m : List A | m.length = r ∧ totDeg deg m = deg a + e1})
    (p q : Nat) (h : p < q) (k : List A) :
    atLd deg e2 g (q - 1 + r) (atKd deg e1 f p k) = sg R (e1 * e2) • atLd deg e1 f p (atKd deg e2 g q k) := by
  induction k generalizing p q with
  | nil => cases p <;> cases q <;> simp [atKd]
  | cons a k ih =>
    obtain ⟨q, rfl⟩ : ∃ q', q = q' + 1 := ⟨q - 1, by omega⟩
    rw [Nat.add_sub_cancel]
    cases p with
    | zero =>
      rw [atKd, atKd, map_smul, smul_smul, ← sg_add]
      have e1' : ∀ v : List A →₀ R, cat v (bv R k) = mapK (fun m => m ++ k) v := by
        intro v
        induction v using Finsupp.induction_linear with
        | zero => simp
        | add f g hf hg => simp only [map_add, LinearMap.add_apply, hf, hg]
        | single m r => simp
      have e2' : atLd deg e1 f 0 (consV a (atKd deg e2 g q k)) = cat (f a) (atKd deg e2 g q k) := by
        rw [consV_eq_cat, show bv R [a] = one (bv R a) by simp, atLd_cat_one_zero, lin_single, one_smul]
      have := BElem.lin_ext_supported (R := R)
        (f := (atLd deg e2 g (q + r)).comp (mapK fun m => m ++ k))
        (g := sg R (e1 * e2 + deg a * e2) • (lin fun m => cat (bv R m) (atKd deg e2 g q k)))
        (fun m hm => by
          obtain ⟨h1, h2⟩ := hm
          simp only [LinearMap.comp_apply, mapK_single, lin_single, one_smul, atLd_single, LinearMap.smul_apply]
          rw [Nat.add_comm q r, ← h1, atKd_append_right, h2]
          congr 2
          ring) (hf a)
      have e3 : ∀ v w : List A →₀ R, cat v w = lin (fun m => cat (bv R m) w) v := by
        intro v w
        induction v using Finsupp.induction_linear with
        | zero => simp
        | add f g hf hg => simp only [map_add, LinearMap.add_apply, hf, hg]
        | single m r => rw [lin_single, single_eq_smul_bv, map_smul, LinearMap.smul_apply]
      rw [e1', e2', e3 (f a)]
      exact this
    | succ p =>
      rw [atKd, atKd, map_smul, map_smul, show q + r = (q - 1 + r) + 1 by omega, atLd_consV, atLd_consV,
        ih p q (by omega), map_smul]
      simp only [smul_smul, ← sg_add]
      congr 2
      ring

end Comch
