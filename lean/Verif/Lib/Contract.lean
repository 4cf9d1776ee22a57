import Verif.Props.Acyclic
import Verif.Props.Simplicial
import Verif.Props.Join

/-! # Tensor powers of a contractible complex are contractible -/

set_option linter.unusedSectionVars false

namespace Comch
namespace Contract
open Finsupp (single)
open Acyclic BElem

variable {R : Type} [CommRing R] {A : Type}

/-- A contraction of the complex spanned by `G` onto the base point. -/
structure Contr (d h : A → (A →₀ R)) (deg : A → Int) (b : A) (G : Set A) : Prop where
  base : b ∈ G ∧ deg b = 0 ∧ d b = 0
  nonneg : ∀ a ∈ G, 0 ≤ deg a
  homotopy : ∀ a ∈ G, lin d (h a) + lin h (d a) = bv R a - if deg a = 0 then bv R b else 0
  hdeg : ∀ a ∈ G, h a ∈ Finsupp.supported R R {c | c ∈ G ∧ deg c = deg a + 1}
  ddeg : ∀ a ∈ G, d a ∈ Finsupp.supported R R {c | c ∈ G ∧ deg c = deg a - 1}
  aug : ∀ a ∈ G, deg a = 1 → aug (d a) = 0

/-- Tensors of given length and degree with factors in `G`. -/
def T (deg : A → Int) (G : Set A) (r : Nat) (m : Int) : Set (List A) :=
  {k | (∀ a ∈ k, a ∈ G) ∧ k.length = r ∧ totDeg deg k = m}

variable (h : A → (A →₀ R)) (deg : A → Int) (b : A)

/-- Projection of a factor to the base point. -/
noncomputable def phi (a : A) : A →₀ R := if deg a = 0 then bv R b else 0

/-- The contraction on tensors. -/
noncomputable def S : List A → (List A →₀ R)
  | [] => 0
  | a :: k => cat (one (h a)) (bv R k) + cat (one (phi deg b a)) (S k)

/-- The projection on tensors. -/
noncomputable def P : List A → (List A →₀ R)
  | [] => bv R []
  | a :: k => cat (one (phi deg b a)) (P k)

variable {h deg b} {d : A → (A →₀ R)} {G : Set A}

theorem lin_S_cat (u : A →₀ R) (v : List A →₀ R) :
    lin (S h deg b) (cat (one u) v) =
      cat (one (lin h u)) v + cat (one (lin (phi deg b) u)) (lin (S h deg b) v) := by
  induction u using Finsupp.induction_linear with
  | zero => simp
  | add f g hf hg => simp only [map_add, LinearMap.add_apply, hf, hg]; abel
  | single a r =>
    induction v using Finsupp.induction_linear with
    | zero => simp
    | add f g hf hg => simp only [map_add, hf, hg]; abel
    | single k s =>
      rw [single_eq_smul_bv k s]
      simp only [one_single, map_smul, cat_single_single, mul_one, lin_single, List.singleton_append, S,
        LinearMap.smul_apply, smul_add, one_smul]

theorem sgn1_of_supp {u : A →₀ R} {m : Int} (hu : u ∈ Finsupp.supported R R {c | c ∈ G ∧ deg c = m}) :
    sgn1 deg u = sg R m • u := by
  refine lin_ext_supported (f := sgn1 deg) (g := sg R m • LinearMap.id) (fun k hk => ?_) hu
  simp [sgn1, hk.2]

theorem homotopy_S (C : Contr d h deg b G) (k : List A) (hk : ∀ a ∈ k, a ∈ G) :
    tens d deg (S h deg b k) + lin (S h deg b) (tensK d deg k) = bv R k - P deg b k := by
  induction k with
  | nil => simp [S, P, tensK]
  | cons a k ih =>
    have ha := hk a (by simp)
    have ih := ih fun x hx => hk x (by simp [hx])
    have e1 : tens d deg (cat (one (h a)) (bv R k)) =
        cat (one (lin d (h a))) (bv R k) - sg R (deg a) • cat (one (h a)) (tensK d deg k) := by
      rw [tens_cat, tens_one, ← one_sgn1, sgn1_of_supp (C.hdeg a ha), sg_succ]
      simp [sub_eq_add_neg]
    have e2 : tens d deg (cat (one (phi deg b a)) (S h deg b k)) =
        cat (one (phi deg b a)) (tens d deg (S h deg b k)) := by
      rw [tens_cat, tens_one, ← one_sgn1, phi]
      by_cases h0 : deg a = 0
      · rw [if_pos h0, sgn1, lin_single, lin_single, C.base.2.1, C.base.2.2]
        simp
      · simp [if_neg h0]
    have e3 : lin (S h deg b) (cat (one (d a)) (bv R k)) = cat (one (lin h (d a))) (bv R k) := by
      rw [lin_S_cat]
      have : lin (phi deg b) (d a) = 0 := by
        by_cases h1 : deg a = 1
        · have : lin (phi deg b) (d a) = ((aug (R := R)).smulRight (bv R b)) (d a) := by
            refine lin_ext_supported (fun c hc => ?_) (C.ddeg a ha)
            have : deg c = 0 := by rw [hc.2, h1]; rfl
            simp [phi, this]
          rw [this, LinearMap.smulRight_apply, C.aug a ha h1, zero_smul]
        · refine lin_ext_supported (f := lin (phi deg b)) (g := 0) (fun c hc => ?_) (C.ddeg a ha)
          have : deg c ≠ 0 := by rw [hc.2]; omega
          simp [phi, this]
      simp [this]
    have e4 : lin (S h deg b) (consV a (tensK d deg k)) =
        cat (one (h a)) (tensK d deg k) + cat (one (phi deg b a)) (lin (S h deg b) (tensK d deg k)) := by
      rw [consV_eq_cat, show bv R [a] = one (bv R a) by simp, lin_S_cat, lin_single, lin_single]
      simp
    have e5 : sg R (deg a) • phi (R := R) deg b a = phi deg b a := by
      rw [phi]; split
      · rename_i h0; rw [h0]; simp
      · simp
    have e6 := C.homotopy a ha
    rw [S, P, tensK, map_add, map_add, e1, e2, e3, map_smul, e4, smul_add, smul_smul_cat e5]
    have e7 : tens d deg (S h deg b k) = bv R k - P deg b k - lin (S h deg b) (tensK d deg k) := by
      rw [← ih]; abel
    have e8 : lin d (h a) = bv R a - phi deg b a - lin h (d a) := by
      rw [phi, ← e6]; abel
    rw [e7, e8]
    have e9 : bv R (a :: k) = cat (one (bv R a)) (bv R k) := by simp
    rw [e9]
    simp only [map_sub, LinearMap.sub_apply]
    abel
where
  smul_smul_cat {a : A} {v : List A →₀ R} (e5 : sg R (deg a) • phi (R := R) deg b a = phi deg b a) :
      sg R (deg a) • cat (one (phi deg b a)) v = cat (one (phi deg b a)) v := by
    rw [← LinearMap.smul_apply, ← map_smul, ← map_smul, e5]

theorem P_of_pos (k : List A) (hnn : ∀ a ∈ k, 0 ≤ deg a) (hd : 1 ≤ totDeg deg k) : P (R := R) deg b k = 0 := by
  induction k with
  | nil => simp [totDeg] at hd
  | cons a k ih =>
    by_cases h0 : deg a = 0
    · rw [P, ih (fun x hx => hnn x (by simp [hx])) (by rw [totDeg, h0] at hd; simpa using hd)]
      simp
    · rw [P, phi, if_neg h0]
      simp

theorem deg_zero (k : List A) (hnn : ∀ a ∈ k, 0 ≤ deg a) (hd : totDeg deg k = 0) : ∀ a ∈ k, deg a = 0 := by
  induction k with
  | nil => simp
  | cons a k ih =>
    have hk : 0 ≤ totDeg deg k := by
      rw [totDeg_eq_sum]
      exact List.sum_nonneg fun x hx => by
        obtain ⟨c, hc, rfl⟩ := List.mem_map.1 hx
        exact hnn c (by simp [hc])
    have ha := hnn a (by simp)
    rw [totDeg] at hd
    intro x hx
    rcases List.mem_cons.1 hx with rfl | hx
    · omega
    · exact ih (fun x hx => hnn x (by simp [hx])) (by omega) x hx

theorem P_of_zero (k : List A) (hd : ∀ a ∈ k, deg a = 0) :
    P (R := R) deg b k = bv R (List.replicate k.length b) := by
  induction k with
  | nil => rfl
  | cons a k ih =>
    rw [P, ih fun x hx => hd x (by simp [hx]), phi, if_pos (hd a (by simp))]
    simp [List.replicate_succ]

theorem cat_T {u : A →₀ R} {v : List A →₀ R} {i j m : Int} {r : Nat}
    (hu : u ∈ Finsupp.supported R R {c | c ∈ G ∧ deg c = i})
    (hv : v ∈ Finsupp.supported R R (T deg G r j)) (hm : i + j = m) :
    cat (one u) v ∈ Finsupp.supported R R (T deg G (r + 1) m) := by
  have : cat (one u) v = bil (fun a k => bv R (a :: k)) u v := by
    refine bil_ext_supported (S := Set.univ) (T := Set.univ)
      (f := cat.comp one) (g := bil fun a k => bv R (a :: k)) ?_ (by simp) (by simp)
    intro a _ k _
    rw [bil_bv]
    simp
  rw [this]
  refine bil_supported (S := {c | c ∈ G ∧ deg c = i}) (T := T deg G r j) _ (fun a ha k hk => ?_) hu hv
  refine Finsupp.single_mem_supported R _ ⟨?_, ?_, ?_⟩
  · intro x hx
    rcases List.mem_cons.1 hx with rfl | hx
    · exact ha.1
    · exact hk.1 x hx
  · simp [hk.2.1]
  · rw [totDeg, ha.2, hk.2.2, hm]

theorem S_supp (C : Contr d h deg b G) {k : List A} {r : Nat} {m : Int} (hk : k ∈ T deg G r m) :
    S h deg b k ∈ Finsupp.supported R R (T deg G r (m + 1)) := by
  induction k generalizing r m with
  | nil => simp [S]
  | cons a k ih =>
    obtain ⟨hG, hl, hd⟩ := hk
    have ha := hG a (by simp)
    have hG' : ∀ x ∈ k, x ∈ G := fun x hx => hG x (by simp [hx])
    obtain rfl : k.length + 1 = r := by simpa using hl
    rw [totDeg] at hd
    have hk' : k ∈ T deg G k.length (totDeg deg k) := ⟨hG', rfl, rfl⟩
    refine Submodule.add_mem _ ?_ ?_
    · exact cat_T (C.hdeg a ha) (Finsupp.single_mem_supported R _ hk') (by omega)
    · by_cases h0 : deg a = 0
      · rw [phi, if_pos h0]
        exact cat_T (i := 0) (Finsupp.single_mem_supported R _ ⟨C.base.1, C.base.2.1⟩) (ih hk') (by omega)
      · rw [phi, if_neg h0]
        simp

theorem tensK_supp (C : Contr d h deg b G) {k : List A} {r : Nat} {m : Int} (hk : k ∈ T deg G r m) :
    tensK d deg k ∈ Finsupp.supported R R (T deg G r (m - 1)) := by
  induction k generalizing r m with
  | nil => simp [tensK]
  | cons a k ih =>
    obtain ⟨hG, hl, hd⟩ := hk
    have ha := hG a (by simp)
    have hG' : ∀ x ∈ k, x ∈ G := fun x hx => hG x (by simp [hx])
    obtain rfl : k.length + 1 = r := by simpa using hl
    rw [totDeg] at hd
    have hk' : k ∈ T deg G k.length (totDeg deg k) := ⟨hG', rfl, rfl⟩
    refine Submodule.add_mem _ ?_ (Submodule.smul_mem _ _ ?_)
    · exact cat_T (C.ddeg a ha) (Finsupp.single_mem_supported R _ hk') (by omega)
    · rw [consV_eq_cat, show bv R [a] = one (bv R a) by simp]
      exact cat_T (i := deg a) (Finsupp.single_mem_supported R _ ⟨ha, rfl⟩) (ih hk') (by omega)

theorem aug_cat (u v : List A →₀ R) : aug (cat u v) = aug u * aug v := by
  induction u using Finsupp.induction_linear with
  | zero => simp
  | add f g hf hg => simp only [map_add, LinearMap.add_apply, hf, hg, add_mul]
  | single k r =>
    induction v using Finsupp.induction_linear with
    | zero => simp
    | add f g hf hg => simp only [map_add, hf, hg, mul_add]
    | single l s => simp

theorem aug_one (u : A →₀ R) : aug (one u) = aug u := aug_mapK _ u

theorem aug_tensK (C : Contr d h deg b G) (k : List A) (hG : ∀ a ∈ k, a ∈ G) (hd : totDeg deg k ≤ 1) :
    aug (tensK d deg k) = 0 := by
  have hd0 : ∀ a ∈ G, deg a ≤ 1 → aug (d a) = 0 := by
    intro a ha h1
    by_cases e : deg a = 1
    · exact C.aug a ha e
    · have : d a = 0 := by
        have hs := C.ddeg a ha
        refine lin_ext_supported (f := LinearMap.id) (g := 0) (fun c hc => ?_) hs
        have := C.nonneg c hc.1
        have := hc.2
        omega
      simp [this]
  induction k with
  | nil => simp [tensK]
  | cons a k ih =>
    have ha := hG a (by simp)
    have hG' : ∀ x ∈ k, x ∈ G := fun x hx => hG x (by simp [hx])
    have h0 := C.nonneg a ha
    have hk : 0 ≤ totDeg deg k := by
      rw [totDeg_eq_sum]
      exact List.sum_nonneg fun x hx => by
        obtain ⟨c, hc, rfl⟩ := List.mem_map.1 hx
        exact C.nonneg c (hG' c hc)
    rw [totDeg] at hd
    rw [tensK, map_add, map_smul, consV_eq_cat, aug_cat, aug_cat, aug_one, hd0 a ha (by omega),
      ih hG' (by omega)]
    simp

/-- Positive degree: a vector is the boundary of its contraction, up to the contraction of its boundary. -/
theorem contract_pos (C : Contr d h deg b G) {v : List A →₀ R} {r : Nat} {m : Int} (hm : 1 ≤ m)
    (hv : v ∈ Finsupp.supported R R (T deg G r m)) :
    tens d deg (lin (S h deg b) v) = v - lin (S h deg b) (tens d deg v) := by
  refine lin_ext_supported (f := (tens d deg).comp (lin (S h deg b)))
    (g := LinearMap.id - (lin (S h deg b)).comp (tens d deg)) (fun k hk => ?_) hv
  have := homotopy_S C k hk.1
  rw [P_of_pos k (fun a ha => C.nonneg a (hk.1 a ha)) (by rw [hk.2.2]; exact hm), sub_zero] at this
  simp only [LinearMap.comp_apply, LinearMap.sub_apply, LinearMap.id_apply, lin_single, one_smul, tens_single]
  rw [← this]
  abel

/-- Degree zero. -/
theorem contract_zero (C : Contr d h deg b G) {v : List A →₀ R} {r : Nat}
    (hv : v ∈ Finsupp.supported R R (T deg G r 0)) :
    tens d deg (lin (S h deg b) v) = v - aug v • bv R (List.replicate r b) := by
  refine lin_ext_supported (f := (tens d deg).comp (lin (S h deg b)))
    (g := LinearMap.id - aug.smulRight (bv R (List.replicate r b))) (fun k hk => ?_) hv
  have := homotopy_S C k hk.1
  have h0 := deg_zero k (fun a ha => C.nonneg a (hk.1 a ha)) hk.2.2
  have ht : tensK d deg k = 0 := by
    have hs := tensK_supp C hk
    refine lin_ext_supported (f := LinearMap.id) (g := 0) (fun c hc => ?_) hs
    have h1 : 0 ≤ totDeg deg c := by
      rw [totDeg_eq_sum]
      exact List.sum_nonneg fun x hx => by
        obtain ⟨e, he, rfl⟩ := List.mem_map.1 hx
        exact C.nonneg e (hc.1 e he)
    have := hc.2.2
    omega
  rw [P_of_zero k h0, ht, map_zero, add_zero, hk.2.1] at this
  simp only [LinearMap.comp_apply, LinearMap.sub_apply, LinearMap.id_apply, lin_single, one_smul,
    LinearMap.smulRight_apply, aug_single]
  exact this

end Contract
end Comch
