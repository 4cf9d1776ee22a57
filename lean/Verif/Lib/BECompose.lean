import Verif.Lib.BEPaths
import Verif.Lib.PermOps

/-! # Composition in the Barratt-Eccles operad, on keys and vectors -/

set_option linter.unusedSectionVars false

namespace Comch.BElem
open Finsupp (single)
open Elem Spec IsPerm
open SurjMay (mapK_comp')

variable {R : Type} [CommRing R] {r s u i j k : Nat}

theorem mapK_congr_supported {K K' : Type} {f g : K → K'} {S : Set K} (h : ∀ a ∈ S, f a = g a) {v : K →₀ R}
    (hv : v ∈ Finsupp.supported R R S) : mapK f v = mapK g v :=
  lin_ext_supported (S := S) (fun a ha => by simp [h a ha]) hv

/-- Composition of a pair. -/
def cp (i : Nat) (p : Perm × Perm) : Perm := IsPerm.compL p.1 p.2 i

/-- Composition of two keys. -/
noncomputable def ecmp (i : Nat) (k1 k2 : BKey) : BKey →₀ R := mapK (List.map (cp i)) (ez k1 k2)

/-- Composition of vectors. -/
noncomputable def ecmpV (R : Type) [CommRing R] (i : Nat) :
    (BKey →₀ R) →ₗ[R] (BKey →₀ R) →ₗ[R] (BKey →₀ R) := bil (ecmp i)

/-- Keys made of permutations of `1..r`. -/
def BS (r : Nat) : Set BKey := {k | ∀ σ ∈ k, IsPerm r σ}

/-- Keys of degree `d` made of permutations of `1..r`. -/
def BSd (r d : Nat) : Set BKey := {k | k.length = d + 1 ∧ ∀ σ ∈ k, IsPerm r σ}

theorem eq_map_getD (k : BKey) : k = (List.range k.length).map fun a => k.getD a [] := by
  apply List.ext_getElem
  · simp
  · intro n h1 h2
    simp [h1]

/-- The events of one pair of items. -/
def pathEvents (i t p q : Nat) (k1 : BKey) (v1 : Int) (k2 : BKey) (v2 : Int) : List (BKey × Int) :=
  (paths p q).map fun path =>
    (path.map fun e => cp i (k1.getD e.1 [], k2.getD e.2 []), (if t = 2 then 1 else signOfPath path) * v1 * v2)

theorem den_pathEvents {t p q : Nat} {k1 k2 : BKey} (h1 : k1.length = p + 1) (h2 : k2.length = q + 1) (v1 v2 : Int) :
    den (ZMod t) (pathEvents i t p q k1 v1 k2 v2) = ((v1 * v2 : Int) : ZMod t) • ecmp i k1 k2 := by
  have hk : ez (R := ZMod t) k1 k2 = mapK (List.map (Prod.map (fun a => k1.getD a []) (fun a => k2.getD a [])))
      (pathSum (ZMod t) p q) := by
    rw [pathSum_eq, ← ez_map, ← h1, ← h2, ← eq_map_getD, ← eq_map_getD]
  unfold pathEvents ecmp
  rw [den_map, hk, mapK_comp', pathSum, map_list_sum, List.smul_sum, List.map_map, List.map_map]
  congr 1
  apply List.map_congr_left
  intro path _
  simp only [Function.comp, map_smul, mapK_single, List.map_map, smul_smul]
  rw [Finsupp.smul_single, smul_eq_mul, mul_one]
  congr 1
  split
  · rename_i h
    subst h
    have : (-1 : ZMod 2) = 1 := by decide
    rw [signOfPath_eq]
    simp [this]
  · push_cast; ring

theorem ecmp_supported {d e : Nat} {k1 k2 : BKey} (h1 : k1 ∈ BSd r d) (h2 : k2 ∈ BSd s e) (hi : 1 ≤ i ∧ i ≤ r) :
    ecmp (R := R) i k1 k2 ∈ Finsupp.supported R R (BSd (r + s - 1) (d + e)) := by
  obtain ⟨l1, p1⟩ := h1
  obtain ⟨l2, p2⟩ := h2
  refine mapK_supported (T := BSd (r + s - 1) (d + e)) _ (fun m hm => ?_) (ez_supported (R := R) k1 k2)
  obtain ⟨hl, hp, -⟩ := hm
  refine ⟨by rw [List.length_map]; omega, ?_⟩
  intro σ hσ
  obtain ⟨q, hq, rfl⟩ := List.mem_map.1 hσ
  exact isPerm_compL (p1 _ (hp q hq).1) (p2 _ (hp q hq).2) hi.1 hi.2

theorem ecmp_supported' {k1 k2 : BKey} (h1 : k1 ∈ BS r) (h2 : k2 ∈ BS s) (hi : 1 ≤ i ∧ i ≤ r) :
    ecmp (R := R) i k1 k2 ∈ Finsupp.supported R R (BS (r + s - 1)) := by
  refine mapK_supported (T := BS (r + s - 1)) _ (fun m hm => ?_) (ez_supported (R := R) k1 k2)
  obtain ⟨hl, hp, -⟩ := hm
  intro σ hσ
  obtain ⟨q, hq, rfl⟩ := List.mem_map.1 hσ
  exact isPerm_compL (h1 _ (hp q hq).1) (h2 _ (hp q hq).2) hi.1 hi.2

theorem ecmpV_supported {d e : Nat} {a b : BKey →₀ R} (ha : a ∈ Finsupp.supported R R (BSd r d))
    (hb : b ∈ Finsupp.supported R R (BSd s e)) (hi : 1 ≤ i ∧ i ≤ r) :
    ecmpV R i a b ∈ Finsupp.supported R R (BSd (r + s - 1) (d + e)) :=
  bil_supported (ecmp i) (S := BSd r d) (T := BSd s e) (fun _ h1 _ h2 => ecmp_supported h1 h2 hi) ha hb

/-! ### degenerate keys -/

theorem hasRep_map_of {α β : Type} [DecidableEq α] [DecidableEq β] (f : α → β) {k : List α} (h : hasRep k = true) :
    hasRep (k.map f) = true := by
  induction k with
  | nil => simp [hasRep] at h
  | cons a k ih =>
    cases k with
    | nil => simp [hasRep] at h
    | cons b k =>
      simp only [hasRep, Bool.or_eq_true, beq_iff_eq, List.map_cons] at h ih ⊢
      rcases h with h | h
      · left; rw [h]
      · right; exact ih h

theorem pr_ecmp {k1 k2 : BKey} (h : barrattEccles.drops k1 = true ∨ barrattEccles.drops k2 = true) :
    pr barrattEccles.drops (ecmp (R := R) i k1 k2) = 0 := by
  simp only [be_drops, Bool.or_eq_true, decide_eq_true_eq] at h
  have : ecmp (R := R) i k1 k2 ∈ Finsupp.supported R R {m : BKey | hasRep m = true} := by
    by_cases h0 : k1 = [] ∨ k2 = []
    · unfold ecmp
      rcases h0 with rfl | rfl <;> simp
    · rw [not_or] at h0
      refine mapK_supported (T := {m : BKey | hasRep m = true}) _ (fun m hm => ?_)
        (ez_hasRep (R := R) k1 k2 (h.imp (fun h => h.resolve_left h0.1) fun h => h.resolve_left h0.2))
      have hm : hasRep m = true := hm
      exact hasRep_map_of _ hm
  refine lin_ext_supported (f := pr barrattEccles.drops) (g := 0) (fun m hm => ?_) this
  have hm : hasRep m = true := hm
  rw [pr_single, if_pos]
  · rfl
  · rw [be_drops]; simp [hm]

theorem pr_ecmpV_left (a b : BKey →₀ R) :
    pr barrattEccles.drops (ecmpV R i (pr barrattEccles.drops a) b) = pr barrattEccles.drops (ecmpV R i a b) := by
  have := lin_ext (f := (pr barrattEccles.drops).comp (((ecmpV R i).flip b).comp (pr barrattEccles.drops)))
    (g := (pr barrattEccles.drops).comp ((ecmpV R i).flip b)) (fun k1 => by
      simp only [LinearMap.comp_apply, LinearMap.flip_apply, pr_single]
      split
      · rename_i h
        rw [map_zero, LinearMap.zero_apply, map_zero]
        symm
        have := lin_ext (f := (pr barrattEccles.drops).comp (ecmpV R i (bv R k1))) (g := 0) (fun k2 => by
          simp only [LinearMap.comp_apply, ecmpV, bil_single, one_mul, one_smul, LinearMap.zero_apply]
          exact pr_ecmp (Or.inl h))
        exact DFunLike.congr_fun this b
      · rfl)
  exact DFunLike.congr_fun this a

theorem pr_ecmpV_right (a b : BKey →₀ R) :
    pr barrattEccles.drops (ecmpV R i a (pr barrattEccles.drops b)) = pr barrattEccles.drops (ecmpV R i a b) := by
  have := lin_ext (f := (pr barrattEccles.drops).comp ((ecmpV R i a).comp (pr barrattEccles.drops)))
    (g := (pr barrattEccles.drops).comp (ecmpV R i a)) (fun k2 => by
      simp only [LinearMap.comp_apply, pr_single]
      split
      · rename_i h
        rw [map_zero, map_zero]
        symm
        have := lin_ext (f := (pr barrattEccles.drops).comp ((ecmpV R i).flip (bv R k2))) (g := 0) (fun k1 => by
          simp only [LinearMap.comp_apply, LinearMap.flip_apply, ecmpV, bil_single, one_mul, one_smul, LinearMap.zero_apply]
          exact pr_ecmp (Or.inr h))
        exact DFunLike.congr_fun this a
      · rfl)
  exact DFunLike.congr_fun this b

/-! ### Leibniz -/

theorem ecmpV_single_right (a : BKey →₀ R) (k2 : BKey) :
    ecmpV R i a (single k2 1) = mapK (List.map (cp i)) (ezA k2 a) := by
  induction a using Finsupp.induction_linear with
  | zero => simp
  | add f g hf hg => simp only [map_add, LinearMap.add_apply, hf, hg]
  | single k c => simp [ecmpV, ecmp]

theorem ecmpV_single_left (b : BKey →₀ R) (k1 : BKey) :
    ecmpV R i (single k1 1) b = mapK (List.map (cp i)) (ezB k1 b) := by
  induction b using Finsupp.induction_linear with
  | zero => simp
  | add f g hf hg => simp only [map_add, hf, hg]
  | single k c => simp [ecmpV, ecmp]

theorem del_mapK_map {α β : Type} (f : α → β) (v : List α →₀ R) :
    del (mapK (List.map f) v) = mapK (List.map f) (del v) := by
  induction v using Finsupp.induction_linear with
  | zero => simp
  | add f g hf hg => simp only [map_add, hf, hg]
  | single k c =>
    rw [mapK_single, del_single, del_single, delK_map, map_smul]

/-- The Leibniz rule for vectors. -/
theorem ecmpV_leibniz (d : Nat) {a : BKey →₀ R} (b : BKey →₀ R)
    (ha : a ∈ Finsupp.supported R R {k : BKey | k.length = d + 1}) :
    pr barrattEccles.drops (del (ecmpV R i a b)) =
      pr barrattEccles.drops (ecmpV R i (del a) b) +
        (-1 : R) ^ d • pr barrattEccles.drops (ecmpV R i a (del b)) := by
  refine lin_ext_supported (f := (pr barrattEccles.drops).comp (del.comp ((ecmpV R i).flip b)))
    (g := (pr barrattEccles.drops).comp (((ecmpV R i).flip b).comp del) +
      (-1 : R) ^ d • (pr barrattEccles.drops).comp ((ecmpV R i).flip (del b)))
    (S := {k : BKey | k.length = d + 1}) ?_ ha
  intro k1 hk1
  have hk1 : k1.length = d + 1 := hk1
  have := lin_ext (f := (pr barrattEccles.drops).comp (del.comp (ecmpV R i (single k1 1))))
    (g := (pr barrattEccles.drops).comp (ecmpV R i (del (single k1 1))) +
      (-1 : R) ^ d • (pr barrattEccles.drops).comp ((ecmpV R i (single k1 1)).comp del)) (fun k2 => by
    simp only [LinearMap.add_apply, LinearMap.comp_apply, LinearMap.smul_apply]
    rw [ecmpV_single_right, ecmpV_single_right, ecmpV_single_left, del_mapK_map, ezA_single, one_smul, del_ez,
      del_single, del_single, one_smul, one_smul, hk1]
    simp only [map_add, map_smul]
    have e : pr barrattEccles.drops (mapK (R := R) (List.map (cp i))
        (if d + 1 = 1 ∧ k2.length = 1 then bv R [] else 0)) = 0 := by
      split
      · simp [be_drops]
      · simp
    rw [e, add_zero, pow_add, pow_add]
    simp)
  have := DFunLike.congr_fun this b
  simpa using this

/-! ### units -/

theorem ez_single_right {α β : Type} (X : List α) (hX : X ≠ []) (b : β) :
    ez (R := R) X [b] = bv R (X.map fun a => (a, b)) := by
  induction X with
  | nil => exact absurd rfl hX
  | cons a X ih =>
    rw [ez_cons]
    cases X with
    | nil => simp
    | cons a' X => rw [ih (by simp)]; simp

theorem ez_single_left {α β : Type} (a : α) (Y : List β) (hY : Y ≠ []) :
    ez (R := R) [a] Y = bv R (Y.map fun b => (a, b)) := by
  induction Y with
  | nil => exact absurd rfl hY
  | cons b Y ih =>
    rw [ez_cons]
    cases Y with
    | nil => simp
    | cons a' X => rw [ih (by simp)]; simp

theorem ecmp_one_right {k1 : BKey} (h1 : ∀ σ ∈ k1, IsPerm r σ) (hne : k1 ≠ []) (hi : 1 ≤ i) :
    ecmp (R := R) i k1 [[1]] = bv R k1 := by
  rw [ecmp, ez_single_right _ hne, mapK_single, List.map_map]
  congr 1
  conv_rhs => rw [← List.map_id k1]
  apply List.map_congr_left
  intro σ hσ
  exact compL_one (h1 σ hσ) hi

theorem ecmp_one_left {k2 : BKey} (hne : k2 ≠ []) : ecmp (R := R) 1 [[1]] k2 = bv R k2 := by
  rw [ecmp, ez_single_left _ _ hne, mapK_single, List.map_map]
  congr 1
  conv_rhs => rw [← List.map_id k2]
  apply List.map_congr_left
  intro σ _
  exact one_compL σ

/-! ### associativity -/

theorem ezA_mapK {α α' β : Type} (f : α → α') (Y : List β) (v : List α →₀ R) :
    ezA Y (mapK (List.map f) v) = mapK (List.map (Prod.map f id)) (ezA Y v) := by
  induction v using Finsupp.induction_linear with
  | zero => simp
  | add f g hf hg => simp only [map_add, hf, hg]
  | single k c =>
    have := ez_map (R := R) f id k Y
    rw [List.map_id] at this
    simp [this]

theorem ezB_mapK {α β β' : Type} (f : β → β') (X : List α) (v : List β →₀ R) :
    ezB X (mapK (List.map f) v) = mapK (List.map (Prod.map id f)) (ezB X v) := by
  induction v using Finsupp.induction_linear with
  | zero => simp
  | add f g hf hg => simp only [map_add, hf, hg]
  | single k c =>
    have := ez_map (R := R) id f X k
    rw [List.map_id] at this
    simp [this]

/-- Keys of triples. -/
theorem ezA_ez_supported {α β γ : Type} (X : List α) (Y : List β) (Z : List γ) :
    ezA Z (ez (R := R) X Y) ∈ Finsupp.supported R R
      {m : List ((α × β) × γ) | ∀ p ∈ m, p.1.1 ∈ X ∧ p.1.2 ∈ Y ∧ p.2 ∈ Z} := by
  refine lin_supported _ (fun k hk => ?_) (ez_supported (R := R) X Y)
  refine Finsupp.supported_mono (t := {m : List ((α × β) × γ) | ∀ p ∈ m, p.1.1 ∈ X ∧ p.1.2 ∈ Y ∧ p.2 ∈ Z})
    (fun m hm => ?_) (ez_supported (R := R) k Z)
  intro p hp
  have h1 := hm.2.1 p hp
  have h2 := hk.2.1 _ h1.1
  exact ⟨h2.1, h2.2, h1.2⟩

theorem ecmp_sequential {k1 k2 k3 : BKey} (h1 : k1 ∈ BS r) (h2 : k2 ∈ BS s) (h3 : k3 ∈ BS u)
    (hi : 1 ≤ i ∧ i ≤ r) (hj : 1 ≤ j ∧ j ≤ s) :
    ecmpV R (i + j - 1) (ecmp i k1 k2) (bv R k3) = ecmpV R i (bv R k1) (ecmp j k2 k3) := by
  rw [ecmpV_single_right, ecmpV_single_left, ecmp, ecmp, ezA_mapK, ezB_mapK, ← ez_assoc, mapK_comp', mapK_comp',
    mapK_comp']
  refine mapK_congr_supported (fun m hm => ?_) (ezA_ez_supported k1 k2 k3)
  have hm : ∀ p ∈ m, p.1.1 ∈ k1 ∧ p.1.2 ∈ k2 ∧ p.2 ∈ k3 := hm
  simp only [Function.comp, List.map_map]
  apply List.map_congr_left
  intro p hp
  obtain ⟨m1, m2, m3⟩ := hm p hp
  exact compL_seq (h1 _ m1) (h2 _ m2) (fun b hb => ((mem_iff (h3 _ m3)).1 hb).1) hi hj
    (by rw [length_compL (h2 _ m2) (h3 _ m3) hj.1 hj.2, (h3 _ m3).length])

theorem ecmp_parallel {k1 k2 k3 : BKey} {d e : Nat} (h1 : k1 ∈ BS r) (h2 : k2 ∈ BSd s d) (h3 : k3 ∈ BSd u e)
    (hi : 1 ≤ i) (hik : i < k) :
    ecmpV R (k + s - 1) (ecmp i k1 k2) (bv R k3) = (-1 : R) ^ (d * e) • ecmpV R i (ecmp k k1 k3) (bv R k2) := by
  have key : ezA k3 (ez (R := R) k1 k2) = (-1 : R) ^ (d * e) •
      mapK (List.map fun p : (Perm × Perm) × Perm => ((p.1.1, p.2), p.1.2)) (ezA k2 (ez k1 k3)) := by
    have inv : ∀ v : List ((Perm × Perm) × Perm) →₀ R,
        mapK (List.map fun p : Perm × (Perm × Perm) => ((p.1, p.2.1), p.2.2)) (mapK (List.map assocP) v) = v := by
      intro v
      rw [mapK_comp']
      induction v using Finsupp.induction_linear with
      | zero => simp
      | add f g hf hg => rw [map_add, hf, hg]
      | single m c =>
        rw [mapK_single]
        congr 1
        simp [Function.comp_def, assocP]
    rw [← inv (ezA k3 _), ez_assoc, ez_swap k2 k3, map_smul, map_smul, ezB_mapK, ← ez_assoc, mapK_comp', mapK_comp']
    have e1 : (-1 : R) ^ ((k2.length + 1) * (k3.length + 1)) = (-1) ^ (d * e) := by
      rw [h2.1, h3.1]
      have : (d + 1 + 1) * (e + 1 + 1) = d * e + 2 * (d + e + 2) := by ring
      rw [this, pow_add, pow_mul]; simp
    rw [e1]
    congr 2
    congr 1
    funext m
    simp [Function.comp_def, assocP]
  rw [ecmpV_single_right, ecmpV_single_right, ecmp, ecmp, ezA_mapK, ezA_mapK, key, map_smul, map_smul, mapK_comp',
    mapK_comp', mapK_comp']
  congr 1
  refine mapK_congr_supported (fun m hm => ?_) (ezA_ez_supported k1 k3 k2)
  have hm : ∀ p ∈ m, p.1.1 ∈ k1 ∧ p.1.2 ∈ k3 ∧ p.2 ∈ k2 := hm
  simp only [Function.comp, List.map_map]
  apply List.map_congr_left
  intro p hp
  obtain ⟨m1, m2, m3⟩ := hm p hp
  exact compL_par (h1 _ m1) (h2.2 _ m3) (fun b hb => ((mem_iff (h3.2 _ m2)).1 hb).1) hi hik

theorem sequentialV {a b c : BKey →₀ R} (ha : a ∈ Finsupp.supported R R (BS r))
    (hb : b ∈ Finsupp.supported R R (BS s)) (hc : c ∈ Finsupp.supported R R (BS u))
    (hi : 1 ≤ i ∧ i ≤ r) (hj : 1 ≤ j ∧ j ≤ s) :
    ecmpV R (i + j - 1) (ecmpV R i a b) c = ecmpV R i a (ecmpV R j b c) := by
  refine lin_ext_supported (f := ((ecmpV R (i + j - 1)).flip c).comp ((ecmpV R i).flip b))
    (g := (ecmpV R i).flip (ecmpV R j b c)) (S := BS r) ?_ ha
  intro k1 hk1
  refine lin_ext_supported (f := ((ecmpV R (i + j - 1)).flip c).comp (ecmpV R i (single k1 1)))
    (g := (ecmpV R i (single k1 1)).comp ((ecmpV R j).flip c)) (S := BS s) ?_ hb
  intro k2 hk2
  refine lin_ext_supported (f := ecmpV R (i + j - 1) (ecmpV R i (single k1 1) (single k2 1)))
    (g := (ecmpV R i (single k1 1)).comp (ecmpV R j (single k2 1))) (S := BS u) ?_ hc
  intro k3 hk3
  rw [LinearMap.comp_apply]
  have e : ∀ i (a b : BKey), ecmpV R i (single a 1) (single b 1) = ecmp i a b := fun i a b => by
    rw [ecmpV, bil_single]; simp
  rw [e, e]
  exact ecmp_sequential hk1 hk2 hk3 hi hj

theorem parallelV {d e : Nat} {a b c : BKey →₀ R} (ha : a ∈ Finsupp.supported R R (BS r))
    (hb : b ∈ Finsupp.supported R R (BSd s d)) (hc : c ∈ Finsupp.supported R R (BSd u e))
    (hi : 1 ≤ i) (hik : i < k) :
    ecmpV R (k + s - 1) (ecmpV R i a b) c = (-1 : R) ^ (d * e) • ecmpV R i (ecmpV R k a c) b := by
  refine lin_ext_supported (f := ((ecmpV R (k + s - 1)).flip c).comp ((ecmpV R i).flip b))
    (g := (-1 : R) ^ (d * e) • ((ecmpV R i).flip b).comp ((ecmpV R k).flip c)) (S := BS r) ?_ ha
  intro k1 hk1
  refine lin_ext_supported (f := ((ecmpV R (k + s - 1)).flip c).comp (ecmpV R i (single k1 1)))
    (g := (-1 : R) ^ (d * e) • (ecmpV R i (ecmpV R k (single k1 1) c))) (S := BSd s d) ?_ hb
  intro k2 hk2
  refine lin_ext_supported (f := ecmpV R (k + s - 1) (ecmpV R i (single k1 1) (single k2 1)))
    (g := (-1 : R) ^ (d * e) • ((ecmpV R i).flip (single k2 1)).comp (ecmpV R k (single k1 1)))
    (S := BSd u e) ?_ hc
  intro k3 hk3
  have e' : ∀ i (a b : BKey), ecmpV R i (single a 1) (single b 1) = ecmp i a b := fun i a b => by
    rw [ecmpV, bil_single]; simp
  rw [LinearMap.smul_apply, LinearMap.comp_apply, LinearMap.flip_apply, e', e']
  exact ecmp_parallel hk1 hk2 hk3 hi hik

end Comch.BElem
