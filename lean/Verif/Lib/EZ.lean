import Verif.Lib.BEMay
import Mathlib.Tactic.LinearCombination
import Mathlib.Tactic.Module

/-! # The Eilenberg-Zilber shuffle map on sequences -/

set_option linter.unusedSectionVars false

namespace Comch
open Finsupp (single)

variable {R : Type} [CommRing R] {α β γ : Type}

/-- Sum over the lattice paths, with the sign of the shuffle. -/
noncomputable def ez : List α → List β → (List (α × β) →₀ R)
  | [], _ => 0
  | _ :: _, [] => 0
  | a :: X, b :: Y =>
    (if X.length = 0 ∧ Y.length = 0 then bv R [(a, b)] else 0) +
      (-1 : R) ^ X.length • consV (a, b) (ez (a :: X) Y) + consV (a, b) (ez X (b :: Y))
termination_by X Y => X.length + Y.length

@[simp] theorem ez_nil_left (Y : List β) : ez (R := R) ([] : List α) Y = 0 := by rw [ez]
@[simp] theorem ez_nil_right (X : List α) : ez (R := R) X ([] : List β) = 0 := by cases X <;> rw [ez]
theorem ez_cons (a : α) (X : List α) (b : β) (Y : List β) :
    ez (R := R) (a :: X) (b :: Y) = (if X.length = 0 ∧ Y.length = 0 then bv R [(a, b)] else 0) +
      (-1 : R) ^ X.length • consV (a, b) (ez (a :: X) Y) + consV (a, b) (ez X (b :: Y)) := by
  rw [ez]

theorem ez_induction {P : List α → List β → Prop} (h1 : ∀ Y, P [] Y) (h2 : ∀ X, P X [])
    (h3 : ∀ a X b Y, P (a :: X) Y → P X (b :: Y) → P (a :: X) (b :: Y)) (X : List α) (Y : List β) : P X Y := by
  induction X generalizing Y with
  | nil => exact h1 Y
  | cons a X ihX =>
    induction Y with
    | nil => exact h2 _
    | cons b Y ihY => exact h3 a X b Y ihY (ihX _)

/-- Linear in the first argument. -/
noncomputable def ezA (Y : List β) : (List α →₀ R) →ₗ[R] (List (α × β) →₀ R) := lin fun X => ez X Y
/-- Linear in the second argument. -/
noncomputable def ezB (X : List α) : (List β →₀ R) →ₗ[R] (List (α × β) →₀ R) := lin fun Y => ez X Y

@[simp] theorem ezA_single (Y : List β) (X : List α) (r : R) : ezA Y (single X r) = r • ez X Y := by simp [ezA]
@[simp] theorem ezB_single (X : List α) (Y : List β) (r : R) : ezB X (single Y r) = r • ez X Y := by simp [ezB]

theorem ezB_nil (v : List β →₀ R) : ezB ([] : List α) v = 0 := by
  induction v using Finsupp.induction_linear with
  | zero => simp
  | add f g hf hg => rw [map_add, hf, hg, add_zero]
  | single Y r => simp

theorem ezA_nil (v : List α →₀ R) : ezA ([] : List β) v = 0 := by
  induction v using Finsupp.induction_linear with
  | zero => simp
  | add f g hf hg => rw [map_add, hf, hg, add_zero]
  | single Y r => simp

theorem ezB_consV (a : α) (X : List α) (b : β) (v : List β →₀ R) :
    ezB (a :: X) (consV b v) = (if X.length = 0 then v [] • bv R [(a, b)] else 0) +
      (-1 : R) ^ X.length • consV (a, b) (ezB (a :: X) v) + consV (a, b) (ezB X (consV b v)) := by
  induction v using Finsupp.induction_linear with
  | zero => simp
  | add f g hf hg =>
    simp only [map_add, hf, hg, Finsupp.coe_add, Pi.add_apply, add_smul, smul_add]
    split <;> abel
  | single Y r =>
    simp only [consV_single, ezB_single, map_smul]
    rw [ez_cons, smul_add, smul_add, smul_comm r ((-1 : R) ^ X.length)]
    congr 2
    by_cases hX : X.length = 0
    · by_cases hY : Y = []
      · simp [hX, hY]
      · simp [hX, hY]
    · simp [hX]

theorem ezA_consV {n : Nat} (a : α) (b : β) (Y : List β) {v : List α →₀ R}
    (hv : v ∈ Finsupp.supported R R {m : List α | m.length = n}) :
    ezA (b :: Y) (consV a v) = (if Y.length = 0 then v [] • bv R [(a, b)] else 0) +
      (-1 : R) ^ n • consV (a, b) (ezA Y (consV a v)) + consV (a, b) (ezA (b :: Y) v) := by
  have := BElem.lin_ext_supported (R := R) (f := (ezA (b :: Y)).comp (consV a))
    (g := (if Y.length = 0 then (Finsupp.lapply ([] : List α)).smulRight (bv R [(a, b)]) else 0) +
      (-1 : R) ^ n • (consV (a, b)).comp ((ezA Y).comp (consV a)) + (consV (a, b)).comp (ezA (b :: Y)))
    (fun X hX => by
      have hX : X.length = n := hX
      simp only [LinearMap.comp_apply, LinearMap.add_apply, LinearMap.smul_apply, consV_single, ezA_single,
        one_smul]
      rw [ez_cons, hX]
      congr 2
      by_cases hY : Y.length = 0
      · by_cases h : X = []
        · subst h
          rw [if_pos ⟨by simpa using hX.symm, hY⟩, if_pos hY]
          simp
        · rw [if_neg, if_pos hY]
          · simp [h]
          · rintro ⟨h1, -⟩
            rw [h1, List.length_eq_zero_iff] at hX
            exact h hX
      · rw [if_neg (fun h => hY h.2), if_neg hY]
        simp) hv
  rw [LinearMap.comp_apply] at this
  rw [this]
  simp only [LinearMap.comp_apply, LinearMap.add_apply, LinearMap.smul_apply]
  congr 2
  split <;> simp

theorem delK_apply_nil (X : List α) : delK (R := R) X [] = if X.length = 1 then 1 else 0 := by
  have hc : ∀ (x : α) (v : List α →₀ R), consV x v [] = 0 := by
    intro x v
    induction v using Finsupp.induction_linear with
    | zero => simp
    | add f g hf hg => simp only [map_add, Finsupp.coe_add, Pi.add_apply, hf, hg, add_zero]
    | single k r => simp
  cases X with
  | nil => simp [delK]
  | cons a X =>
    rw [delK, Finsupp.coe_sub, Pi.sub_apply, hc, sub_zero]
    cases X <;> simp

theorem delK_length (X : List α) :
    delK (R := R) X ∈ Finsupp.supported R R {m : List α | m.length = X.length - 1} := by
  induction X with
  | nil => simp [delK]
  | cons a X ih =>
    rw [delK]
    refine Submodule.sub_mem _ (Finsupp.single_mem_supported R _ (by simp)) ?_
    cases X with
    | nil => simp [delK]
    | cons b X =>
      refine mapK_supported (T := {m : List α | m.length = (a :: b :: X).length - 1}) _ (fun m hm => ?_) ih
      have hm : m.length = (b :: X).length - 1 := hm
      show (a :: m).length = _
      simp only [List.length_cons] at hm ⊢
      omega

theorem del_consV' (p : α) (v : List α →₀ R) : del (consV p v) = v - consV p (del v) := by
  induction v using Finsupp.induction_linear with
  | zero => simp
  | add f g hf hg => simp only [map_add, hf, hg]; abel
  | single k r =>
    simp only [consV_single, del, lin_single, map_smul]
    rw [delK, smul_sub]
    simp

/-- The Eilenberg-Zilber map is a chain map (up to the empty sequence). -/
theorem del_ez (X : List α) (Y : List β) :
    del (ez (R := R) X Y) = ezA Y (delK X) + (-1 : R) ^ (X.length + 1) • ezB X (delK Y) +
      if X.length = 1 ∧ Y.length = 1 then bv R [] else 0 := by
  refine ez_induction (P := fun X Y => del (ez (R := R) X Y) = ezA Y (delK X) +
    (-1 : R) ^ (X.length + 1) • ezB X (delK Y) + if X.length = 1 ∧ Y.length = 1 then bv R [] else 0)
    (fun Y => by simp [delK, ezB_nil]) (fun X => by simp [delK, ezA_nil]) (fun a X b Y ih1 ih2 => ?_) X Y
  have hE : ((-1 : R) ^ X.length) * (-1) ^ X.length = 1 := by
    rw [← pow_add]; exact Even.neg_one_pow ⟨_, rfl⟩
  have hA : ezA (b :: Y) (delK (R := R) (a :: X)) = ez X (b :: Y) - ezA (b :: Y) (consV a (delK X)) := by
    rw [delK, map_sub, ezA_single, one_smul]
  have hA' : ezA Y (delK (R := R) (a :: X)) = ez X Y - ezA Y (consV a (delK X)) := by
    rw [delK, map_sub, ezA_single, one_smul]
  have hB : ezB (a :: X) (delK (R := R) (b :: Y)) = ez (a :: X) Y - ezB (a :: X) (consV b (delK Y)) := by
    rw [delK, map_sub, ezB_single, one_smul]
  have hB' : ezB X (delK (R := R) (b :: Y)) = ez X Y - ezB X (consV b (delK Y)) := by
    rw [delK, map_sub, ezB_single, one_smul]
  have hcB := ezB_consV (R := R) a X b (delK Y)
  have hcA := ezA_consV (R := R) a b Y (delK_length X)
  rw [delK_apply_nil] at hcA hcB
  have hx : X ≠ [] → (-1 : R) ^ (X.length - 1) = - (-1 : R) ^ X.length := by
    intro h
    have := List.length_pos_iff.2 h
    obtain ⟨n, hn⟩ : ∃ n, X.length = n + 1 := ⟨X.length - 1, by omega⟩
    rw [hn, pow_succ]; simp
  have hcA2 : (-1 : R) ^ (X.length - 1) • consV (a, b) (ezA Y (consV a (delK (R := R) X))) =
      - (-1 : R) ^ X.length • consV (a, b) (ezA Y (consV a (delK (R := R) X))) := by
    by_cases h : X = []
    · subst h; simp [delK]
    · rw [hx h]
  rw [hcA2] at hcA
  have hs1 : (-1 : R) ^ ((a :: X).length + 1) = (-1 : R) ^ X.length := by
    rw [List.length_cons, pow_succ, pow_succ]; ring
  have hs2 : (-1 : R) ^ (X.length + 1) = - (-1 : R) ^ X.length := by rw [pow_succ]; ring
  rw [hs1] at ih1 ⊢
  rw [hs2] at ih2
  rw [ez_cons, map_add, map_add, map_smul, del_consV', del_consV', ih1, ih2, hA, hA', hB, hB', hcA, hcB]
  simp only [map_add, map_sub, map_smul, smul_add, smul_sub, smul_smul, hE, one_smul, neg_smul, neg_mul, map_neg,
    smul_neg, mul_neg]
  have t1 : del (R := R) (if X.length = 0 ∧ Y.length = 0 then bv R [(a, b)] else 0) =
      if (a :: X).length = 1 ∧ (b :: Y).length = 1 then bv R [] else 0 := by
    by_cases h : X.length = 0 ∧ Y.length = 0
    · rw [if_pos h, if_pos (by simpa using h), del, lin_single, one_smul]
      simp [delK]
    · rw [if_neg h, if_neg (by simpa using h), map_zero]
  have t2 : consV (a, b) (if (a :: X).length = 1 ∧ Y.length = 1 then bv R [] else 0) =
      (if X.length = 0 then (if Y.length = 1 then (1 : R) else 0) • bv R [(a, b)] else 0) := by
    by_cases h : X.length = 0 <;> by_cases h' : Y.length = 1 <;> simp [h, h']
  have t3 : consV (a, b) (if X.length = 1 ∧ (b :: Y).length = 1 then bv R [] else 0) =
      (if Y.length = 0 then (if X.length = 1 then (1 : R) else 0) • bv R [(a, b)] else 0) := by
    by_cases h : X.length = 1 <;> by_cases h' : Y.length = 0 <;> simp [h, h']
  rw [t1, t2, t3]
  module

/-! ### naturality, support, degenerate arguments -/

theorem ez_map {α' β' : Type} (f : α → α') (g : β → β') (X : List α) (Y : List β) :
    ez (R := R) (X.map f) (Y.map g) = mapK (List.map (Prod.map f g)) (ez X Y) := by
  refine ez_induction (P := fun X Y => ez (R := R) (X.map f) (Y.map g) =
    mapK (List.map (Prod.map f g)) (ez X Y)) (fun Y => by simp) (fun X => by simp) (fun a X b Y ih1 ih2 => ?_) X Y
  have hc : ∀ v : List (α × β) →₀ R, mapK (List.map (Prod.map f g)) (consV (a, b) v) =
      consV (f a, g b) (mapK (List.map (Prod.map f g)) v) := by
    intro v
    induction v using Finsupp.induction_linear with
    | zero => simp
    | add f g hf hg => simp only [map_add, hf, hg]
    | single k r => simp
  rw [List.map_cons] at ih1
  rw [List.map_cons] at ih2
  rw [List.map_cons, List.map_cons, ez_cons, ez_cons, map_add, map_add, map_smul, hc, hc, ih1, ih2,
    List.length_map, List.length_map]
  congr 2
  split <;> simp

theorem ez_supported (X : List α) (Y : List β) :
    ez (R := R) X Y ∈ Finsupp.supported R R {m : List (α × β) | m.length + 1 = X.length + Y.length ∧
      (∀ p ∈ m, p.1 ∈ X ∧ p.2 ∈ Y) ∧ ∃ q ∈ m.head?, q.1 ∈ X.head? ∧ q.2 ∈ Y.head?} := by
  refine ez_induction (P := fun X Y => ez (R := R) X Y ∈ Finsupp.supported R R
      {m : List (α × β) | m.length + 1 = X.length + Y.length ∧
      (∀ p ∈ m, p.1 ∈ X ∧ p.2 ∈ Y) ∧ ∃ q ∈ m.head?, q.1 ∈ X.head? ∧ q.2 ∈ Y.head?})
    (fun Y => by simp) (fun X => by simp) (fun a X b Y ih1 ih2 => ?_) X Y
  rw [ez_cons]
  refine Submodule.add_mem _ (Submodule.add_mem _ ?_ (Submodule.smul_mem _ _ ?_)) ?_
  · split
    · rename_i h
      apply Finsupp.single_mem_supported
      refine ⟨by simp [h.1, h.2], by simp, (a, b), by simp, by simp, by simp⟩
    · exact Submodule.zero_mem _
  · refine mapK_supported _ (fun m hm => ?_) ih1
    obtain ⟨h1, h2, -⟩ := hm
    refine ⟨by simp only [List.length_cons] at h1 ⊢; omega, ?_, (a, b), by simp, by simp, by simp⟩
    intro p hp
    rcases List.mem_cons.1 hp with rfl | hp
    · simp
    · exact ⟨(h2 p hp).1, List.mem_cons_of_mem _ (h2 p hp).2⟩
  · refine mapK_supported _ (fun m hm => ?_) ih2
    obtain ⟨h1, h2, -⟩ := hm
    refine ⟨by simp only [List.length_cons] at h1 ⊢; omega, ?_, (a, b), by simp, by simp, by simp⟩
    intro p hp
    rcases List.mem_cons.1 hp with rfl | hp
    · simp
    · exact ⟨List.mem_cons_of_mem _ (h2 p hp).1, (h2 p hp).2⟩

theorem ez_hasRep [DecidableEq α] [DecidableEq β] (X : List α) (Y : List β)
    (h : hasRep X = true ∨ hasRep Y = true) :
    ez (R := R) X Y ∈ Finsupp.supported R R {m : List (α × β) | hasRep m = true} := by
  refine ez_induction (P := fun X Y => hasRep X = true ∨ hasRep Y = true →
    ez (R := R) X Y ∈ Finsupp.supported R R {m : List (α × β) | hasRep m = true})
    (fun Y _ => by simp) (fun X _ => by simp) (fun a X b Y ih1 ih2 h => ?_) X Y h
  have hcons : ∀ {m : List (α × β)} (p : α × β), hasRep m = true → hasRep (p :: m) = true := by
    intro m p hm
    cases m with
    | nil => simp [hasRep] at hm
    | cons q m => simp [hasRep, hm]
  rw [ez_cons]
  refine Submodule.add_mem _ (Submodule.add_mem _ ?_ (Submodule.smul_mem _ _ ?_)) ?_
  · rw [if_neg]
    · exact Submodule.zero_mem _
    · rintro ⟨h1, h2⟩
      rw [List.length_eq_zero_iff] at h1 h2
      subst h1 h2
      simp [hasRep] at h
  · -- first step in the direction of `Y`
    by_cases hh : hasRep (a :: X) = true ∨ hasRep Y = true
    · exact mapK_supported (S := {m : List (α × β) | hasRep m = true}) (T := {m : List (α × β) | hasRep m = true}) _
        (fun m hm => by have hm : hasRep m = true := hm; exact hcons _ hm) (ih1 hh)
    · cases Y with
      | nil => simp
      | cons b' Y =>
        have hb : b = b' := by
          rw [not_or] at hh
          rcases h with h | h
          · exact absurd h hh.1
          · simp only [hasRep, Bool.or_eq_true, beq_iff_eq] at h
            exact h.resolve_right hh.2
        subst hb
        refine mapK_supported (T := {m : List (α × β) | hasRep m = true}) _ (fun m hm => ?_)
          (ez_supported (R := R) (a :: X) (b :: Y))
        obtain ⟨-, -, q, hq, hqa, hqb⟩ := hm
        cases m with
        | nil => simp at hq
        | cons q' m =>
          simp only [List.head?_cons, Option.mem_def, Option.some.injEq] at hq hqa hqb
          subst hq
          show hasRep ((a, b) :: q' :: m) = true
          simp only [hasRep, Bool.or_eq_true, beq_iff_eq]
          left
          rw [hqa, hqb]
  · by_cases hh : hasRep X = true ∨ hasRep (b :: Y) = true
    · exact mapK_supported (S := {m : List (α × β) | hasRep m = true}) (T := {m : List (α × β) | hasRep m = true}) _
        (fun m hm => by have hm : hasRep m = true := hm; exact hcons _ hm) (ih2 hh)
    · cases X with
      | nil => simp
      | cons a' X =>
        have hb : a = a' := by
          rw [not_or] at hh
          rcases h with h | h
          · simp only [hasRep, Bool.or_eq_true, beq_iff_eq] at h
            exact h.resolve_right hh.1
          · exact absurd h hh.2
        subst hb
        refine mapK_supported (T := {m : List (α × β) | hasRep m = true}) _ (fun m hm => ?_)
          (ez_supported (R := R) (a :: X) (b :: Y))
        obtain ⟨-, -, q, hq, hqa, hqb⟩ := hm
        cases m with
        | nil => simp at hq
        | cons q' m =>
          simp only [List.head?_cons, Option.mem_def, Option.some.injEq] at hq hqa hqb
          subst hq
          show hasRep ((a, b) :: q' :: m) = true
          simp only [hasRep, Bool.or_eq_true, beq_iff_eq]
          left
          rw [hqa, hqb]

/-! ### commutativity -/

theorem ez_swap (X : List α) (Y : List β) :
    ez (R := R) X Y = (-1 : R) ^ ((X.length + 1) * (Y.length + 1)) • mapK (List.map Prod.swap) (ez Y X) := by
  refine ez_induction (P := fun X Y => ez (R := R) X Y =
    (-1 : R) ^ ((X.length + 1) * (Y.length + 1)) • mapK (List.map Prod.swap) (ez Y X))
    (fun Y => by simp) (fun X => by simp) (fun a X b Y ih1 ih2 => ?_) X Y
  have hc : ∀ v : List (β × α) →₀ R, mapK (List.map Prod.swap) (consV (b, a) v) =
      consV (a, b) (mapK (List.map Prod.swap) v) := by
    intro v
    induction v using Finsupp.induction_linear with
    | zero => simp
    | add f g hf hg => simp only [map_add, hf, hg]
    | single k r => simp
  rw [ez_cons, ih1, ih2, ez_cons b Y a X]
  simp only [map_add, map_smul, hc, smul_add, smul_smul, List.length_cons]
  have e1 : (-1 : R) ^ X.length * (-1) ^ ((X.length + 1 + 1) * (Y.length + 1)) =
      (-1) ^ ((X.length + 1 + 1) * (Y.length + 1 + 1)) := by
    rw [← pow_add]
    have : (X.length + 1 + 1) * (Y.length + 1 + 1) = X.length + (X.length + 1 + 1) * (Y.length + 1) + 2 * 1 := by ring
    rw [this, pow_add _ _ (2 * 1), pow_mul]; simp
  have e2 : (-1 : R) ^ ((X.length + 1 + 1) * (Y.length + 1 + 1)) * (-1) ^ Y.length =
      (-1) ^ ((X.length + 1) * (Y.length + 1 + 1)) := by
    rw [← pow_add]
    have : (X.length + 1 + 1) * (Y.length + 1 + 1) + Y.length = (X.length + 1) * (Y.length + 1 + 1) + 2 * (Y.length + 1) := by ring
    rw [this, pow_add, pow_mul]; simp
  rw [e1, e2]
  have e3 : (-1 : R) ^ ((X.length + 1 + 1) * (Y.length + 1 + 1)) •
      mapK (List.map Prod.swap) (if Y.length = 0 ∧ X.length = 0 then bv R [(b, a)] else 0) =
      if X.length = 0 ∧ Y.length = 0 then bv R [(a, b)] else 0 := by
    by_cases h : X.length = 0 ∧ Y.length = 0
    · rw [if_pos h, if_pos ⟨h.2, h.1⟩, h.1, h.2]
      simp [show (-1 : R) ^ 4 = 1 from Even.neg_one_pow ⟨2, rfl⟩]
    · rw [if_neg h, if_neg (fun h' => h ⟨h'.2, h'.1⟩)]; simp
  rw [e3]
  abel

/-! ### associativity -/

/-- Rebracketing. -/
def assocP (p : (α × β) × γ) : α × (β × γ) := (p.1.1, p.1.2, p.2)

theorem ez_apply_nil (X : List α) (Y : List β) : ez (R := R) X Y [] = 0 := by
  have h := ez_supported (R := R) X Y
  rw [Finsupp.mem_supported'] at h
  apply h
  rintro ⟨-, -, q, hq, -⟩
  simp at hq

theorem ez_assoc (X : List α) (Y : List β) (Z : List γ) :
    mapK (List.map assocP) (ezA Z (ez (R := R) X Y)) = ezB X (ez Y Z) := by
  induction X generalizing Y Z with
  | nil => simp [ezB_nil]
  | cons a X ihX =>
    induction Y generalizing Z with
    | nil => simp
    | cons b Y ihY =>
      induction Z with
      | nil => simp [ezA_nil]
      | cons c Z ihZ =>
        have hc : ∀ v : List ((α × β) × γ) →₀ R, mapK (List.map assocP) (consV ((a, b), c) v) =
            consV (a, (b, c)) (mapK (List.map assocP) v) := by
          intro v
          induction v using Finsupp.induction_linear with
          | zero => simp
          | add f g hf hg => simp only [map_add, hf, hg]
          | single k r => simp [assocP]
        have hlen : ∀ (X : List α) (Y : List β), ez (R := R) X Y ∈
            Finsupp.supported R R {m : List (α × β) | m.length = X.length + Y.length - 1} := fun X Y =>
          Finsupp.supported_mono (fun m hm => by have := hm.1; show m.length = _; omega) (ez_supported (R := R) X Y)
        have s1 := hlen (a :: X) Y
        have s2 := hlen X (b :: Y)
        simp only [List.length_cons] at s1 s2
        rw [show X.length + 1 + Y.length - 1 = X.length + Y.length by omega] at s1
        rw [show X.length + (Y.length + 1) - 1 = X.length + Y.length by omega] at s2
        have hp : (-1 : R) ^ (X.length + Y.length) = (-1) ^ X.length * (-1) ^ Y.length := pow_add _ _ _
        have hE : ((-1 : R) ^ X.length) * (-1) ^ X.length = 1 := by
          rw [← pow_add]; exact Even.neg_one_pow ⟨_, rfl⟩
        have L : mapK (List.map assocP) (ezA (c :: Z) (ez (R := R) (a :: X) (b :: Y))) =
            (if X.length = 0 ∧ Y.length = 0 ∧ Z.length = 0 then bv R [(a, b, c)] else 0) +
            (-1 : R) ^ X.length • consV (a, b, c) (mapK (List.map assocP) (ezA (c :: Z) (ez (a :: X) Y))) +
            consV (a, b, c) (mapK (List.map assocP) (ezA (c :: Z) (ez X (b :: Y)))) +
            (-1 : R) ^ (X.length + Y.length) • consV (a, b, c) (mapK (List.map assocP) (ezA Z (ez (a :: X) (b :: Y)))) := by
          have hz := ez_cons (R := R) a X b Y
          conv_lhs =>
            rw [hz]
            simp only [map_add, map_smul]
            rw [ezA_consV _ _ _ s1, ezA_consV _ _ _ s2, ez_apply_nil, ez_apply_nil]
          rw [hz]
          simp only [map_add, map_smul]
          have t : ezA (c :: Z) (if X.length = 0 ∧ Y.length = 0 then bv R [(a, b)] else 0) =
              (if X.length = 0 ∧ Y.length = 0 ∧ Z.length = 0 then bv R [((a, b), c)] else 0) +
              (-1 : R) ^ (X.length + Y.length) • consV ((a, b), c)
                (ezA Z (if X.length = 0 ∧ Y.length = 0 then bv R [(a, b)] else 0)) := by
            by_cases h : X.length = 0 ∧ Y.length = 0
            · rw [if_pos h, ezA_single, one_smul, ezA_single, one_smul, ez_cons]
              by_cases hZ : Z.length = 0 <;> simp [h.1, h.2, hZ]
            · rw [if_neg h, if_neg (fun h' => h ⟨h'.1, h'.2.1⟩)]
              simp
          rw [t]
          simp only [zero_smul, ite_self, zero_add, map_zero, smul_zero, map_add, map_smul, smul_add, hc]
          have t' : mapK (List.map assocP) (if X.length = 0 ∧ Y.length = 0 ∧ Z.length = 0 then bv R [((a, b), c)] else 0) =
              if X.length = 0 ∧ Y.length = 0 ∧ Z.length = 0 then bv R [(a, b, c)] else 0 := by
            split <;> simp [assocP]
          rw [t']
          simp only [smul_smul, mul_comm]
          abel
        have Rr : ezB (a :: X) (ez (R := R) (b :: Y) (c :: Z)) =
            (if X.length = 0 ∧ Y.length = 0 ∧ Z.length = 0 then bv R [(a, b, c)] else 0) +
            (-1 : R) ^ X.length • consV (a, b, c) (ezB (a :: X) (ez Y (c :: Z))) +
            consV (a, b, c) (ezB X (ez (b :: Y) (c :: Z))) +
            (-1 : R) ^ (X.length + Y.length) • consV (a, b, c) (ezB (a :: X) (ez (b :: Y) Z)) := by
          have hz := ez_cons (R := R) b Y c Z
          conv_lhs =>
            rw [hz]
            simp only [map_add, map_smul]
            rw [ezB_consV, ezB_consV, ez_apply_nil, ez_apply_nil]
          rw [hz]
          simp only [map_add, map_smul, hp]
          have t : ezB (a :: X) (if Y.length = 0 ∧ Z.length = 0 then bv R [(b, c)] else 0) =
              (if X.length = 0 ∧ Y.length = 0 ∧ Z.length = 0 then bv R [(a, b, c)] else 0) +
              consV (a, b, c) (ezB X (if Y.length = 0 ∧ Z.length = 0 then bv R [(b, c)] else 0)) := by
            by_cases h : Y.length = 0 ∧ Z.length = 0
            · rw [if_pos h, ezB_single, one_smul, ezB_single, one_smul, ez_cons]
              by_cases hX : X.length = 0 <;> simp [h.1, h.2, hX]
            · rw [if_neg h, if_neg (fun h' => h h'.2)]
              simp
          rw [t]
          simp only [zero_smul, ite_self, zero_add, map_add, map_smul, smul_add, smul_smul, mul_comm]
          abel
        rw [L, Rr, ihX, ihY, ihZ]

/-! ### last step first -/

/-- Append a last entry. -/
noncomputable def snocV (p : α) : (List α →₀ R) →ₗ[R] (List α →₀ R) := mapK fun m => m ++ [p]

theorem snocV_single (p : α) (m : List α) (r : R) : snocV p (single m r) = single (m ++ [p]) r := by
  simp [snocV]

theorem snocV_consV (p q : α) (v : List α →₀ R) : snocV p (consV q v) = consV q (snocV p v) := by
  induction v using Finsupp.induction_linear with
  | zero => simp
  | add f g hf hg => simp only [map_add, hf, hg]
  | single k r => simp [snocV_single]

theorem ez_snoc (X : List α) (a : α) (Y : List β) (b : β) :
    ez (R := R) (X ++ [a]) (Y ++ [b]) = (if X.length = 0 ∧ Y.length = 0 then bv R [(a, b)] else 0) +
      (-1 : R) ^ Y.length • snocV (a, b) (ez X (Y ++ [b])) + snocV (a, b) (ez (X ++ [a]) Y) := by
  induction X generalizing Y with
  | nil =>
    induction Y with
    | nil => rw [List.nil_append, List.nil_append, ez_cons]; simp
    | cons y Y ih =>
      rw [List.nil_append, List.cons_append, ez_cons] at *
      rw [ih, ez_cons]
      by_cases hY : Y.length = 0
      · simp [hY, snocV_consV, snocV_single]
      · simp [hY, snocV_consV]
  | cons x X ihX =>
    induction Y with
    | nil =>
      have ih := ihX []
      rw [List.nil_append] at *
      rw [List.cons_append, ez_cons, ih, ez_cons]
      by_cases hX : X.length = 0
      · simp [hX, snocV_consV, snocV_single]
      · simp [hX, snocV_consV]
    | cons y Y ihY =>
      have ih := ihX (y :: Y)
      simp only [List.cons_append] at *
      rw [ez_cons, ihY, ez_cons x X y (Y ++ [b]), ez_cons x (X ++ [a]) y Y]
      rw [ih]
      simp only [List.length_append, List.length_cons, List.length_nil, Nat.add_eq_zero_iff, one_ne_zero, and_false,
        false_and, if_false, map_add, map_smul, snocV_consV, zero_add, smul_add, smul_smul, pow_add, pow_one]
      module

end Comch
