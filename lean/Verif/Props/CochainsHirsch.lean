import Verif.Props.CochainsRing
import Verif.Props.CallCoeff

/-! # The cup-1 product of simplicial cochains and Hirsch's formula: C130 -/

set_option linter.unusedSectionVars false

namespace Comch.Coch
open Comch.Spec Elem SurjComp SurjElem IsPerm SurjMay Comch.Props
open BElem (stepV stepV_supported PermSet stepV_mul)
open Finsupp (single)

variable {n : Nat} {σ : List Nat} {X : OrderedComplex}

theorem psiS_two_one (R : Type) [CommRing R] : psiS R 2 1 = bv R [1, 2, 1] := by
  have h1 : stepV R 2 (0 + 1) = bv R [2, 1] - bv R [1, 2] := rfl
  have e1 : aV (R := R) (bv R [2, 1]) (bv R [1, 2]) = bv R [2, 1] := by
    simp [aV]; rfl
  have e2 : aV (R := R) (bv R [1, 2]) (bv R [1, 2]) = bv R [1, 2] := by
    simp [aV]; rfl
  rw [psiS, h1, psiS]
  have h0 : pyRange 1 (2 + 1) = [1, 2] := by decide
  rw [h0, map_sub, LinearMap.sub_apply, e1, e2]
  simp only [hV, Nat.reduceSub, LinearMap.add_apply, LinearMap.comp_apply, LinearMap.zero_apply, map_zero, add_zero, map_sub,
    sV, consV_single, pr_single]
  have r1 : hasRep [1, 2, 1] = false := by decide
  have r2 : hasRep [1, 1, 2] = true := by decide
  simp [r1, r2]

theorem W_one : W 2 n 1 (bv (ZMod n) [σ]) = pr lany (sact 2 [1, 2, 1] σ) := by
  unfold W
  rw [LinearMap.comp_apply, psiS_two_one, convS_single, one_mul, map_smul, LinearMap.smul_apply, map_smul]
  have h1 : sg (ZMod n) (convE .mcClureSmith [1, 2, 1]) = 1 := by
    have : convE .mcClureSmith [1, 2, 1] = 0 := by decide
    rw [this]; simp
  rw [h1, one_smul, callV_one _ _ _ rfl]
  rfl

theorem exponent_121 (p q r : List Nat) :
    sortingExponent [1, 2, 1] [p, q, r] + concatenationExponent [1, 2, 1] [p, q, r] = dimOf p + dimOf q * dimOf r := by
  have c0 : isCaesura [1, 2, 1] 0 := by decide
  have c1 : ¬ isCaesura [1, 2, 1] 1 := by decide
  have c2 : ¬ isCaesura [1, 2, 1] 2 := by decide
  simp [sortingExponent, concatenationExponent, sumTo, List.range_succ, c0, c1, c2]
  ring

theorem assemble_121 (p q r : List Nat) : assemble 2 [1, 2, 1] [p, q, r] = [p ++ r, q] := by
  simp [assemble, List.range_succ]

theorem hasRep_overlap (p r : List Nat) (x : Nat) : hasRep (p ++ [x] ++ (x :: r)) = true := by
  induction p with
  | nil => simp [hasRep]
  | cons a p ih =>
    cases p with
    | nil => simp [hasRep] at ih ⊢
    | cons b p => simp [hasRep] at ih ⊢; simp [ih]

/-- The value of the cup-1 product as a sum over all intervals of vertices. -/
theorem wv_one (hσ : Inc σ) (a c : Nat) (α β : List Nat → ZMod n) : wv 2 n 1 [(a, α), (c, β)] σ =
    ((List.range σ.length).map fun i => ((List.range (σ.length - i)).map fun j =>
      if j = 0 then 0 else (-1) ^ (i + j * (σ.length - i - j - 1)) *
        tensorValue [(a, α), (c, β)] [σ.take (i + 1) ++ σ.drop (i + j), (σ.drop i).take (j + 1)]).sum).sum := by
  rw [wv, W_one, sact_apply 2 (by simp) hσ.2]
  simp only [List.length_cons, List.length_nil, Nat.zero_add, Nat.reduceAdd, allCuts]
  rw [map_list_sum, map_list_sum, List.map_map, List.map_map, List.map_flatMap, List.flatMap_def, List.sum_flatten, List.map_map]
  congr 1
  refine List.map_congr_left fun i hi => ?_
  have hi := List.mem_range.1 hi
  rw [Function.comp, List.map_map, List.map_flatMap, List.flatMap_def, List.sum_flatten, List.map_map, List.length_drop]
  congr 1
  refine List.map_congr_left fun j hj => ?_
  have hj := List.mem_range.1 hj
  simp only [Function.comp, List.map_cons, List.map_nil, List.sum_cons, List.sum_nil, add_zero]
  rw [exponent_121, assemble_121, map_smul, map_smul, pr_single, List.drop_drop]
  have hs : sg (ZMod n) (dimOf (σ.take (i + 1)) + dimOf ((σ.drop i).take (j + 1)) * dimOf (σ.drop (i + j))) =
      (-1) ^ (i + j * (σ.length - i - j - 1)) := by
    rw [← sg_natCast]
    congr 1
    simp only [dimOf, List.length_take, List.length_drop]
    rw [min_eq_left (by omega), min_eq_left (by omega), show σ.length - (i + j) = (σ.length - i - j - 1) + 1 by omega]
    push_cast
    ring
  rw [hs]
  by_cases h0 : j = 0
  · subst h0
    have : lany [σ.take (i + 1) ++ σ.drop (i + 0), (σ.drop i).take (0 + 1)] = true := by
      have e : σ.take (i + 1) ++ σ.drop (i + 0) = σ.take i ++ [σ[i]] ++ (σ[i] :: σ.drop (i + 1)) := by
        rw [add_zero, ← List.take_concat_get' σ i hi, List.drop_eq_getElem_cons hi]
      rw [e]
      simp only [lany, List.any_cons, ldrop, hasRep_overlap]
      simp
    rw [this]
    simp
  · rw [if_neg h0]
    have h1 : Inc (σ.take (i + 1) ++ σ.drop (i + j)) := by
      refine ⟨hσ.1.sublist ?_, by intro h; have := congrArg List.length h; simp at this; omega⟩
      conv_rhs => rw [← List.take_append_drop (i + 1) σ]
      refine List.Sublist.append_left ?_ _
      obtain ⟨t, rfl⟩ : ∃ t, j = t + 1 := ⟨j - 1, by omega⟩
      rw [show i + (t + 1) = i + 1 + t by ring, ← List.drop_drop]
      exact List.drop_sublist _ _
    have h2 : Inc ((σ.drop i).take (j + 1)) :=
      ⟨hσ.1.sublist ((List.take_sublist _ _).trans (List.drop_sublist _ _)),
        by intro h; have := congrArg List.length h; simp at this; omega⟩
    have : lany [σ.take (i + 1) ++ σ.drop (i + j), (σ.drop i).take (j + 1)] = false := by
      simp only [lany, List.any_cons, List.any_nil, h1.ldrop, h2.ldrop, Bool.or_false]
    rw [this]
    simp

end Comch.Coch

namespace Comch.Props
open Comch.Spec Comch.Coch Elem SurjComp SurjElem SurjMay

variable {n : Nat} {σ : List Nat} {X : OrderedComplex}

/-- The product `α ∪_1 β` is the sum over all intervals of `c + 1` consecutive vertices of the product of the
value of `β` on the interval and of the value of `α` on the simplex without the inner vertices of the interval. -/
theorem C130_cup_one (hn : n ≠ 1) (hσ : σ ∈ X.simplices) (a c : Nat) (α β : List Nat → ZMod n)
    (hl : σ.length = a + c) (hc : 1 ≤ c) :
    cupValue n 1 a α c β σ = .ok ((List.range a).map fun i => (-1) ^ (i + c * (a - 1 - i)) *
      (α (σ.take (i + 1) ++ σ.drop (i + c)) * β ((σ.drop i).take (c + 1)))).sum := by
  rw [cup_eq hn (inc_of_mem hσ), wv_one (inc_of_mem hσ), hl, show a + c = a + c from rfl, List.range_add, List.map_append,
    List.sum_append]
  congr 1
  rw [List.sum_eq_zero (l := List.map _ (List.map _ _)), add_zero]
  · congr 1
    refine List.map_congr_left fun i hi => ?_
    have hi := List.mem_range.1 hi
    rw [sum_range_single (a := c) _ (by omega)]
    · rw [if_neg (by omega)]
      simp only [tensorValue, mul_one]
      rw [if_pos (by simp only [List.length_append, List.length_take, List.length_drop]; omega),
        if_pos (by simp only [List.length_take, List.length_drop]; omega), show a + c - i - c - 1 = a - 1 - i by omega]
    · intro j hj hne
      split
      · rfl
      · simp only [tensorValue, mul_one]
        rw [if_neg (c := ((σ.drop i).take (j + 1)).length = c + 1) (by simp only [List.length_take, List.length_drop]; omega)]
        simp
  · intro t ht
    simp only [List.mem_map, List.mem_range] at ht
    obtain ⟨_, ⟨i, hi, rfl⟩, rfl⟩ := ht
    refine List.sum_eq_zero fun t ht => ?_
    obtain ⟨j, hj, rfl⟩ := List.mem_map.1 ht
    have hj := List.mem_range.1 hj
    split
    · rfl
    · simp only [tensorValue, mul_one]
      rw [if_neg (c := ((σ.drop (a + i)).take (j + 1)).length = c + 1) (by simp only [List.length_take, List.length_drop]; omega)]
      simp

/-- In all other dimensions, and for `β` of degree 0, the product is 0. -/
theorem C130_cup_one_zero (hn : n ≠ 1) (hσ : σ ∈ X.simplices) (a c : Nat) (α β : List Nat → ZMod n)
    (h : σ.length ≠ a + c ∨ c = 0) : cupValue n 1 a α c β σ = .ok 0 := by
  rw [cup_eq hn (inc_of_mem hσ), wv_one (inc_of_mem hσ)]
  congr 1
  refine List.sum_eq_zero fun t ht => ?_
  obtain ⟨i, hi, rfl⟩ := List.mem_map.1 ht
  have hi := List.mem_range.1 hi
  refine List.sum_eq_zero fun t ht => ?_
  obtain ⟨j, hj, rfl⟩ := List.mem_map.1 ht
  have hj := List.mem_range.1 hj
  split
  · rfl
  · simp only [tensorValue, mul_one]
    by_cases h2 : j = c
    · rw [if_neg (c := (σ.take (i + 1) ++ σ.drop (i + j)).length = a + 1)
        (by simp only [List.length_append, List.length_take, List.length_drop]; omega)]
      simp
    · rw [if_neg (c := ((σ.drop i).take (j + 1)).length = c + 1) (by simp only [List.length_take, List.length_drop]; omega)]
      simp

theorem cochain_ok {A : Type} [Zero A] {f : List Nat → Py A} {v : A} (h : f σ = .ok v) : cochain f σ = v := by
  rw [cochain, h]

/-- Hirsch's formula: `(α ∪ β) ∪_1 γ = (-1)^{|β||γ|} (α ∪_1 γ) ∪ β + (-1)^{|α|} α ∪ (β ∪_1 γ)`, on cochains, for
`γ` of positive degree `r + 1`. -/
theorem C130_hirsch (hn : n ≠ 1) (hσ : σ ∈ X.simplices) (p q r : Nat) (α β γ : List Nat → ZMod n)
    (hl : σ.length = p + q + (r + 1)) :
    cochain (cupValue n 1 (p + q) (cochain (cupValue n 0 p α q β)) (r + 1) γ) σ =
      (-1) ^ (q * (r + 1)) * cochain (cupValue n 0 (p + r) (cochain (cupValue n 1 p α (r + 1) γ)) q β) σ +
        (-1) ^ p * cochain (cupValue n 0 p α (q + r) (cochain (cupValue n 1 q β (r + 1) γ))) σ := by
  have hne : ∀ {τ : List Nat}, 0 < τ.length → τ ≠ [] := fun h e => by subst e; simp at h
  have e1 := C130_cup_one hn hσ (p + q) (r + 1) (cochain (cupValue n 0 p α q β)) γ hl (by omega)
  have e2 := C103_front_back hn hσ (p + r) q (cochain (cupValue n 1 p α (r + 1) γ)) β (by omega)
  have e3 := C103_front_back hn hσ p (q + r) α (cochain (cupValue n 1 q β (r + 1) γ)) (by omega)
  have hf : σ.take (p + r + 1) ∈ X.simplices :=
    X.faces σ hσ _ (List.take_sublist _ _) (hne (by rw [List.length_take]; omega))
  have e4 := C130_cup_one hn hf p (r + 1) α γ (by rw [List.length_take]; omega) (by omega)
  rw [cochain_ok e1, cochain_ok e2, cochain_ok e3, cochain_ok e4]
  rw [List.range_add, List.map_append, List.sum_append, List.map_map]
  have hface : ∀ i, i < p + q → σ.take (i + 1) ++ σ.drop (i + (r + 1)) ∈ X.simplices := by
    intro i hi
    refine X.faces σ hσ _ ?_ (hne (by simp only [List.length_append, List.length_take]; omega))
    conv_rhs => rw [← List.take_append_drop (i + 1) σ]
    refine List.Sublist.append_left ?_ _
    rw [show i + (r + 1) = i + 1 + r by ring, ← List.drop_drop]
    exact List.drop_sublist _ _
  have hcup : ∀ i, i < p + q → cochain (cupValue n 0 p α q β) (σ.take (i + 1) ++ σ.drop (i + (r + 1))) =
      α ((σ.take (i + 1) ++ σ.drop (i + (r + 1))).take (p + 1)) *
        β ((σ.take (i + 1) ++ σ.drop (i + (r + 1))).drop p) := by
    intro i hi
    exact cochain_ok (C103_front_back hn (hface i hi) p q α β
      (by simp only [List.length_append, List.length_take, List.length_drop]; omega))
  congr 1
  · rw [← mul_assoc, ← List.sum_map_mul_left, ← List.sum_map_mul_right]
    congr 1
    refine List.map_congr_left fun i hi => ?_
    have hi := List.mem_range.1 hi
    have t1 : (σ.take (i + 1) ++ σ.drop (i + (r + 1))).take (p + 1) =
        (σ.take (p + r + 1)).take (i + 1) ++ (σ.take (p + r + 1)).drop (i + (r + 1)) := by
      rw [List.take_append, List.length_take, List.take_take, List.take_take, List.drop_take]
      rw [min_eq_left (show i + 1 ≤ σ.length by omega), min_eq_right (show i + 1 ≤ p + 1 by omega),
        min_eq_left (show i + 1 ≤ p + r + 1 by omega)]
      congr 2
      omega
    have t2 : (σ.take (i + 1) ++ σ.drop (i + (r + 1))).drop p = σ.drop (p + r) := by
      rw [List.drop_append, List.length_take, List.drop_eq_nil_of_le (by rw [List.length_take]; omega), List.nil_append,
        List.drop_drop]
      congr 1
      omega
    have t3 : ((σ.take (p + r + 1)).drop i).take (r + 1 + 1) = (σ.drop i).take (r + 1 + 1) := by
      rw [List.drop_take, List.take_take, min_eq_left (by omega)]
    rw [hcup i (by omega), t1, t2, t3]
    have hs : ((-1 : ZMod n)) ^ (i + (r + 1) * (p + q - 1 - i)) = (-1) ^ (q * (r + 1)) * (-1) ^ (i + (r + 1) * (p - 1 - i)) := by
      rw [← pow_add]
      congr 1
      rw [show p + q - 1 - i = q + (p - 1 - i) by omega]
      ring
    rw [hs]
    ring
  · have hb : σ.drop p ∈ X.simplices :=
      X.faces σ hσ _ (List.drop_sublist _ _) (hne (by rw [List.length_drop]; omega))
    have e5 := C130_cup_one hn hb q (r + 1) β γ (by rw [List.length_drop]; omega) (by omega)
    rw [cochain_ok e5, ← mul_assoc, ← List.sum_map_mul_left]
    congr 1
    refine List.map_congr_left fun k hk => ?_
    have hk := List.mem_range.1 hk
    have t1 : (σ.take (p + k + 1) ++ σ.drop (p + k + (r + 1))).take (p + 1) = σ.take (p + 1) := by
      rw [List.take_append_of_le_length (by rw [List.length_take]; omega), List.take_take, min_eq_left (by omega)]
    have t2 : (σ.take (p + k + 1) ++ σ.drop (p + k + (r + 1))).drop p =
        (σ.drop p).take (k + 1) ++ (σ.drop p).drop (k + (r + 1)) := by
      rw [List.drop_append_of_le_length (by rw [List.length_take]; omega), List.drop_take, List.drop_drop]
      congr 2
      all_goals omega
    rw [Function.comp, hcup (p + k) (by omega), t1, t2, show σ.drop (p + k) = (σ.drop p).drop k from (List.drop_drop ..).symm]
    have hs : ((-1 : ZMod n)) ^ (p + k + (r + 1) * (p + q - 1 - (p + k))) = (-1) ^ p * (-1) ^ (k + (r + 1) * (q - 1 - k)) := by
      rw [← pow_add]
      congr 1
      rw [show p + q - 1 - (p + k) = q - 1 - k by omega]
      ring
    rw [hs]
    ring

/-- The square `Sq^{q-1}` of a cochain of degree `q` on a simplex of dimension `2 q - 1`: the sum over all intervals
of `q + 1` consecutive vertices. -/
theorem C130_square (hσ : σ ∈ X.simplices) (q : Nat) (hq : 1 ≤ q) (α : List Nat → ZMod 2) (hl : σ.length = q + q) :
    steenrodValue 2 (q - 1) q false α σ = .ok ((List.range q).map fun i =>
      α (σ.take (i + 1) ++ σ.drop (i + q)) * α ((σ.drop i).take (q + 1))).sum := by
  rw [square_eq (inc_of_mem hσ), if_pos (by omega), show ((q : Int) - (q - 1)).toNat = 1 by omega]
  have h := C130_cup_one (n := 2) (by norm_num) hσ q q α α hl hq
  rw [cup_eq (by norm_num) (inc_of_mem hσ)] at h
  rw [h]
  congr 2
  refine List.map_congr_left fun i _ => ?_
  rw [show (-1 : ZMod 2) = 1 by decide, one_pow, one_mul]

example : [0, 1, 2, 3] ∈ (exComplex 5).simplices ∧ [0, 1, 2, 3].length = 2 + 2 ∧ [0, 1, 2, 3].length = 1 + 1 + (1 + 1) :=
  ⟨⟨by decide, by decide, by decide⟩, rfl, rfl⟩

/-- Both summands of the formula contribute, and the product is not 0. -/
example : cupValue 0 1 2 (fun σ => (σ.sum : Int)) 2 (fun σ => ((σ.getD 1 0 : Nat) : Int)) [1, 2, 4, 8] =
    .ok (((-1) ^ 2 * (13 * 2) + (-1) ^ 1 * (11 * 4) : Int) : ZMod 0) := by decide +kernel

end Comch.Props
