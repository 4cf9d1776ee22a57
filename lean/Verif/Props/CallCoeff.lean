import Verif.Props.SurjCallMore
import Verif.Spec.Cuts

/-! # Closed formula for the action of the surjection operad on simplicial chains: C84 -/

set_option linter.unusedSectionVars false

namespace Comch

namespace SurjComp
open Comch.Spec Elem SurjElem
open Finsupp (single)

variable {R : Type} [CommRing R]

/-- The sum of all cuts. -/
theorem aw_eq_cuts {A : Type} [DecidableEq A] (t : Nat) (V : List A) :
    aw (R := R) t V = ((allCuts (t + 1) V).map (bv R)).sum := by
  induction t generalizing V with
  | zero => simp [aw_zero, allCuts]
  | succ t iht =>
    induction V with
    | nil => simp [aw_nil, allCuts]
    | cons a V ihV =>
      rw [aw_cons, ihV, iht]
      rw [show t + 1 + 1 = t + 2 from rfl, allCuts, allCuts, List.length_cons, List.range_succ_eq_map,
        List.flatMap_cons, List.map_append, List.sum_append]
      congr 1
      · rw [map_list_sum, List.map_map, List.map_map]
        simp only [List.drop_zero, List.take_succ_cons, List.take_zero]
        congr 1
        apply List.map_congr_left
        intro ps _
        simp
      · rw [map_list_sum, List.map_map, List.flatMap_map, List.map_flatMap, List.map_flatMap]
        congr 1
        apply List.flatMap_congr
        intro i _
        rw [List.map_map, List.map_map]
        apply List.map_congr_left
        intro ps _
        simp [preK]

theorem sumTo_congr {n : Nat} {f g : Nat → Int} (h : ∀ i < n, f i = g i) : sumTo n f = sumTo n g := by
  unfold sumTo
  rw [List.map_congr_left fun i hi => h i (List.mem_range.1 hi)]

theorem sumTo_succ (n : Nat) (f : Nat → Int) : sumTo (n + 1) f = f 0 + sumTo n fun i => f (i + 1) := by
  unfold sumTo
  rw [List.range_succ_eq_map, List.map_cons, List.sum_cons, List.map_map]
  rfl

theorem sumTo_add (n : Nat) (f g : Nat → Int) : sumTo n (fun i => f i + g i) = sumTo n f + sumTo n g := by
  unfold sumTo
  rw [List.sum_map_add]

theorem sumTo_zero (n : Nat) : sumTo n (fun _ => 0) = 0 := by simp [sumTo]

theorem sumTo_mul (n : Nat) (c : Int) (f : Nat → Int) : sumTo n (fun i => c * f i) = c * sumTo n f := by
  unfold sumTo
  rw [List.sum_map_mul_left]

theorem lowSum_eq_sumTo {k : List Nat} {ps : List (List Nat)} (hl : ps.length = k.length) (x : Nat) :
    lowSum x (k.zip (dims ps)) = sumTo k.length fun b => if k.getD b 0 < x then dimOf (ps.getD b []) else 0 := by
  induction k generalizing ps with
  | nil => simp [lowSum, sumTo]
  | cons y k ih =>
    cases ps with
    | nil => simp at hl
    | cons p ps =>
      have hz : (y :: k).zip (dims (p :: ps)) = (y, (p.length : Int) - 1) :: k.zip (dims ps) := rfl
      rw [hz, lowSum_cons, ih (by simpa using hl), List.length_cons, sumTo_succ]
      simp [dimOf]

theorem sdeg_filter_eq {k : List Nat} (x : Nat) :
    (sdeg (k.filter (x ≤ ·)) : Int) = sumTo k.length fun a => if isCaesura k a ∧ x ≤ k.getD a 0 then 1 else 0 := by
  induction k with
  | nil => simp [sdeg, sumTo]
  | cons y k ih =>
    rw [List.length_cons, sumTo_succ, List.filter_cons]
    have h1 : ∀ a, isCaesura (y :: k) (a + 1) ↔ isCaesura k a := by
      intro a
      simp [isCaesura]
    simp only [h1, List.getD_cons_succ, ← ih]
    have h0 : isCaesura (y :: k) 0 ↔ y ∈ k := by simp [isCaesura]
    by_cases h : x ≤ y
    · rw [if_pos (by simpa using h), sdeg]
      have hm : y ∈ k.filter (x ≤ ·) ↔ y ∈ k := by simp [h]
      simp only [hm, h0, List.getD_cons_zero, h, and_true]
      push_cast
      rfl
    · rw [if_neg (by simpa using h)]
      simp [h]

/-- The recursive form of the sign of the code is the closed form. -/
theorem cexp_eq_exponents {k : List Nat} {ps : List (List Nat)} (hl : ps.length = k.length) :
    cexp (k.zip (dims ps)) = sortingExponent k ps + concatenationExponent k ps := by
  induction k generalizing ps with
  | nil => simp [cexp, sortingExponent, concatenationExponent, sumTo]
  | cons x k ih =>
    cases ps with
    | nil => simp at hl
    | cons p ps =>
      have hl' : ps.length = k.length := by simpa using hl
      have hz : (x :: k).zip (dims (p :: ps)) = (x, dimOf p) :: k.zip (dims ps) := rfl
      have hf : (k.zip (dims ps)).map Prod.fst = k := List.map_fst_zip (by simp [dims, hl'])
      rw [hz, cexp, hf, ih hl', lowSum_eq_sumTo hl', sdeg_filter_eq]
      unfold sortingExponent concatenationExponent
      rw [List.length_cons]
      simp only [sumTo_succ]
      have h1 : ∀ a, isCaesura (x :: k) (a + 1) ↔ isCaesura k a := by
        intro a
        simp [isCaesura]
      have h0 : isCaesura (x :: k) 0 ↔ x ∈ k := by simp [isCaesura]
      simp only [h1, h0, List.getD_cons_succ, List.getD_cons_zero, lt_self_iff_false, false_and, if_false,
        Nat.not_lt_zero, Nat.zero_lt_succ, true_and, Nat.succ_lt_succ_iff, Nat.succ_le_succ_iff, le_refl,
        and_true, zero_add, Nat.zero_le, or_true, sumTo_add, and_false]
      have e1 : (sumTo k.length fun i => if k.getD i 0 < x then dimOf p * dimOf (ps.getD i []) else 0) =
          dimOf p * sumTo k.length fun b => if k.getD b 0 < x then dimOf (ps.getD b []) else 0 := by
        rw [← sumTo_mul]
        exact sumTo_congr fun i _ => by split <;> simp
      have e2 : (sumTo k.length fun i => if x ∈ k ∧ (k.getD i 0 < x ∨ k.getD i 0 = x ∧ i + 1 ≤ 0) then
          dimOf (ps.getD i []) else 0) =
          if x ∈ k then sumTo k.length fun b => if k.getD b 0 < x then dimOf (ps.getD b []) else 0 else 0 := by
        by_cases hx : x ∈ k
        · simp [hx]
        · simp [hx, sumTo_zero]
      have e3 : (sumTo k.length fun i => if isCaesura k i ∧ (x < k.getD i 0 ∨ x = k.getD i 0) then dimOf p else 0) =
          dimOf p * sumTo k.length fun a => if isCaesura k a ∧ x ≤ k.getD a 0 then 1 else 0 := by
        rw [← sumTo_mul]
        refine sumTo_congr fun i _ => ?_
        simp only [← Nat.le_iff_lt_or_eq]
        split <;> simp
      rw [e1, e2, e3]
      split <;> ring

theorem assemble_eq (r : Nat) (k : List Nat) (ps : List (List Nat)) :
    assemble r k ps = tensorOf r (joinW k ps) := by
  unfold assemble tensorOf tensorFrom
  rw [List.range'_eq_map_range, List.map_map]
  apply List.map_congr_left
  intro v _
  rw [Function.comp, SurjElem.labels_joinW]
  unfold fiber
  congr 3
  funext p
  rw [Nat.add_comm]
  rfl

theorem length_of_mem_allCuts {A : Type} {n : Nat} {V : List A} {ps : List (List A)} (h : ps ∈ allCuts n V) :
    ps.length = n := by
  induction n generalizing V ps with
  | zero => simp [allCuts] at h
  | succ n ih =>
    cases n with
    | zero =>
      simp only [allCuts, List.mem_singleton] at h
      subst h
      rfl
    | succ n =>
      simp only [allCuts, List.mem_flatMap, List.mem_map] at h
      obtain ⟨i, _, qs, hq, rfl⟩ := h
      rw [List.length_cons, ih hq]

theorem sact_apply (r : Nat) {k : List Nat} (hk : k ≠ []) {V : List Nat} (hV : V ≠ []) :
    sact (R := R) r k V = ((allCuts k.length V).map fun ps =>
      sg R (sortingExponent k ps + concatenationExponent k ps) • bv R (assemble r k ps)).sum := by
  rw [← sact_eq r hk hV, aw_eq_cuts, map_list_sum, List.map_map]
  have hkl : k.length - 1 + 1 = k.length := by
    have := List.length_pos_iff.2 hk
    omega
  rw [hkl]
  congr 1
  apply List.map_congr_left
  intro ps hps
  have hl := length_of_mem_allCuts hps
  rw [Function.comp, lin_single, one_smul, cutTerm, assemble_eq]
  congr 1
  have he : (ps.map fun s => Simplex.dimension s % 2) = (dims ps).map (· % 2) := by
    simp [dims, Simplex.dimension, Function.comp_def]
  rw [he, computeSign_eq (by simp [dims, hl]), cast_pySign]
  apply sg_eq_of_zmod
  rw [cast_cexp_mod _ _ (by simp [dims, hl]), cexp_eq_exponents hl]

theorem atKd_apply {n : Nat} {d : Int} (f : List Nat → (List (List Nat) →₀ R)) {m : List (List Nat)}
    (hn : n < m.length) : atKd ldim d f n m =
      sg R (((m.take n).map dimOf).sum * d) • cat (bv R (m.take n)) (cat (f (m.getD n [])) (bv R (m.drop (n + 1)))) := by
  induction n generalizing m with
  | zero =>
    cases m with
    | nil => simp at hn
    | cons a m => simp [atKd]
  | succ n ih =>
    cases m with
    | nil => simp at hn
    | cons a m =>
      rw [atKd, ih (by simpa using hn), map_smul, smul_smul, consV_eq_cat, ← cat_assoc, cat_single_single]
      rw [← sg_add]
      simp only [List.take_succ_cons, List.map_cons, List.sum_cons, List.getD_cons_succ, List.drop_succ_cons,
        mul_one, List.singleton_append]
      congr 2
      simp only [ldim, dimOf]
      ring

end SurjComp

namespace Props
open Comch.Spec Elem SurjComp SurjElem

variable {x : SurjElem} {y z : SElem} {r a coord : Nat} {d e : Int}

/-- The coefficients of `x(y)` on any factor of a homogeneous tensor of simplices: each term of `x`, each
term of `y` and each way of cutting the chosen factor into as many overlapping pieces as the surjection has
letters contributes, up to the sign of Berger and Fresse, the product of the coefficients. -/
theorem C84_action_coeff (hx : InSurj r x) (hd : x.degree = some d)
    (hcv : x.attrs.convention = .mcClureSmith) (hy : y.NF simplicial) (hyd : y.degree = some e)
    (hya : y.arity = some a) (ht : y.torsion = x.torsion) (h1 : 1 ≤ coord) (h2 : coord ≤ a)
    (hz : callSimplicial x y coord = .ok z) (m : SKey) (hm : ∀ s ∈ m, s.isDegenerate = false) :
    z.coeff m ≡ ((pyProduct x.data y.data).map fun pq =>
      pq.1.2 * pq.2.2 * actionCoeff r d coord pq.1.1 pq.2.1 m).sum [ZMOD x.torsion] := by
  have hk := homogeneous_keys hyd hya
  have hs : ∀ p ∈ x.data, ((sdeg p.1 : Nat) : Int) = d := fun p hp => sdeg_of_degree hx hd hp
  obtain ⟨z', ez, nz, az, dz⟩ := call_ok hx hs hcv hy hk rfl ht h1 h2
  obtain rfl : z = z' := by rw [hz] at ez; cases ez; rfl
  rw [← ZMod.intCast_eq_intCast_iff]
  have hc := DFunLike.congr_fun dz m
  have hm' : lany m = false := by
    rw [← simplicial_drops_lany]
    show (m.any fun s => s.isDegenerate) = false
    simpa using hm
  rw [Dict.den_apply nz.nodup, pr_apply, hm'] at hc
  simp only [Bool.false_eq_true, if_false] at hc
  rw [coeff, hc, callV, bil_den]
  rw [← Finsupp.applyAddHom_apply, map_list_sum, List.map_map, Int.cast_list_sum, List.map_map]
  congr 1
  apply List.map_congr_left
  intro pq hpq
  obtain ⟨hp, hq⟩ := mem_pyProduct.1 hpq
  simp only [Function.comp, Finsupp.applyAddHom_apply, Finsupp.smul_apply, smul_eq_mul]
  rw [Int.cast_mul (_ * _)]
  congr 1
  have hlen : coord - 1 < pq.2.1.length := by rw [(hk _ hq).2]; omega
  have hkne : pq.1.1 ≠ [] := onto_ne_nil hx.nf hp
  have hgd : pq.2.1.getD (coord - 1) [] = pq.2.1[coord - 1] := List.getD_eq_getElem _ _ hlen
  have hV : pq.2.1.getD (coord - 1) [] ≠ [] := by
    rw [hgd]
    exact nf_ne_nil hy hq _ (List.getElem_mem hlen)
  have hlin : ∀ (L Rt : List (List Nat)) (l : List (List (List Nat) →₀ ZMod x.torsion)),
      cat (bv _ L) (cat l.sum (bv _ Rt)) = (l.map fun u => cat (bv _ L) (cat u (bv _ Rt))).sum := by
    intro L Rt l
    induction l with
    | nil => simp
    | cons u l ih => simp only [List.sum_cons, List.map_cons, map_add, LinearMap.add_apply, ih]
  have hc1 : coord - 1 + 1 = coord := by omega
  rw [atKd_apply _ hlen, sact_apply r hkne hV, actionCoeff, hlin, hc1, Finsupp.smul_apply,
    ← Finsupp.applyAddHom_apply, map_list_sum, List.map_map, List.map_map, Int.cast_list_sum, List.map_map,
    smul_eq_mul, ← List.sum_map_mul_left]
  congr 1
  apply List.map_congr_left
  intro ps _
  simp only [Function.comp, Finsupp.applyAddHom_apply, map_smul, LinearMap.smul_apply, cat_single_single,
    Finsupp.smul_apply, Finsupp.single_apply, mul_one, List.append_assoc]
  split
  · rw [cast_pySign, sg_add _ (List.sum _ * d), smul_eq_mul, mul_one, mul_comm]
  · simp

/-- An element in the convention of McClure and Smith acting on the second factor of a tensor. -/
example : ∃ (x : SurjElem) (y z : SElem), InSurj 2 x ∧ x.degree = some 1 ∧ y.NF simplicial ∧
    x.attrs.convention = .mcClureSmith ∧ y.degree = some 3 ∧ y.arity = some 2 ∧
    callSimplicial x y 2 = .ok z ∧ z.coeff [[0, 1], [0, 1, 2], [1, 2]] = 15 ∧
    actionCoeff 2 1 2 [1, 2, 1] [[0, 1], [0, 1, 2]] [[0, 1], [0, 1, 2], [1, 2]] = 1 :=
  ⟨Elem.new surjection [([1, 2, 1], 3), ([2, 1, 2], 1)] none (.mcClureSmith),
    Elem.new simplicial [([[0, 1], [0, 1, 2]], 5)] none, _,
    inSurj_of_arity (nf_new _ (by decide) _ _) (by decide), by decide, nf_new _ (by decide) _ _, by decide, by decide, by decide, rfl,
    by decide +kernel, by decide +kernel⟩

end Props
end Comch
