import Verif.Props.CochainsHirsch
import Verif.Spec.Alternating

/-! # Steenrod's formula for the cup-i products: C131 -/

set_option linter.unusedSectionVars false

namespace Comch.Coch
open Comch.Spec Elem SurjComp SurjElem IsPerm SurjMay Comch.Props
open BElem (stepV stepV_supported PermSet stepV_mul)
open Finsupp (single)

variable {n : Nat} {σ : List Nat} {X : OrderedComplex}

/-! ### the structure elements -/

theorem alternating_succ (m : Nat) : alternating (m + 1) = 1 :: mulL [2, 1] (alternating m) := by
  unfold alternating mulL
  rw [List.range_succ_eq_map, List.map_cons, List.map_map, List.map_map]
  congr 1
  refine List.map_congr_left fun i _ => ?_
  simp only [Function.comp]
  rcases Nat.mod_two_eq_zero_or_one i with h | h
  · rw [h, show (Nat.succ i) % 2 = 1 by omega]; rfl
  · rw [h, show (Nat.succ i) % 2 = 0 by omega]; rfl

theorem mulL_id_alternating (m : Nat) : mulL [1, 2] (alternating m) = alternating m := by
  unfold alternating mulL
  rw [List.map_map]
  refine List.map_congr_left fun i _ => ?_
  simp only [Function.comp]
  rcases Nat.mod_two_eq_zero_or_one i with h | h <;> rw [h] <;> rfl

theorem alternating_mem {m v : Nat} (h : v ∈ alternating m) : v = 1 ∨ v = 2 := by
  unfold alternating at h
  obtain ⟨i, -, rfl⟩ := List.mem_map.1 h
  omega

theorem swap_swap (m : Nat) : mulL [2, 1] (mulL [2, 1] (alternating m)) = alternating m := by
  unfold mulL
  rw [List.map_map]
  conv_rhs => rw [← List.map_id (alternating m)]
  refine List.map_congr_left fun v hv => ?_
  rcases alternating_mem hv with rfl | rfl <;> rfl

theorem hasRep_cons_ne {a b : Nat} {k : List Nat} (h : a ≠ b) : hasRep (a :: b :: k) = hasRep (b :: k) := by
  simp [hasRep, h]

theorem hasRep_alternating (m : Nat) : hasRep (alternating m) = false ∧ hasRep (mulL [2, 1] (alternating m)) = false := by
  induction m with
  | zero => exact ⟨rfl, rfl⟩
  | succ m ih =>
    cases m with
    | zero => exact ⟨rfl, rfl⟩
    | succ m =>
      obtain ⟨h1, h2⟩ := ih
      have e : mulL [2, 1] (alternating (m + 1 + 1)) = 2 :: alternating (m + 1) := by
        rw [alternating_succ (m + 1)]
        show value [2, 1] 1 :: mulL [2, 1] (mulL [2, 1] (alternating (m + 1))) = _
        rw [swap_swap]; rfl
      refine ⟨?_, ?_⟩
      · rw [alternating_succ (m + 1)]
        have e2 : mulL [2, 1] (alternating (m + 1)) = 2 :: mulL [2, 1] (mulL [2, 1] (alternating m)) := by
          rw [alternating_succ m]; rfl
        rw [e2] at h2 ⊢
        rw [hasRep_cons_ne (by omega), h2]
      · rw [e]
        rw [alternating_succ m] at h1 ⊢
        rw [hasRep_cons_ne (by omega), h1]

theorem psiS_two (R : Type) [CommRing R] (d : Nat) : psiS R 2 d = bv R (alternating (d + 2)) := by
  induction d with
  | zero => rfl
  | succ d ih =>
    have e1 : aV (R := R) (bv R [2, 1]) (bv R (alternating (d + 2))) = bv R (mulL [2, 1] (alternating (d + 2))) := by
      simp [aV]
    have e2 : aV (R := R) (bv R [1, 2]) (bv R (alternating (d + 2))) = bv R (alternating (d + 2)) := by
      simp [aV, mulL_id_alternating]
    have r1 : hasRep (1 :: mulL [2, 1] (alternating (d + 2))) = false := by
      rw [← alternating_succ]; exact (hasRep_alternating _).1
    have r2 : hasRep (1 :: alternating (d + 2)) = true := by
      rw [alternating_succ]; simp [hasRep]
    rw [psiS, ih]
    have hs : aV (R := R) (stepV R 2 (d + 1)) (bv R (alternating (d + 2))) = bv R (mulL [2, 1] (alternating (d + 2))) +
        bv R (alternating (d + 2)) ∨ aV (R := R) (stepV R 2 (d + 1)) (bv R (alternating (d + 2))) =
          bv R (mulL [2, 1] (alternating (d + 2))) - bv R (alternating (d + 2)) := by
      unfold stepV
      split
      · left
        have p0 : powL 2 (RingElem.rho 2) 0 = [1, 2] := by decide
        have p1 : powL 2 (RingElem.rho 2) 1 = [2, 1] := by decide
        have h : nV R 2 = bv R [1, 2] + bv R [2, 1] := by
          simp [nV, List.range_succ, p0, p1]
        rw [h, map_add, LinearMap.add_apply, e1, e2, add_comm]
      · right
        have : tV R 2 = bv R [2, 1] - bv R [1, 2] := rfl
        rw [this, map_sub, LinearMap.sub_apply, e1, e2]
    rcases hs with h | h <;> rw [h] <;>
      simp only [hV, Nat.reduceSub, LinearMap.add_apply, LinearMap.comp_apply, LinearMap.zero_apply, map_zero, add_zero, map_sub,
        map_add, sV, consV_single, pr_single, r1, r2, if_true, Bool.false_eq_true, if_false, sub_zero] <;>
      rw [alternating_succ (d + 2)]

theorem count_alternating (m : Nat) : (alternating m).count 1 = (m + 1) / 2 := by
  induction m with
  | zero => rfl
  | succ m ih =>
    unfold alternating at ih ⊢
    rw [List.range_succ, List.map_append, List.count_append, ih]
    rcases Nat.mod_two_eq_zero_or_one m with h | h
    · simp [h]; omega
    · simp [h]; omega

theorem invE_alternating (d : Nat) : invE (alternating (d + 2)) = ((d + 1) / 2).choose 2 := by
  induction d using Nat.strong_induction_on with
  | _ d ih =>
    match d with
    | 0 => decide
    | 1 => decide
    | d + 2 =>
      have e : alternating (d + 2 + 2) = 1 :: 2 :: alternating (d + 2) := by
        rw [alternating_succ, alternating_succ]
        show 1 :: value [2, 1] 1 :: mulL [2, 1] (mulL [2, 1] (alternating (d + 2))) = _
        rw [swap_swap]; rfl
      have hc0 : (alternating (d + 2)).count 0 = 0 := List.count_eq_zero.2 fun h => by
        rcases alternating_mem h with h | h <;> omega
      have hc1 := count_alternating (d + 2)
      have h2 : 2 ∈ alternating (d + 2) := by
        rw [alternating_succ, alternating_succ]
        show 2 ∈ 1 :: 2 :: _
        simp
      rw [e, invE, invE, ih d (by omega), if_pos h2]
      simp only [smaller, List.range_succ, List.range_zero, List.nil_append, List.map_cons, List.map_nil, List.sum_cons, List.sum_nil,
        List.singleton_append, List.count_cons, hc0, hc1]
      have hch : ((d + 2 + 1) / 2).choose 2 = (d + 1) / 2 + ((d + 1) / 2).choose 2 := by
        rw [show (d + 2 + 1) / 2 = (d + 1) / 2 + 1 by omega, Nat.choose_succ_succ' _ 1, Nat.choose_one_right]
      rw [hch]
      simp
      omega

/-! ### the pieces -/

mutual
/-- Recursive form of `evenPieces`. -/
def evP : List (List Nat) → List Nat
  | [] => []
  | p :: ps => p ++ odP ps
/-- Recursive form of `oddPieces`. -/
def odP : List (List Nat) → List Nat
  | [] => []
  | _ :: ps => evP ps
end

theorem pieces_eq (ps : List (List Nat)) : evenPieces ps = evP ps ∧ oddPieces ps = odP ps := by
  induction ps with
  | nil => exact ⟨rfl, rfl⟩
  | cons p ps ih =>
    obtain ⟨h1, h2⟩ := ih
    rw [evP, odP, ← h1, ← h2]
    unfold evenPieces oddPieces
    rw [List.length_cons, List.range_succ_eq_map, List.map_cons, List.map_map, List.map_cons, List.map_map]
    simp only [Nat.zero_mod, if_true, List.getD_cons_zero, List.flatten_cons, List.nil_append]
    refine ⟨?_, ?_⟩
    · congr 2
      refine List.map_congr_left fun j _ => ?_
      simp only [Function.comp, List.getD_cons_succ]
      rcases Nat.mod_two_eq_zero_or_one j with h | h
      · rw [if_neg (by omega), if_pos h]
      · rw [if_pos (by omega), if_neg (by omega)]
    · congr 1
      refine List.map_congr_left fun j _ => ?_
      simp only [Function.comp, List.getD_cons_succ]
      rcases Nat.mod_two_eq_zero_or_one j with h | h
      · rw [if_neg (by omega), if_pos h]
      · rw [if_pos (by omega), if_neg (by omega)]

theorem fib_alternating (ps : List (List Nat)) :
    ((((alternating ps.length).zip ps).filter fun p => decide (p.1 = 1)).map Prod.snd).flatten = evP ps ∧
    ((((alternating ps.length).zip ps).filter fun p => decide (p.1 = 2)).map Prod.snd).flatten = odP ps ∧
    ((((mulL [2, 1] (alternating ps.length)).zip ps).filter fun p => decide (p.1 = 1)).map Prod.snd).flatten = odP ps ∧
    ((((mulL [2, 1] (alternating ps.length)).zip ps).filter fun p => decide (p.1 = 2)).map Prod.snd).flatten = evP ps := by
  induction ps with
  | nil => exact ⟨rfl, rfl, rfl, rfl⟩
  | cons p ps ih =>
    obtain ⟨h1, h2, h3, h4⟩ := ih
    have e : mulL [2, 1] (alternating (ps.length + 1)) = 2 :: alternating ps.length := by
      rw [alternating_succ ps.length]
      show value [2, 1] 1 :: mulL [2, 1] (mulL [2, 1] (alternating ps.length)) = _
      rw [swap_swap]; rfl
    rw [evP, odP, List.length_cons, e, alternating_succ]
    refine ⟨?_, ?_, ?_, ?_⟩
    · simp [h3]
    · simp [h4]
    · simp [h1]
    · simp [h2]

theorem assemble_alternating (ps : List (List Nat)) : assemble 2 (alternating ps.length) ps = [evP ps, odP ps] := by
  obtain ⟨h1, h2, -, -⟩ := fib_alternating ps
  unfold assemble
  simp only [List.range_succ, List.range_zero, List.nil_append, List.singleton_append, List.map_cons, List.map_nil]
  rw [show (0 + 1) = 1 from rfl, show (1 + 1) = 2 from rfl, h1, h2]

/-- The inner pieces have at least two entries. -/
def Proper (ps : List (List Nat)) : Prop := ∀ j, 1 ≤ j → j + 1 < ps.length → 2 ≤ (ps.getD j []).length

theorem hasRep_append_right (p : List Nat) {k : List Nat} (h : hasRep k = true) : hasRep (p ++ k) = true := by
  induction p with
  | nil => exact h
  | cons a p ih =>
    cases hq : p ++ k with
    | nil => rw [List.cons_append, hq]; rw [hq] at ih; simp [hasRep] at ih
    | cons b t => rw [List.cons_append, hq]; rw [hq] at ih; simp [hasRep, ih]

theorem take_drop_sublist (V : List Nat) {i j : Nat} (h : i + 1 ≤ j) {t : List Nat} (ht : t.Sublist (V.drop j)) :
    (V.take (i + 1) ++ t).Sublist V := by
  conv_rhs => rw [← List.take_append_drop (i + 1) V]
  refine List.Sublist.append_left (ht.trans ?_) _
  obtain ⟨u, rfl⟩ : ∃ u, j = i + 1 + u := ⟨j - (i + 1), by omega⟩
  rw [← List.drop_drop]
  exact List.drop_sublist _ _

theorem cuts_cons {m : Nat} {V : List Nat} {ps : List (List Nat)} (h : ps ∈ allCuts (m + 2) V) :
    ∃ i ps', i < V.length ∧ ps = V.take (i + 1) :: ps' ∧ ps' ∈ allCuts (m + 1) (V.drop i) := by
  simp only [allCuts, List.mem_flatMap, List.mem_range, List.mem_map] at h
  obtain ⟨i, hi, ps', h', rfl⟩ := h
  exact ⟨i, ps', hi, rfl, h'⟩

theorem evP_head {m : Nat} {V : List Nat} {ps : List (List Nat)} (h : ps ∈ allCuts (m + 1) V) {v : Nat} {t : List Nat}
    (hV : V = v :: t) : ∃ u, evP ps = v :: u := by
  subst hV
  cases m with
  | zero =>
    simp only [allCuts, List.mem_singleton] at h
    subst h
    exact ⟨t ++ [], rfl⟩
  | succ m =>
    obtain ⟨i, ps', -, rfl, -⟩ := cuts_cons h
    exact ⟨t.take i ++ odP ps', rfl⟩

theorem evP_ne {m : Nat} {V : List Nat} {ps : List (List Nat)} (h : ps ∈ allCuts (m + 1) V) (hV : V ≠ []) : evP ps ≠ [] := by
  obtain ⟨v, t, rfl⟩ := List.exists_cons_of_ne_nil hV
  obtain ⟨u, hu⟩ := evP_head h rfl
  rw [hu]
  exact List.cons_ne_nil _ _

theorem pieces_sublist (m : Nat) : ∀ (V : List Nat) (ps : List (List Nat)), ps ∈ allCuts (m + 1) V → Proper ps →
    (evP ps).Sublist V ∧ (odP ps).Sublist V := by
  induction m using Nat.strong_induction_on with
  | _ m ih =>
    intro V ps h hp
    match m with
    | 0 =>
      simp only [allCuts, List.mem_singleton] at h
      subst h
      simp [evP, odP]
    | 1 =>
      obtain ⟨i, ps', hi, rfl, h'⟩ := cuts_cons h
      simp only [allCuts, List.mem_singleton] at h'
      subst h'
      simp only [evP, odP, List.append_nil]
      exact ⟨List.take_sublist _ _, List.drop_sublist _ _⟩
    | m + 2 =>
      obtain ⟨i, ps', hi, rfl, h'⟩ := cuts_cons h
      have hp' : Proper ps' := fun j h1 h2 => by
        have := hp (j + 1) (by omega) (by rw [List.length_cons]; omega)
        rwa [List.getD_cons_succ] at this
      have h2 := (ih (m + 1) (by omega) _ _ h' hp').1
      obtain ⟨j, ps'', hj, rfl, h''⟩ := cuts_cons h'
      have hl := length_of_mem_allCuts h''
      have hp'' : Proper ps'' := fun j h1 h2 => by
        have := hp' (j + 1) (by omega) (by rw [List.length_cons]; omega)
        rwa [List.getD_cons_succ] at this
      have h3 := (ih m (by omega) _ _ h'' hp'').1
      have hj1 := hp 1 le_rfl (by simp only [List.length_cons]; omega)
      simp only [List.getD_cons_succ, List.getD_cons_zero, List.length_take, List.length_drop] at hj1
      refine ⟨?_, by rw [odP]; exact h2.trans (List.drop_sublist _ _)⟩
      rw [evP, odP]
      rw [List.drop_drop] at h3
      exact take_drop_sublist V (by omega) h3

theorem pieces_rep (m : Nat) : ∀ (V : List Nat) (ps : List (List Nat)), ps ∈ allCuts (m + 1) V → ¬ Proper ps →
    hasRep (evP ps) = true ∨ hasRep (odP ps) = true := by
  induction m using Nat.strong_induction_on with
  | _ m ih =>
    intro V ps h hp
    have hl := length_of_mem_allCuts h
    match m with
    | 0 => exact absurd (fun j h1 h2 => by omega) hp
    | 1 => exact absurd (fun j h1 h2 => by omega) hp
    | m + 2 =>
      obtain ⟨i, ps', hi, rfl, h'⟩ := cuts_cons h
      by_cases hp' : Proper ps'
      · obtain ⟨j, ps'', hj, rfl, h''⟩ := cuts_cons h'
        have hj0 : j = 0 := by
          by_contra hj0
          refine hp fun l h1 h2 => ?_
          obtain ⟨l, rfl⟩ : ∃ u, l = u + 1 := ⟨l - 1, by omega⟩
          rw [List.getD_cons_succ]
          cases l with
          | zero =>
            rw [List.getD_cons_zero, List.length_take]
            omega
          | succ l => exact hp' (l + 1) (by omega) (by rw [List.length_cons] at h2; omega)
        subst hj0
        left
        obtain ⟨u, hu⟩ := evP_head h'' (by rw [List.drop_zero]; exact List.drop_eq_getElem_cons hi)
        rw [evP, odP, hu, ← List.take_concat_get' V i hi]
        exact hasRep_overlap _ _ _
      · rcases ih (m + 1) (by omega) _ _ h' hp' with h1 | h1
        · right; rwa [odP]
        · left; rw [evP]; exact hasRep_append_right _ h1

theorem sum_map_filter {A B : Type} [AddCommMonoid B] (l : List A) (p : A → Bool) (f : A → B) :
    ((l.filter p).map f).sum = (l.map fun a => if p a then f a else 0).sum := by
  induction l with
  | nil => rfl
  | cons a l ih =>
    rw [List.filter_cons, List.map_cons, List.sum_cons, ← ih]
    split <;> simp

theorem proper_iff {m : Nat} {V : List Nat} {ps : List (List Nat)} (h : ps ∈ allCuts m V) :
    ((List.range m).all fun j => j = 0 ∨ j + 1 = m ∨ 2 ≤ (ps.getD j []).length) = true ↔ Proper ps := by
  have hl := length_of_mem_allCuts h
  simp only [List.all_eq_true, List.mem_range, decide_eq_true_eq]
  constructor
  · intro h j h1 h2
    rcases h j (by omega) with h | h | h
    · omega
    · omega
    · exact h
  · intro h j hj
    by_cases h1 : j = 0
    · exact Or.inl h1
    by_cases h2 : j + 1 = m
    · exact Or.inr (Or.inl h2)
    · exact Or.inr (Or.inr (h j (by omega) (by omega)))

theorem W_alternating (i : Nat) : W 2 n i (bv (ZMod n) [σ]) =
    sg (ZMod n) (((i + 1) / 2).choose 2 : Nat) • pr lany (sact 2 (alternating (i + 2)) σ) := by
  unfold W
  rw [LinearMap.comp_apply, psiS_two, convS_single, one_mul, map_smul, LinearMap.smul_apply, map_smul]
  rw [callV_one _ _ _ rfl]
  congr 1
  show sg (ZMod n) ((invE (alternating (i + 2)) : Nat) : Int) = _
  rw [invE_alternating]

/-- The value as a sum over all proper cuts. -/
theorem wv_cuts (hσ : Inc σ) (i : Nat) (L : List (Nat × (List Nat → ZMod n))) : wv 2 n i L σ =
    sg (ZMod n) (((i + 1) / 2).choose 2 : Nat) * ((properCuts (i + 2) σ).map fun ps =>
      sg (ZMod n) (sortingExponent (alternating (i + 2)) ps + concatenationExponent (alternating (i + 2)) ps) *
        tensorValue L [evenPieces ps, oddPieces ps]).sum := by
  have hk : alternating (i + 2) ≠ [] := by rw [alternating_succ]; exact List.cons_ne_nil _ _
  have hkl : (alternating (i + 2)).length = i + 2 := by simp [alternating]
  rw [wv, W_alternating, map_smul, smul_eq_mul, sact_apply 2 hk hσ.2, hkl, map_list_sum, map_list_sum, List.map_map, List.map_map,
    properCuts, sum_map_filter]
  congr 2
  refine List.map_congr_left fun ps hps => ?_
  have hl := length_of_mem_allCuts hps
  have hpi := proper_iff hps
  rw [Function.comp, Function.comp, map_smul, map_smul, pr_single, ← hl, assemble_alternating, (pieces_eq ps).1, (pieces_eq ps).2]
  rw [hl]
  by_cases hp : Proper ps
  · rw [if_pos (hpi.2 hp)]
    obtain ⟨h1, h2⟩ := pieces_sublist (i + 1) σ ps hps hp
    have n1 : evP ps ≠ [] := evP_ne hps hσ.2
    have n2 : odP ps ≠ [] := by
      obtain ⟨j, ps', hj, rfl, h'⟩ := cuts_cons hps
      rw [odP]
      exact evP_ne h' (by intro h; have := congrArg List.length h; simp at this; omega)
    have i1 : Inc (evP ps) := ⟨hσ.1.sublist h1, n1⟩
    have i2 : Inc (odP ps) := ⟨hσ.1.sublist h2, n2⟩
    have : lany [evP ps, odP ps] = false := by
      simp only [lany, List.any_cons, List.any_nil, i1.ldrop, i2.ldrop, Bool.or_false]
    rw [this]
    simp
  · rw [if_neg (fun h => hp (hpi.1 h))]
    have : lany [evP ps, odP ps] = true := by
      rcases pieces_rep (i + 1) σ ps hps hp with h | h
      · simp [lany, ldrop, h]
      · simp [lany, ldrop, h]
    rw [this]
    simp

end Comch.Coch

namespace Comch.Props
open Comch.Spec Comch.Coch Elem SurjComp SurjElem SurjMay

variable {n : Nat} {σ : List Nat} {X : OrderedComplex}

theorem structure_two (cv : Convention) (d n : Nat) {e : Int} (he : (e : ZMod n) = sg (ZMod n) (convE cv (alternating (d + 2)) : Nat)) :
    ∃ x, Surjection.maySteenrodStructure 2 d (some n) cv = .ok x ∧ x.attrs = ⟨n, cv⟩ ∧
      pyEq x (Elem.new surjection [(alternating (d + 2), e)] (some n) cv) = true := by
  obtain ⟨x, ex, ix, ax, dx⟩ := surjMay_ok cv le_rfl d n
  have tx : x.torsion = n := by show x.attrs.torsion = n; rw [ax]
  refine ⟨x, ex, ax, ?_⟩
  have hnf := nf_new surjection (d := [(alternating (d + 2), e)]) (by simp [Dict.KeysNodup]) (some n) cv
  rw [pyEq_iff_den ix.nf hnf (by rw [tx]; rfl)]
  subst tx
  have hp : pr surjection.drops (psiS (ZMod x.torsion) 2 d) = psiS _ 2 d := by
    rw [pr_drops_of_OK (by omega) (psiS_suppO (by omega) d), pr_psiS]
  rw [psiS_two] at hp
  have h1 : den (ZMod x.torsion) [(alternating (d + 2), e)] = (e : ZMod x.torsion) • bv _ (alternating (d + 2)) := by
    simp
  rw [dx, psiS_two, convS_single, one_mul, den_new _ _ _ _ (by simp), h1, map_smul, hp, he]

/-- The structure elements of arity 2 consist of one surjection, `(1, 2, 1, 2, …)`, with coefficient 1 in the convention
of Berger and Fresse and `(-1)^(e(e-1)/2)`, `e = ⌊(d+1)/2⌋`, in that of McClure and Smith. -/
theorem C131_structure (d n : Nat) :
    (∃ x, Surjection.maySteenrodStructure 2 d (some n) .bergerFresse = .ok x ∧ x.attrs = ⟨n, .bergerFresse⟩ ∧
      pyEq x (Elem.new surjection [(alternating (d + 2), 1)] (some n) .bergerFresse) = true) ∧
    (∃ x, Surjection.maySteenrodStructure 2 d (some n) .mcClureSmith = .ok x ∧ x.attrs = ⟨n, .mcClureSmith⟩ ∧
      pyEq x (Elem.new surjection [(alternating (d + 2), (-1) ^ ((d + 1) / 2).choose 2)] (some n) .mcClureSmith) = true) := by
  refine ⟨structure_two _ d n (by simp [convE]), structure_two _ d n ?_⟩
  rw [convE, invE_alternating, sg_natCast]
  push_cast
  rfl

/-- Steenrod's formula: the value of `α ∪_i β` at a simplex is the sum over all the ways of cutting its vertices into
`i + 2` overlapping pieces, the inner ones with at least two vertices, of the value of `α` on the union of the pieces
number 0, 2, 4, …, times the value of `β` on the union of the others; with the sign of sorting the pieces. -/
theorem C131_cup_formula (hn : n ≠ 1) (hσ : σ ∈ X.simplices) (i a c : Nat) (α β : List Nat → ZMod n) :
    cupValue n i a α c β σ = .ok ((-1) ^ ((i + 1) / 2).choose 2 * ((properCuts (i + 2) σ).map fun ps =>
      ((pySign (sortingExponent (alternating (i + 2)) ps + concatenationExponent (alternating (i + 2)) ps) : Int) : ZMod n) *
        ((if (evenPieces ps).length = a + 1 then α (evenPieces ps) else 0) *
          (if (oddPieces ps).length = c + 1 then β (oddPieces ps) else 0))).sum) := by
  rw [cup_eq hn (inc_of_mem hσ), wv_cuts (inc_of_mem hσ), sg_natCast]
  simp only [tensorValue, mul_one, sg]

/-- Modulo 2: the squares without signs. -/
theorem C131_square (hσ : σ ∈ X.simplices) (i q : Nat) (α : List Nat → ZMod 2) :
    steenrodValue 2 ((q : Int) - i) q false α σ = .ok ((properCuts (i + 2) σ).map fun ps =>
      if (evenPieces ps).length = q + 1 ∧ (oddPieces ps).length = q + 1 then α (evenPieces ps) * α (oddPieces ps) else 0).sum := by
  have hs : ∀ t : Int, ((pySign t : Int) : ZMod 2) = 1 := fun t => by
    rcases pySign_eq_one_or t with h | h <;> rw [h] <;> decide
  rw [square_eq (inc_of_mem hσ), if_pos (by omega), show ((q : Int) - (q - i)).toNat = i by omega, wv_cuts (inc_of_mem hσ)]
  simp only [tensorValue, mul_one, sg, hs, one_mul]
  congr 2
  refine List.map_congr_left fun ps _ => ?_
  by_cases h1 : (evenPieces ps).length = q + 1 <;> by_cases h2 : (oddPieces ps).length = q + 1 <;> simp [h1, h2]

example : [0, 1, 2, 3] ∈ (exComplex 5).simplices := ⟨by decide, by decide, by decide⟩

/-- The six ways of cutting a 3-simplex into three pieces. -/
example : properCuts 3 [0, 1, 2, 3] = [[[0], [0, 1], [1, 2, 3]], [[0], [0, 1, 2], [2, 3]], [[0], [0, 1, 2, 3], [3]],
    [[0, 1], [1, 2], [2, 3]], [[0, 1], [1, 2, 3], [3]], [[0, 1, 2], [2, 3], [3]]] := by decide

example : (properCuts 4 [0, 1, 2, 3]).map evenPieces = [[0, 1, 2], [0, 1, 2, 3], [0, 2, 3], [0, 1, 2, 3]] ∧
    (properCuts 4 [0, 1, 2, 3]).map oddPieces = [[0, 1, 2, 3], [0, 1, 3], [0, 1, 2, 3], [1, 2, 3]] := by decide

/-- A value of the product for `i = 2` with integral coefficients: two of the four cuts contribute. -/
example : cupValue 0 2 2 (fun σ => (σ.sum : Int)) 3 (fun _ => 1) [0, 1, 2, 3] ≠ .ok 0 := by decide +kernel

end Comch.Props
