import Verif.Lib.BEDiagonal
import Verif.Lib.BECompose
import Verif.Lib.CartanSerre

/-! # The Hopf structure of the Barratt-Eccles operad -/

set_option linter.unusedSectionVars false

namespace Comch.Hopf
open Finsupp (single)

variable {R : Type} [CommRing R] {α β : Type}

section apply
variable [DecidableEq α]

theorem consV_app (x : β) [DecidableEq β] (v : List β →₀ R) (m : List β) :
    consV x v m = match m with | [] => 0 | y :: m' => if y = x then v m' else 0 := by
  induction v using Finsupp.induction_linear with
  | zero => cases m <;> simp
  | add f g hf hg =>
    simp only [map_add, Finsupp.add_apply, hf, hg]
    cases m with
    | nil => simp
    | cons y m' => simp only; split <;> simp
  | single k r =>
    cases m with
    | nil => simp
    | cons y m' =>
      simp only [consV_single, Finsupp.single_apply, List.cons.injEq]
      by_cases h1 : x = y <;> by_cases h2 : k = m' <;> simp [h1, h2, eq_comm (a := y)]

theorem preV_app (a : α) (v : List (List α) →₀ R) (m : List (List α)) :
    preV a v m = match m with
      | (b :: y) :: m' => if b = a then v (y :: m') else 0
      | _ => 0 := by
  induction v using Finsupp.induction_linear with
  | zero => rcases m with _ | ⟨_ | ⟨b, y⟩, m'⟩ <;> simp
  | add f g hf hg =>
    simp only [map_add, Finsupp.add_apply, hf, hg]
    rcases m with _ | ⟨_ | ⟨b, y⟩, m'⟩ <;> simp
    split <;> simp
  | single k r =>
    rcases k with _ | ⟨z, k⟩
    · rcases m with _ | ⟨_ | ⟨b, y⟩, m'⟩ <;> simp [preK]
    · rcases m with _ | ⟨_ | ⟨b, y⟩, m'⟩ <;> simp [preK, Finsupp.single_apply]
      by_cases h1 : a = b <;> by_cases h2 : z = y <;> by_cases h3 : k = m' <;>
        simp [h1, h2, h3, eq_comm (a := b)]

theorem aw_app (t : Nat) (s : List α) (m : List (List α)) :
    aw (R := R) t s m = if m.length = t + 1 ∧ Spec.glue m = some s then 1 else 0 := by
  induction t generalizing s m with
  | zero =>
    rw [aw_zero, Finsupp.single_apply]
    rcases m with _ | ⟨p, _ | ⟨q, m⟩⟩ <;> simp [Spec.glue, eq_comm]
  | succ t iht =>
    induction s generalizing m with
    | nil =>
      rw [aw_nil]
      have : ¬ (m.length = t + 1 + 1 ∧ Spec.glue m = some []) := by
        rintro ⟨h1, h2⟩
        exact glue_ne_nil (by omega) h2 rfl
      rw [if_neg this]; simp
    | cons a s ihs =>
      rw [aw_cons, Finsupp.add_apply, consV_app, preV_app]
      rcases m with _ | ⟨p, m⟩
      · simp
      · rcases p with _ | ⟨b, y⟩
        · rcases m with _ | ⟨q, m⟩
          · simp
          · rw [Props.glue_cons]
            rcases hg : Spec.glue (q :: m) with _ | _ | ⟨c, w⟩ <;> simp
        · simp only [List.cons.injEq]
          rcases y with _ | ⟨e, y⟩
          · have hnil : aw (R := R) (t + 1) s ([] :: m) = 0 := by
              rw [ihs, if_neg]
              rintro ⟨h1, h2⟩
              rcases m with _ | ⟨q, m⟩
              · simp at h1
              · rw [Props.glue_cons] at h2
                rcases hg : Spec.glue (q :: m) with _ | _ | ⟨c, w⟩ <;> rw [hg] at h2 <;> simp at h2
            rw [hnil]
            simp only [and_true, ite_self, add_zero]
            rw [iht]
            rcases m with _ | ⟨q, m⟩
            · simp
            · rw [Props.glue_cons]
              by_cases hb : b = a
              · subst hb
                rw [if_pos rfl]
                congr 1
                simp only [List.length_cons, Nat.add_right_cancel_iff, eq_iff_iff, and_congr_right_iff]
                intro _
                rcases hg : Spec.glue (q :: m) with _ | _ | ⟨c, w⟩
                · simp
                · simp
                · by_cases hc : b = c
                  · subst hc; simp
                  · simp [hc, Ne.symm hc]
              · rw [if_neg hb, if_neg]
                rintro ⟨-, h2⟩
                split at h2
                · split at h2
                  · simp only [List.cons_append, Option.some.injEq, List.cons.injEq] at h2
                    exact hb h2.1
                  · cases h2
                · cases h2
          · rw [if_neg (by simp), zero_add]
            rw [ihs]
            by_cases hb : b = a
            · subst hb
              rw [if_pos rfl]
              congr 1
              simp only [List.length_cons, eq_iff_iff, and_congr_right_iff]
              intro hl
              rcases m with _ | ⟨q, m⟩
              · simp at hl
              · rw [Props.glue_cons, Props.glue_cons]
                rcases hg : Spec.glue (q :: m) with _ | _ | ⟨c, w⟩
                · simp
                · simp
                · simp only [List.getLast?_cons_cons]
                  split <;> simp
            · rw [if_neg hb, if_neg]
              rintro ⟨hl, h2⟩
              rcases m with _ | ⟨q, m⟩
              · simp at hl
              · rw [Props.glue_cons] at h2
                split at h2
                · split at h2
                  · simp only [List.cons_append, Option.some.injEq, List.cons.injEq] at h2
                    exact hb h2.1
                  · cases h2
                · cases h2

end apply

/-- The diagonal of the package is the Alexander-Whitney diagonal. -/
theorem diagK_eq_aw (r : Nat) (k : BKey) : BElem.diagK R r k = aw r k := by
  ext m
  rw [BElem.diagK_apply, aw_app]

/-! ### the counit -/

/-- Omit a factor of degree zero. -/
noncomputable def counitK (a : List α) : List (List α) →₀ R := if a.length = 1 then bv R [] else 0

theorem aw_supp_ne (t : Nat) (s : List α) (hs : s ≠ []) :
    aw (R := R) t s ∈ Finsupp.supported R R {m : List (List α) | ∀ p ∈ m, p ≠ []} := by
  induction t generalizing s with
  | zero => rw [aw_zero]; exact Finsupp.single_mem_supported R _ (by simpa using hs)
  | succ t iht =>
    induction s with
    | nil => exact absurd rfl hs
    | cons a s ihs =>
      rw [aw_cons]
      refine Submodule.add_mem _ ?_ ?_
      · refine mapK_supported (T := {m : List (List α) | ∀ p ∈ m, p ≠ []}) _ (fun L hL => ?_) (iht (a :: s) (by simp))
        intro p hp
        rcases List.mem_cons.1 hp with rfl | hp
        · simp
        · exact hL p hp
      · by_cases h : s = []
        · subst h; simp [aw_nil]
        · refine lin_supported _ (fun L hL => ?_) (ihs h)
          cases L with
          | nil => exact Submodule.zero_mem _
          | cons x L =>
            refine Finsupp.single_mem_supported R _ ?_
            intro p hp
            rcases List.mem_cons.1 hp with rfl | hp
            · simp
            · exact hL p (by simp [hp])

/-- Omitting the vertices of one of the two factors. -/
theorem counit_aw_one (s : List α) (hs : s ≠ []) (j : Nat) (hj : j ≤ 1) :
    atL (counitK (R := R)) j (aw 1 s) = bv R [s] := by
  induction s with
  | nil => exact absurd rfl hs
  | cons a s ih =>
    have hz : s ≠ [] → atL (counitK (R := R)) 0 (preV a (aw 1 s)) = 0 := by
      intro h
      have := BElem.lin_ext_supported (R := R) (f := (atL (counitK (R := R)) 0).comp (preV a)) (g := 0)
        (fun k hk => by
          cases k with
          | nil => simp [preK]
          | cons x k =>
            have hx : x.length ≠ 0 := by simpa using hk x (by simp)
            simp only [LinearMap.comp_apply, preV_single, preK, one_smul, atL_single, atK, LinearMap.zero_apply, counitK]
            rw [if_neg (by simpa using hx)]
            simp) (aw_supp_ne 1 s h)
      exact this
    have h1 : ∀ w : List (List α) →₀ R, atL (counitK (R := R)) 1 (preV a w) = preV a (atL counitK 1 w) := by
      intro w
      induction w using Finsupp.induction_linear with
      | zero => simp
      | add f g hf hg => simp only [map_add, hf, hg]
      | single k r =>
        cases k with
        | nil => simp [preK, atK]
        | cons y k => simp only [preV_single, preK, map_smul, atL_single, atK, one_smul, preV_consV]
    rw [aw_cons, map_add, aw_zero, consV_single, atL_single, one_smul]
    rcases (by omega : j = 0 ∨ j = 1) with rfl | rfl
    · rw [atK, counitK, if_pos (by rfl : [a].length = 1), zero_add]
      by_cases h : s = []
      · subst h; simp [aw_nil]
      · rw [hz h]; simp
    · rw [atK, atK, counitK, h1, zero_add]
      by_cases h : s = []
      · subst h; simp [aw_nil]
      · rw [ih h, if_neg (by simpa using h)]
        simp [preK]

/-- Omitting the vertices of one factor. -/
theorem counit_aw (t : Nat) (s : List α) (hs : s ≠ []) (j : Nat) (hj : j ≤ t + 1) :
    atL (counitK (R := R)) j (aw (t + 1) s) = aw t s := by
  have key : ∀ i c, c ≤ 1 → i + c = j → i ≤ t → atL (counitK (R := R)) j (aw (t + 1) s) = aw t s := by
    intro i c hc hij hi
    rw [← atL_aw s t 1 i hi]
    have := BElem.lin_ext_supported (R := R) (f := (atL (counitK (R := R)) j).comp (atL (aw 1) i))
      (g := LinearMap.id) (S := {m : List (List α) | (∀ p ∈ m, p ≠ []) ∧ m.length = t + 1})
      (fun k hk => by
        simp only [LinearMap.comp_apply, atL_single, one_smul, LinearMap.id_apply]
        have hlt : i < k.length := by rw [hk.2]; omega
        have : ∀ (k : List (List α)) (i j : Nat), (∀ p ∈ k, p ≠ []) → i < k.length → i + c = j →
            atL (counitK (R := R)) j (atK (aw 1) i k) = bv R k := by
          intro k
          induction k with
          | nil => intro i j _ h; simp at h
          | cons x k ih =>
            intro i j hk hi hij
            cases i with
            | zero =>
              obtain rfl : j = c := by omega
              rw [atK]
              have h2 : ∀ w ∈ Finsupp.supported R R {m : List (List α) | m.length = 2},
                  atL (counitK (R := R)) j (cat w (bv R k)) = cat (atL counitK j w) (bv R k) := by
                intro w hw
                have := BElem.lin_ext_supported (R := R) (f := (atL (counitK (R := R)) j).comp (cat.flip (bv R k)))
                  (g := (cat.flip (bv R k)).comp (atL counitK j)) (fun m hm => by
                    obtain ⟨p, q, rfl⟩ := List.length_eq_two.1 hm
                    rcases (by omega : j = 0 ∨ j = 1) with rfl | rfl <;>
                    simp [atK, counitK] <;> split <;> simp) hw
                exact this
              rw [h2, counit_aw_one x (hk x (by simp)) j hc]
              · simp
              · rw [show {m : List (List α) | m.length = 2} = {m : List (List α) | m.length = 1 + 1} from rfl]
                classical
                intro m hm
                have := Finsupp.mem_support_iff.1 hm
                rw [aw_app] at this
                simp only [ne_eq, ite_eq_right_iff, not_forall] at this
                exact this.1.1
            | succ i =>
              obtain ⟨j, rfl⟩ : ∃ j', j = j' + 1 := ⟨i + c, by omega⟩
              rw [atK, atL_consV, ih i j (fun p hp => hk p (by simp [hp])) (by simpa using hi) (by omega)]
              simp
        exact this k i j hk.1 hlt hij) (v := aw t s) (by
          classical
          intro m hm
          have h1 := aw_supp_ne (R := R) t s hs hm
          have := Finsupp.mem_support_iff.1 hm
          rw [aw_app] at this
          simp only [ne_eq, ite_eq_right_iff, not_forall] at this
          exact ⟨h1, this.1.1⟩)
    exact this
  rcases Nat.lt_or_ge t j with h | h
  · exact key t 1 (by omega) (by omega) le_rfl
  · exact key j 0 (by omega) (by omega) h

/-! ### the shuffle map is a map of coalgebras -/

/-- The shuffle maps of the factors, with the sign of the exchange of the inner factors. -/
noncomputable def shT : List (List α) → List (List β) → (List (List (α × β)) →₀ R)
  | [X, X'], [Y, Y'] => sg R (ldim X' * ldim Y) • cat (one (ez X Y)) (one (ez X' Y'))
  | _, _ => 0

theorem aw_one_supp (s : List α) : aw (R := R) 1 s ∈ Finsupp.supported R R
    {m : List (List α) | ∃ X X' : List α, m = [X, X'] ∧ X ≠ [] ∧ X' ≠ [] ∧ X.length + X'.length = s.length + 1} := by
  induction s with
  | nil => rw [aw_nil]; exact Submodule.zero_mem _
  | cons a s ih =>
    rw [show (1 : Nat) = 0 + 1 from rfl, aw_cons, aw_zero, consV_single]
    refine Submodule.add_mem _ (Finsupp.single_mem_supported R _ ⟨[a], a :: s, rfl, by simp, by simp, by simp; omega⟩) ?_
    refine lin_supported _ (fun L hL => ?_) ih
    obtain ⟨X, X', rfl, h1, h2, h3⟩ := hL
    exact Finsupp.single_mem_supported R _ ⟨a :: X, X', rfl, by simp, h2, by simp; omega⟩

theorem ez_cons_left {a : α} {X : List α} (hX : X ≠ []) (b : β) (Y : List β) :
    ez (R := R) (a :: X) (b :: Y) =
      (-1 : R) ^ X.length • consV (a, b) (ez (a :: X) Y) + consV (a, b) (ez X (b :: Y)) := by
  rw [ez_cons, if_neg (fun h => hX (List.length_eq_zero_iff.1 h.1)), zero_add]

theorem ez_cons_right (a : α) (X : List α) (b : β) {Y : List β} (hY : Y ≠ []) :
    ez (R := R) (a :: X) (b :: Y) =
      (-1 : R) ^ X.length • consV (a, b) (ez (a :: X) Y) + consV (a, b) (ez X (b :: Y)) := by
  rw [ez_cons, if_neg (fun h => hY (List.length_eq_zero_iff.1 h.2)), zero_add]

theorem sg_nat (n : Nat) : sg R (n : Int) = (-1 : R) ^ n := by
  induction n with
  | zero => simp
  | succ n ih => rw [Nat.cast_succ, sg_succ, ih, pow_succ]; ring

/-- First step of the recursion. -/
theorem shT_step1 (a : α) (X : List α) (b : β) {k : List (List β)} (hk : ∃ Y Y' : List β, k = [Y, Y'] ∧ Y ≠ []) :
    bil shT (bv R [[a], a :: X]) (preV b (bv R k)) =
      (-1 : R) ^ X.length • preV (a, b) (bil shT (bv R [[a], a :: X]) (bv R k)) := by
  obtain ⟨Y, Y', rfl, hY⟩ := hk
  rw [preV_single, one_smul, preK, bil_bv, bil_bv, lin_single, lin_single, one_smul, one_smul, shT, shT,
    ez_cons_right a [] b hY]
  simp only [ez_nil_left, map_zero, add_zero, List.length_nil, pow_zero, one_smul, map_smul]
  rw [preV_cat_one, smul_smul]
  congr 1
  rw [← sg_nat, ← sg_add]
  apply sg_congr
  simp only [ldim, List.length_cons]
  push_cast
  ring_nf

/-- Second step. -/
theorem shT_step2 (a : α) (b : β) (Y : List β) {k : List (List α)} (hk : ∃ X X' : List α, k = [X, X'] ∧ X ≠ []) :
    bil shT (preV a (bv R k)) (bv R [[b], b :: Y]) = preV (a, b) (bil shT (bv R k) (bv R [[b], b :: Y])) := by
  obtain ⟨X, X', rfl, hX⟩ := hk
  rw [preV_single, one_smul, preK, bil_bv, bil_bv, lin_single, lin_single, one_smul, one_smul, shT, shT,
    ez_cons_left hX b []]
  simp only [ez_nil_right, map_zero, smul_zero, zero_add, map_smul]
  rw [preV_cat_one]

/-- Third step. -/
theorem shT_step3 (a : α) (X0 : List α) (b : β) {k : List (List α)} {l : List (List β)}
    (hk : ∃ X X' : List α, k = [X, X'] ∧ X ≠ [] ∧ X' ≠ [] ∧ X.length + X'.length = X0.length + 1)
    (hl : ∃ Y Y' : List β, l = [Y, Y'] ∧ Y ≠ []) :
    bil shT (preV a (bv R k)) (preV b (bv R l)) =
      (-1 : R) ^ X0.length • preV (a, b) (bil shT (preV a (bv R k)) (bv R l)) +
        preV (a, b) (bil shT (bv R k) (preV b (bv R l))) := by
  obtain ⟨X, X', rfl, hX, hX', hlen⟩ := hk
  obtain ⟨Y, Y', rfl, hY⟩ := hl
  simp only [preV_single, one_smul, preK, bil_bv, lin_single, shT, map_smul]
  rw [ez_cons_left hX b Y]
  simp only [map_add, LinearMap.add_apply, smul_add, map_smul, LinearMap.smul_apply]
  rw [preV_cat_one, preV_cat_one, smul_smul, smul_smul]
  congr 2
  rw [← sg_natCast, ← sg_natCast, ← sg_add, ← sg_add]
  have h1 : (X0.length : Int) = X.length + ldim X' := by simp only [ldim]; omega
  rw [h1]
  apply sg_eq_of_zmod
  simp only [ldim, List.length_cons]
  push_cast
  have h2 : (2 : ZMod 2) = 0 := by decide
  linear_combination ((X'.length : ZMod 2) - 1) * h2 - ((X'.length : ZMod 2) - 1) * h2

/-- The shuffle map is a map of coalgebras. -/
theorem aw_ez (X : List α) (Y : List β) : lin (aw 1) (ez (R := R) X Y) = bil shT (aw 1 X) (aw 1 Y) := by
  induction X, Y using ez_induction with
  | h1 Y => simp [aw_nil]
  | h2 X => simp [aw_nil]
  | h3 a X b Y ih1 ih2 =>
    have hx := aw_one_supp (R := R) X
    have hy := aw_one_supp (R := R) Y
    have e1 : ∀ v : List (α × β) →₀ R, lin (aw 1) (consV (a, b) v) =
        consV [(a, b)] (one (consV (a, b) v)) + preV (a, b) (lin (aw 1) v) := by
      intro v
      rw [show (1 : Nat) = 0 + 1 from rfl, lin_aw_consV, lin_aw_zero]
    have hdec : ez (R := R) (a :: X) (b :: Y) = consV (a, b) ((if X.length = 0 ∧ Y.length = 0 then bv R [] else 0) +
        (-1 : R) ^ X.length • ez (a :: X) Y + ez X (b :: Y)) := by
      rw [ez_cons, map_add, map_add, map_smul]
      congr 2
      split <;> simp
    have h0 : lin (aw (R := R) 1) (if X.length = 0 ∧ Y.length = 0 then bv R ([] : List (α × β)) else 0) = 0 := by
      split
      · rw [lin_single, one_smul, aw_nil]
      · simp
    have hlhs : lin (aw 1) (ez (R := R) (a :: X) (b :: Y)) = consV [(a, b)] (one (ez (a :: X) (b :: Y))) +
        preV (a, b) ((-1 : R) ^ X.length • bil shT (aw 1 (a :: X)) (aw 1 Y) + bil shT (aw 1 X) (aw 1 (b :: Y))) := by
      rw [hdec, e1]
      congr 2
      rw [map_add, map_add, h0, zero_add, map_smul, ih1, ih2]
    rw [hlhs]
    have ea : aw (R := R) 1 (a :: X) = bv R [[a], a :: X] + preV a (aw 1 X) := by
      rw [show (1 : Nat) = 0 + 1 from rfl, aw_cons, aw_zero, consV_single]
    have eb : aw (R := R) 1 (b :: Y) = bv R [[b], b :: Y] + preV b (aw 1 Y) := by
      rw [show (1 : Nat) = 0 + 1 from rfl, aw_cons, aw_zero, consV_single]
    have s0 : bil shT (bv R [[a], a :: X]) (bv R [[b], b :: Y]) = consV [(a, b)] (one (ez (a :: X) (b :: Y))) := by
      rw [bil_bv, lin_single, one_smul, shT, ez_cons]
      simp [ldim, consV_eq_cat]
    have s1 : bil shT (bv R [[a], a :: X]) (preV b (aw 1 Y)) =
        (-1 : R) ^ X.length • preV (a, b) (bil shT (bv R [[a], a :: X]) (aw 1 Y)) := by
      have := BElem.lin_ext_supported (R := R) (f := (bil shT (bv R [[a], a :: X])).comp (preV b))
        (g := (-1 : R) ^ X.length • (preV (a, b)).comp (bil shT (bv R [[a], a :: X]))) (fun l hl => by
          obtain ⟨Z, Z', rfl, hZ, -⟩ := hl
          exact shT_step1 a X b ⟨Z, Z', rfl, hZ⟩) hy
      exact this
    have s2 : bil shT (preV a (aw 1 X)) (bv R [[b], b :: Y]) =
        preV (a, b) (bil shT (aw 1 X) (bv R [[b], b :: Y])) := by
      have := BElem.lin_ext_supported (R := R) (f := ((bil shT).flip (bv R [[b], b :: Y])).comp (preV a))
        (g := (preV (a, b)).comp ((bil shT).flip (bv R [[b], b :: Y]))) (fun l hl => by
          obtain ⟨Z, Z', rfl, hZ, -⟩ := hl
          exact shT_step2 a b Y ⟨Z, Z', rfl, hZ⟩) hx
      exact this
    have s3 : bil (shT (R := R)) (preV a (aw 1 X)) (preV b (aw 1 Y)) =
        (-1 : R) ^ X.length • preV (a, b) (bil shT (preV a (aw 1 X)) (aw 1 Y)) +
        preV (a, b) (bil shT (aw 1 X) (preV b (aw 1 Y))) := by
      have := BElem.bil_ext_supported (R := R) (f := (bil (shT (R := R))).compl₁₂ (preV a) (preV b))
        (g := (-1 : R) ^ X.length • ((bil (shT (R := R))).comp (preV a)).compr₂ (preV (a, b)) +
          ((bil (shT (R := R))).compl₂ (preV b)).compr₂ (preV (a, b))) (fun k hk l hl => by
          obtain ⟨Z, Z', rfl, hZ, -⟩ := hl
          exact shT_step3 a X b hk ⟨Z, Z', rfl, hZ⟩) hx hy
      exact this
    rw [ea, eb]
    simp only [map_add, LinearMap.add_apply, map_smul, smul_add, s0, s1, s2, s3]
    abel

end Comch.Hopf
