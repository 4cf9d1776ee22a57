import Verif.Lib.SurjCompose
import Verif.Lib.PermSign
import Mathlib.Tactic.LinearCombination
import Mathlib.Tactic.Ring

/-! # Suspension of surjections: boundary -/

set_option linter.unusedSectionVars false

namespace Comch.SurjComp
open Spec Elem
open Finsupp (single)

variable {R : Type} [CommRing R] {r : Nat}

/-- The sign of a permutation of `1..r`, zero for other words. -/
def eps (R : Type) [CommRing R] (r : Nat) (q : List Nat) : R := if IsPerm r q then (-1) ^ inversions q else 0

theorem eps_not {q : List Nat} (h : ¬ IsPerm r q) : eps R r q = 0 := if_neg h

theorem filter_length_swap (P : Nat → Bool) (u v : Nat) (C : List Nat) :
    ((u :: v :: C).filter P).length = ((v :: u :: C).filter P).length :=
  ((List.Perm.swap v u C).filter P).length_eq

theorem inversions_swap (A : List Nat) {u v : Nat} (h : u ≠ v) (C : List Nat) :
    (-1 : R) ^ inversions (A ++ u :: v :: C) = - (-1) ^ inversions (A ++ v :: u :: C) := by
  induction A with
  | nil =>
    simp only [List.nil_append, inversions, List.filter_cons]
    rcases lt_or_gt_of_ne h with h | h
    · simp only [h, decide_true, if_true, Nat.lt_asymm h, decide_false, Bool.false_eq_true, if_false, List.length_cons]
      ring
    · simp only [h, decide_true, if_true, Nat.lt_asymm h, decide_false, Bool.false_eq_true, if_false, List.length_cons]
      ring
  | cons a A ih =>
    simp only [List.cons_append, inversions, pow_add, ih]
    have : ((A ++ u :: v :: C).filter fun b => decide (b < a)).length =
        ((A ++ v :: u :: C).filter fun b => decide (b < a)).length := by
      rw [List.filter_append, List.filter_append, List.length_append, List.length_append, filter_length_swap]
    rw [this]
    ring

theorem isPerm_perm {p q : List Nat} (h : p.Perm q) : IsPerm r p ↔ IsPerm r q :=
  ⟨fun k => ⟨h.length_eq ▸ k.length, h.nodup_iff.1 k.nodup, fun i hi => k.range i (h.mem_iff.2 hi)⟩,
   fun k => ⟨h.length_eq ▸ k.length, h.nodup_iff.2 k.nodup, fun i hi => k.range i (h.mem_iff.1 hi)⟩⟩

theorem eps_swap (A : List Nat) (u v : Nat) (C : List Nat) :
    eps R r (A ++ u :: v :: C) = - eps R r (A ++ v :: u :: C) := by
  have hp : (A ++ u :: v :: C).Perm (A ++ v :: u :: C) := (List.Perm.swap v u C).append_left A
  unfold eps
  by_cases h : IsPerm r (A ++ u :: v :: C)
  · rw [if_pos h, if_pos ((isPerm_perm hp).1 h)]
    apply inversions_swap
    rintro rfl
    have := h.nodup
    simp [List.nodup_append] at this
  · rw [if_neg h, if_neg (fun h' => h ((isPerm_perm hp).2 h')), neg_zero]

theorem eps_move (A B : List Nat) (d : Nat) (C : List Nat) :
    eps R r (A ++ B ++ d :: C) = (-1) ^ B.length * eps R r (A ++ d :: (B ++ C)) := by
  induction B generalizing A with
  | nil => simp
  | cons b B ih =>
    have h1 := ih (A ++ [b])
    have h2 := eps_swap (R := R) (r := r) A b d (B ++ C)
    simp only [List.append_assoc, List.cons_append, List.nil_append, List.length_cons] at h1 h2 ⊢
    rw [h1, h2]
    ring

/-- Omitting the entries of a word of length `r + 1` one after the other: the signs of the permutations among the
results cancel. -/
theorem eps_alt {q : List Nat} (hl : q.length = r + 1) (hq : Rng r q) :
    ((List.range (r + 1)).map fun j => (-1 : R) ^ j * eps R r (q.eraseIdx j)).sum = 0 := by
  -- two equal entries
  have hnd : ¬ q.Nodup := by
    intro hn
    have h1 : q.toFinset ⊆ Finset.Icc 1 r := by
      intro v hv
      rw [List.mem_toFinset] at hv
      exact Finset.mem_Icc.2 (hq v hv)
    have := Finset.card_le_card h1
    rw [List.toFinset_card_of_nodup hn, Nat.card_Icc, hl] at this
    omega
  obtain ⟨A, B, C, d, rfl⟩ : ∃ A B C d, q = A ++ d :: (B ++ d :: C) := by
    clear hl hq
    induction q with
    | nil => simp at hnd
    | cons a q ih =>
      by_cases ha : a ∈ q
      · obtain ⟨B, C, rfl⟩ := List.append_of_mem ha
        exact ⟨[], B, C, a, rfl⟩
      · obtain ⟨A, B, C, d, rfl⟩ := ih (fun h => hnd (List.nodup_cons.2 ⟨ha, h⟩))
        exact ⟨a :: A, B, C, d, rfl⟩
  have hrange : List.range (r + 1) = List.range' 0 A.length ++ A.length :: (List.range' (A.length + 1) B.length ++
      (A.length + 1 + B.length) :: List.range' (A.length + B.length + 2) C.length) := by
    rw [List.range_eq_range']
    have e : r + 1 = A.length + (1 + (B.length + (1 + C.length))) := by
      simp at hl
      omega
    rw [e, ← List.range'_append_1, ← List.range'_append_1, ← List.range'_append_1, ← List.range'_append_1]
    simp
    omega
  rw [hrange]
  simp only [List.map_append, List.map_cons, List.sum_append, List.sum_cons]
  have z : ∀ j, j ≠ A.length → j ≠ A.length + 1 + B.length →
      eps R r ((A ++ d :: (B ++ d :: C)).eraseIdx j) = 0 := by
    intro j h1 h2
    apply eps_not
    intro h
    have hn := h.nodup
    have hc := List.nodup_iff_count_le_one.1 hn d
    rcases lt_or_ge j A.length with h3 | h3
    · rw [List.eraseIdx_append_of_lt_length h3] at hc
      simp at hc
      omega
    · rw [List.eraseIdx_append_of_length_le h3] at hc
      obtain ⟨k, hk⟩ : ∃ k, j - A.length = k + 1 := ⟨j - A.length - 1, by omega⟩
      rw [hk, List.eraseIdx_cons_succ] at hc
      rcases lt_or_ge k B.length with h4 | h4
      · rw [List.eraseIdx_append_of_lt_length h4] at hc
        simp at hc
        omega
      · rw [List.eraseIdx_append_of_length_le h4] at hc
        obtain ⟨l, hl⟩ : ∃ l, k - B.length = l + 1 := ⟨k - B.length - 1, by omega⟩
        rw [hl, List.eraseIdx_cons_succ] at hc
        simp at hc
        omega
  have s0 : ∀ a n, (∀ j ∈ List.range' a n, j ≠ A.length ∧ j ≠ A.length + 1 + B.length) →
      ((List.range' a n).map fun j => (-1 : R) ^ j * eps R r ((A ++ d :: (B ++ d :: C)).eraseIdx j)).sum = 0 := by
    intro a n h
    apply List.sum_eq_zero
    intro v hv
    obtain ⟨j, hj, rfl⟩ := List.mem_map.1 hv
    rw [z j (h j hj).1 (h j hj).2, mul_zero]
  rw [s0 _ _ (by simp; omega), s0 _ _ (by simp; omega), s0 _ _ (by simp; omega)]
  have e1 : (A ++ d :: (B ++ d :: C)).eraseIdx A.length = A ++ B ++ d :: C := by
    rw [List.eraseIdx_append_of_length_le le_rfl]
    simp
  have e2 : (A ++ d :: (B ++ d :: C)).eraseIdx (A.length + 1 + B.length) = A ++ d :: (B ++ C) := by
    rw [List.eraseIdx_append_of_length_le (by omega),
      show A.length + 1 + B.length - A.length = B.length + 1 by omega, List.eraseIdx_cons_succ,
      List.eraseIdx_append_of_length_le le_rfl]
    simp
  rw [e1, e2, eps_move]
  ring

/-- Suspension of a word whose first letters `p` have been read. -/
noncomputable def susT (R : Type) [CommRing R] (r : Nat) (p : List Nat) : (List Nat →₀ R) →ₗ[R] (List Nat →₀ R) :=
  lin fun t => eps R r (p ++ t.take (r - p.length)) • bv R (t.drop (r - p.length - 1))

@[simp] theorem susT_bv (p t : List Nat) : susT R r p (bv R t) =
    eps R r (p ++ t.take (r - p.length)) • bv R (t.drop (r - p.length - 1)) := by
  simp [susT]

theorem susT_cons {p : List Nat} (hp : p.length + 2 ≤ r) (x : Nat) (v : List Nat →₀ R) :
    susT R r p (consV x v) = susT R r (p ++ [x]) v := by
  have := lin_ext (R := R) (f := (susT R r p).comp (consV x)) (g := susT R r (p ++ [x])) (fun t => by
    simp only [LinearMap.comp_apply, consV_single]
    change susT R r p (bv R (x :: t)) = susT R r (p ++ [x]) (bv R t)
    rw [susT_bv, susT_bv]
    obtain ⟨n, hn⟩ : ∃ n, r - p.length = n + 2 := ⟨r - p.length - 2, by omega⟩
    have h1 : r - (p ++ [x]).length = n + 1 := by simp; omega
    rw [hn, h1]
    simp)
  exact LinearMap.congr_fun this v

theorem susT_last {p : List Nat} (hp : p.length + 1 = r) (x : Nat) (v : List Nat →₀ R) :
    susT R r p (consV x v) = eps R r (p ++ [x]) • consV x v := by
  have := lin_ext (R := R) (f := (susT R r p).comp (consV x)) (g := eps R r (p ++ [x]) • consV x) (fun t => by
    simp only [LinearMap.comp_apply, consV_single, LinearMap.smul_apply]
    change susT R r p (bv R (x :: t)) = _
    rw [susT_bv, show r - p.length = 1 by omega]
    simp)
  exact LinearMap.congr_fun this v

theorem susT_nil {p : List Nat} (hp : p.length < r) : susT R r p (bv R []) = 0 := by
  rw [susT_bv, List.take_nil, List.append_nil, eps_not, zero_smul]
  intro h
  have := h.length
  omega

/-- A letter that does not occur in the words does not occur in their suspensions. -/
theorem susT_miss (p : List Nat) {x : Nat} {v : List Nat →₀ R} (hv : v ∈ Finsupp.supported R R {m | x ∉ m})
    {m : List Nat} (hm : x ∈ m) : susT R r p v m = 0 := by
  have h : susT R r p v ∈ Finsupp.supported R R {m | x ∉ m} := by
    refine lin_supported _ (fun k hk => ?_) hv
    apply Submodule.smul_mem
    exact Finsupp.single_mem_supported R _ fun h => hk (List.mem_of_mem_drop h)
  rw [Finsupp.mem_supported'] at h
  exact h m (fun h' => h' hm)

theorem bv_miss {x : Nat} {t : List Nat} (h : x ∉ t) : bv R t ∈ Finsupp.supported R R {m | x ∉ m} :=
  Finsupp.single_mem_supported R _ h

theorem sdel_miss {x : Nat} {t : List Nat} (h : x ∉ t) : sdel (R := R) t ∈ Finsupp.supported R R {m | x ∉ m} :=
  Finsupp.supported_mono (fun m (hm : SameVals t m) => fun h' => h ((hm x).1 h')) (sdel_supported t)

theorem eraseIdx_snoc_lt {A : Type} {p : List A} {j : Nat} (h : j < p.length) (l : List A) :
    (p ++ l).eraseIdx j = p.eraseIdx j ++ l := List.eraseIdx_append_of_lt_length h l

/-- The faces of a word of which the letters `p` have been read. -/
noncomputable def susA (R : Type) [CommRing R] (r : Nat) (p t : List Nat) (m : List Nat) : R :=
  ((List.range p.length).map fun j => (-1 : R) ^ j * susT R r (p.eraseIdx j) (bv R t) m).sum +
    (-1) ^ p.length * susT R r p (sdel t) m

theorem susA_step {p : List Nat} (hp : p.length + 2 ≤ r) {x : Nat} (hx : 1 ≤ x ∧ x ≤ r) (u : List Nat)
    {m : List Nat} (hm : ∀ v, 1 ≤ v → v ≤ r → v ∈ m) : susA R r p (x :: u) m = susA R r (p ++ [x]) u m := by
  have hxm := hm x hx.1 hx.2
  unfold susA
  have e1 : (List.range p.length).map (fun j => (-1 : R) ^ j * susT R r (p.eraseIdx j) (bv R (x :: u)) m) =
      (List.range p.length).map fun j => (-1 : R) ^ j * susT R r ((p ++ [x]).eraseIdx j) (bv R u) m := by
    apply List.map_congr_left
    intro j hj
    rw [List.mem_range] at hj
    have hl : (p.eraseIdx j).length + 2 ≤ r := by
      rw [List.length_eraseIdx_of_lt hj]
      omega
    rw [eraseIdx_snoc_lt hj, ← susT_cons hl, show consV x (bv R u) = bv R (x :: u) by simp]
  have e2 : (p ++ [x]).eraseIdx p.length = p := by
    rw [List.eraseIdx_append_of_length_le le_rfl]
    simp
  rw [e1, List.length_append, List.length_singleton, List.range_succ, List.map_append, List.sum_append,
    List.map_singleton, List.sum_singleton, e2, sdel]
  have e3 : susT R r p (if u.count x = 1 then bv R (x :: u.erase x) else 0) m = 0 := by
    split
    · rename_i hc
      rw [show bv R (x :: u.erase x) = consV x (bv R (u.erase x)) by simp, susT_cons hp]
      apply susT_miss _ (bv_miss _) hxm
      intro h
      have h1 := List.count_pos_iff.2 h
      rw [List.count_erase_self] at h1
      omega
    · simp
  by_cases hxu : x ∈ u
  · rw [if_pos hxu, map_sub, map_sub, Finsupp.sub_apply, Finsupp.sub_apply, e3, susT_cons hp]
    ring
  · rw [if_neg hxu, map_sub, Finsupp.sub_apply, e3, susT_cons hp, susT_miss _ (sdel_miss hxu) hxm,
      susT_miss _ (bv_miss hxu) hxm]
    ring

theorem susA_last {p : List Nat} (hp : p.length + 1 = r) (hpr : Rng r p) {t : List Nat} (ht : Rng r t)
    {m : List Nat} (hm : ∀ v, 1 ≤ v → v ≤ r → v ∈ m) :
    susA R r p t m = (-1) ^ (r - 1) * sdelL (susT R r p (bv R t)) m := by
  have er : r - 1 = p.length := by omega
  cases t with
  | nil =>
    have e1 : (List.range p.length).map (fun j => (-1 : R) ^ j * susT R r (p.eraseIdx j) (bv R []) m) =
        (List.range p.length).map fun _ => (0 : R) := by
      apply List.map_congr_left
      intro j hj
      rw [susT_nil]
      · simp
      · have := List.length_eraseIdx_le p j
        omega
    unfold susA
    rw [e1, susT_nil (by omega), sdel]
    simp
  | cons x u =>
    have hxm := hm x (ht x (by simp)).1 (ht x (by simp)).2
    have hc : susT R r p (bv R (x :: u)) = eps R r (p ++ [x]) • bv R (x :: u) := by
      rw [show bv R (x :: u) = consV x (bv R u) by simp, susT_last hp]
    have hd : sdelL (bv R (x :: u)) = sdel (R := R) (x :: u) := by simp [sdelL]
    rw [hc, map_smul, Finsupp.smul_apply, hd, smul_eq_mul, er]
    -- the faces omitting a letter of the prefix
    have e1 : (List.range p.length).map (fun j => (-1 : R) ^ j * susT R r (p.eraseIdx j) (bv R (x :: u)) m) =
        (List.range p.length).map fun j => (-1 : R) ^ j *
          (eps R r ((p ++ [x, u.headD 0]).eraseIdx j) * bv R u m) := by
      apply List.map_congr_left
      intro j hj
      rw [List.mem_range] at hj
      have hl : (p.eraseIdx j).length + 2 = r := by
        rw [List.length_eraseIdx_of_lt hj]
        omega
      rw [show bv R (x :: u) = consV x (bv R u) by simp, susT_cons (by omega), eraseIdx_snoc_lt hj]
      cases u with
      | nil =>
        rw [susT_nil (by simp; omega)]
        have : bv R [] m = 0 := by
          rw [Finsupp.single_apply, if_neg]
          rintro rfl
          simp at hxm
        rw [this]
        simp
      | cons y w =>
        rw [show bv R (y :: w) = consV y (bv R w) by simp, susT_last (by simp; omega),
          Finsupp.smul_apply, smul_eq_mul]
        simp
    unfold susA
    rw [e1, sdel]
    by_cases hxu : x ∈ u
    · cases u with
      | nil => simp at hxu
      | cons y w =>
        have h2 : susT R r p ((if x ∈ y :: w then bv R (y :: w) - consV x (sdel (y :: w)) else consV x (sdel (y :: w))) -
            (if (y :: w).count x = 1 then bv R (x :: (y :: w).erase x) else 0)) =
            eps R r (p ++ [y]) • bv R (y :: w) + eps R r (p ++ [x]) •
            ((if x ∈ y :: w then bv R (y :: w) - consV x (sdel (y :: w)) else consV x (sdel (y :: w))) -
            (if (y :: w).count x = 1 then bv R (x :: (y :: w).erase x) else 0) - bv R (y :: w)) := by
          rw [if_pos hxu]
          have h3 : ∀ c : Prop, ∀ _ : Decidable c, susT R r p (if c then bv R (x :: (y :: w).erase x) else 0) =
              eps R r (p ++ [x]) • (if c then bv R (x :: (y :: w).erase x) else 0) := by
            intro c _
            split
            · rw [show bv R (x :: (y :: w).erase x) = consV x (bv R ((y :: w).erase x)) by simp, susT_last hp]
            · simp
          rw [map_sub, map_sub, h3, susT_last hp, show bv R (y :: w) = consV y (bv R w) by simp, susT_last hp]
          module
        rw [h2]
        have key := eps_alt (R := R) (r := r) (q := p ++ [x, y]) (by simp; omega) (by
          intro a ha
          rcases List.mem_append.1 ha with h | h
          · exact hpr a h
          · refine ht a ?_
            simp at h
            rcases h with rfl | rfl <;> simp)
        rw [← hp, List.range_succ, List.range_succ, List.map_append, List.map_append, List.sum_append,
          List.sum_append] at key
        have e4 : (p ++ [x, y]).eraseIdx p.length = p ++ [y] := by
          rw [List.eraseIdx_append_of_length_le le_rfl]; simp
        have e5 : (p ++ [x, y]).eraseIdx (p.length + 1) = p ++ [x] := by
          rw [List.eraseIdx_append_of_length_le (by omega)]; simp
        simp only [List.map_singleton, List.sum_singleton, e4, e5] at key
        have e6 : ((List.range p.length).map fun j => (-1 : R) ^ j *
            (eps R r ((p ++ [x, (y :: w).headD 0]).eraseIdx j) * bv R (y :: w) m)).sum =
            ((List.range p.length).map fun j => (-1 : R) ^ j *
            eps R r ((p ++ [x, y]).eraseIdx j)).sum * bv R (y :: w) m := by
          rw [← List.sum_map_mul_right]
          simp [mul_assoc]
        rw [e6]
        simp only [Finsupp.add_apply, Finsupp.smul_apply, Finsupp.sub_apply, smul_eq_mul]
        have e7 : (-1 : R) ^ r = - (-1) ^ p.length := by rw [← hp, pow_succ]; ring
        rw [pow_succ] at key
        simp only [hp] at key
        linear_combination (bv R (y :: w) m) * key
    · have e8 : bv R u m = 0 := by
        rw [Finsupp.single_apply, if_neg]
        rintro rfl
        exact hxu hxm
      rw [if_neg hxu, List.count_eq_zero.2 hxu]
      simp only [e8, mul_zero, zero_ne_one, if_false, sub_zero, susT_last hp]
      simp

theorem susA_eq {p : List Nat} (hp : p.length < r) (hpr : Rng r p) {t : List Nat} (ht : Rng r t)
    {m : List Nat} (hm : ∀ v, 1 ≤ v → v ≤ r → v ∈ m) :
    susA R r p t m = (-1) ^ (r - 1) * sdelL (susT R r p (bv R t)) m := by
  obtain ⟨n, hn⟩ : ∃ n, r = p.length + 1 + n := ⟨r - p.length - 1, by omega⟩
  induction n generalizing p t with
  | zero => exact susA_last (by omega) hpr ht hm
  | succ n ih =>
    cases t with
    | nil =>
      have e1 : (List.range p.length).map (fun j => (-1 : R) ^ j * susT R r (p.eraseIdx j) (bv R []) m) =
          (List.range p.length).map fun _ => (0 : R) := by
        apply List.map_congr_left
        intro j hj
        rw [susT_nil]
        · simp
        · have := List.length_eraseIdx_le p j
          omega
      unfold susA
      rw [e1, susT_nil hp, sdel]
      simp
    | cons x u =>
      rw [susA_step (by omega) (ht x (by simp)) u hm, ih (p := p ++ [x]) (by simp; omega)
        (fun a ha => by
          rcases List.mem_append.1 ha with h | h
          · exact hpr a h
          · simp at h
            subst h
            exact ht a (by simp))
        ht.tail (by simp; omega), ← susT_cons (by omega)]
      simp

/-- In arity `r` suspension anticommutes with the boundary as an operation of degree `r - 1`. -/
theorem sus_boundary (hr : 1 ≤ r) {t : List Nat} (ht : Rng r t) {m : List Nat} (hm : ∀ v, 1 ≤ v → v ≤ r → v ∈ m) :
    susT R r [] (sdel t) m = (-1) ^ (r - 1) * sdelL (susT R r [] (bv R t)) m := by
  have := susA_eq (R := R) (r := r) (p := []) (by simp; omega) (by simp [Rng]) ht hm
  simpa [susA] using this

end Comch.SurjComp
