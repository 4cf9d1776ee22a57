import Verif.Props.CochainsSteenrod

/-! # Degree, range and extremal values of the cup-i products on simplicial cochains: C133 -/

set_option linter.unusedSectionVars false

namespace Comch.Coch
open Comch.Spec Elem SurjComp SurjElem IsPerm SurjMay Comch.Props

variable {n : Nat} {σ : List Nat} {X : OrderedComplex}

theorem ev_od_length (ps : List (List Nat)) : (evP ps).length + (odP ps).length = (ps.map List.length).sum := by
  induction ps with
  | nil => rfl
  | cons p ps ih => rw [evP, odP, List.map_cons, List.sum_cons, ← ih, List.length_append]; omega

theorem total_length (m : Nat) : ∀ (V : List Nat) (ps : List (List Nat)), V ≠ [] → ps ∈ allCuts (m + 1) V →
    (ps.map List.length).sum = V.length + m := by
  induction m with
  | zero =>
    intro V ps _ h
    simp only [allCuts, List.mem_singleton] at h
    subst h
    simp
  | succ m ih =>
    intro V ps hV h
    obtain ⟨i, ps', hi, rfl, h'⟩ := cuts_cons h
    rw [List.map_cons, List.sum_cons, ih _ _ (by intro h; have := congrArg List.length h; simp at this; omega) h',
      List.length_take, List.length_drop]
    omega

theorem mem_properCuts {m : Nat} {V : List Nat} {ps : List (List Nat)} (h : ps ∈ properCuts m V) :
    ps ∈ allCuts m V ∧ Proper ps := by
  obtain ⟨h1, h2⟩ := List.mem_filter.1 h
  exact ⟨h1, (proper_iff h1).1 h2⟩

/-- The tails of proper cuts: all the pieces but the last one have at least two entries. -/
def Tl (ps : List (List Nat)) : Prop := ∀ j, j + 1 < ps.length → 2 ≤ (ps.getD j []).length

instance (ps : List (List Nat)) : Decidable (Proper ps) :=
  decidable_of_iff (∀ j < ps.length, 1 ≤ j → j + 1 < ps.length → 2 ≤ (ps.getD j []).length)
    ⟨fun h j h1 h2 => h j (by omega) h1 h2, fun h j _ h1 h2 => h j h1 h2⟩

instance (ps : List (List Nat)) : Decidable (Tl ps) :=
  decidable_of_iff (∀ j < ps.length, j + 1 < ps.length → 2 ≤ (ps.getD j []).length)
    ⟨fun h j h2 => h j (by omega) h2, fun h j _ h2 => h j h2⟩

def tails (m : Nat) (V : List Nat) : List (List (List Nat)) := (allCuts (m + 1) V).filter fun ps => decide (Tl ps)

theorem properCuts_eq (m : Nat) (V : List Nat) : properCuts (m + 2) V =
    (List.range V.length).flatMap fun i => (tails m (V.drop i)).map (V.take (i + 1) :: ·) := by
  have h0 : properCuts (m + 2) V = (allCuts (m + 2) V).filter fun ps => decide (Proper ps) := by
    unfold properCuts
    refine List.filter_congr fun ps h => ?_
    rw [Bool.eq_iff_iff, proper_iff h, decide_eq_true_eq]
  rw [h0, allCuts, List.filter_flatMap]
  refine List.flatMap_congr fun i _ => ?_
  rw [List.filter_map, tails]
  congr 1
  refine List.filter_congr fun ps h => ?_
  simp only [Function.comp]
  congr 1
  rw [eq_iff_iff]
  constructor
  · intro hp j h2
    have := hp (j + 1) (by omega) (by rw [List.length_cons]; omega)
    rwa [List.getD_cons_succ] at this
  · intro hp j h1 h2
    obtain ⟨l, rfl⟩ : ∃ l, j = l + 1 := ⟨j - 1, by omega⟩
    rw [List.getD_cons_succ]
    exact hp l (by rw [List.length_cons] at h2; omega)

theorem tails_zero (V : List Nat) : tails 0 V = [V :: []] := by
  unfold tails
  rw [allCuts, List.filter_singleton, decide_eq_true (by intro j h; simp at h)]
  rfl

theorem tails_succ (m : Nat) (V : List Nat) : tails (m + 1) V =
    (List.range V.length).flatMap fun i => if i = 0 then [] else (tails m (V.drop i)).map (V.take (i + 1) :: ·) := by
  rw [tails, allCuts, List.filter_flatMap]
  refine List.flatMap_congr fun i hi => ?_
  rw [List.filter_map]
  rw [List.mem_range] at hi
  by_cases h0 : i = 0
  · subst h0
    rw [if_pos rfl, List.map_eq_nil_iff, List.filter_eq_nil_iff]
    intro ps h
    simp only [Function.comp, decide_eq_true_eq]
    intro ht
    have := ht 0 (by rw [List.length_cons, length_of_mem_allCuts h]; omega)
    rw [List.getD_cons_zero, List.length_take] at this
    omega
  · rw [if_neg h0, tails]
    congr 1
    refine List.filter_congr fun ps h => ?_
    simp only [Function.comp]
    congr 1
    rw [eq_iff_iff]
    constructor
    · intro hp j h2
      have := hp (j + 1) (by rw [List.length_cons]; omega)
      rwa [List.getD_cons_succ] at this
    · intro hp j h2
      cases j with
      | zero => rw [List.getD_cons_zero, List.length_take]; omega
      | succ l =>
        rw [List.getD_cons_succ]
        exact hp l (by rw [List.length_cons] at h2; omega)

theorem hockey (m l : Nat) : ((List.range l).map fun i => (l - i - 1).choose m).sum = l.choose (m + 1) := by
  induction l with
  | zero => simp
  | succ l ih =>
    rw [List.range_succ_eq_map, List.map_cons, List.sum_cons, List.map_map]
    have : ((fun i => (l + 1 - i - 1).choose m) ∘ Nat.succ) = fun i => (l - i - 1).choose m := by
      funext i
      simp only [Function.comp]
      congr 1
      omega
    rw [this, ih, Nat.choose_succ_succ' l m]
    simp

theorem tails_length (m : Nat) : ∀ V : List Nat, V ≠ [] → (tails m V).length = (V.length - 1).choose m := by
  induction m with
  | zero => intro V _; rw [tails_zero]; simp
  | succ m ih =>
    intro V hV
    rw [tails_succ, List.length_flatMap]
    obtain ⟨l, hl⟩ : ∃ l, V.length = l + 1 := ⟨V.length - 1, by have := List.length_pos_iff.2 hV; omega⟩
    rw [hl, List.range_succ_eq_map, List.map_cons, List.map_map, if_pos rfl, List.length_nil, List.sum_cons, zero_add,
      Nat.add_sub_cancel, ← hockey m l]
    congr 1
    refine List.map_congr_left fun i hi => ?_
    rw [List.mem_range] at hi
    simp only [Function.comp]
    rw [if_neg (by omega), List.length_map, ih _ (by intro h; have := congrArg List.length h; simp at this; omega), List.length_drop, hl]
    congr 1
    omega

theorem properCuts_length (m : Nat) (V : List Nat) : (properCuts (m + 2) V).length = V.length.choose (m + 1) := by
  rw [properCuts_eq, List.length_flatMap, ← hockey m V.length]
  congr 1
  refine List.map_congr_left fun i hi => ?_
  rw [List.mem_range] at hi
  rw [List.length_map, tails_length _ _ (by intro h; have := congrArg List.length h; simp at this; omega), List.length_drop]

/-! ### the diagonal -/

/-- The cut of a simplex into its edges. -/
def edges : List Nat → List (List Nat)
  | [] => []
  | [a] => [[a]]
  | a :: b :: t => [a, b] :: edges (b :: t)

theorem edges_mem (V : List Nat) (h : V ≠ []) : edges V ∈ tails (V.length - 1) V := by
  induction V with
  | nil => exact absurd rfl h
  | cons a t ih =>
    cases t with
    | nil => rw [edges]; simp [tails_zero]
    | cons b t =>
      rw [edges]
      show _ ∈ tails (t.length + 1) _
      rw [tails_succ]
      refine List.mem_flatMap.2 ⟨1, by simp, ?_⟩
      rw [if_neg (by omega)]
      exact List.mem_map.2 ⟨edges (b :: t), ih (by simp), rfl⟩

theorem properCuts_top {i : Nat} (hl : σ.length = i + 1) : properCuts (i + 2) σ = [σ.take 1 :: edges σ] := by
  have h1 := properCuts_length i σ
  rw [hl, Nat.choose_self] at h1
  obtain ⟨ps, hps⟩ := List.length_eq_one_iff.1 h1
  have hm : (σ.take 1 :: edges σ) ∈ properCuts (i + 2) σ := by
    rw [properCuts_eq]
    refine List.mem_flatMap.2 ⟨0, by simp [hl], List.mem_map.2 ⟨edges σ, ?_, rfl⟩⟩
    have := edges_mem σ (by intro h; rw [h] at hl; simp at hl)
    rw [hl, Nat.add_sub_cancel] at this
    simpa using this
  rw [hps, List.mem_singleton] at hm
  rw [hps, hm]

theorem edges_length (V : List Nat) : (edges V).length = V.length := by
  induction V with
  | nil => rfl
  | cons a t ih => cases t with
    | nil => rfl
    | cons b t => rw [edges, List.length_cons, ih]; rfl

theorem edges_dim (V : List Nat) (j : Nat) (hj : j < V.length) :
    dimOf ((edges V).getD j []) = if j + 1 = V.length then 0 else 1 := by
  induction V generalizing j with
  | nil => simp at hj
  | cons a t ih =>
    cases t with
    | nil =>
      simp only [List.length_cons, List.length_nil] at hj
      obtain rfl : j = 0 := by omega
      simp [edges, dimOf]
    | cons b t =>
      rw [edges]
      cases j with
      | zero => simp [dimOf]
      | succ j =>
        rw [List.getD_cons_succ, ih j (by simpa using hj)]
        simp

theorem top_dim {i : Nat} (hl : σ.length = i + 1) (j : Nat) (hj : j < i + 2) :
    dimOf ((σ.take 1 :: edges σ).getD j []) = if 1 ≤ j ∧ j ≤ i then 1 else 0 := by
  cases j with
  | zero =>
    rw [List.getD_cons_zero, if_neg (by omega), dimOf, List.length_take, hl]
    simp
  | succ j =>
    rw [List.getD_cons_succ, edges_dim σ j (by omega), hl]
    by_cases h : j = i
    · rw [if_pos (by omega), if_neg (by omega)]
    · rw [if_neg (by omega), if_pos (by omega)]

theorem alternating_getD {m j : Nat} (h : j < m) : (alternating m).getD j 0 = j % 2 + 1 := by
  simp [alternating, List.getD_eq_getElem?_getD, h]

theorem alternating_caesura {m j : Nat} (h : j < m) : isCaesura (alternating m) j ↔ j + 2 < m := by
  unfold isCaesura
  rw [alternating_getD h]
  have hl : (alternating m).length = m := by simp [alternating]
  constructor
  · intro hm
    obtain ⟨k, hk, e⟩ := List.mem_iff_getElem.1 hm
    rw [List.length_drop, hl] at hk
    rw [List.getElem_drop] at e
    have := alternating_getD (m := m) (j := j + 1 + k) (by omega)
    rw [List.getD_eq_getElem _ _ (by omega)] at this
    rw [this] at e
    omega
  · intro hj
    refine List.mem_iff_getElem.2 ⟨1, by rw [List.length_drop, hl]; omega, ?_⟩
    rw [List.getElem_drop]
    have := alternating_getD (m := m) (j := j + 1 + 1) (by omega)
    rw [List.getD_eq_getElem _ _ (by omega)] at this
    rw [this]
    omega

theorem sumTo_congr {m : Nat} {f g : Nat → Int} (h : ∀ i, i < m → f i = g i) : sumTo m f = sumTo m g := by
  unfold sumTo
  congr 1
  exact List.map_congr_left fun i hi => h i (List.mem_range.1 hi)

theorem sumTo_step (m : Nat) (f : Nat → Int) : sumTo (m + 1) f = sumTo m f + f m := by
  unfold sumTo
  rw [List.range_succ, List.map_append, List.sum_append]
  simp

theorem sumTo_addf (m : Nat) (f g : Nat → Int) : sumTo m (fun i => f i + g i) = sumTo m f + sumTo m g := by
  induction m with
  | zero => rfl
  | succ m ih => rw [sumTo_step, sumTo_step, sumTo_step, ih]; ring

theorem sumTo_zero (m : Nat) : sumTo m (fun _ => 0) = 0 := by
  induction m with
  | zero => rfl
  | succ m ih => rw [sumTo_step, ih]; rfl

theorem count_odd (m : Nat) : sumTo m (fun a => if a % 2 = 1 then 1 else 0) = ((m / 2 : Nat) : Int) := by
  induction m with
  | zero => rfl
  | succ m ih =>
    rw [sumTo_step, ih]
    split <;> omega

theorem sorting_closed (i : Nat) :
    sumTo (i + 2) (fun a => sumTo (i + 2) fun b => if a < b ∧ b % 2 < a % 2 then
      (if 1 ≤ a ∧ a ≤ i then 1 else 0) * (if 1 ≤ b ∧ b ≤ i then 1 else 0) else 0) = (((i / 2 + 1).choose 2 : Nat) : Int) := by
  have e : ∀ i : Nat, sumTo (i + 2) (fun a => sumTo (i + 2) fun b => if a < b ∧ b % 2 < a % 2 then
      (if 1 ≤ a ∧ a ≤ i then (1 : Int) else 0) * (if 1 ≤ b ∧ b ≤ i then 1 else 0) else 0) =
      sumTo (i + 1) (fun a => sumTo (i + 1) fun b => if a < b ∧ b % 2 < a % 2 then 1 else 0) := by
    intro i
    rw [sumTo_step]
    rw [show sumTo (i + 2) (fun b => if i + 1 < b ∧ b % 2 < (i + 1) % 2 then
      (if 1 ≤ i + 1 ∧ i + 1 ≤ i then (1 : Int) else 0) * (if 1 ≤ b ∧ b ≤ i then 1 else 0) else 0) = 0 by
        refine (sumTo_congr (g := fun _ => 0) fun b _ => ?_).trans (sumTo_zero (i + 2))
        rw [if_neg (show ¬ (1 ≤ i + 1 ∧ i + 1 ≤ i) by omega)]
        simp, add_zero]
    refine sumTo_congr fun a ha => ?_
    rw [sumTo_step, if_neg (show ¬ (1 ≤ i + 1 ∧ i + 1 ≤ i) by omega)]
    simp only [mul_zero, ite_self, add_zero]
    refine sumTo_congr fun b hb => ?_
    by_cases h : a < b ∧ b % 2 < a % 2
    · rw [if_pos h, if_pos h, if_pos (by omega), if_pos (by omega), one_mul]
    · rw [if_neg h, if_neg h]
  rw [e]
  induction i with
  | zero => rfl
  | succ i ih =>
    rw [sumTo_step]
    rw [show sumTo (i + 1 + 1) (fun b => if i + 1 < b ∧ b % 2 < (i + 1) % 2 then (1 : Int) else 0) = 0 by
      exact (sumTo_congr (g := fun _ => 0) fun b hb => if_neg (by omega)).trans (sumTo_zero (i + 1 + 1)), add_zero]
    rw [sumTo_congr (g := fun a => (sumTo (i + 1) fun b => if a < b ∧ b % 2 < a % 2 then 1 else 0) +
      (if (i + 1) % 2 < a % 2 then 1 else 0)) (fun a ha => by
        rw [sumTo_step]
        congr 1
        by_cases h : (i + 1) % 2 < a % 2
        · rw [if_pos h, if_pos ⟨ha, h⟩]
        · rw [if_neg h, if_neg (fun h' => h h'.2)]), sumTo_addf, ih]
    rcases Nat.mod_two_eq_zero_or_one (i + 1) with h | h
    · rw [sumTo_congr (g := fun a => if a % 2 = 1 then 1 else 0) (fun a ha => by
        by_cases h1 : a % 2 = 1
        · rw [if_pos h1, if_pos (by omega)]
        · rw [if_neg h1, if_neg (by omega)]), count_odd, show (i + 1) / 2 + 1 = (i / 2 + 1) + 1 by omega,
        Nat.choose_succ_succ' (i / 2 + 1) 1, Nat.choose_one_right]
      push_cast
      omega
    · rw [sumTo_congr (g := fun _ => 0) (fun a ha => if_neg (by omega)), sumTo_zero, add_zero,
        show (i + 1) / 2 = i / 2 by omega]

theorem concat_inner (i a : Nat) (ha : a < i) :
    sumTo (i + 2) (fun b => if b % 2 < a % 2 ∨ (b % 2 = a % 2 ∧ b ≤ a) then (if 1 ≤ b ∧ b ≤ i then 1 else 0) else 0) =
      (if a % 2 = 1 then ((i / 2 : Nat) : Int) else 0) + (((a + 1) / 2 : Nat) : Int) := by
  have h : ∀ m, m ≤ i + 1 → sumTo m (fun b => if b % 2 < a % 2 ∨ (b % 2 = a % 2 ∧ b ≤ a) then
      (if 1 ≤ b ∧ b ≤ i then (1 : Int) else 0) else 0) =
      (if a % 2 = 1 then (((m - 1) / 2 : Nat) : Int) else 0) + (((min (m - 1) a + a % 2) / 2 : Nat) : Int) := by
    intro m hm
    induction m with
    | zero =>
      show (0 : Int) = _
      split <;> omega
    | succ m ih =>
      rw [sumTo_step, ih (by omega)]
      rcases Nat.mod_two_eq_zero_or_one a with h1 | h1 <;> rcases Nat.mod_two_eq_zero_or_one m with h2 | h2 <;>
        simp only [h1, h2] <;> by_cases h3 : m ≤ a <;> by_cases h4 : 1 ≤ m <;> simp [h3, h4, show m ≤ i by omega] <;> omega
  rw [sumTo_step, if_neg (show ¬ (1 ≤ i + 1 ∧ i + 1 ≤ i) by omega), ite_self, add_zero, h (i + 1) le_rfl]
  rw [Nat.add_sub_cancel, min_eq_right (by omega)]
  congr 1
  omega

theorem concat_closed (i : Nat) :
    sumTo i (fun a => (if a % 2 = 1 then ((i / 2 : Nat) : Int) else 0) + (((a + 1) / 2 : Nat) : Int)) =
      ((i / 2 * (i / 2) + i / 2 * ((i + 1) / 2) : Nat) : Int) := by
  have h1 : ∀ (m : Nat) (c : Int), sumTo m (fun a => if a % 2 = 1 then c else 0) = ((m / 2 : Nat) : Int) * c := by
    intro m c
    induction m with
    | zero => simp [sumTo]
    | succ m ih =>
      rw [sumTo_step, ih]
      rcases Nat.mod_two_eq_zero_or_one m with h | h
      · rw [if_neg (by omega), show (m + 1) / 2 = m / 2 by omega, add_zero]
      · rw [if_pos h, show (m + 1) / 2 = m / 2 + 1 by omega]
        push_cast
        ring
  have h2 : ∀ m : Nat, sumTo m (fun a => (((a + 1) / 2 : Nat) : Int)) = ((m / 2 * ((m + 1) / 2) : Nat) : Int) := by
    intro m
    induction m with
    | zero => rfl
    | succ m ih =>
      rw [sumTo_step, ih]
      rcases Nat.mod_two_eq_zero_or_one m with h | h
      · rw [show (m + 1 + 1) / 2 = m / 2 + 1 by omega, show (m + 1) / 2 = m / 2 by omega]
        push_cast; ring
      · rw [show (m + 1 + 1) / 2 = (m + 1) / 2 by omega, show (m + 1) / 2 = m / 2 + 1 by omega]
        push_cast; ring
  rw [sumTo_addf, h1, h2]
  push_cast
  ring

theorem top_exponents {i : Nat} (hl : σ.length = i + 1) :
    sortingExponent (alternating (i + 2)) (σ.take 1 :: edges σ) = (((i / 2 + 1).choose 2 : Nat) : Int) ∧
    concatenationExponent (alternating (i + 2)) (σ.take 1 :: edges σ) =
      ((i / 2 * (i / 2) + i / 2 * ((i + 1) / 2) : Nat) : Int) := by
  have hkl : (alternating (i + 2)).length = i + 2 := by simp [alternating]
  refine ⟨?_, ?_⟩
  · rw [sortingExponent, hkl, ← sorting_closed i]
    refine sumTo_congr fun a ha => sumTo_congr fun b hb => ?_
    rw [alternating_getD ha, alternating_getD hb, top_dim hl a ha, top_dim hl b hb]
    by_cases h : a < b ∧ b % 2 < a % 2
    · rw [if_pos h, if_pos ⟨h.1, by omega⟩]
    · rw [if_neg h, if_neg (fun h' => h ⟨h'.1, by omega⟩)]
  · rw [concatenationExponent, hkl, ← concat_closed i, sumTo_step, sumTo_step]
    have hz : ∀ a, a < i + 2 → ¬ a < i → sumTo (i + 2) (fun b => if isCaesura (alternating (i + 2)) a ∧
        ((alternating (i + 2)).getD b 0 < (alternating (i + 2)).getD a 0 ∨
          ((alternating (i + 2)).getD b 0 = (alternating (i + 2)).getD a 0 ∧ b ≤ a)) then
        dimOf ((σ.take 1 :: edges σ).getD b []) else 0) = 0 := by
      intro a ha h
      refine (sumTo_congr (g := fun _ => 0) fun b _ => if_neg fun h' => h ?_).trans (sumTo_zero (i + 2))
      have := (alternating_caesura ha).1 h'.1
      omega
    rw [hz i (by omega) (by omega), hz (i + 1) (by omega) (by omega), add_zero, add_zero]
    refine sumTo_congr fun a ha => ?_
    rw [← concat_inner i a ha]
    refine sumTo_congr fun b hb => ?_
    rw [alternating_getD (show a < i + 2 by omega), alternating_getD hb, top_dim hl b hb]
    have hc : isCaesura (alternating (i + 2)) a := (alternating_caesura (by omega)).2 (by omega)
    by_cases h : b % 2 < a % 2 ∨ (b % 2 = a % 2 ∧ b ≤ a)
    · rw [if_pos h, if_pos ⟨hc, by omega⟩]
    · rw [if_neg h, if_neg (fun h' => h (by have := h'.2; omega))]

theorem edges_pieces (V : List Nat) (h : V ≠ []) : V.take 1 ++ odP (edges V) = V ∧ evP (edges V) = V := by
  induction V with
  | nil => exact absurd rfl h
  | cons a t ih =>
    cases t with
    | nil => exact ⟨rfl, rfl⟩
    | cons b t =>
      obtain ⟨h1, h2⟩ := ih (by simp)
      rw [edges, odP, evP, h2]
      refine ⟨rfl, ?_⟩
      show a :: ((b :: t).take 1 ++ odP (edges (b :: t))) = _
      rw [h1]

theorem top_sign (h : Nat) (i : Nat) (hi : i / 2 = h) :
    ((-1 : ZMod n) ^ ((i + 1) / 2).choose 2) *
      (-1) ^ ((h + 1).choose 2 + (h * h + h * ((i + 1) / 2))) = (-1) ^ h := by
  have hch : (h + 1).choose 2 = h + h.choose 2 := by rw [Nat.choose_succ_succ' h 1, Nat.choose_one_right]
  have hsq : ∀ t : Nat, ((-1 : ZMod n) ^ t) * (-1) ^ t = 1 := fun t => by rw [← pow_add]; exact Even.neg_one_pow ⟨t, rfl⟩
  rcases Nat.mod_two_eq_zero_or_one i with h0 | h0
  · rw [show (i + 1) / 2 = h by omega, hch, pow_add, pow_add, pow_add]
    linear_combination ((-1 : ZMod n) ^ h * (-1) ^ (h * h) * (-1) ^ (h * h)) * hsq (h.choose 2) + ((-1 : ZMod n) ^ h) * hsq (h * h)
  · rw [show (i + 1) / 2 = h + 1 by omega, hch, pow_add, pow_add, pow_add, mul_add, mul_one, pow_add]
    linear_combination ((-1 : ZMod n) ^ h * (-1) ^ h * (-1) ^ h * (-1) ^ (h * h) * (-1) ^ (h * h)) * hsq (h.choose 2) +
      ((-1 : ZMod n) ^ h * (-1) ^ h * (-1) ^ h) * hsq (h * h) + ((-1 : ZMod n) ^ h) * hsq h

end Comch.Coch

namespace Comch.Props
open Comch.Spec Comch.Coch Elem SurjComp SurjElem SurjMay

variable {n : Nat} {σ : List Nat} {X : OrderedComplex}

/-- The number of summands of Steenrod's formula (C131): a simplex with `l` vertices has `l` over `i + 1` ways of being
cut. -/
theorem C133_count (i : Nat) (V : List Nat) : (properCuts (i + 2) V).length = V.length.choose (i + 1) :=
  properCuts_length i V

/-- The degree: the product `∪_i` of an `a`-cochain and a `c`-cochain is an `(a + c - i)`-cochain. -/
theorem C133_degree (hn : n ≠ 1) (hσ : σ ∈ X.simplices) (i a c : Nat) (α β : List Nat → ZMod n)
    (h : (σ.length : Int) - 1 ≠ (a : Int) + c - i) : cupValue n i a α c β σ = .ok 0 := by
  rw [C131_cup_formula hn hσ, List.sum_eq_zero, mul_zero]
  intro v hv
  obtain ⟨ps, hps, rfl⟩ := List.mem_map.1 hv
  obtain ⟨h1, h2⟩ := mem_properCuts hps
  have e1 := ev_od_length ps
  rw [total_length _ _ _ (inc_of_mem hσ).2 h1] at e1
  rw [(pieces_eq ps).1, (pieces_eq ps).2]
  by_cases h3 : (evP ps).length = a + 1
  · rw [if_neg (show ¬ (odP ps).length = c + 1 by omega), mul_zero, mul_zero]
  · rw [if_neg h3, zero_mul, mul_zero]

/-- The range: `α ∪_i β = 0` if `i` exceeds the degree of one of the factors. -/
theorem C133_range (hn : n ≠ 1) (hσ : σ ∈ X.simplices) (i a c : Nat) (α β : List Nat → ZMod n) (h : a < i ∨ c < i) :
    cupValue n i a α c β σ = .ok 0 := by
  rw [C131_cup_formula hn hσ, List.sum_eq_zero, mul_zero]
  intro v hv
  obtain ⟨ps, hps, rfl⟩ := List.mem_map.1 hv
  obtain ⟨h1, h2⟩ := mem_properCuts hps
  have e1 := ev_od_length ps
  rw [total_length _ _ _ (inc_of_mem hσ).2 h1] at e1
  obtain ⟨s1, s2⟩ := pieces_sublist (i + 1) σ ps h1 h2
  have := s1.length_le
  have := s2.length_le
  rw [(pieces_eq ps).1, (pieces_eq ps).2]
  by_cases h3 : (evP ps).length = a + 1
  · rw [if_neg (show ¬ (odP ps).length = c + 1 by omega), mul_zero, mul_zero]
  · rw [if_neg h3, zero_mul, mul_zero]

/-- The extremal value, with its sign: for cochains of degree `i` the product `∪_i` is the product of the values,
times `(-1)^⌊i/2⌋`. -/
theorem C133_diagonal (hn : n ≠ 1) (hσ : σ ∈ X.simplices) (i : Nat) (α β : List Nat → ZMod n) (hl : σ.length = i + 1) :
    cupValue n i i α i β σ = .ok ((-1) ^ (i / 2) * (α σ * β σ)) := by
  obtain ⟨h1, h2⟩ := edges_pieces σ (inc_of_mem hσ).2
  obtain ⟨x1, x2⟩ := top_exponents hl
  rw [C131_cup_formula hn hσ, properCuts_top hl, List.map_singleton, List.sum_singleton, (pieces_eq _).1, (pieces_eq _).2,
    evP, odP, h1, h2, if_pos hl, if_pos hl, x1, x2, ← Nat.cast_add, ← mul_assoc]
  congr 2
  rw [← top_sign (n := n) (i / 2) i rfl]
  congr 1
  exact sg_natCast (R := ZMod n) _

example : [0, 1, 2, 3] ∈ (exComplex 5).simplices := ⟨by decide, by decide, by decide⟩

/-- `i = 2`, `a = c = 2`: the sign is `-1`. -/
example : cupValue 0 2 2 (fun σ => (σ.sum : Int)) 2 (fun _ => 1) [0, 1, 2] = .ok (-3) := by decide +kernel

/-- `i = 3`, `a = c = 3`: the sign is `-1`. -/
example : cupValue 0 3 3 (fun σ => (σ.sum : Int)) 3 (fun _ => 1) [0, 1, 2, 3] = .ok (-6) := by decide +kernel

end Comch.Props
