import Verif.Lib.SurjBoundary

/-! # Signs of the faces of a surjection, in both conventions -/

set_option linter.unusedSectionVars false

namespace Comch
open Spec Elem
open Finsupp (single)

variable {R : Type} [CommRing R]

/-- Recursive form of the Berger-Fresse exponent. -/
def bfE : List Nat → Nat → Nat
  | [], _ => 0
  | _ :: _, 0 => 0
  | x :: t, i + 1 => if 2 ≤ t.count (t.getD i 0) then bfE t i + (if x ∈ t then 1 else 0) else 1

theorem sum_only_occurrence {M : Type} [AddCommMonoid M] {t : List Nat} {x : Nat} (h : t.count x = 1)
    (f : List Nat → M) :
    ((List.range t.length).map fun i => if t.getD i 0 = x then f (t.eraseIdx i) else 0).sum =
      f (t.erase x) := by
  induction t generalizing f with
  | nil => simp at h
  | cons y t ih =>
    rw [List.length_cons, List.range_succ_eq_map, List.map_cons, List.sum_cons, List.map_map]
    by_cases e : y = x
    · subst e
      have hn : y ∉ t := by
        rw [← List.count_eq_zero]; simpa using h
      have h0 : ((List.range t.length).map ((fun i => if (y :: t).getD i 0 = y then
          f ((y :: t).eraseIdx i) else 0) ∘ Nat.succ)).sum = 0 := by
        apply List.sum_eq_zero
        intro a ha
        obtain ⟨i, hi, rfl⟩ := List.mem_map.1 ha
        rw [List.mem_range] at hi
        simp only [Function.comp]
        rw [if_neg]
        rw [List.getD_cons_succ, List.getD_eq_getElem _ _ hi]
        intro h'
        exact hn (h' ▸ List.getElem_mem hi)
      rw [h0]
      simp
    · rw [List.count_cons_of_ne e] at h
      rw [List.erase_cons_tail (by simpa using e), ← ih h fun u => f (y :: u)]
      simp [e, Function.comp_def]

theorem count_getD_pos {t : List Nat} {i : Nat} (h : i < t.length) : 0 < t.count (t.getD i 0) := by
  rw [List.getD_eq_getElem _ _ h]
  exact List.count_pos_iff.2 (List.getElem_mem h)

theorem sdel_eq_sum (k : List Nat) :
    sdel (R := R) k = ((List.range k.length).map fun i =>
      if 2 ≤ k.count (k.getD i 0) then sg R (bfE k i) • bv R (k.eraseIdx i) else 0).sum := by
  induction k with
  | nil => simp [sdel]
  | cons x t ih =>
    rw [List.length_cons, List.range_succ_eq_map, List.map_cons, List.sum_cons, List.map_map]
    have hsplit : ∀ i ∈ List.range t.length,
        ((fun i => if 2 ≤ (x :: t).count ((x :: t).getD i 0) then
          sg R (bfE (x :: t) i) • bv R ((x :: t).eraseIdx i) else 0) ∘ Nat.succ) i =
        (if x ∈ t then -1 else 1 : R) • consV x (if 2 ≤ t.count (t.getD i 0) then
          sg R (bfE t i) • bv R (t.eraseIdx i) else 0) -
        (if t.count x = 1 then (if t.getD i 0 = x then bv R (x :: t.eraseIdx i) else 0) else 0) := by
      intro i hi
      rw [List.mem_range] at hi
      have hpos := count_getD_pos hi
      simp only [Function.comp, Nat.succ_eq_add_one, List.getD_cons_succ, List.eraseIdx_cons_succ, bfE]
      by_cases h2 : 2 ≤ t.count (t.getD i 0)
      · rw [if_pos (by rw [List.count_cons]; omega), if_pos h2, if_pos h2]
        have : (if t.count x = 1 then (if t.getD i 0 = x then bv R (x :: t.eraseIdx i) else 0) else 0)
            = 0 := by
          split
          · rename_i hc
            rw [if_neg]
            intro he
            rw [he] at h2
            omega
          · rfl
        rw [this, sub_zero, map_smul, consV_single]
        split
        · push_cast
          rw [sg_succ]
          simp
        · simp
      · rw [if_neg h2, if_neg h2, map_zero, smul_zero, zero_sub]
        by_cases he : t.getD i 0 = x
        · have hc : t.count x = 1 := by rw [he] at h2 hpos; omega
          rw [if_pos (by rw [he, List.count_cons_self]; omega), if_pos hc, if_pos he]
          simp
        · rw [if_neg (by rw [List.count_cons_of_ne (Ne.symm he)]; exact h2), if_neg he]
          simp
    rw [List.map_congr_left hsplit, sdel, ih]
    have hsub : ∀ (l : List Nat) (f g : Nat → (List Nat →₀ R)),
        (l.map fun i => f i - g i).sum = (l.map f).sum - (l.map g).sum := by
      intro l f g
      induction l with
      | nil => simp
      | cons a l ih => simp only [List.map_cons, List.sum_cons, ih]; abel
    have hpull : ∀ (l : List Nat) (f : Nat → (List Nat →₀ R)) (c : R),
        (l.map fun i => c • consV x (f i)).sum = c • consV x (l.map f).sum := by
      intro l f c
      induction l with
      | nil => simp
      | cons a l ih => simp only [List.map_cons, List.sum_cons, ih, map_add, smul_add]
    rw [hsub, hpull]
    have hlast : ((List.range t.length).map fun i =>
        if t.count x = 1 then (if t.getD i 0 = x then bv R (x :: t.eraseIdx i) else 0) else 0).sum =
        if t.count x = 1 then bv R (x :: t.erase x) else 0 := by
      by_cases hc : t.count x = 1
      · simp only [if_pos hc]
        exact sum_only_occurrence hc fun u => bv R (x :: u)
      · simp only [if_neg hc]
        simp
    rw [hlast]
    have hx : (2 ≤ (x :: t).count ((x :: t).getD 0 0)) ↔ x ∈ t := by
      rw [List.getD_cons_zero, List.count_cons_self, ← List.count_pos_iff]
      omega
    by_cases hm : x ∈ t
    · rw [if_pos hm, if_pos (hx.2 hm), if_pos hm]
      simp only [bfE, List.eraseIdx_cons_zero, Nat.cast_zero, sg_zero, one_smul, neg_smul]
      abel
    · rw [if_neg hm, if_neg (fun h => hm (hx.1 h)), if_neg hm]
      simp only [one_smul, zero_add]

/-! ### Berger-Fresse: relation to the specification and to the code -/

theorem isCaesura_cons_zero {x : Nat} {t : List Nat} : isCaesura (x :: t) 0 ↔ x ∈ t := by
  simp [isCaesura]

theorem isCaesura_cons_succ {x : Nat} {t : List Nat} {i : Nat} :
    isCaesura (x :: t) (i + 1) ↔ isCaesura t i := by
  simp [isCaesura]

theorem caesurasBefore_cons_succ (x : Nat) (t : List Nat) (i : Nat) :
    caesurasBefore (x :: t) (i + 1) = (if x ∈ t then 1 else 0) + caesurasBefore t i := by
  unfold caesurasBefore
  rw [List.range_succ_eq_map, List.filter_cons, List.filter_map, ]
  have : (fun p => decide (isCaesura (x :: t) p)) ∘ Nat.succ = fun p => decide (isCaesura t p) := by
    funext p
    simp [isCaesura_cons_succ]
  rw [this]
  by_cases h : x ∈ t
  · rw [if_pos (by simpa [isCaesura_cons_zero] using h), if_pos h]
    simp [Nat.add_comm]
  · rw [if_neg (by simpa [isCaesura_cons_zero] using h), if_neg h]
    simp

theorem previousOccurrence_cons_succ {x : Nat} {t : List Nat} {i : Nat} (hi : i < t.length) :
    previousOccurrence (x :: t) (i + 1) =
      if t.getD i 0 ∈ t.take i then previousOccurrence t i + 1 else 0 := by
  unfold previousOccurrence
  rw [List.range_succ_eq_map, List.filter_cons, List.filter_map]
  have : (fun p => decide ((x :: t).getD p 0 = (x :: t).getD (i + 1) 0)) ∘ Nat.succ =
      fun p => decide (t.getD p 0 = t.getD i 0) := by
    funext p
    simp
  rw [this]
  have hmem : t.getD i 0 ∈ t.take i ↔ (List.range i).filter (fun p => t.getD p 0 = t.getD i 0) ≠ [] := by
    rw [Ne, List.filter_eq_nil_iff]
    simp only [List.mem_range, decide_eq_true_eq, not_forall, not_not]
    rw [List.mem_iff_getElem]
    constructor
    · rintro ⟨p, hp, he⟩
      rw [List.length_take] at hp
      refine ⟨p, by omega, ?_⟩
      rw [List.getElem_take] at he
      rw [List.getD_eq_getElem _ _ (show p < t.length by omega), he]
    · rintro ⟨p, hp, he⟩
      refine ⟨p, by rw [List.length_take]; omega, ?_⟩
      rw [List.getElem_take]
      rw [List.getD_eq_getElem _ _ (show p < t.length by omega)] at he
      exact he
  generalize (List.range i).filter (fun p => t.getD p 0 = t.getD i 0) = l at hmem
  have hl : ∀ (a : Nat) (l : List Nat), l ≠ [] → (a :: l.map Nat.succ).getLastD 0 = l.getLastD 0 + 1 := by
    intro a l hl
    rw [List.getLastD_cons]
    rw [List.getLastD_eq_getLast?, List.getLastD_eq_getLast?, List.getLast?_map]
    rw [List.getLast?_eq_some_getLast hl]
    simp
  have hl' : ∀ (l : List Nat), l ≠ [] → (l.map Nat.succ).getLastD 0 = l.getLastD 0 + 1 := by
    intro l hl
    rw [List.getLastD_eq_getLast?, List.getLastD_eq_getLast?, List.getLast?_map]
    rw [List.getLast?_eq_some_getLast hl]
    simp
  by_cases h : t.getD i 0 ∈ t.take i
  · rw [if_pos h]
    split
    · exact hl 0 l (hmem.1 h)
    · exact hl' l (hmem.1 h)
  · rw [if_neg h]
    have : l = [] := by
      by_contra hne
      exact h (hmem.2 hne)
    subst this
    split <;> rfl

theorem count_eq_take_drop {t : List Nat} {i : Nat} (hi : i < t.length) :
    t.count (t.getD i 0) = (t.take i).count (t.getD i 0) + 1 + (t.drop (i + 1)).count (t.getD i 0) := by
  rw [List.getD_eq_getElem _ _ hi]
  generalize he : t[i] = a
  conv_lhs => rw [← List.take_append_drop i t]
  rw [List.count_append, List.drop_eq_getElem_cons hi, he, List.count_cons_self]
  omega

theorem bfExponent_eq {k : List Nat} {i : Nat} (hi : i < k.length) (h : 2 ≤ k.count (k.getD i 0)) :
    bfExponent k i = bfE k i := by
  induction k generalizing i with
  | nil => simp at hi
  | cons x t ih =>
    cases i with
    | zero =>
      rw [List.getD_cons_zero, List.count_cons_self] at h
      have hm : x ∈ t := List.count_pos_iff.1 (by omega)
      rw [bfExponent, if_pos (isCaesura_cons_zero.2 hm)]
      rfl
    | succ i =>
      have hi' : i < t.length := by simpa using hi
      rw [List.getD_cons_succ] at h
      have hcnt := count_eq_take_drop hi'
      rw [bfE]
      by_cases h2 : 2 ≤ t.count (t.getD i 0)
      · rw [if_pos h2, ← ih hi' h2, bfExponent, bfExponent]
        by_cases hc : isCaesura t i
        · rw [if_pos (isCaesura_cons_succ.2 hc), if_pos hc, caesurasBefore_cons_succ]
          omega
        · rw [if_neg (fun h' => hc (isCaesura_cons_succ.1 h')), if_neg hc,
            previousOccurrence_cons_succ hi', if_pos, caesurasBefore_cons_succ]
          · omega
          · apply List.count_pos_iff.1
            have : (t.drop (i + 1)).count (t.getD i 0) = 0 := List.count_eq_zero.2 hc
            omega
      · rw [if_neg h2, bfExponent, if_neg, previousOccurrence_cons_succ hi', if_neg]
        · simp [caesurasBefore]
        · intro h'
          have := List.count_pos_iff.2 h'
          omega
        · intro h'
          have h' := isCaesura_cons_succ.1 h'
          have := List.count_pos_iff.2 h'
          omega

/-- The sign computed by the code at position `i`. -/
def bfS (k : Surj) (i : Nat) : Int :=
  if isCaesura k i then (-1) ^ caesurasBefore k i
  else if k.getD i 0 ∈ k.take i then -(-1) ^ caesurasBefore k (previousOccurrence k i) else 0

theorem pyMax_sorted {l : List Nat} (h : l.Pairwise (· < ·)) : pyMax l = l.getLastD 0 := by
  unfold pyMax
  induction l with
  | nil => rfl
  | cons a l ih =>
    rw [List.pairwise_cons] at h
    rw [List.foldr_cons, ih h.2]
    cases l with
    | nil => simp
    | cons b l =>
      have hb : (b :: l).getLastD 0 ∈ b :: l := by
        rw [List.getLastD_cons]
        have : ∀ (l : List Nat) (b : Nat), l.getLastD b ∈ b :: l := by
          intro l
          induction l with
          | nil => simp
          | cons c l ih => intro b; rw [List.getLastD_cons]; exact List.mem_cons_of_mem _ (ih c)
        exact this l b
      have := h.1 _ hb
      rw [max_eq_right (by omega)]
      simp

theorem occurs_eq {k : Surj} {i : Nat} (hi : i < k.length) :
    ((enumerate (k.take i)).filter fun p => k.getD i 0 == p.2).map Prod.fst =
      (List.range i).filter fun p => k.getD p 0 = k.getD i 0 := by
  rw [enumerate_eq_map _ 0, List.length_take, min_eq_left (by omega), List.filter_map, List.map_map]
  have : (Prod.fst ∘ fun j => (j, (k.take i).getD j 0)) = id := by funext j; rfl
  rw [this, List.map_id]
  apply List.filter_congr
  intro p hp
  rw [List.mem_range] at hp
  simp only [Function.comp]
  rw [Bool.eq_iff_iff]
  simp only [beq_iff_eq, decide_eq_true_eq]
  rw [List.getD_eq_getElem _ _ (show p < (k.take i).length by rw [List.length_take]; omega),
    List.getElem_take, List.getD_eq_getElem _ _ (show p < k.length by omega), eq_comm]

theorem previousOccurrence_spec {k : Surj} {i : Nat} (hi : i < k.length) (h : k.getD i 0 ∈ k.take i) :
    previousOccurrence k i < i ∧ k.getD (previousOccurrence k i) 0 = k.getD i 0 := by
  have : previousOccurrence k i ∈ (List.range i).filter fun p => k.getD p 0 = k.getD i 0 := by
    have hs : ((List.range i).filter fun p => k.getD p 0 = k.getD i 0).Pairwise (· < ·) :=
      List.Pairwise.filter _ List.pairwise_lt_range
    rw [previousOccurrence, ← pyMax_sorted hs]
    apply pyMax_mem
    intro hn
    rw [List.filter_eq_nil_iff] at hn
    obtain ⟨p, hp, he⟩ := List.mem_iff_getElem.1 h
    rw [List.length_take] at hp
    apply hn p (by rw [List.mem_range]; omega)
    rw [List.getElem_take] at he
    rw [List.getD_eq_getElem _ _ (show p < k.length by omega), he]
    simp
  simpa using this

theorem caesura_of_lt {k : Surj} {p i : Nat} (hi : i < k.length) (h : p < i)
    (he : k.getD p 0 = k.getD i 0) : isCaesura k p := by
  unfold isCaesura
  rw [he, List.getD_eq_getElem _ _ hi, List.mem_iff_getElem]
  refine ⟨i - (p + 1), by rw [List.length_drop]; omega, ?_⟩
  rw [List.getElem_drop]
  congr 1
  omega

theorem caesurasBefore_succ (k : List Nat) (i : Nat) :
    caesurasBefore k (i + 1) = caesurasBefore k i + if isCaesura k i then 1 else 0 := by
  unfold caesurasBefore
  rw [List.range_succ, List.filter_append, List.length_append]
  congr 1
  by_cases h : isCaesura k i <;> simp [h]

namespace SurjElem

theorem bfSignsLoop_eq (k : Surj) (n : Nat) (hn : n ≤ k.length) :
    bfSignsLoop k ((enumerate k).drop n) ((List.range n).map (bfS k)) ((-1) ^ caesurasBefore k n) =
      (List.range k.length).map (bfS k) := by
  obtain ⟨m, hm⟩ : ∃ m, k.length = n + m := ⟨k.length - n, by omega⟩
  have hlen : (enumerate k).length = k.length := by rw [enumerate_eq_map k 0]; simp
  induction m generalizing n with
  | zero =>
    rw [List.drop_of_length_le (by omega)]
    simp only [bfSignsLoop]
    rw [hm]
    rfl
  | succ m ih =>
    have hn' : n < k.length := by omega
    have hen : (enumerate k).drop n = (n, k.getD n 0) :: (enumerate k).drop (n + 1) := by
      rw [List.drop_eq_getElem_cons (by omega)]
      congr 1
      simp only [enumerate_eq_map k 0, List.getElem_map, List.getElem_range]
    have ih := ih (n + 1) (by omega) (by omega)
    rw [hen, bfSignsLoop]
    have hr : (List.range (n + 1)).map (bfS k) = (List.range n).map (bfS k) ++ [bfS k n] := by
      rw [List.range_succ, List.map_append]; rfl
    rw [hr, caesurasBefore_succ] at ih
    have hcae : ((k.drop (n + 1)).contains (k.getD n 0) = true) ↔ isCaesura k n := by
      rw [List.contains_iff_mem]; rfl
    by_cases hc : isCaesura k n
    · rw [if_pos (hcae.2 hc)]
      rw [if_pos hc, bfS, if_pos hc, pow_succ] at ih
      exact ih
    · rw [if_neg (fun h => hc (hcae.1 h))]
      rw [if_neg hc, Nat.add_zero, bfS, if_neg hc] at ih
      by_cases ht : k.getD n 0 ∈ k.take n
      · rw [if_pos (List.contains_iff_mem.2 ht)]
        rw [if_pos ht] at ih
        obtain ⟨h1, h2⟩ := previousOccurrence_spec hn' ht
        have hs : ((List.range n).filter fun p => k.getD p 0 = k.getD n 0).Pairwise (· < ·) :=
          List.Pairwise.filter _ List.pairwise_lt_range
        rw [occurs_eq hn']
        dsimp only
        rw [pyMax_sorted hs]
        have h3 : (((List.range n).map (bfS k))[((List.range n).filter fun p =>
            k.getD p 0 = k.getD n 0).getLastD 0]?).getD 0 = (-1) ^ caesurasBefore k (previousOccurrence k n) := by
          show (((List.range n).map (bfS k))[previousOccurrence k n]?).getD 0 = _
          rw [List.getElem?_map, List.getElem?_range h1]
          simp only [Option.map_some, Option.getD_some]
          rw [bfS, if_pos (caesura_of_lt hn' h1 h2)]
        rw [h3, mul_neg_one]
        exact ih
      · rw [if_neg (fun h => ht (List.contains_iff_mem.1 h))]
        rw [if_neg ht] at ih
        exact ih

theorem bfSigns_eq (k : Surj) : bfSigns k = (List.range k.length).map (bfS k) := by
  have := bfSignsLoop_eq k 0 (by omega)
  simpa [bfSigns, caesurasBefore] using this

theorem contains_eraseIdx {k : Surj} {i : Nat} (hi : i < k.length) :
    ((k.eraseIdx i).contains (k.getD i 0) = true) ↔ 2 ≤ k.count (k.getD i 0) := by
  rw [List.contains_iff_mem, ← List.count_pos_iff, List.eraseIdx_eq_take_drop_succ, List.count_append,
    count_eq_take_drop hi]
  omega

theorem bfS_eq {k : Surj} {i : Nat} (hi : i < k.length) (h : 2 ≤ k.count (k.getD i 0)) :
    bfS k i = (-1) ^ bfExponent k i := by
  rw [bfS, bfExponent]
  by_cases hc : isCaesura k i
  · rw [if_pos hc, if_pos hc]
  · rw [if_neg hc, if_neg hc, if_pos, pow_succ, mul_neg_one]
    apply List.count_pos_iff.1
    have h1 := count_eq_take_drop hi
    have : (k.drop (i + 1)).count (k.getD i 0) = 0 := List.count_eq_zero.2 hc
    omega

/-- The summands of the boundary, Berger-Fresse convention. -/
theorem bfBoundaryEvents_eq (k : Surj) (v : Int) :
    bfBoundaryEvents k v = (List.range k.length).filterMap fun i =>
      if 2 ≤ k.count (k.getD i 0) then some (k.eraseIdx i, (-1) ^ bfExponent k i * v) else none := by
  unfold bfBoundaryEvents
  apply List.filterMap_congr
  intro i hi
  rw [List.mem_range] at hi
  have hget : (k[i]?).getD 0 = k.getD i 0 := by rw [List.getD_eq_getElem?_getD]
  simp only [removeAt_eq_eraseIdx, hget]
  by_cases h : 2 ≤ k.count (k.getD i 0)
  · rw [if_pos ((contains_eraseIdx hi).2 h), if_pos h, bfSigns_eq, List.getElem?_map, List.getElem?_range hi]
    simp only [Option.map_some, Option.getD_some]
    rw [bfS_eq hi h]
  · rw [if_neg (fun h' => h ((contains_eraseIdx hi).1 h')), if_neg h]

theorem mod2BoundaryEvents_eq (k : Surj) :
    mod2BoundaryEvents k = (List.range k.length).filterMap fun i =>
      if 2 ≤ k.count (k.getD i 0) then some (k.eraseIdx i, 1) else none := by
  unfold mod2BoundaryEvents
  apply List.filterMap_congr
  intro i hi
  rw [List.mem_range] at hi
  have hget : (k[i]?).getD 0 = k.getD i 0 := by rw [List.getD_eq_getElem?_getD]
  simp only [removeAt_eq_eraseIdx, hget]
  by_cases h : 2 ≤ k.count (k.getD i 0)
  · rw [if_pos ((contains_eraseIdx hi).2 h), if_pos h]
  · rw [if_neg (fun h' => h ((contains_eraseIdx hi).1 h')), if_neg h]

end SurjElem

end Comch
