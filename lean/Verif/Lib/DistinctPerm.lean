import Verif.Model.Utils
import Verif.Lib.Permutations
import Mathlib.Data.List.Lex
import Mathlib.Data.List.Sort

/-! # `distinct_permutations`: successive rearrangements in lexicographic order -/

namespace Comch

variable {α : Type} [LinearOrder α]

theorem cons_lt {a b : α} {l m : List α} : a :: l < b :: m ↔ a < b ∨ a = b ∧ l < m :=
  List.cons_lt_cons_iff

theorem cons_le {a b : α} {l m : List α} : a :: l ≤ b :: m ↔ a < b ∨ a = b ∧ l ≤ m := by
  rw [le_iff_lt_or_eq, cons_lt, List.cons.injEq, le_iff_lt_or_eq]
  tauto

/-- A sorted list is the least of its rearrangements. -/
theorem le_of_perm_sorted {R T : List α} (hR : R.Pairwise (· ≤ ·)) (h : T.Perm R) : R ≤ T := by
  induction R generalizing T with
  | nil => rw [h.eq_nil]
  | cons a R ih =>
    cases T with
    | nil => exact absurd h.symm.eq_nil (by simp)
    | cons b T =>
      rw [List.pairwise_cons] at hR
      have hb : b ∈ a :: R := h.mem_iff.1 (by simp)
      have hab : a ≤ b := by
        rcases List.mem_cons.1 hb with rfl | hb
        · exact le_rfl
        · exact hR.1 b hb
      rw [cons_le]
      rcases lt_or_eq_of_le hab with h1 | rfl
      · exact Or.inl h1
      · exact Or.inr ⟨rfl, ih hR.2 (List.perm_cons _ |>.1 h)⟩

/-- A list sorted downwards is the greatest of its rearrangements. -/
theorem le_of_perm_antisorted {S T : List α} (hS : S.Pairwise (· ≥ ·)) (h : T.Perm S) : T ≤ S := by
  induction S generalizing T with
  | nil => rw [h.eq_nil]
  | cons a S ih =>
    cases T with
    | nil => exact absurd h.symm.eq_nil (by simp)
    | cons b T =>
      rw [List.pairwise_cons] at hS
      have hb : b ∈ a :: S := h.mem_iff.1 (by simp)
      have hab : b ≤ a := by
        rcases List.mem_cons.1 hb with rfl | hb
        · exact le_rfl
        · exact hS.1 b hb
      rw [cons_le]
      rcases lt_or_eq_of_le hab with h1 | rfl
      · exact Or.inl h1
      · exact Or.inr ⟨rfl, ih hS.2 (List.perm_cons _ |>.1 h)⟩

/-- The successor in the lexicographic order. -/
theorem succ_spec {P : List α} {x y : α} {S1 S2 : List α} (hS : (S1 ++ y :: S2).Pairwise (· ≥ ·))
    (hxy : x < y) (h2 : ∀ z ∈ S2, z ≤ x) :
    let A := P ++ x :: (S1 ++ y :: S2)
    let B := P ++ y :: (S1 ++ x :: S2).reverse
    B.Perm A ∧ A < B ∧ ∀ C, C.Perm A → A < C → B ≤ C := by
  intro A B
  have hperm : B.Perm A := by
    refine List.Perm.append_left P ?_
    refine (((S1 ++ x :: S2).reverse_perm).cons y).trans ?_
    refine ((List.perm_middle (a := x) (l₁ := S1) (l₂ := S2)).cons y).trans ?_
    refine (List.Perm.swap x y _).trans ?_
    exact ((List.perm_middle (a := y) (l₁ := S1) (l₂ := S2)).symm).cons x
  have hAB : A < B := by
    simp only [A, B]
    clear hperm
    induction P with
    | nil => exact cons_lt.2 (Or.inl hxy)
    | cons p P ih => exact cons_lt.2 (Or.inr ⟨rfl, ih⟩)
  refine ⟨hperm, hAB, ?_⟩
  clear hAB hperm
  -- the reversed tail is sorted
  have hS' := hS
  rw [List.pairwise_append] at hS
  obtain ⟨hS1, hS2, hS12⟩ := hS
  rw [List.pairwise_cons] at hS2
  have hR : (S1 ++ x :: S2).reverse.Pairwise (· ≤ ·) := by
    rw [List.pairwise_reverse]
    rw [List.pairwise_append]
    refine ⟨hS1, List.pairwise_cons.2 ⟨fun z hz => h2 z hz, hS2.2⟩, ?_⟩
    intro a ha b hb
    have hay : y ≤ a := hS12 a ha y (by simp)
    rcases List.mem_cons.1 hb with rfl | hb
    · exact hxy.le.trans hay
    · exact (h2 b hb).trans (hxy.le.trans hay)
  induction P with
  | nil =>
    intro C hC hlt
    cases C with
    | nil => exact absurd hC.symm.eq_nil (by simp [A])
    | cons c C =>
      simp only [A, List.nil_append] at hC hlt
      simp only [B, List.nil_append]
      rw [cons_lt] at hlt
      rcases hlt with hlt | ⟨rfl, hlt⟩
      · have hc : c ∈ x :: (S1 ++ y :: S2) := hC.mem_iff.1 (by simp)
        have hyc : y ≤ c := by
          rcases List.mem_cons.1 hc with rfl | hc
          · exact absurd hlt (lt_irrefl _)
          · rcases List.mem_append.1 hc with hc | hc
            · exact hS12 c hc y (by simp)
            · rcases List.mem_cons.1 hc with rfl | hc
              · exact le_rfl
              · exact absurd hlt (not_lt.2 (h2 c hc))
        rw [cons_le]
        rcases lt_or_eq_of_le hyc with h | rfl
        · exact Or.inl h
        · refine Or.inr ⟨rfl, le_of_perm_sorted hR ?_⟩
          refine List.Perm.trans ?_ (List.reverse_perm _).symm
          refine (List.perm_cons y).1 (hC.trans ?_)
          refine ((List.perm_middle (a := y) (l₁ := S1) (l₂ := S2)).cons x).trans ?_
          refine (List.Perm.swap y x _).trans ?_
          exact ((List.perm_middle (a := x) (l₁ := S1) (l₂ := S2)).symm).cons y
      · exact absurd hlt (not_lt.2 (le_of_perm_antisorted hS' ((List.perm_cons _).1 hC)))
  | cons p P ih =>
    intro C hC hlt
    cases C with
    | nil => exact absurd hC.symm.eq_nil (by simp [A])
    | cons c C =>
      simp only [A, List.cons_append] at hC hlt
      simp only [B, List.cons_append]
      rw [cons_lt] at hlt
      rw [cons_le]
      rcases hlt with hlt | ⟨rfl, hlt⟩
      · exact Or.inl hlt
      · exact Or.inr ⟨rfl, ih C ((List.perm_cons _).1 hC) hlt⟩

/-! ### The scans -/

theorem findAscent_none {A : List α} {b : Nat} (h : findAscent A b = none) :
    ∀ t < b, ∀ (h1 : t + 1 < A.length), A[t + 1] ≤ A[t] := by
  induction b with
  | zero => intro t ht; omega
  | succ b ih =>
    intro t ht h1
    unfold findAscent at h
    by_cases htb : t = b
    · subst htb
      rw [List.getElem?_eq_getElem (by omega), List.getElem?_eq_getElem h1] at h
      simp only at h
      split at h
      · cases h
      · rename_i hlt; exact not_lt.1 hlt
    · have : findAscent A b = none := by
        split at h
        · split at h
          · cases h
          · exact h
        · exact h
      exact ih this t (by omega) h1

theorem findAscent_some {A : List α} {b i : Nat} (hb : b < A.length ∨ b = 0) (h : findAscent A b = some i) :
    i < b ∧ ∃ (h1 : i + 1 < A.length), A[i] < A[i + 1] ∧
      ∀ t, i < t → t < b → ∀ (h1 : t + 1 < A.length), A[t + 1] ≤ A[t] := by
  induction b with
  | zero => cases h
  | succ b ih =>
    unfold findAscent at h
    have hbl : b + 1 < A.length := by omega
    rw [List.getElem?_eq_getElem (by omega), List.getElem?_eq_getElem hbl] at h
    simp only at h
    split at h
    · rename_i hlt
      cases h
      exact ⟨by omega, hbl, hlt, fun t h1 h2 => by omega⟩
    · rename_i hlt
      obtain ⟨h1, h2, h3, h4⟩ := ih (Or.inl (by omega)) h
      refine ⟨by omega, h2, h3, fun t ht1 ht2 h => ?_⟩
      by_cases htb : t = b
      · subst htb; exact not_lt.1 hlt
      · exact h4 t ht1 (by omega) h

theorem findLarger_spec {A : List α} {i s : Nat} (hi : i + 1 < A.length) (hs : i + s < A.length) (hs1 : 1 ≤ s)
    (hlt : A[i] < A[i + 1]) :
    ∃ j, findLarger A i s = i + 1 + j ∧ j < s ∧ ∃ (h1 : i + 1 + j < A.length), A[i] < A[i + 1 + j] ∧
      ∀ t, j < t → t < s → ∀ (h : i + 1 + t < A.length), A[i + 1 + t] ≤ A[i] := by
  induction s with
  | zero => omega
  | succ s ih =>
    unfold findLarger
    rw [List.getElem?_eq_getElem (by omega), List.getElem?_eq_getElem (by omega)]
    simp only
    split
    · rename_i h
      exact ⟨s, rfl, by omega, by omega, h, fun t h1 h2 => by omega⟩
    · rename_i h
      have hs0 : 1 ≤ s := by
        rcases Nat.eq_zero_or_pos s with rfl | h0
        · exact absurd hlt h
        · exact h0
      obtain ⟨j, h1, h2, h3, h4, h5⟩ := ih (by omega) hs0 hlt
      refine ⟨j, h1, by omega, h3, h4, fun t ht1 ht2 hl => ?_⟩
      by_cases hts : t = s
      · subst hts; exact not_lt.1 h
      · exact h5 t ht1 (by omega) hl

theorem antisorted_of_steps {S : List α} (h : ∀ t (h1 : t + 1 < S.length), S[t + 1] ≤ S[t]) :
    S.Pairwise (· ≥ ·) := by
  have : S.IsChain (· ≥ ·) := List.isChain_iff_getElem.2 fun t h1 => h t h1
  exact List.isChain_iff_pairwise.1 this

theorem nextPermutation_none {A : List α} (h : nextPermutation A = none) {C : List α} (hC : C.Perm A) : C ≤ A := by
  refine le_of_perm_antisorted (antisorted_of_steps ?_) hC
  unfold nextPermutation at h
  split at h
  · rename_i hf
    intro t h1
    exact findAscent_none hf t (by omega) h1
  · cases h

omit [LinearOrder α] in
theorem swap_eq (P : List α) (x y : α) (S1 S2 : List α) :
    swapAt (P ++ x :: (S1 ++ y :: S2)) P.length (P.length + 1 + S1.length) = P ++ y :: (S1 ++ x :: S2) := by
  unfold swapAt
  rw [List.getElem?_append_right (by omega), Nat.sub_self, List.getElem?_cons_zero,
    List.getElem?_append_right (by omega), show P.length + 1 + S1.length - P.length = S1.length + 1 by omega,
    List.getElem?_cons_succ, List.getElem?_append_right (by omega), Nat.sub_self, List.getElem?_cons_zero]
  simp only
  rw [List.set_append_right _ _ (by omega), Nat.sub_self, List.set_cons_zero,
    List.set_append_right _ _ (by omega), show P.length + 1 + S1.length - P.length = S1.length + 1 by omega,
    List.set_cons_succ, List.set_append_right _ _ (by omega), Nat.sub_self, List.set_cons_zero]

theorem nextPermutation_some {A B : List α} (h : nextPermutation A = some B) :
    B.Perm A ∧ A < B ∧ ∀ C, C.Perm A → A < C → B ≤ C := by
  unfold nextPermutation at h
  split at h
  · cases h
  · rename_i i hf
    simp only [Option.some.injEq] at h
    obtain ⟨hi, hi1, hlt, hdesc⟩ := findAscent_some (by omega) hf
    obtain ⟨j, hj, hjs, hj1, hjlt, hjr⟩ := findLarger_spec (s := A.length - 1 - i) hi1 (by omega) (by omega) hlt
    rw [hj] at h
    -- cut `A` at `i` and `i + 1 + j`
    have hA : A = A.take i ++ A[i] :: (((A.drop (i + 1)).take j) ++ A[i + 1 + j] :: A.drop (i + 1 + j + 1)) := by
      have hil : i < A.length := by omega
      have e1 : A.drop (i + 1 + j) = A[i + 1 + j] :: A.drop (i + 1 + j + 1) := List.drop_eq_getElem_cons hj1
      have e2 : A.drop i = A[i] :: A.drop (i + 1) := List.drop_eq_getElem_cons hil
      rw [← e1, ← List.drop_drop (i := j) (j := i + 1), List.take_append_drop, ← e2, List.take_append_drop]
    set P := A.take i with hP
    set S1 := (A.drop (i + 1)).take j with hS1
    set S2 := A.drop (i + 1 + j + 1) with hS2
    set x := A[i] with hx
    set y := A[i + 1 + j] with hy
    have lP : P.length = i := by rw [hP, List.length_take]; omega
    have lS1 : S1.length = j := by rw [hS1, List.length_take, List.length_drop]; omega
    have htail : A.drop (i + 1) = S1 ++ y :: S2 := by
      have e1 : A.drop (i + 1 + j) = A[i + 1 + j] :: A.drop (i + 1 + j + 1) := List.drop_eq_getElem_cons hj1
      rw [hS1, hS2, hy, ← e1, ← List.drop_drop (i := j) (j := i + 1), List.take_append_drop]
    have hS : (S1 ++ y :: S2).Pairwise (· ≥ ·) := by
      rw [← htail]
      refine antisorted_of_steps fun t h1 => ?_
      rw [List.length_drop] at h1
      rw [List.getElem_drop, List.getElem_drop]
      exact hdesc (i + 1 + t) (by omega) (by omega) (by omega)
    have h2 : ∀ z ∈ S2, z ≤ x := by
      intro z hz
      obtain ⟨t, ht, rfl⟩ := List.mem_iff_getElem.1 hz
      rw [hS2, List.length_drop] at ht
      simp only [hS2, List.getElem_drop]
      have := hjr (j + 1 + t) (by omega) (by omega) (by omega)
      simpa [Nat.add_assoc] using this
    have hB : B = P ++ y :: (S1 ++ x :: S2).reverse := by
      rw [← h]
      have hsw : swapAt A i (i + 1 + j) = P ++ y :: (S1 ++ x :: S2) := by
        have := swap_eq P x y S1 S2
        rw [lP, lS1, ← hA] at this
        exact this
      rw [hsw, List.take_append, List.drop_append, lP]
      simp [List.take_of_length_le, List.drop_eq_nil_of_le, lP]
    have := succ_spec (P := P) hS hjlt h2
    rw [hB, hA]
    exact this

/-! ### The generator -/

/-- Rearrangements of `A` which are not before `A`. -/
def laterCount (A : List α) : Nat := (((permutations A).dedup).filter fun C => A ≤ C).length

theorem laterCount_lt {A B : List α} (h : nextPermutation A = some B) : laterCount B < laterCount A := by
  obtain ⟨h1, h2, h3⟩ := nextPermutation_some h
  have hsub : A :: (((permutations B).dedup).filter fun C => B ≤ C) ⊆ ((permutations A).dedup).filter fun C => A ≤ C := by
    intro C hC
    rw [List.mem_filter, List.mem_dedup, mem_permutations]
    rcases List.mem_cons.1 hC with rfl | hC
    · exact ⟨List.Perm.refl _, by simp⟩
    · rw [List.mem_filter, List.mem_dedup, mem_permutations] at hC
      refine ⟨hC.1.trans h1, ?_⟩
      simp only [decide_eq_true_eq] at hC ⊢
      exact h2.le.trans hC.2
  have hnd : (A :: (((permutations B).dedup).filter fun C => B ≤ C)).Nodup := by
    rw [List.nodup_cons]
    refine ⟨?_, (List.nodup_dedup _).filter _⟩
    intro hA
    rw [List.mem_filter] at hA
    simp only [decide_eq_true_eq] at hA
    exact absurd h2 (not_lt.2 hA.2)
  have := (List.subperm_of_subset hnd hsub).length_le
  rw [List.length_cons] at this
  unfold laterCount
  omega

theorem fullLoop_spec (fuel : Nat) (A : List α) (h : laterCount A ≤ fuel) :
    (fullLoop fuel A).Pairwise (· < ·) ∧ ∀ C, C ∈ fullLoop fuel A ↔ C.Perm A ∧ A ≤ C := by
  induction fuel generalizing A with
  | zero =>
    have : A ∈ ((permutations A).dedup).filter fun C => A ≤ C := by
      rw [List.mem_filter, List.mem_dedup, mem_permutations]
      exact ⟨List.Perm.refl _, by simp⟩
    have := List.length_pos_of_mem this
    unfold laterCount at h
    omega
  | succ fuel ih =>
    unfold fullLoop
    rcases hn : nextPermutation A with _ | B
    · refine ⟨by simp, fun C => ?_⟩
      simp only [List.mem_singleton]
      constructor
      · rintro rfl; exact ⟨List.Perm.refl _, le_rfl⟩
      · rintro ⟨h1, h2⟩
        exact le_antisymm (nextPermutation_none hn h1) h2
    · obtain ⟨h1, h2, h3⟩ := nextPermutation_some hn
      obtain ⟨i1, i2⟩ := ih B (by have := laterCount_lt hn; omega)
      refine ⟨List.pairwise_cons.2 ⟨fun C hC => h2.trans_le ((i2 C).1 hC).2, i1⟩, fun C => ?_⟩
      rw [List.mem_cons, i2]
      constructor
      · rintro (rfl | ⟨hp, hle⟩)
        · exact ⟨List.Perm.refl _, le_rfl⟩
        · exact ⟨hp.trans h1, h2.le.trans hle⟩
      · rintro ⟨hp, hle⟩
        rcases lt_or_eq_of_le hle with hlt | rfl
        · exact Or.inr ⟨hp.trans h1.symm, h3 C hp hlt⟩
        · exact Or.inl rfl

theorem length_permutationsAux (n : Nat) (l : List α) (h : l.length = n) :
    (permutationsAux n l).length = n.factorial := by
  induction n generalizing l with
  | zero => rfl
  | succ n ih =>
    unfold permutationsAux
    rw [List.length_flatMap]
    have : ∀ p ∈ enumerate l, ((permutationsAux n (removeAt l p.1)).map (p.2 :: ·)).length = n.factorial := by
      intro p hp
      rw [List.length_map, ih]
      have hlt : p.1 < l.length := by
        unfold enumerate at hp
        have := (List.of_mem_zip hp).1
        simpa using this
      unfold removeAt
      rw [List.length_append, List.length_take, List.length_drop]
      omega
    rw [List.map_congr_left this, List.map_const', List.sum_replicate, Nat.factorial_succ]
    simp [enumerate, h]

theorem laterCount_le (A : List α) : laterCount A ≤ A.length.factorial := by
  unfold laterCount
  rw [← length_permutationsAux _ A rfl]
  exact (List.length_filter_le _ _).trans (List.dedup_sublist _).length_le

theorem fullLoop_take (m n : Nat) (h : m ≤ n) (A : List α) : fullLoop m A = (fullLoop n A).take m := by
  induction m generalizing n A with
  | zero => simp [fullLoop]
  | succ m ih =>
    cases n with
    | zero => omega
    | succ n =>
      unfold fullLoop
      rw [List.take_succ_cons]
      congr 1
      split
      · simp
      · exact ih n (by omega) _

end Comch
