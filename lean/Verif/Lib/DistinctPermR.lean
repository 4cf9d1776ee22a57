import Verif.Lib.DistinctPerm

/-! # `distinct_permutations(iterable, r)`: arrangements of length `r`

With the tail sorted, a round of `_partial` on `(head, tail)` is a round of `_full` on
`head ++ tail.reverse`. -/

namespace Comch

variable {α : Type} [LinearOrder α]

theorem findPivot_eq (head T : List α) (p : α) (b : Nat) (hb : b ≤ head.length)
    (hp : (head ++ T)[b]? = some p) : findPivot head p b = findAscent (head ++ T) b := by
  induction b generalizing p with
  | zero => rfl
  | succ b ih =>
    have hx : (head ++ T)[b]? = some head[b] := by
      rw [List.getElem?_append_left (by omega), List.getElem?_eq_getElem]
    unfold findPivot findAscent
    rw [hp, hx, List.getElem?_eq_getElem (show b < head.length by omega)]
    simp only
    rw [ih _ (by omega) hx]

theorem findAscent_sorted (A : List α) (r s : Nat)
    (h : ∀ t, r ≤ t → t < r + s → ∀ (h1 : t + 1 < A.length), A[t + 1] ≤ A[t]) :
    findAscent A (r + s) = findAscent A r := by
  induction s with
  | zero => rfl
  | succ s ih =>
    rw [← ih fun t h1 h2 => h t h1 (by omega), ← Nat.add_assoc]
    conv_lhs => unfold findAscent
    split
    · rename_i x y hx hy
      obtain ⟨hy1, rfl⟩ := List.getElem?_eq_some_iff.1 hy
      obtain ⟨hx1, rfl⟩ := List.getElem?_eq_some_iff.1 hx
      rw [if_neg (not_lt.2 (h (r + s) (by omega) (by omega) hy1))]
    · rfl

theorem findInTail_some {x : α} {s j : Nat} {tail : List α} (h : findInTail x s tail = some j) :
    ∃ k, j = s + k ∧ ∃ hk : k < tail.length, x < tail[k] ∧ ∀ t (ht : t < k), tail[t] ≤ x := by
  induction tail generalizing s with
  | nil => cases h
  | cons a tail ih =>
    unfold findInTail at h
    split at h
    · rename_i ha
      cases h
      exact ⟨0, rfl, by simp, ha, fun t ht => by omega⟩
    · rename_i ha
      obtain ⟨k, rfl, hk, h1, h2⟩ := ih h
      refine ⟨k + 1, by omega, by simpa using hk, by simpa using h1, fun t ht => ?_⟩
      cases t with
      | zero => exact not_lt.1 ha
      | succ t => simpa using h2 t (by omega)

theorem findInTail_none {x : α} {s : Nat} {tail : List α} (h : findInTail x s tail = none) :
    ∀ t ∈ tail, t ≤ x := by
  induction tail generalizing s with
  | nil => simp
  | cons a tail ih =>
    unfold findInTail at h
    split at h
    · cases h
    · rename_i ha
      intro t ht
      rcases List.mem_cons.1 ht with rfl | ht
      · exact not_lt.1 ha
      · exact ih h t ht

theorem findInHead_some {head : List α} {x : α} {b j : Nat} (hb : b ≤ head.length)
    (h : findInHead head x b = some j) :
    ∃ hj : j < head.length, j < b ∧ x < head[j] ∧ ∀ t, j < t → t < b → ∀ ht : t < head.length, head[t] ≤ x := by
  induction b with
  | zero => cases h
  | succ b ih =>
    unfold findInHead at h
    rw [List.getElem?_eq_getElem (by omega)] at h
    simp only at h
    split at h
    · rename_i hx
      cases h
      exact ⟨by omega, by omega, hx, fun t h1 h2 => by omega⟩
    · rename_i hx
      obtain ⟨h0, h1, h2, h3⟩ := ih (by omega) h
      refine ⟨h0, by omega, h2, fun t ht1 ht2 ht => ?_⟩
      by_cases htb : t = b
      · subst htb; exact not_lt.1 hx
      · exact h3 t ht1 (by omega) ht

theorem findInHead_none {head : List α} {x : α} {b : Nat} (hb : b ≤ head.length)
    (h : findInHead head x b = none) : ∀ t, t < b → ∀ ht : t < head.length, head[t] ≤ x := by
  induction b with
  | zero => intro t ht; omega
  | succ b ih =>
    unfold findInHead at h
    rw [List.getElem?_eq_getElem (by omega)] at h
    simp only at h
    split at h
    · cases h
    · rename_i hx
      intro t ht1 ht
      by_cases htb : t = b
      · subst htb; exact not_lt.1 hx
      · exact ih (by omega) h t (by omega) ht

/-- The last index holding a value greater than `x` is unique. -/
theorem last_unique {A : List α} {x : α} {a b : Nat} (ha : a < A.length) (hb : b < A.length)
    (h1 : x < A[a]) (h2 : x < A[b]) (h3 : ∀ t, a < t → ∀ h : t < A.length, A[t] ≤ x)
    (h4 : ∀ t, b < t → ∀ h : t < A.length, A[t] ≤ x) : a = b := by
  rcases lt_trichotomy a b with h | h | h
  · exact absurd h2 (not_lt.2 (h3 b h hb))
  · exact h
  · exact absurd h1 (not_lt.2 (h4 a h ha))

theorem partialSwap_eq {head tail : List α} {i J : Nat} (hi : i < head.length)
    (hiJ : i < J) (hJ : J < (head ++ tail.reverse).length) (h1 : head[i] < (head ++ tail.reverse)[J])
    (h2 : ∀ t, J < t → ∀ h : t < (head ++ tail.reverse).length, (head ++ tail.reverse)[t] ≤ head[i]) :
    (partialSwap head tail i head[i]).1 ++ (partialSwap head tail i head[i]).2.reverse =
        swapAt (head ++ tail.reverse) i J ∧
      (partialSwap head tail i head[i]).1.length = head.length ∧
      (partialSwap head tail i head[i]).2.length = tail.length := by
  have hAi : (head ++ tail.reverse)[i]? = some head[i] := by
    rw [List.getElem?_append_left hi, List.getElem?_eq_getElem]
  unfold partialSwap
  split
  · rename_i j hj
    obtain ⟨k, rfl, hk, hk1, hk2⟩ := findInTail_some hj
    have hl : (head ++ tail.reverse).length = head.length + tail.length := by simp
    have hKJ : J = head.length + (tail.length - 1 - k) := by
      refine last_unique hJ (by omega) h1 ?_ h2 ?_
      · rw [List.getElem_append_right (by omega), List.getElem_reverse]
        simp only [show tail.length - 1 - (head.length + (tail.length - 1 - k) - head.length) = k by omega]
        exact hk1
      · intro t ht htl
        rw [List.getElem_append_right (by omega), List.getElem_reverse]
        exact hk2 _ (by omega)
    refine ⟨?_, by simp, by simp⟩
    have hAJ : (head ++ tail.reverse)[J]? = some tail[k] := by
      rw [hKJ, List.getElem?_append_right (by omega), List.getElem?_reverse (by omega)]
      rw [show tail.length - 1 - (head.length + (tail.length - 1 - k) - head.length) = k by omega,
        List.getElem?_eq_getElem]
    unfold swapAt
    rw [hAi, hAJ]
    simp only
    rw [List.set_append_left _ _ hi, List.set_append_right _ _ (by simp; omega), Nat.zero_add,
      show tail.getD k head[i] = tail[k] by rw [List.getD_eq_getElem?_getD, List.getElem?_eq_getElem hk]; rfl]
    congr 1
    rw [List.length_set, hKJ]
    apply List.ext_getElem
    · simp
    · intro t ht1 ht2
      simp only [List.length_reverse, List.length_set] at ht1
      rw [List.getElem_reverse, List.getElem_set, List.getElem_set]
      simp only [List.length_set]
      by_cases h : k = tail.length - 1 - t
      · rw [if_pos h, if_pos (by omega)]
      · rw [if_neg h, if_neg (by omega), List.getElem_reverse]
  · rename_i hn
    have ht := findInTail_none hn
    have hJh : J < head.length := by
      by_contra hc
      have := ht ((head ++ tail.reverse)[J]) (by
        rw [List.getElem_append_right (by omega)]
        exact List.mem_reverse.1 (List.getElem_mem _))
      exact absurd h1 (not_lt.2 this)
    rw [List.getElem_append_left hJh] at h1
    split
    · rename_i j hj
      obtain ⟨hj0, _, hj1, hj2⟩ := findInHead_some le_rfl hj
      have : J = j := by
        refine last_unique hJh hj0 h1 hj1 ?_ fun t ht h => hj2 t ht h h
        intro t ht h
        have := h2 t ht (by simp; omega)
        rwa [List.getElem_append_left h] at this
      subst this
      refine ⟨?_, by unfold swapAt; split <;> simp, rfl⟩
      unfold swapAt
      rw [hAi, List.getElem?_append_left hJh, List.getElem?_eq_getElem hi, List.getElem?_eq_getElem hJh]
      simp only
      rw [List.set_append_left _ _ hi, List.set_append_left _ _ (by simpa using hJh)]
    · rename_i hj
      exact absurd h1 (not_lt.2 (findInHead_none le_rfl hj J hJh hJh))

/-- A round of `_partial` is a round of `_full` on `head ++ tail.reverse`. -/
theorem partialStep_eq (head tail : List α) (hne : tail ≠ []) (hs : tail.Pairwise (· ≤ ·)) :
    partialStep head tail =
      (nextPermutation (head ++ tail.reverse)).map fun B => (B.take head.length, B.drop head.length) := by
  have hl : (head ++ tail.reverse).length = head.length + tail.length := by simp
  have hpos : 0 < tail.length := List.length_pos_iff.2 hne
  unfold partialStep
  rw [List.getLast?_eq_getElem?, List.getElem?_eq_getElem (by omega)]
  simp only
  have hp : (head ++ tail.reverse)[head.length]? = some tail[tail.length - 1] := by
    rw [List.getElem?_append_right (by omega), List.getElem?_reverse (by omega), Nat.sub_self, Nat.sub_zero,
      List.getElem?_eq_getElem]
  rw [findPivot_eq head tail.reverse _ _ le_rfl hp]
  have hasc : findAscent (head ++ tail.reverse) ((head ++ tail.reverse).length - 1) =
      findAscent (head ++ tail.reverse) head.length := by
    rw [hl, show head.length + tail.length - 1 = head.length + (tail.length - 1) by omega]
    apply findAscent_sorted
    intro t h1 h2 h3
    rw [List.getElem_append_right (by omega), List.getElem_append_right (by omega), List.getElem_reverse,
      List.getElem_reverse]
    exact (List.pairwise_iff_getElem.1 hs) _ _ (by omega) (by omega) (by omega)
  unfold nextPermutation
  rw [hasc]
  rcases hf : findAscent (head ++ tail.reverse) head.length with _ | i
  · rfl
  · simp only [Option.map_some]
    obtain ⟨hi, hi1, hlt, -⟩ := findAscent_some (Or.inl (by omega)) hf
    have hAi : (head ++ tail.reverse)[i] = head[i] := List.getElem_append_left hi
    obtain ⟨j, hj, hjs, hj1, hjlt, hjr⟩ :=
      findLarger_spec (s := (head ++ tail.reverse).length - 1 - i) hi1 (by omega) (by omega) hlt
    rw [List.getElem?_eq_getElem hi, hj]
    simp only
    rw [hAi] at hjlt
    obtain ⟨e1, e2, e3⟩ := partialSwap_eq hi (by omega) hj1 hjlt (by
      intro t ht h
      have := hjr (t - (i + 1)) (by omega) (by omega) (by omega)
      simp only [show i + 1 + (t - (i + 1)) = t by omega] at this
      rwa [hAi] at this)
    rw [← e1]
    generalize partialSwap head tail i head[i] = Q at e2 e3
    obtain ⟨H, T⟩ := Q
    simp only at e2 e3 ⊢
    rw [List.take_append_of_le_length (l₁ := H) (l₂ := T.reverse) (by omega),
      List.drop_append_of_le_length (l₁ := H) (l₂ := T.reverse) (by omega)]
    rw [List.reverse_append, List.reverse_reverse]
    have h5 : (H.take (i + 1)).length = i + 1 := by rw [List.length_take]; omega
    rw [List.take_append (l₁ := H.take (i + 1)), List.drop_append (l₁ := H.take (i + 1)), h5,
      List.take_of_length_le (l := H.take (i + 1)) (by omega),
      List.drop_eq_nil_of_le (as := H.take (i + 1)) (by omega), List.nil_append]

theorem append_lt {a b s t : List α} (h : a.length = b.length) :
    a ++ s < b ++ t ↔ a < b ∨ a = b ∧ s < t := by
  induction a generalizing b with
  | nil =>
    obtain rfl := List.length_eq_zero_iff.1 h.symm
    simp
  | cons x a ih =>
    cases b with
    | nil => simp at h
    | cons y b =>
      rw [List.cons_append, List.cons_append, cons_lt, cons_lt, ih (by simpa using h), List.cons.injEq]
      tauto

theorem append_le {a b s t : List α} (h : a.length = b.length) :
    a ++ s ≤ b ++ t ↔ a < b ∨ a = b ∧ s ≤ t := by
  rw [← not_lt, append_lt h.symm, ← not_lt]
  rcases lt_trichotomy a b with h1 | h1 | h1
  · simp [h1, h1.not_gt, h1.ne']
  · simp [h1]
  · simp [h1, h1.not_gt, h1.ne']

/-- What the round after `(head, tail)` brings: the next arrangement. -/
theorem partialStep_none {head tail : List α} (hne : tail ≠ []) (hs : tail.Pairwise (· ≤ ·))
    (h : partialStep head tail = none) {g t : List α} (hp : (g ++ t).Perm (head ++ tail))
    (hl : g.length = head.length) : g ≤ head := by
  rw [partialStep_eq _ _ hne hs, Option.map_eq_none_iff] at h
  have := nextPermutation_none h (hp.trans (List.Perm.append_left _ (List.reverse_perm _).symm))
  rw [append_le hl] at this
  rcases this with h | ⟨h, -⟩
  · exact h.le
  · exact h.le

theorem partialStep_some {head tail head' tail' : List α} (hne : tail ≠ []) (hs : tail.Pairwise (· ≤ ·))
    (h : partialStep head tail = some (head', tail')) :
    tail' ≠ [] ∧ tail'.Pairwise (· ≤ ·) ∧ (head' ++ tail').Perm (head ++ tail) ∧
      head'.length = head.length ∧ head < head' ∧
      ∀ g t, (g ++ t).Perm (head ++ tail) → g.length = head.length → head < g → head' ≤ g := by
  rw [partialStep_eq _ _ hne hs, Option.map_eq_some_iff] at h
  obtain ⟨B, hB, hB'⟩ := h
  simp only [Prod.mk.injEq] at hB'
  obtain ⟨hp, hlt, hnext⟩ := nextPermutation_some hB
  have hpA : (head ++ tail.reverse).Perm (head ++ tail) := List.Perm.append_left _ (List.reverse_perm _)
  have hBs : B = head' ++ tail' := by rw [← hB'.1, ← hB'.2, List.take_append_drop]
  have hlB : B.length = head.length + tail.length := by rw [hp.length_eq]; simp
  have hpos : 0 < tail.length := List.length_pos_iff.2 hne
  have hl' : head'.length = head.length := by rw [← hB'.1, List.length_take]; omega
  have hlt' : tail'.length = tail.length := by rw [← hB'.2, List.length_drop]; omega
  subst hBs
  have hlt2 : head < head' := by
    rcases (append_lt hl'.symm).1 hlt with h | ⟨h, h2⟩
    · exact h
    · subst h
      refine absurd h2 (not_lt.2 (le_of_perm_antisorted ?_ ?_))
      · rw [List.pairwise_reverse]; exact hs
      · exact (List.perm_append_left_iff _).1 hp
  have hmin : ∀ g t, (g ++ t).Perm (head ++ tail) → g.length = head.length → head < g →
      head' ++ tail' ≤ g ++ t := fun g t h1 h2 h3 =>
    hnext _ (h1.trans hpA.symm) ((append_lt h2.symm).2 (Or.inl h3))
  refine ⟨List.length_pos_iff.1 (by omega), ?_, hp.trans hpA, hl', hlt2, ?_⟩
  · have hps := List.perm_insertionSort (· ≤ ·) tail'
    have h1 := hmin head' (tail'.insertionSort (· ≤ ·))
      ((List.Perm.append_left _ hps).trans (hp.trans hpA)) hl' hlt2
    rw [append_le rfl] at h1
    have hss : (tail'.insertionSort (· ≤ ·)).Pairwise (· ≤ ·) := List.pairwise_insertionSort _ _
    rcases h1 with h1 | ⟨-, h1⟩
    · exact absurd h1 (lt_irrefl _)
    · rw [le_antisymm h1 (le_of_perm_sorted hss hps.symm)]
      exact hss
  · intro g t h1 h2 h3
    rcases (append_le (hl'.trans h2.symm)).1 (hmin g t h1 h2 h3) with h | ⟨h, -⟩
    · exact h.le
    · exact h.le

theorem laterCount_of_lt {A B : List α} (hp : B.Perm A) (h2 : A < B) : laterCount B < laterCount A := by
  have hsub : A :: (((permutations B).dedup).filter fun C => B ≤ C) ⊆ ((permutations A).dedup).filter fun C => A ≤ C := by
    intro C hC
    rw [List.mem_filter, List.mem_dedup, mem_permutations]
    rcases List.mem_cons.1 hC with rfl | hC
    · exact ⟨List.Perm.refl _, by simp⟩
    · rw [List.mem_filter, List.mem_dedup, mem_permutations] at hC
      refine ⟨hC.1.trans hp, ?_⟩
      simp only [decide_eq_true_eq] at hC ⊢
      exact h2.le.trans hC.2
  have hnd : (A :: (((permutations B).dedup).filter fun C => B ≤ C)).Nodup := by
    rw [List.nodup_cons]
    refine ⟨?_, (List.nodup_dedup _).filter _⟩
    intro hA
    rw [List.mem_filter] at hA
    simp only [decide_eq_true_eq] at hA
    exact absurd h2 (not_lt.2 hA.2)
  have := (List.subperm_of_subset hnd hsub).length_le
  rw [List.length_cons] at this
  unfold laterCount
  omega

theorem partialLoop_spec (fuel : Nat) (head tail : List α) (hne : tail ≠ []) (hs : tail.Pairwise (· ≤ ·))
    (h : laterCount (head ++ tail) ≤ fuel) :
    (partialLoop fuel head tail).Pairwise (· < ·) ∧ ∀ g, g ∈ partialLoop fuel head tail ↔
      g.length = head.length ∧ (∃ t, (g ++ t).Perm (head ++ tail)) ∧ head ≤ g := by
  induction fuel generalizing head tail with
  | zero =>
    have : head ++ tail ∈ ((permutations (head ++ tail)).dedup).filter fun C => head ++ tail ≤ C := by
      rw [List.mem_filter, List.mem_dedup, mem_permutations]
      exact ⟨List.Perm.refl _, by simp⟩
    have := List.length_pos_of_mem this
    unfold laterCount at h
    omega
  | succ fuel ih =>
    unfold partialLoop
    rcases hn : partialStep head tail with _ | ⟨head', tail'⟩
    · refine ⟨by simp, fun g => ?_⟩
      simp only [List.mem_singleton]
      constructor
      · rintro rfl; exact ⟨rfl, ⟨tail, List.Perm.refl _⟩, le_rfl⟩
      · rintro ⟨h1, ⟨t, h2⟩, h3⟩
        exact le_antisymm (partialStep_none hne hs hn h2 h1) h3
    · obtain ⟨k1, k2, k3, k4, k5, k6⟩ := partialStep_some hne hs hn
      obtain ⟨i1, i2⟩ := ih head' tail' k1 k2 (by
        have := laterCount_of_lt k3 ((append_lt k4.symm).2 (Or.inl k5))
        omega)
      refine ⟨List.pairwise_cons.2 ⟨fun C hC => k5.trans_le ((i2 C).1 hC).2.2, i1⟩, fun g => ?_⟩
      rw [List.mem_cons, i2]
      constructor
      · rintro (rfl | ⟨h1, ⟨t, h2⟩, h3⟩)
        · exact ⟨rfl, ⟨tail, List.Perm.refl _⟩, le_rfl⟩
        · exact ⟨h1.trans k4, ⟨t, h2.trans k3⟩, k5.le.trans h3⟩
      · rintro ⟨h1, ⟨t, h2⟩, h3⟩
        rcases lt_or_eq_of_le h3 with hlt | rfl
        · exact Or.inr ⟨h1.trans k4.symm, ⟨t, h2.trans k3.symm⟩, k6 g t h2 h1 hlt⟩
        · exact Or.inl rfl

theorem partialLoop_take (m n : Nat) (h : m ≤ n) (head tail : List α) :
    partialLoop m head tail = (partialLoop n head tail).take m := by
  induction m generalizing n head tail with
  | zero => simp [partialLoop]
  | succ m ih =>
    cases n with
    | zero => omega
    | succ n =>
      unfold partialLoop
      rw [List.take_succ_cons]
      congr 1
      split
      · simp
      · exact ih n (by omega) _ _

end Comch
