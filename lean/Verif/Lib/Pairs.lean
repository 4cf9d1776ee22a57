import Verif.Lib.Common
import Verif.Model.Surjection

/-! # Pairs `i < j` and loops computing maxima -/

namespace Comch

theorem mem_combinations {α : Type} {l m : List α} {r : Nat} :
    m ∈ combinations l r ↔ m.Sublist l ∧ m.length = r := by
  induction l generalizing m r with
  | nil =>
    cases r with
    | zero => simp [combinations]
    | succ r =>
      simp only [combinations, List.not_mem_nil, false_iff, List.sublist_nil, not_and]
      rintro rfl
      simp
  | cons a l ih =>
    cases r with
    | zero =>
      simp only [combinations, List.mem_singleton, List.length_eq_zero_iff]
      constructor
      · rintro rfl; simp
      · exact fun h => h.2
    | succ r =>
      simp only [combinations, List.mem_append, List.mem_map, ih]
      constructor
      · rintro (⟨q, ⟨h1, h2⟩, rfl⟩ | ⟨h1, h2⟩)
        · exact ⟨h1.cons_cons a, by simp [h2]⟩
        · exact ⟨h1.cons a, h2⟩
      · rintro ⟨h1, h2⟩
        rcases List.sublist_cons_iff.1 h1 with h | ⟨q, rfl, h⟩
        · exact Or.inr ⟨h, h2⟩
        · exact Or.inl ⟨q, ⟨h, by simpa using h2⟩, rfl⟩

theorem mem_pairsUpTo {m i j : Nat} : (i, j) ∈ SurjElem.pairsUpTo m ↔ 1 ≤ i ∧ i < j ∧ j ≤ m := by
  unfold SurjElem.pairsUpTo
  rw [List.mem_filterMap]
  constructor
  · rintro ⟨l, hl, h⟩
    rw [mem_combinations] at hl
    rcases l with _ | ⟨a, _ | ⟨b, _ | ⟨c, l⟩⟩⟩ <;> simp at h
    obtain ⟨rfl, rfl⟩ := h
    have hp : (pyRange 1 (m + 1)).Pairwise (· < ·) := by
      unfold pyRange; exact List.pairwise_lt_range'
    have h2 := hp.sublist hl.1
    have h3 := hl.1.subset
    have ha : a ∈ pyRange 1 (m + 1) := h3 (by simp)
    have hb : b ∈ pyRange 1 (m + 1) := h3 (by simp)
    rw [mem_pyRange] at ha hb
    simp at h2
    omega
  · rintro ⟨h1, h2, h3⟩
    refine ⟨[i, j], mem_combinations.2 ⟨?_, rfl⟩, rfl⟩
    have e : pyRange 1 (m + 1) = List.range' 1 (i - 1) ++ List.range' i (m + 1 - i) := by
      unfold pyRange
      have h := List.range'_append_1 (s := 1) (m := i - 1) (n := m + 1 - i)
      rw [show 1 + (i - 1) = i by omega, show i - 1 + (m + 1 - i) = m + 1 - 1 by omega] at h
      exact h.symm
    rw [e]
    refine List.Sublist.trans ?_ (List.sublist_append_right _ _)
    rw [show m + 1 - i = (m - i) + 1 by omega, List.range'_succ]
    refine List.Sublist.cons_cons i ?_
    rw [List.singleton_sublist, List.mem_range'_1]
    omega

/-- A loop computing a maximum. -/
theorem foldl_max {α : Type} (f : α → Nat) (l : List α) (c : Nat) :
    (∀ a ∈ l, f a ≤ l.foldl (fun c a => max (f a) c) c) ∧ c ≤ l.foldl (fun c a => max (f a) c) c ∧
      (l.foldl (fun c a => max (f a) c) c = c ∨ ∃ a ∈ l, l.foldl (fun c a => max (f a) c) c = f a) := by
  induction l generalizing c with
  | nil => simp
  | cons a l ih =>
    obtain ⟨h1, h2, h3⟩ := ih (max (f a) c)
    rw [List.foldl_cons]
    refine ⟨?_, by omega, ?_⟩
    · intro b hb
      rcases List.mem_cons.1 hb with rfl | hb
      · omega
      · exact h1 b hb
    · rcases h3 with h3 | ⟨b, hb, h3⟩
      · by_cases hc : f a ≤ c
        · left; rw [h3]; omega
        · right; exact ⟨a, by simp, by rw [h3]; omega⟩
      · right; exact ⟨b, List.mem_cons_of_mem _ hb, h3⟩

/-- Two nested loops computing a maximum. -/
theorem foldl_foldl_max {α β : Type} (g : α → List β) (f : α → β → Nat) (l : List α) :
    (∀ a ∈ l, ∀ b ∈ g a, f a b ≤ l.foldl (fun c a => (g a).foldl (fun c b => max (f a b) c) c) 0) ∧
      (l.foldl (fun c a => (g a).foldl (fun c b => max (f a b) c) c) 0 = 0 ∨
        ∃ a ∈ l, ∃ b ∈ g a, l.foldl (fun c a => (g a).foldl (fun c b => max (f a b) c) c) 0 = f a b) := by
  have key : ∀ c, l.foldl (fun c a => (g a).foldl (fun c b => max (f a b) c) c) c =
      (l.flatMap fun a => (g a).map fun b => (a, b)).foldl (fun c p => max (f p.1 p.2) c) c := by
    intro c
    induction l generalizing c with
    | nil => rfl
    | cons a l ih => rw [List.foldl_cons, ih, List.flatMap_cons, List.foldl_append, List.foldl_map]
  rw [key 0]
  obtain ⟨h1, _, h3⟩ := foldl_max (fun p : α × β => f p.1 p.2) (l.flatMap fun a => (g a).map fun b => (a, b)) 0
  refine ⟨?_, ?_⟩
  · intro a ha b hb
    exact h1 (a, b) (List.mem_flatMap.2 ⟨a, ha, List.mem_map.2 ⟨b, hb, rfl⟩⟩)
  · rcases h3 with h3 | ⟨⟨a, b⟩, hp, h3⟩
    · exact Or.inl h3
    · obtain ⟨a', ha, h⟩ := List.mem_flatMap.1 hp
      obtain ⟨b', hb, h⟩ := List.mem_map.1 h
      cases h
      exact Or.inr ⟨a, ha, b, hb, h3⟩

end Comch
