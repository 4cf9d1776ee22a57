import Verif.Model.Utils
import Verif.Lib.Permutations
import Mathlib.Data.List.Nodup
import Mathlib.Data.List.Sort

/-! # `partitions`, unordered and ordered -/

namespace Comch

theorem nodup_pyRange (a b : Nat) : (pyRange a b).Nodup := List.nodup_range'

theorem mem_unorderedPartitions {n k r m : Nat} {l : List Nat} :
    l ∈ unorderedPartitions n (k + 1) r m ↔ l.length = k + 1 ∧ l.sum = n ∧
      (∀ a ∈ l, r ≤ a ∧ a ≤ m) ∧ l.Pairwise (· ≤ ·) := by
  induction k generalizing n r l with
  | zero =>
    unfold unorderedPartitions
    split
    · rename_i h
      rw [List.mem_singleton]
      constructor
      · rintro rfl
        simp [h]
      · rintro ⟨h1, h2, -, -⟩
        obtain ⟨a, rfl⟩ := List.length_eq_one_iff.1 h1
        simpa using h2
    · rename_i h
      simp only [List.not_mem_nil, false_iff]
      rintro ⟨h1, h2, h3, -⟩
      obtain ⟨a, rfl⟩ := List.length_eq_one_iff.1 h1
      have := h3 a (by simp)
      simp only [List.sum_cons, List.sum_nil, Nat.add_zero] at h2
      omega
  | succ k ih =>
    unfold unorderedPartitions
    rw [List.mem_flatMap]
    constructor
    · rintro ⟨i, hi, h⟩
      rw [mem_pyRange] at hi
      split at h
      · rename_i hin
        obtain ⟨t, ht, rfl⟩ := List.mem_map.1 h
        obtain ⟨h1, h2, h3, h4⟩ := ih.1 ht
        refine ⟨by simp [h1], by rw [List.sum_cons, h2]; omega, ?_, List.pairwise_cons.2 ⟨fun a ha => (h3 a ha).1, h4⟩⟩
        intro a ha
        rcases List.mem_cons.1 ha with rfl | ha
        · omega
        · have := h3 a ha; omega
      · simp at h
    · rintro ⟨h1, h2, h3, h4⟩
      cases l with
      | nil => simp at h1
      | cons i t =>
        rw [List.sum_cons] at h2
        rw [List.pairwise_cons] at h4
        have hi := h3 i (by simp)
        refine ⟨i, mem_pyRange.2 (by omega), ?_⟩
        rw [if_pos (by omega)]
        refine List.mem_map.2 ⟨t, ih.2 ⟨by simpa using h1, by omega, ?_, h4.2⟩, rfl⟩
        intro a ha
        exact ⟨h4.1 a ha, (h3 a (List.mem_cons_of_mem _ ha)).2⟩

theorem nodup_unorderedPartitions (n k r m : Nat) : (unorderedPartitions n k r m).Nodup := by
  induction k using Nat.strongRecOn generalizing n r with
  | _ k ih =>
    match k with
    | 0 => simp [unorderedPartitions]
    | 1 => unfold unorderedPartitions; split <;> simp
    | k + 2 =>
      unfold unorderedPartitions
      rw [List.nodup_flatMap]
      refine ⟨fun i _ => ?_, ?_⟩
      · split
        · exact (ih (k + 1) (by omega) _ _).map (fun a b h => by simpa using h)
        · simp
      · refine (nodup_pyRange r (m + 1)).imp_of_mem ?_
        intro a b _ _ hab
        simp only [Function.onFun]
        intro l h1 h2
        split at h1 <;> split at h2
        · obtain ⟨t, _, rfl⟩ := List.mem_map.1 h1
          obtain ⟨t', _, h⟩ := List.mem_map.1 h2
          exact hab (List.cons.inj h).1.symm
        · simp at h2
        · simp at h1
        · simp at h1

theorem mem_partitions_unordered {n k r : Nat} {m : Option Nat} {l : List Nat} :
    l ∈ partitions n (k + 1) r m false ↔ l.length = k + 1 ∧ l.sum = n ∧
      (∀ a ∈ l, r ≤ a ∧ a ≤ m.getD n) ∧ l.Pairwise (· ≤ ·) := by
  simp only [partitions, Bool.false_eq_true, if_false]
  exact mem_unorderedPartitions

theorem mem_partitions_ordered {n k r : Nat} {m : Option Nat} {l : List Nat} :
    l ∈ partitions n (k + 1) r m true ↔ l.length = k + 1 ∧ l.sum = n ∧
      (∀ a ∈ l, r ≤ a ∧ a ≤ m.getD n) := by
  simp only [partitions, if_true]
  rw [List.mem_flatMap]
  constructor
  · rintro ⟨p, hp, h⟩
    rw [List.mem_dedup, mem_permutations] at h
    obtain ⟨h1, h2, h3, -⟩ := mem_unorderedPartitions.1 hp
    exact ⟨by rw [h.length_eq, h1], by rw [h.sum_eq, h2], fun a ha => h3 a (h.mem_iff.1 ha)⟩
  · rintro ⟨h1, h2, h3⟩
    have hp := List.perm_insertionSort (· ≤ ·) l
    refine ⟨l.insertionSort (· ≤ ·), mem_unorderedPartitions.2 ⟨by rw [hp.length_eq, h1],
      by rw [hp.sum_eq, h2], fun a ha => h3 a (hp.mem_iff.1 ha), List.pairwise_insertionSort _ _⟩, ?_⟩
    rw [List.mem_dedup, mem_permutations]
    exact hp.symm

theorem nodup_partitions (n k r : Nat) (m : Option Nat) (o : Bool) : (partitions n k r m o).Nodup := by
  unfold partitions
  simp only
  split
  · rw [List.nodup_flatMap]
    refine ⟨fun p _ => List.nodup_dedup _, (nodup_unorderedPartitions _ _ _ _).imp_of_mem ?_⟩
    intro a b ha hb hab
    simp only [Function.onFun]
    intro l h1 h2
    rw [List.mem_dedup, mem_permutations] at h1 h2
    match k with
    | 0 => simp [unorderedPartitions] at ha
    | k + 1 =>
      exact hab (List.Perm.eq_of_pairwise' (r := (· ≤ ·)) (mem_unorderedPartitions.1 ha).2.2.2
        (mem_unorderedPartitions.1 hb).2.2.2 (h1.symm.trans h2))
  · exact nodup_unorderedPartitions _ _ _ _

end Comch
