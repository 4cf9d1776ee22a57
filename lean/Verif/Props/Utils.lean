import Verif.Lib.Decompositions
import Verif.Lib.DistinctPermR

/-! # C61–C64: the combinatorial helpers -/

namespace Comch.Props
open Comch Spec

/-! ## C61 partitions -/

/-- `partitions(n, k, a, b)` yields exactly the nondecreasing `k`-tuples with sum `n` and entries in
`a..b` (`b` defaults to `n`), each once. -/
theorem C61_partitions_unordered (n k a : Nat) (b : Option Nat) :
    (partitions n (k + 1) a b false).Nodup ∧ ∀ l, l ∈ partitions n (k + 1) a b false ↔
      l.length = k + 1 ∧ l.sum = n ∧ (∀ v ∈ l, a ≤ v ∧ v ≤ b.getD n) ∧ l.Pairwise (· ≤ ·) :=
  ⟨nodup_partitions _ _ _ _ _, fun _ => mem_partitions_unordered⟩

/-- With `ordered=True`: all `k`-tuples with sum `n` and entries in `a..b`, each once. -/
theorem C61_partitions_ordered (n k a : Nat) (b : Option Nat) :
    (partitions n (k + 1) a b true).Nodup ∧ ∀ l, l ∈ partitions n (k + 1) a b true ↔
      l.length = k + 1 ∧ l.sum = n ∧ (∀ v ∈ l, a ≤ v ∧ v ≤ b.getD n) :=
  ⟨nodup_partitions _ _ _ _ _, fun _ => mem_partitions_ordered⟩

example : partitions 6 3 1 (some 3) false = [[1, 2, 3], [2, 2, 2]] ∧
    (partitions 6 3 1 (some 3) true).length = 7 := by decide +kernel

/-! ## C62 decompositions -/

/-- `decompositions(x, k)` yields exactly the `(k+1)`-tuples of pieces that glue to `x` (consecutive
pieces overlap in one entry), each once; nothing for the empty sequence. -/
theorem C62_decompositions {A : Type} [DecidableEq A] (x : List A) (k : Nat) :
    (decompositions x k).Nodup ∧ ∀ m, m ∈ decompositions x k ↔
      x ≠ [] ∧ m.length = k + 1 ∧ glue m = some x := by
  rw [decompositions_eq]
  have hne : ∀ p ∈ partitions (x.length + k) (k + 1) 1 none true, x ≠ [] := by
    intro p hp h0
    rw [mem_partitions_ordered] at hp
    subst h0
    have : ∀ (l : List Nat), (∀ p ∈ l, 1 ≤ p) → l.length ≤ l.sum := by
      intro l
      induction l with
      | nil => simp
      | cons a l ihl =>
        intro hl
        have := ihl (fun p hp => hl p (List.mem_cons_of_mem _ hp))
        have := hl a (by simp)
        rw [List.sum_cons, List.length_cons]; omega
    have := this p fun q hq => (hp.2.2 q hq).1
    have h1 := hp.1
    have h2 := hp.2.1
    simp only [List.length_nil] at h2
    omega
  have hg : ∀ p ∈ partitions (x.length + k) (k + 1) 1 none true,
      glue (pieces p x) = some x ∧ (pieces p x).map List.length = p := by
    intro p hp
    rw [mem_partitions_ordered] at hp
    exact glue_pieces p x (by rintro rfl; simp at hp) (fun q hq => (hp.2.2 q hq).1) (by omega)
  constructor
  · refine List.Nodup.map_on ?_ (nodup_partitions _ _ _ _ _)
    intro p hp q hq h
    rw [← (hg p hp).2, ← (hg q hq).2, h]
  · intro m
    rw [List.mem_map]
    constructor
    · rintro ⟨p, hp, rfl⟩
      exact ⟨hne p hp, by rw [length_pieces]; exact (mem_partitions_ordered.1 hp).1, (hg p hp).1⟩
    · rintro ⟨h0, h1, h2⟩
      obtain ⟨h3, h4, h5⟩ := pieces_of_glue m x h0 h2
      refine ⟨m.map List.length, mem_partitions_ordered.2 ⟨by rw [List.length_map, h1], by omega, ?_⟩, h4.symm⟩
      intro v hv
      obtain ⟨p, hp, rfl⟩ := List.mem_map.1 hv
      have hpos : 1 ≤ p.length := List.length_pos_iff.2 (h3 p hp)
      refine ⟨hpos, ?_⟩
      have hle := List.le_sum_of_mem hv
      rw [Option.getD_none]
      omega

example : decompositions [7, 8] 2 = [[[7], [7], [7, 8]], [[7], [7, 8], [8]], [[7, 8], [8], [8]]] := by
  decide +kernel

/-! ## C63 distinct_permutations -/

/-- The generator `distinct_permutations(l, r)` stops after at most `n!` values, and these are all the
distinct arrangements of `r` of the entries of `l`, in strictly increasing lexicographic order (so
each exactly once).  There are none for `r` negative or larger than the number of entries. -/
theorem C63_arrangements {A : Type} [LinearOrder A] (l : List A) (r : Int) (fuel : Nat)
    (h : l.length.factorial ≤ fuel) :
    (distinctPermutations fuel l (some r)).Pairwise (· < ·) ∧
      (∀ g, g ∈ distinctPermutations fuel l (some r) ↔ (g.length : Int) = r ∧ ∃ t, (g ++ t).Perm l) ∧
      distinctPermutations fuel l (some r) = distinctPermutations l.length.factorial l (some r) := by
  suffices H : ∀ fuel, l.length.factorial ≤ fuel →
      (distinctPermutations fuel l (some r)).Pairwise (· < ·) ∧
      (∀ g, g ∈ distinctPermutations fuel l (some r) ↔ (g.length : Int) = r ∧ ∃ t, (g ++ t).Perm l) by
    refine ⟨(H fuel h).1, (H fuel h).2, ?_⟩
    refine List.Perm.eq_of_pairwise' (r := (· < ·)) (H fuel h).1 (H _ le_rfl).1 ?_
    exact (List.perm_ext_iff_of_nodup ((H fuel h).1.imp fun h => h.ne) ((H _ le_rfl).1.imp fun h => h.ne)).2
      fun C => by rw [(H fuel h).2, (H _ le_rfl).2]
  clear h fuel
  intro fuel h
  have hp := List.perm_insertionSort (· ≤ ·) l
  have hs : (l.insertionSort (· ≤ ·)).Pairwise (· ≤ ·) := List.pairwise_insertionSort _ _
  have hl : laterCount (l.insertionSort (· ≤ ·)) ≤ l.length.factorial := by
    rw [← hp.length_eq]; exact laterCount_le _
  unfold distinctPermutations
  simp only [Option.getD_some]
  generalize l.insertionSort (· ≤ ·) = L at *
  split_ifs with h1 h2 h3
  · obtain ⟨k1, k2⟩ := fullLoop_spec fuel _ (hl.trans h)
    refine ⟨k1, fun g => ?_⟩
    rw [k2]
    constructor
    · rintro ⟨h, -⟩
      exact ⟨by rw [h.length_eq, h2], [], by rw [List.append_nil]; exact h.trans hp⟩
    · rintro ⟨h, t, ht⟩
      have := (ht.trans hp.symm).length_eq
      rw [List.length_append] at this
      obtain rfl : t = [] := List.length_eq_zero_iff.1 (by omega)
      rw [List.append_nil] at ht
      exact ⟨ht.trans hp.symm, le_of_perm_sorted hs (ht.trans hp.symm)⟩
  · have hcut : L.take r.toNat ++ L.drop r.toNat = L := List.take_append_drop _ _
    have hlt : (L.take r.toNat).length = r.toNat := by rw [List.length_take]; omega
    obtain ⟨k1, k2⟩ := partialLoop_spec fuel (L.take r.toNat) (L.drop r.toNat)
      (List.length_pos_iff.1 (by rw [List.length_drop]; omega))
      (hs.sublist (List.drop_sublist _ _)) (by rw [hcut]; exact hl.trans h)
    refine ⟨k1, fun g => ?_⟩
    rw [k2, hcut, hlt]
    constructor
    · rintro ⟨h1, ⟨t, ht⟩, -⟩
      exact ⟨by omega, t, ht.trans hp⟩
    · rintro ⟨h1, t, ht⟩
      refine ⟨by omega, ⟨t, ht.trans hp.symm⟩, ?_⟩
      have := le_of_perm_sorted hs (ht.trans hp.symm)
      rw [← hcut, append_le (by omega)] at this
      rcases this with h | ⟨h, -⟩
      · exact h.le
      · exact h.le
  · have : 1 ≤ fuel := (Nat.factorial_pos l.length).trans_le h
    rw [List.take_of_length_le (by simpa using this)]
    refine ⟨by simp, fun g => ?_⟩
    rw [List.mem_singleton]
    constructor
    · rintro rfl
      exact ⟨by simp [h3], l, by simp⟩
    · rintro ⟨h, -⟩
      exact List.length_eq_zero_iff.1 (by omega)
  · refine ⟨by simp, fun g => ?_⟩
    simp only [List.not_mem_nil, false_iff]
    rintro ⟨h, t, ht⟩
    have := (ht.trans hp.symm).length_eq
    rw [List.length_append] at this
    omega

/-- Without `r` all entries are used. -/
theorem C63_default {A : Type} [LinearOrder A] (l : List A) (fuel : Nat) :
    distinctPermutations fuel l = distinctPermutations fuel l (some l.length) := by
  unfold distinctPermutations
  simp

/-- The generator `distinct_permutations(l)` stops after at most `n!` values, and these are all the
distinct rearrangements of `l`, in strictly increasing lexicographic order (so each exactly once). -/
theorem C63_distinctPermutations {A : Type} [LinearOrder A] (l : List A) (fuel : Nat)
    (h : l.length.factorial ≤ fuel) :
    (distinctPermutations fuel l).Pairwise (· < ·) ∧
      (∀ C, C ∈ distinctPermutations fuel l ↔ C.Perm l) ∧
      distinctPermutations fuel l = distinctPermutations l.length.factorial l := by
  rw [C63_default, C63_default]
  obtain ⟨h1, h2, h3⟩ := C63_arrangements l l.length fuel h
  refine ⟨h1, fun C => ?_, h3⟩
  rw [h2]
  constructor
  · rintro ⟨h, t, ht⟩
    have := ht.length_eq
    rw [List.length_append] at this
    obtain rfl : t = [] := List.length_eq_zero_iff.1 (by omega)
    rwa [List.append_nil] at ht
  · intro h
    exact ⟨by rw [h.length_eq], [], by rwa [List.append_nil]⟩

/-- Stopping the generator early gives the first values of this list. -/
theorem C63_distinctPermutations_take {A : Type} [LinearOrder A] (l : List A) (r : Option Int) (m n : Nat)
    (h : m ≤ n) : distinctPermutations m l r = (distinctPermutations n l r).take m := by
  unfold distinctPermutations
  simp only
  split_ifs
  · exact fullLoop_take m n h _
  · exact partialLoop_take m n h _ _
  · rw [List.take_take, Nat.min_eq_left h]
  · simp

example : distinctPermutations 100 [1, 2, 1, 3] (some 2) =
    [[1, 1], [1, 2], [1, 3], [2, 1], [2, 3], [3, 1], [3, 2]] := by decide +kernel

example : distinctPermutations 100 [1, 2] (some 3) = [] ∧ distinctPermutations 100 [1, 2] (some 0) = [[]] ∧
    distinctPermutations 100 [1, 2] (some (-1)) = [] := by decide +kernel

example : distinctPermutations 100 [1, 0, 1] = [[0, 1, 1], [1, 0, 1], [1, 1, 0]] := by decide +kernel

/-! ## C64 pairwise -/

/-- `pairwise(l)` yields the `n - 1` pairs of consecutive entries, in order. -/
theorem C64_pairwise {A : Type} (l : List A) :
    (pairwise l).length = l.length - 1 ∧
      ∀ i (h : i + 1 < l.length), (pairwise l)[i]? = some (l[i], l[i + 1]) := by
  unfold pairwise
  refine ⟨by simp, fun i h => ?_⟩
  rw [List.getElem?_eq_getElem (by simp; omega), List.getElem_zip, List.getElem_tail]

example : pairwise [3, 1, 2] = [(3, 1), (1, 2)] := rfl

end Comch.Props
