import Verif.Lib.SurjAct
import Verif.Lib.Pairs
import Mathlib.Algebra.BigOperators.Intervals
import Mathlib.Algebra.Order.BigOperators.Group.Finset

/-! # Complexity and filtration of surjections -/

set_option linter.unusedSectionVars false

namespace Comch
open Spec IsPerm Elem

variable {r : Nat} {σ : Perm}

/-- Number of changes in a sequence. -/
def chg : List Nat → Nat
  | a :: b :: l => (if a = b then 0 else 1) + chg (b :: l)
  | _ => 0

theorem chg_eq_pairwise (l : List Nat) : ((pairwise l).filter fun pq => pq.1 != pq.2).length = chg l := by
  induction l with
  | nil => rfl
  | cons a l ih =>
    cases l with
    | nil => rfl
    | cons b l =>
      have h : pairwise (a :: b :: l) = (a, b) :: pairwise (b :: l) := rfl
      rw [h, chg, ← ih, List.filter_cons]
      by_cases e : a = b
      · simp [e]
      · simp [e]; omega

theorem chg_eq_range (l : List Nat) :
    ((List.range (l.length - 1)).filter fun t => l.getD t 0 ≠ l.getD (t + 1) 0).length = chg l := by
  induction l with
  | nil => rfl
  | cons a l ih =>
    cases l with
    | nil => rfl
    | cons b l =>
      rw [chg, ← ih]
      have : (a :: b :: l).length - 1 = ((b :: l).length - 1) + 1 := by simp
      rw [this, List.range_succ_eq_map, List.filter_cons, List.filter_map]
      by_cases e : a = b
      · rw [if_neg (by simp [e]), if_pos e, List.length_map, Nat.zero_add]; rfl
      · rw [if_pos (by simp [e]), if_neg e, List.length_cons, List.length_map, Nat.add_comm]; rfl

theorem alternations_eq (k : List Nat) (i j : Nat) :
    alternations k i j = chg (k.filter fun x => x = i ∨ x = j) := chg_eq_range _

theorem binaryComplexity_eq (k : List Nat) (i j : Nat) :
    SurjElem.binaryComplexity k i j = alternations k i j := by
  rw [alternations_eq, SurjElem.binaryComplexity, chg_eq_pairwise]
  congr 1
  apply List.filter_congr
  intro x _
  rw [Bool.eq_iff_iff]; simp

theorem alternations_comm (k : List Nat) (i j : Nat) : alternations k i j = alternations k j i := by
  rw [alternations_eq, alternations_eq]
  congr 1
  apply List.filter_congr
  intro x _
  simp only [or_comm]

/-- Triangle inequality. -/
theorem chg_swap (a b : Nat) (l : List Nat) : chg (a :: l) ≤ (if a = b then 0 else 1) + chg (b :: l) := by
  cases l with
  | nil => simp [chg]
  | cons c l =>
    simp only [chg]
    by_cases h1 : a = b
    · subst h1; simp
    · by_cases h2 : a = c <;> by_cases h3 : b = c <;> simp_all
      omega

theorem chg_sublist {l m : List Nat} (h : l.Sublist m) : chg l ≤ chg m ∧ ∀ a, chg (a :: l) ≤ chg (a :: m) := by
  induction h with
  | slnil => simp
  | cons b h ih =>
    rename_i l m
    have h1 : ∀ a, chg (a :: l) ≤ chg (a :: b :: m) := by
      intro a
      rw [chg]
      exact (chg_swap a b l).trans (Nat.add_le_add_left (ih.2 b) _)
    refine ⟨?_, h1⟩
    cases l with
    | nil => simp [chg]
    | cons c l =>
      refine ih.1.trans ?_
      have := h1 c
      cases m with
      | nil => simp [chg]
      | cons d m => rw [chg]; omega
  | cons_cons b h ih =>
    rename_i l m
    refine ⟨ih.2 b, ?_⟩
    intro a
    rw [chg, chg]
    exact Nat.add_le_add_left (ih.2 b) _

theorem alternations_sublist {k m : List Nat} (h : m.Sublist k) (i j : Nat) :
    alternations m i j ≤ alternations k i j := by
  rw [alternations_eq, alternations_eq]
  exact (chg_sublist (h.filter _)).1

theorem chg_map {f : Nat → Nat} {l : List Nat} (h : ∀ a ∈ l, ∀ b ∈ l, f a = f b → a = b) :
    chg (l.map f) = chg l := by
  induction l with
  | nil => rfl
  | cons a l ih =>
    cases l with
    | nil => rfl
    | cons b l =>
      have ih := ih fun x hx y hy => h x (List.mem_cons_of_mem _ hx) y (List.mem_cons_of_mem _ hy)
      rw [List.map_cons] at ih ⊢
      rw [List.map_cons, chg, chg, ih]
      congr 1
      have : f a = f b ↔ a = b := ⟨h a (by simp) b (by simp), fun e => by rw [e]⟩
      simp only [this]

theorem alternations_mulL (hσ : IsPerm r σ) {k : List Nat} (hk : ∀ v ∈ k, 1 ≤ v ∧ v ≤ r) {i j : Nat}
    (hi : 1 ≤ i ∧ i ≤ r) (hj : 1 ≤ j ∧ j ≤ r) :
    alternations (mulL σ k) (value σ i) (value σ j) = alternations k i j := by
  rw [alternations_eq, alternations_eq, mulL, List.filter_map]
  rw [chg_map fun a ha b hb => value_inj hσ (hk a (List.mem_of_mem_filter ha)) (hk b (List.mem_of_mem_filter hb))]
  congr 1
  apply List.filter_congr
  intro x hx
  have h1 : value σ x = value σ i ↔ x = i := ⟨value_inj hσ (hk x hx) hi, fun e => by rw [e]⟩
  have h2 : value σ x = value σ j ↔ x = j := ⟨value_inj hσ (hk x hx) hj, fun e => by rw [e]⟩
  simp [h1, h2]

theorem chg_le (l : List Nat) : chg l ≤ l.length - 1 := by
  induction l with
  | nil => simp [chg]
  | cons a l ih =>
    cases l with
    | nil => simp [chg]
    | cons b l =>
      rw [chg]
      simp only [List.length_cons] at ih ⊢
      split <;> omega

/-- The entries different from `i` and `j` number at least `r - 2`. -/
theorem alternations_le {k : List Nat} (hk : Onto r k) {i j : Nat} (hi : 1 ≤ i) (hij : i < j) (hj : j ≤ r) :
    alternations k i j + r ≤ k.length + 1 := by
  rw [alternations_eq]
  have h1 := chg_le (k.filter fun x => x = i ∨ x = j)
  have h2 : (k.filter fun x => x = i ∨ x = j).length + (k.filter fun x => !decide (x = i ∨ x = j)).length =
      k.length := by
    have := List.length_eq_length_filter_add (l := k) fun x => decide (x = i ∨ x = j)
    exact this.symm
  have h3 : 1 ≤ (k.filter fun x => x = i ∨ x = j).length := by
    apply List.length_pos_of_mem (a := i)
    rw [List.mem_filter]
    exact ⟨(hk i).2 ⟨hi, by omega⟩, by simp⟩
  have h4 : r - 2 ≤ (k.filter fun x => !decide (x = i ∨ x = j)).length := by
    have hsub : ((List.range' 1 r).filter fun x => !decide (x = i ∨ x = j)) ⊆
        (k.filter fun x => !decide (x = i ∨ x = j)) := by
      intro x hx
      rw [List.mem_filter, List.mem_range'_1] at hx
      rw [List.mem_filter]
      exact ⟨(hk x).2 ⟨by omega, by omega⟩, hx.2⟩
    have hnd : ((List.range' 1 r).filter fun x => !decide (x = i ∨ x = j)).Nodup :=
      (List.nodup_range').filter _
    have h5 := (hnd.subperm hsub).length_le
    refine le_trans ?_ h5
    have h6 := List.length_eq_length_filter_add (l := List.range' 1 r) fun x => decide (x = i ∨ x = j)
    rw [List.length_range'] at h6
    have h7 : ((List.range' 1 r).filter fun x => decide (x = i ∨ x = j)).length ≤ 2 := by
      have : ((List.range' 1 r).filter fun x => decide (x = i ∨ x = j)) ⊆ [i, j] := by
        intro x hx
        rw [List.mem_filter] at hx
        simpa using hx.2
      have := (((List.nodup_range' (s := 1) (n := r)).filter fun x => decide (x = i ∨ x = j)).subperm this).length_le
      simpa using this
    omega
  omega

/-! ### complexity and filtration of an element -/

theorem nodup_combinations' {α : Type} {l : List α} {n : Nat} (h : l.Nodup) : (combinations l n).Nodup := by
  induction l generalizing n with
  | nil => cases n <;> simp [combinations]
  | cons a l ih =>
    cases n with
    | zero => simp [combinations]
    | succ n =>
      rw [List.nodup_cons] at h
      rw [combinations, List.nodup_append]
      refine ⟨(ih h.2).map fun x y e => by simpa using e, ih h.2, ?_⟩
      intro x hx y hy e
      subst e
      obtain ⟨z, _, rfl⟩ := List.mem_map.1 hx
      exact h.1 ((mem_combinations.1 hy).1.subset (by simp))

theorem nodup_pairsUpTo (m : Nat) : (SurjElem.pairsUpTo m).Nodup := by
  unfold SurjElem.pairsUpTo
  apply List.Nodup.filterMap
  · intro a b c ha hb
    rcases a with _ | ⟨a, _ | ⟨a', _ | _⟩⟩ <;> rcases b with _ | ⟨b, _ | ⟨b', _ | _⟩⟩ <;> simp at ha hb
    obtain ⟨rfl, rfl⟩ := ha
    cases hb
    rfl
  · exact nodup_combinations' (by unfold pyRange; exact List.nodup_range')

theorem sum_pairsUpTo (m : Nat) (f : Nat → Nat → Nat) :
    ((SurjElem.pairsUpTo m).map fun ij => f ij.1 ij.2).sum =
      ∑ p ∈ (Finset.Icc 1 m ×ˢ Finset.Icc 1 m) with p.1 < p.2, f p.1 p.2 := by
  rw [← List.sum_toFinset _ (nodup_pairsUpTo m)]
  apply Finset.sum_congr _ fun _ _ => rfl
  ext ⟨i, j⟩
  rw [List.mem_toFinset, mem_pairsUpTo, Finset.mem_filter, Finset.mem_product, Finset.mem_Icc, Finset.mem_Icc]
  constructor
  · rintro ⟨h1, h2, h3⟩; refine ⟨⟨⟨h1, ?_⟩, ?_, h3⟩, h2⟩ <;> (simp only; omega)
  · rintro ⟨⟨⟨h1, h2⟩, h3, h4⟩, h5⟩; exact ⟨h1, h5, h4⟩

namespace SurjElem

theorem complexity_spec (x : SurjElem) :
    (∀ p ∈ x.data, ∀ i j, 1 ≤ i → i < j → j ≤ pyMax p.1 → alternations p.1 i j ≤ x.complexity) ∧
    (x.complexity = 0 ∨ ∃ p ∈ x.data, ∃ i j, 1 ≤ i ∧ i < j ∧ j ≤ pyMax p.1 ∧
      x.complexity = alternations p.1 i j) := by
  have h := foldl_foldl_max (fun p : Surj × Int => pairsUpTo (pyMax p.1))
    (fun p ij => binaryComplexity p.1 ij.1 ij.2) x.data
  refine ⟨?_, ?_⟩
  · intro p hp i j h1 h2 h3
    rw [← binaryComplexity_eq]
    exact h.1 p hp (i, j) (mem_pairsUpTo.2 ⟨h1, h2, h3⟩)
  · rcases h.2 with h | ⟨p, hp, ⟨i, j⟩, hij, h⟩
    · exact Or.inl h
    · rw [mem_pairsUpTo] at hij
      refine Or.inr ⟨p, hp, i, j, hij.1, hij.2.1, hij.2.2, ?_⟩
      rw [← binaryComplexity_eq]
      exact h

theorem complexity_le_iff (x : SurjElem) (c : Nat) : x.complexity ≤ c ↔
    ∀ p ∈ x.data, ∀ i j, 1 ≤ i → i < j → j ≤ pyMax p.1 → alternations p.1 i j ≤ c := by
  obtain ⟨h1, h2⟩ := complexity_spec x
  constructor
  · intro h p hp i j a b c'
    exact (h1 p hp i j a b c').trans h
  · intro h
    rcases h2 with h2 | ⟨p, hp, i, j, a, b, c', h2⟩
    · omega
    · rw [h2]; exact h p hp i j a b c'

theorem filtration_spec (x : SurjElem) :
    (∀ p ∈ x.data, totalAlternations (pyMax p.1) p.1 ≤ x.filtration) ∧
    (x.filtration = 0 ∨ ∃ p ∈ x.data, x.filtration = totalAlternations (pyMax p.1) p.1) := by
  have h := foldl_max (fun p : Surj × Int => totalAlternations (pyMax p.1) p.1) x.data 0
  have e : x.filtration =
      x.data.foldl (fun c p => max (totalAlternations (pyMax p.1) p.1) c) 0 := by
    unfold filtration
    congr 1
    funext c p
    rw [Nat.max_comm]
    congr 1
    rw [totalAlternations, ← sum_pairsUpTo]
    simp only [binaryComplexity_eq]
  rw [e]
  refine ⟨h.1, ?_⟩
  rcases h.2.2 with h | ⟨p, hp, h⟩
  · exact Or.inl h
  · exact Or.inr ⟨p, hp, h⟩

theorem filtration_le_iff (x : SurjElem) (c : Nat) : x.filtration ≤ c ↔
    ∀ p ∈ x.data, totalAlternations (pyMax p.1) p.1 ≤ c := by
  obtain ⟨h1, h2⟩ := filtration_spec x
  constructor
  · intro h p hp
    exact (h1 p hp).trans h
  · intro h
    rcases h2 with h2 | ⟨p, hp, h2⟩
    · omega
    · rw [h2]; exact h p hp

end SurjElem

theorem totalAlternations_sublist {k m : List Nat} (h : m.Sublist k) (n : Nat) :
    totalAlternations n m ≤ totalAlternations n k :=
  Finset.sum_le_sum fun p _ => alternations_sublist h p.1 p.2

/-- The sum over all ordered pairs of different values is twice the sum over `i < j`. -/
theorem two_mul_totalAlternations (n : Nat) (k : List Nat) :
    ∑ p ∈ (Finset.Icc 1 n ×ˢ Finset.Icc 1 n) with p.1 ≠ p.2, alternations k p.1 p.2 =
      2 * totalAlternations n k := by
  have h : ((Finset.Icc 1 n ×ˢ Finset.Icc 1 n).filter fun p => p.1 ≠ p.2) =
      ((Finset.Icc 1 n ×ˢ Finset.Icc 1 n).filter fun p => p.1 < p.2) ∪
        ((Finset.Icc 1 n ×ˢ Finset.Icc 1 n).filter fun p => p.2 < p.1) := by
    ext p
    simp only [Finset.mem_filter, Finset.mem_union]
    constructor
    · rintro ⟨h, h'⟩
      rcases Nat.lt_or_gt_of_ne h' with h'' | h''
      · exact Or.inl ⟨h, h''⟩
      · exact Or.inr ⟨h, h''⟩
    · rintro (⟨h, h'⟩ | ⟨h, h'⟩)
      · exact ⟨h, Nat.ne_of_lt h'⟩
      · exact ⟨h, Nat.ne_of_gt h'⟩
  rw [h, Finset.sum_union, two_mul]
  · congr 1
    refine Finset.sum_nbij' (fun p => (p.2, p.1)) (fun p => (p.2, p.1)) ?_ ?_ (fun _ _ => rfl) (fun _ _ => rfl)
      (fun p _ => alternations_comm _ _ _)
    · intro p hp; simp only [Finset.mem_filter, Finset.mem_product] at hp ⊢; exact ⟨⟨hp.1.2, hp.1.1⟩, hp.2⟩
    · intro p hp; simp only [Finset.mem_filter, Finset.mem_product] at hp ⊢; exact ⟨⟨hp.1.2, hp.1.1⟩, hp.2⟩
  · rw [Finset.disjoint_filter]
    intro p _ h1 h2
    omega

theorem totalAlternations_mulL (hσ : IsPerm r σ) {k : List Nat} (hk : ∀ v ∈ k, 1 ≤ v ∧ v ≤ r) :
    totalAlternations r (mulL σ k) = totalAlternations r k := by
  have h : 2 * totalAlternations r (mulL σ k) = 2 * totalAlternations r k := by
    rw [← two_mul_totalAlternations, ← two_mul_totalAlternations]
    symm
    refine Finset.sum_bij (fun p _ => (value σ p.1, value σ p.2)) ?_ ?_ ?_ ?_
    · intro p hp
      simp only [Finset.mem_filter, Finset.mem_product, Finset.mem_Icc] at hp ⊢
      refine ⟨⟨value_range hσ hp.1.1.1 hp.1.1.2, value_range hσ hp.1.2.1 hp.1.2.2⟩, ?_⟩
      intro e
      exact hp.2 (value_inj hσ hp.1.1 hp.1.2 e)
    · intro p hp q hq e
      simp only [Finset.mem_filter, Finset.mem_product, Finset.mem_Icc, Prod.mk.injEq] at hp hq e
      exact Prod.ext (value_inj hσ hp.1.1 hq.1.1 e.1) (value_inj hσ hp.1.2 hq.1.2 e.2)
    · intro p hp
      simp only [Finset.mem_filter, Finset.mem_product, Finset.mem_Icc] at hp
      obtain ⟨i, hi, e1⟩ := exists_value hσ hp.1.1
      obtain ⟨j, hj, e2⟩ := exists_value hσ hp.1.2
      refine ⟨(i, j), ?_, Prod.ext e1 e2⟩
      simp only [Finset.mem_filter, Finset.mem_product, Finset.mem_Icc]
      refine ⟨⟨hi, hj⟩, ?_⟩
      intro e
      apply hp.2
      rw [← e1, ← e2, e]
    · intro p hp
      simp only [Finset.mem_filter, Finset.mem_product, Finset.mem_Icc] at hp
      exact (alternations_mulL hσ hk hp.1.1 hp.1.2).symm
  omega

end Comch
