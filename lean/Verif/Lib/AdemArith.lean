import Mathlib.Data.ZMod.Basic
import Mathlib.Data.Nat.Choose.Central
import Mathlib.Algebra.BigOperators.Intervals
import Mathlib.Algebra.BigOperators.NatAntidiagonal
import Mathlib.Tactic.LinearCombination
import Mathlib.Tactic.Ring

/-! # Sums of products of binomial coefficients modulo 2 -/

namespace Comch.AdemArith

abbrev F := ZMod 2

/-- The sum `Σ_{i + t = n} C(x + i, i) C(y, t)`. -/
def conv (x y n : Nat) : F := ∑ p ∈ Finset.antidiagonal n, ((x + p.1).choose p.1 : F) * (y.choose p.2 : F)

theorem two_zero : (2 : F) = 0 := by decide

theorem conv_zero (x n : Nat) : conv x 0 n = ((x + n).choose n : F) := by
  cases n with
  | zero => simp [conv]
  | succ n =>
    rw [conv, Finset.Nat.sum_antidiagonal_succ']
    rw [Finset.sum_eq_zero]
    · simp
    · intro p _
      simp

theorem conv_succ (x y n : Nat) : conv x (y + 1) (n + 1) = conv x y (n + 1) + conv x y n := by
  unfold conv
  rw [Finset.Nat.sum_antidiagonal_succ', Finset.Nat.sum_antidiagonal_succ' (n := n) (f := fun p =>
    ((x + p.1).choose p.1 : F) * (y.choose p.2 : F))]
  simp only [Nat.choose_succ_succ', Nat.cast_add, mul_add, Finset.sum_add_distrib, Nat.choose_zero_right]
  ring

theorem conv_at_zero (x y : Nat) : conv x y 0 = 1 := by simp [conv]

theorem conv_eq (x y n : Nat) :
    conv x y n = if x < y then ((y - x - 1).choose n : F) else ((x - y + n).choose n : F) := by
  induction y generalizing n with
  | zero => rw [conv_zero, if_neg (Nat.not_lt_zero _), Nat.sub_zero]
  | succ y ih =>
    cases n with
    | zero => rw [conv_at_zero]; simp
    | succ n =>
      rw [conv_succ, ih, ih]
      rcases Nat.lt_trichotomy x y with h | h | h
      · rw [if_pos h, if_pos h, if_pos (by omega), show y + 1 - x - 1 = (y - x - 1) + 1 by omega,
          Nat.choose_succ_succ']
        push_cast
        ring
      · subst h
        simp only [lt_irrefl, if_false, Nat.sub_self, zero_add, Nat.choose_self, Nat.lt_succ_self, if_true]
        rw [show x + 1 - x - 1 = 0 by omega, Nat.choose_eq_zero_of_lt (Nat.succ_pos n)]
        decide
      · rw [if_neg (by omega), if_neg (by omega), if_neg (by omega), show x - y + (n + 1) = (x - (y + 1) + (n + 1)) + 1 by omega,
          show x - y + n = x - (y + 1) + (n + 1) by omega, Nat.choose_succ_succ']
        push_cast
        linear_combination ((x - (y + 1) + (n + 1)).choose n : F) * two_zero

/-- The diagonal coefficients. -/
def dg (l j : Nat) : F := if j ≤ 2 * l then (l.choose (2 * l - j) : F) else 0

theorem dg_eq (l j : Nat) : dg l j = if l ≤ j then (l.choose (j - l) : F) else 0 := by
  unfold dg
  split
  · split
    · rw [← Nat.choose_symm (show j - l ≤ l by omega)]
      congr 2
      omega
    · rw [Nat.choose_eq_zero_of_lt (by omega)]; simp
  · split
    · rw [Nat.choose_eq_zero_of_lt (by omega)]; simp
    · rfl

theorem sum_left (L l : Nat) :
    ∑ j ∈ Finset.range (L + 1), ((2 * L - j).choose (L - j) : F) * dg l j = if l = L then 1 else 0 := by
  rcases Nat.lt_or_ge L l with h | h
  · rw [if_neg (by omega)]
    refine Finset.sum_eq_zero fun j hj => ?_
    have := Finset.mem_range.1 hj
    rw [dg_eq, if_neg (by omega), mul_zero]
  · obtain ⟨n, rfl⟩ := Nat.exists_eq_add_of_le h
    have h1 : ∑ j ∈ Finset.range (l + n + 1), ((2 * (l + n) - j).choose (l + n - j) : F) * dg l j = conv (l + n) l n := by
      rw [conv, ← Finset.Nat.sum_antidiagonal_swap, Finset.Nat.sum_antidiagonal_eq_sum_range_succ_mk,
        show l + n + 1 = l + (n + 1) by omega, Finset.sum_range_add,
        Finset.sum_eq_zero (s := Finset.range l), zero_add]
      · refine Finset.sum_congr rfl fun t ht => ?_
        have := Finset.mem_range.1 ht
        simp only [Prod.swap]
        rw [dg_eq, if_pos (by omega), show 2 * (l + n) - (l + t) = l + n + (n - t) by omega,
          show l + n - (l + t) = n - t by omega, show l + t - l = t by omega]
      · intro j hj
        have := Finset.mem_range.1 hj
        rw [dg_eq, if_neg (by omega), mul_zero]
    rw [h1, conv_eq, if_neg (by omega), show l + n - l + n = 2 * n by omega]
    rcases Nat.eq_zero_or_pos n with rfl | hn
    · simp
    · rw [if_neg (by omega), ← Nat.centralBinom_eq_two_mul_choose]
      exact (ZMod.natCast_eq_zero_iff _ _).2 (Nat.two_dvd_centralBinom_of_one_le hn)

theorem sum_right {L l N : Nat} (hL : 3 * L < N) (hl : 2 * l ≤ N) :
    ∑ j ∈ Finset.range (L + 1), ((2 * L - j).choose (L - j) : F) * dg l (N - j) =
      if N ≤ 2 * l + L then ((l - L - 1).choose (2 * l + L - N) : F) else 0 := by
  split
  · rename_i h
    have h2 : conv L l (2 * l + L - N) = ((l - L - 1).choose (2 * l + L - N) : F) := by
      rw [conv_eq, if_pos (by omega)]
    rw [← h2, conv, Finset.Nat.sum_antidiagonal_eq_sum_range_succ_mk,
      ← Finset.sum_range_reflect (fun j => ((2 * L - j).choose (L - j) : F) * dg l (N - j)), show L + 1 = (2 * l + L - N + 1) + (N - 2 * l) by omega, Finset.sum_range_add,
      Finset.sum_eq_zero (s := Finset.range (N - 2 * l)), add_zero]
    · refine Finset.sum_congr rfl fun t ht => ?_
      have := Finset.mem_range.1 ht
      rw [dg, if_pos (by omega)]
      congr 3 <;> omega
    · intro t ht
      have := Finset.mem_range.1 ht
      rw [dg, if_neg (by omega), mul_zero]
  · refine Finset.sum_eq_zero fun j hj => ?_
    have := Finset.mem_range.1 hj
    rw [dg, if_neg (by omega), mul_zero]

end Comch.AdemArith
