import Mathlib.Algebra.CharP.Lemmas
import Mathlib.Data.ZMod.Basic
import Mathlib.Algebra.BigOperators.Group.Finset.Basic
import Mathlib.Algebra.BigOperators.Fin
import Mathlib.Algebra.Ring.GeomSum
import Mathlib.Algebra.CharP.Algebra
import Mathlib.Data.Nat.Factorial.Basic
import Mathlib.Tactic.NoncommRing
import Mathlib.Tactic.Abel
import Mathlib.Algebra.Polynomial.AlgebraMap
import Mathlib.Algebra.Polynomial.Expand
import Mathlib.Algebra.Polynomial.RingDivision
import Mathlib.Algebra.Field.ZMod

/-! # Anticommuting contractions permuted cyclically -/

namespace Comch.ZigZag

section path
variable {E : Type} [Ring E]

/-- `ℓ 0 * … * ℓ (n - 1)`. -/
def prod (l : Nat → E) : Nat → E
  | 0 => 1
  | n + 1 => prod l n * l n

/-- `ℓ 0 ℓ 1 + ℓ 1 ℓ 2 + … `, `n` summands. -/
def path (l : Nat → E) : Nat → E
  | 0 => 0
  | n + 1 => path l n + l n * l (n + 1)

variable {l : Nat → E} (anti : ∀ i j, l i * l j = - (l j * l i)) (sq : ∀ i, l i * l i = 0)
include anti

theorem pair_comm (i j k : Nat) : l i * l j * l k = l k * (l i * l j) := by
  rw [mul_assoc, anti j k, mul_neg, ← mul_assoc, anti i k]
  simp [mul_assoc]

theorem path_comm (n k : Nat) : path l n * l k = l k * path l n := by
  induction n with
  | zero => simp [path]
  | succ n ih => rw [path, add_mul, ih, mul_add, pair_comm anti]

include sq

theorem prod_kill (n i : Nat) (hi : i < n) : prod l n * l i = 0 := by
  induction n with
  | zero => omega
  | succ n ih =>
    rw [prod]
    rcases Nat.lt_succ_iff_lt_or_eq.1 hi with h | rfl
    · rw [mul_assoc, anti n i, mul_neg, ← mul_assoc, ih h]; simp
    · rw [mul_assoc, sq, mul_zero]

theorem prod_path (n m : Nat) (h : m ≤ n) : prod l n * path l m = 0 := by
  induction m with
  | zero => simp [path]
  | succ m ih =>
    rw [path, mul_add, ih (by omega), ← mul_assoc, prod_kill anti sq n m (by omega)]
    simp

theorem add_pow_sq {a f : E} (hc : Commute a f) (hf : f * f = 0) (n : Nat) :
    (a + f) ^ (n + 1) = a ^ (n + 1) + (n + 1) * (a ^ n * f) := by
  induction n with
  | zero => simp
  | succ n ih =>
    rw [pow_succ, ih]
    have h1 : a ^ n * f * a = a ^ (n + 1) * f := by rw [mul_assoc, ← hc.eq, pow_succ, mul_assoc]
    have h2 : a ^ n * f * f = 0 := by rw [mul_assoc, hf, mul_zero]
    have h3 : ((n : E) + 1) * (a ^ n * f) * (a + f) = (n + 1) * (a ^ (n + 1) * f) := by
      rw [mul_assoc, mul_add, h1, h2, add_zero]
    rw [add_mul, h3, mul_add, ← pow_succ]
    push_cast
    noncomm_ring

theorem path_pow (k : Nat) : path l (2 * k - 1) ^ k = (k.factorial : E) * prod l (2 * k) := by
  induction k with
  | zero => simp [prod]
  | succ k ih =>
    have hP : ∃ f, path l (2 * (k + 1) - 1) = path l (2 * k - 1) + f ∧ f * f = 0 ∧ Commute (path l (2 * k - 1)) f ∧
        prod l (2 * k) * f = prod l (2 * k) * (l (2 * k) * l (2 * k + 1)) := by
      rcases Nat.eq_zero_or_pos k with rfl | hk
      · refine ⟨l 0 * l 1, by simp [path], ?_, by simp [path], by simp⟩
        rw [← mul_assoc, pair_comm anti, ← mul_assoc, sq]; simp
      · obtain ⟨j, rfl⟩ : ∃ j, k = j + 1 := ⟨k - 1, by omega⟩
        have e1 : 2 * (j + 1 + 1) - 1 = 2 * j + 1 + 1 + 1 := by omega
        have e2 : 2 * (j + 1) - 1 = 2 * j + 1 := by omega
        have e3 : 2 * (j + 1) = 2 * j + 1 + 1 := by omega
        rw [e1, e2, e3]
        refine ⟨l (2 * j + 1) * l (2 * j + 1 + 1) + l (2 * j + 1 + 1) * l (2 * j + 1 + 1 + 1), by rw [path, path]; abel, ?_, ?_, ?_⟩
        · have h1 : ∀ a b c, l a * l c * (l b * l c) = 0 := by
            intro a b c
            rw [← mul_assoc, pair_comm anti, ← mul_assoc, mul_assoc _ _ (l c), sq, mul_zero]
          have h2 : ∀ a b c, l a * l c * (l c * l b) = 0 := by
            intro a b c
            rw [← mul_assoc, mul_assoc _ _ (l c), sq]; simp
          have h3 : ∀ a b c, l c * l a * (l c * l b) = 0 := by
            intro a b c
            rw [← mul_assoc, pair_comm anti, ← mul_assoc, sq]; simp
          have h4 : ∀ a b c, l c * l a * (l b * l c) = 0 := by
            intro a b c
            rw [anti c a, neg_mul, h1]; simp
          rw [add_mul, mul_add, mul_add, h1, h2, h3, h4]; simp
        · have := fun n k => path_comm anti (l := l) n k
          refine Commute.add_right ?_ ?_ <;> exact Commute.mul_right (this _ _) (this _ _)
        · rw [mul_add, ← mul_assoc, prod_kill anti sq _ _ (by omega)]; simp
    obtain ⟨f, h1, h2, h3, h4⟩ := hP
    have h5 : path l (2 * k - 1) ^ (k + 1) = 0 := by
      rw [pow_succ, ih, mul_assoc, prod_path anti sq _ _ (by omega), mul_zero]
    rw [h1, add_pow_sq anti sq h3 h2, h5, ih, mul_assoc, h4, zero_add, show 2 * (k + 1) = 2 * k + 1 + 1 by ring, prod, prod,
      Nat.factorial_succ]
    push_cast
    simp only [mul_assoc]

end path

section cyclic
variable {E : Type} [Ring E] {p : Nat}

/-- `Σ L_{i+1} L_i` over a cycle. -/
def omega (p : Nat) (L : Nat → E) : E := ∑ i ∈ Finset.range p, L (i + 1) * L i

open Polynomial in
theorem norm_eq (hp : p.Prime) [Algebra (ZMod p) E] (t : E) : (t - 1) ^ (p - 1) = ∑ j ∈ Finset.range p, t ^ j := by
  have : Fact p.Prime := ⟨hp⟩
  have h : (X - 1 : (ZMod p)[X]) ^ (p - 1) = ∑ j ∈ Finset.range p, X ^ j := by
    have h1 : (X - 1 : (ZMod p)[X]) ≠ 0 := X_sub_C_ne_zero (1 : ZMod p)
    apply mul_right_cancel₀ h1
    rw [geom_sum_mul, ← pow_succ, show p - 1 + 1 = p by have := hp.one_le; omega, sub_pow_char, one_pow]
  have := congrArg (aeval t) h
  simpa using this

variable {L : Nat → E} {d t : E} (anti : ∀ i j, L i * L j = - (L j * L i)) (sq : ∀ i, L i * L i = 0)
  (hom : ∀ i, d * L i + L i * d = 1) (per : L p = L 0) (rot : ∀ i < p, t * L (i + 1) = L i * t)

section
include anti

theorem omega_comm (k : Nat) : Commute (omega p L) (L k) := by
  refine Commute.symm (Commute.sum_right _ _ _ fun i _ => ?_)
  exact (pair_comm anti _ _ _).symm
end

section
include hom per

theorem d_omega : d * omega p L = omega p L * d := by
  have h : ∀ i, d * (L (i + 1) * L i) = L i - L (i + 1) + L (i + 1) * L i * d := by
    intro i
    rw [← mul_assoc, eq_sub_of_add_eq (hom (i + 1)), sub_mul, mul_assoc, eq_sub_of_add_eq (hom i)]
    noncomm_ring
  rw [omega, Finset.mul_sum, Finset.sum_congr rfl fun i _ => h i, Finset.sum_add_distrib, Finset.sum_range_sub', per, sub_self,
    zero_add, Finset.sum_mul]
end

section
include per rot

theorem t_omega (hp : 1 ≤ p) : t * omega p L = omega p L * t := by
  obtain ⟨n, rfl⟩ : ∃ n, p = n + 1 := ⟨p - 1, by omega⟩
  have h0 : t * L 0 = L n * t := by rw [← per, rot n (by omega)]
  have e1 : omega (n + 1) L = ∑ i ∈ Finset.range n, L (i + 1 + 1) * L (i + 1) + L 1 * L 0 := Finset.sum_range_succ' _ _
  have e2 : omega (n + 1) L = ∑ i ∈ Finset.range n, L (i + 1) * L i + L 0 * L n := by
    rw [← per]; exact Finset.sum_range_succ _ _
  conv_lhs => rw [e1]
  rw [e2, mul_add, ← mul_assoc, rot 0 (by omega), mul_assoc, h0, add_mul,
    Finset.mul_sum, Finset.sum_mul, ← mul_assoc]
  congr 1
  refine Finset.sum_congr rfl fun i hi => ?_
  have := Finset.mem_range.1 hi
  rw [← mul_assoc, rot (i + 1) (by omega), mul_assoc, rot i (by omega), ← mul_assoc]

theorem pow_rot (j : Nat) (hj : j < p) : t ^ j * (L 0 * L (p - 1)) = L (p - j) * L (p - 1 - j) * t ^ j := by
  induction j with
  | zero => simp [per]
  | succ j ih =>
    rw [pow_succ', mul_assoc, ih (by omega), show p - j = p - (j + 1) + 1 by omega, show p - 1 - j = p - 1 - (j + 1) + 1 by omega,
      ← mul_assoc, ← mul_assoc, rot _ (by omega), mul_assoc _ t, rot _ (by omega)]
    simp only [mul_assoc]

theorem sum_rot : (∑ j ∈ Finset.range p, t ^ j) * (L 0 * L (p - 1)) =
    ∑ j ∈ Finset.range p, L (p - j) * L (p - 1 - j) * t ^ j := by
  rw [Finset.sum_mul]
  exact Finset.sum_congr rfl fun j hj => pow_rot per rot j (Finset.mem_range.1 hj)

end

theorem omega_reflect : ∑ j ∈ Finset.range p, L (p - j) * L (p - 1 - j) = omega p L := by
  rw [omega, ← Finset.sum_range_reflect]
  refine Finset.sum_congr rfl fun j hj => ?_
  have := Finset.mem_range.1 hj
  rw [show p - (p - 1 - j) = j + 1 by omega, show p - 1 - (p - 1 - j) = j by omega]

theorem path_eq (l : Nat → E) (n : Nat) : path l n = ∑ i ∈ Finset.range n, l i * l (i + 1) := by
  induction n with
  | zero => rfl
  | succ n ih => rw [path, ih, Finset.sum_range_succ]

theorem prod_succ' (l : Nat → E) (n : Nat) : prod l (n + 1) = l 0 * prod (fun i => l (i + 1)) n := by
  induction n with
  | zero => simp [prod]
  | succ n ih => rw [prod, ih, prod, mul_assoc]

include anti sq per in
/-- `L_0 Ω^k = (-1)^k k! L_0 L_1 ⋯ L_{2k}` for `p = 2 k + 1`. -/
theorem zero_omega_pow {k : Nat} (hk : p = 2 * k + 1) :
    L 0 * omega p L ^ k = (-1) ^ k * (k.factorial : E) * prod L p := by
  set l : Nat → E := fun i => L (i + 1) with hl
  have hP : L 0 * omega p L = L 0 * (- path l (2 * k - 1)) := by
    rcases Nat.eq_zero_or_pos k with rfl | hpos
    · subst hk
      have e : omega (2 * 0 + 1) L = L 1 * L 0 := Finset.sum_range_one _
      rw [e, ← mul_assoc, anti, neg_mul, mul_assoc, sq]; simp [path]
    · have e : p = 2 * k - 1 + 1 + 1 := by omega
      rw [omega, path_eq, e, Finset.sum_range_succ, Finset.sum_range_succ', ← e, per, mul_add, mul_add, ← mul_assoc, ← mul_assoc, sq,
        zero_mul, add_zero, anti 0 (0 + 1), neg_mul, mul_assoc, sq, mul_zero, neg_zero, add_zero, ← Finset.sum_neg_distrib]
      congr 1
      refine Finset.sum_congr rfl fun i _ => ?_
      rw [anti]
  have hc : ∀ n, L 0 * omega p L ^ n = L 0 * (- path l (2 * k - 1)) ^ n := by
    intro n
    induction n with
    | zero => simp
    | succ n ih =>
      have hc1 : Commute (path l (2 * k - 1)) (L 0) := by
        rw [path_eq]
        exact Commute.symm (Commute.sum_right _ _ _ fun i _ => (pair_comm anti _ _ _).symm)
      rw [pow_succ, ← mul_assoc, ih, (hc1.neg_left.pow_left n).eq.symm, mul_assoc, hP, ← mul_assoc, (hc1.neg_left.pow_left n).eq, pow_succ,
        mul_assoc]
  rw [hc, neg_pow, path_pow (fun i j => anti _ _) (fun i => sq _), hk, prod_succ']
  have h1 : Commute ((-1 : E) ^ k) (L 0) := (Commute.one_left _).neg_left.pow_left k
  have h2 : Commute ((k.factorial : E)) (L 0) := Nat.cast_commute _ _
  rw [← mul_assoc, ← h1.eq, mul_assoc, ← mul_assoc (L 0), ← h2.eq]
  simp only [mul_assoc]
end cyclic

/-! ### the zig-zag -/

section zigzag
variable {p : Nat} {V : Type} [AddCommGroup V] [Module (ZMod p) V] {L : Nat → Module.End (ZMod p) V}
  {d t : Module.End (ZMod p) V}
  (hom : ∀ i, d * L i + L i * d = 1) (per : L p = L 0) (rot : ∀ i < p, t * L (i + 1) = L i * t)
  {B : V} (hB : d B = 0) (htB : t B = B)

section
include hom per hB

theorem d_omega_pow (k : Nat) : d ((omega p L ^ k) B) = 0 := by
  have h : Commute d (omega p L ^ k) := Commute.pow_right (d_omega hom per) k
  rw [← Module.End.mul_apply, h.eq, Module.End.mul_apply, hB, map_zero]

theorem d_odd (k : Nat) : d (L 0 ((omega p L ^ k) B)) = (omega p L ^ k) B := by
  have := congrArg (fun f : Module.End (ZMod p) V => f ((omega p L ^ k) B)) (hom 0)
  simp only [LinearMap.add_apply, Module.End.mul_apply, d_omega_pow hom per hB, map_zero, add_zero, Module.End.one_apply] at this
  exact this

theorem d_even (k : Nat) : d (L 0 (L (p - 1) ((omega p L ^ k) B))) = L (p - 1) ((omega p L ^ k) B) - L 0 ((omega p L ^ k) B) := by
  have h1 := congrArg (fun f : Module.End (ZMod p) V => f (L (p - 1) ((omega p L ^ k) B))) (hom 0)
  have h2 := congrArg (fun f : Module.End (ZMod p) V => f ((omega p L ^ k) B)) (hom (p - 1))
  simp only [LinearMap.add_apply, Module.End.mul_apply, d_omega_pow hom per hB, map_zero, add_zero, Module.End.one_apply] at h1 h2
  rw [h2] at h1
  exact eq_sub_of_add_eq h1
end

section
include per rot htB

theorem t_omega_pow (hp : 1 ≤ p) (k : Nat) : t ((omega p L ^ k) B) = (omega p L ^ k) B := by
  have h : Commute t (omega p L ^ k) := Commute.pow_right (t_omega per rot hp) k
  rw [← Module.End.mul_apply, h.eq, Module.End.mul_apply, htB]

theorem t_odd (hp : 1 ≤ p) (k : Nat) : (t - 1) (L 0 ((omega p L ^ k) B)) = L (p - 1) ((omega p L ^ k) B) - L 0 ((omega p L ^ k) B) := by
  rw [LinearMap.sub_apply, Module.End.one_apply, ← per, ← Module.End.mul_apply]
  have := rot (p - 1) (by omega)
  rw [show p - 1 + 1 = p by omega] at this
  rw [this, Module.End.mul_apply, t_omega_pow per rot htB hp]

theorem n_even (hp : 1 ≤ p) (k : Nat) : (∑ j ∈ Finset.range p, t ^ j) (L 0 (L (p - 1) ((omega p L ^ k) B))) = (omega p L ^ (k + 1)) B := by
  have h := congrArg (fun f : Module.End (ZMod p) V => f ((omega p L ^ k) B)) (sum_rot per rot)
  simp only [Module.End.mul_apply] at h
  rw [h, LinearMap.sum_apply, pow_succ', Module.End.mul_apply]
  generalize hz : (omega p L ^ k) B = z
  rw [← omega_reflect, LinearMap.sum_apply]
  refine Finset.sum_congr rfl fun j _ => ?_
  have hz' : t z = z := by rw [← hz]; exact t_omega_pow per rot htB hp k
  have : ∀ j, (t ^ j) z = z := by
    intro j
    induction j with
    | zero => rfl
    | succ j ih => rw [pow_succ, Module.End.mul_apply, hz', ih]
  rw [Module.End.mul_apply, this]
end

include hom per rot hB htB in
/-- The three elements of a double step: `d y = Ω^k B`, `N y = d z`, `T z = Ω^{k+1} B`. -/
theorem double_step (hp : p.Prime) (hcomm : Commute d t) (k : Nat) :
    d (L 0 ((omega p L ^ k) B)) = (omega p L ^ k) B ∧
    (∑ j ∈ Finset.range p, t ^ j) (L 0 ((omega p L ^ k) B)) =
      d (((t - 1) ^ (p - 2)) (L 0 (L (p - 1) ((omega p L ^ k) B)))) ∧
    (t - 1) (((t - 1) ^ (p - 2)) (L 0 (L (p - 1) ((omega p L ^ k) B)))) = (omega p L ^ (k + 1)) B := by
  have hp2 := hp.two_le
  refine ⟨d_odd hom per hB k, ?_, ?_⟩
  · have hc : Commute d ((t - 1) ^ (p - 2)) := Commute.pow_right (hcomm.sub_right (Commute.one_right _)) _
    have hc' : ∀ v, d (((t - 1) ^ (p - 2)) v) = ((t - 1) ^ (p - 2)) (d v) := fun v => by
      rw [← Module.End.mul_apply, hc.eq, Module.End.mul_apply]
    rw [hc', d_even hom per hB, ← norm_eq hp,
      ← t_odd per rot htB (by omega), show p - 1 = p - 2 + 1 by omega, pow_succ]
    rfl
  · rw [← Module.End.mul_apply, ← pow_succ', show p - 2 + 1 = p - 1 by omega, norm_eq hp, n_even per rot htB (by omega)]

end zigzag

end Comch.ZigZag
