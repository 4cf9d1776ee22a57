import Mathlib.Algebra.BigOperators.NatAntidiagonal
import Mathlib.Algebra.BigOperators.Group.Finset.Basic
import Mathlib.Algebra.BigOperators.Group.Finset.Sigma
import Mathlib.Algebra.Group.Subgroup.Finite
import Mathlib.Tactic.Abel
import Mathlib.Tactic.Ring

/-! # The diagonal of the resolution of a cyclic group, in coordinates -/

namespace Comch
namespace OddP

variable {M : Type} [AddCommGroup M] {p : Nat}

/-- The differential of the resolution. -/
def st (p d : Nat) (F : Nat → M) (a : Nat) : M := if d % 2 = 0 then ∑ t ∈ Finset.range p, F (a + t) else F (a + 1) - F a

/-- The sum over `r < s < p`. -/
def tri (p : Nat) (y : Nat → Nat → M) : M := ∑ s ∈ Finset.range p, ∑ r ∈ Finset.range s, y r s

theorem tri1 (y : Nat → Nat → M) (n : Nat) :
    tri n (fun r s => y (r + 1) (s + 1)) - tri n y =
      ∑ r ∈ Finset.range n, y r n - y 0 n - ∑ s ∈ Finset.range n, y 0 s + y 0 0 := by
  induction n with
  | zero => simp [tri]
  | succ n ih =>
    have h : tri (n + 1) (fun r s => y (r + 1) (s + 1)) - tri (n + 1) y =
        (tri n (fun r s => y (r + 1) (s + 1)) - tri n y) +
          (∑ r ∈ Finset.range n, y (r + 1) (n + 1) - ∑ r ∈ Finset.range n, y r n) := by
      unfold tri
      rw [Finset.sum_range_succ, Finset.sum_range_succ]
      abel
    rw [h, ih, Finset.sum_range_succ' (fun r => y r (n + 1)), Finset.sum_range_succ (fun s => y 0 s)]
    abel

theorem tri2 (y : Nat → Nat → M) (n : Nat) :
    tri n (fun r s => y (r + 1) s) - tri n y = ∑ s ∈ Finset.range n, y s s - ∑ s ∈ Finset.range n, y 0 s := by
  unfold tri
  rw [← Finset.sum_sub_distrib, ← Finset.sum_sub_distrib]
  refine Finset.sum_congr rfl fun s _ => ?_
  rw [← Finset.sum_sub_distrib, Finset.sum_range_sub (fun r => y r s)]

theorem tri3 (y : Nat → Nat → M) (n : Nat) :
    tri n (fun r s => y r (s + 1)) - tri n y = ∑ r ∈ Finset.range n, y r n - ∑ r ∈ Finset.range n, y r (r + 1) := by
  induction n with
  | zero => simp [tri]
  | succ n ih =>
    have h : tri (n + 1) (fun r s => y r (s + 1)) - tri (n + 1) y =
        (tri n (fun r s => y r (s + 1)) - tri n y) +
          (∑ r ∈ Finset.range n, y r (n + 1) - ∑ r ∈ Finset.range n, y r n) := by
      unfold tri
      rw [Finset.sum_range_succ, Finset.sum_range_succ]
      abel
    rw [h, ih, Finset.sum_range_succ (fun r => y r (n + 1)), Finset.sum_range_succ (fun r => y r (r + 1))]
    abel

theorem tri_add (y z : Nat → Nat → M) (n : Nat) : tri n (fun r s => y r s + z r s) = tri n y + tri n z := by
  simp only [tri, Finset.sum_add_distrib]

theorem tri_sub (y z : Nat → Nat → M) (n : Nat) : tri n (fun r s => y r s - z r s) = tri n y - tri n z := by
  simp only [tri, Finset.sum_sub_distrib]

theorem tri_map {N : Type} [AddCommGroup N] (φ : M →+ N) (y : Nat → Nat → M) (n : Nat) : φ (tri n y) = tri n fun r s => φ (y r s) := by
  simp only [tri, map_sum]

abbrev Fam4 (M : Type) := Nat → Nat → Nat → Nat → M

open Finset.HasAntidiagonal (antidiagonal)

/-- The odd part of the diagonal in even degrees. -/
def oddPart (p : Nat) (x : Fam4 M) : Nat → M
  | 0 => 0
  | i + 1 => ∑ z ∈ antidiagonal i, tri p (x (2 * z.1 + 1) (2 * z.2 + 1))

def Ev (p : Nat) (x : Fam4 M) (i : Nat) : M := ∑ z ∈ antidiagonal i, x (2 * z.1) (2 * z.2) 0 0 + oddPart p x i

def Od (x : Fam4 M) (i : Nat) : M := ∑ z ∈ antidiagonal i, (x (2 * z.1) (2 * z.2 + 1) 0 0 + x (2 * z.1 + 1) (2 * z.2) 0 1)

/-- The diagonal in degree `d`. -/
def Dg (p : Nat) (x : Fam4 M) (d : Nat) : M := if d % 2 = 0 then Ev p x (d / 2) else Od x (d / 2)

/-- The differential in the first and in the second variable. -/
def dl (p : Nat) (x : Fam4 M) : Fam4 M
  | 0, _, _, _ => 0
  | j + 1, k, a, b => st p (j + 1) (fun a => x j k a b) a

def dr (p : Nat) (x : Fam4 M) : Fam4 M
  | _, 0, _, _ => 0
  | j, k + 1, a, b => st p (k + 1) (fun b => x j k a b) b

theorem dl_succ (x : Fam4 M) (j k a b : Nat) : dl p x (j + 1) k a b = st p (j + 1) (fun a => x j k a b) a := rfl

theorem dr_zero (x : Fam4 M) (j a b : Nat) : dr p x j 0 a b = 0 := by cases j <;> rfl

theorem dr_succ (x : Fam4 M) (j k a b : Nat) : dr p x j (k + 1) a b = st p (k + 1) (fun b => x j k a b) b := by cases j <;> rfl

theorem dl_zero (x : Fam4 M) (k a b : Nat) : dl p x 0 k a b = 0 := rfl

def dlr (p : Nat) (x : Fam4 M) : Fam4 M := fun j k a b => dl p x j k a b + if j % 2 = 0 then dr p x j k a b else - dr p x j k a b

/-- Move both variables. -/
def shf (t : Nat) (x : Fam4 M) : Fam4 M := fun j k a b => x j k (a + t) (b + t)

theorem Ev_zero (x : Fam4 M) : Ev p (dlr p x) 0 = 0 := by
  simp [Ev, oddPart, dlr, dl, dr]

theorem even_part (x : Fam4 M) (i : Nat) :
    ∑ z ∈ antidiagonal (i + 1), dlr p x (2 * z.1) (2 * z.2) 0 0 =
      ∑ z ∈ antidiagonal i, (∑ t ∈ Finset.range p, x (2 * z.1 + 1) (2 * z.2) t 0 + ∑ t ∈ Finset.range p, x (2 * z.1) (2 * z.2 + 1) 0 t) := by
  have h : ∀ z : Nat × Nat, dlr p x (2 * z.1) (2 * z.2) 0 0 = dl p x (2 * z.1) (2 * z.2) 0 0 + dr p x (2 * z.1) (2 * z.2) 0 0 := by
    intro z
    rw [dlr, if_pos (by omega)]
  rw [Finset.sum_congr rfl fun z _ => h z, Finset.sum_add_distrib, Finset.sum_add_distrib,
    Finset.Nat.sum_antidiagonal_succ (f := fun z : Nat × Nat => dl p x (2 * z.1) (2 * z.2) 0 0),
    Finset.Nat.sum_antidiagonal_succ' (f := fun z : Nat × Nat => dr p x (2 * z.1) (2 * z.2) 0 0)]
  congr 1
  · rw [show dl p x (2 * 0) (2 * (i + 1)) 0 0 = 0 by rw [Nat.mul_zero, dl], zero_add]
    refine Finset.sum_congr rfl fun z _ => ?_
    dsimp only
    rw [show 2 * (z.1 + 1) = 2 * z.1 + 1 + 1 by ring, dl, st, if_pos (by omega)]
    simp
  · rw [show dr p x (2 * (i + 1)) (2 * 0) 0 0 = 0 by rw [Nat.mul_zero, dr], zero_add]
    refine Finset.sum_congr rfl fun z _ => ?_
    dsimp only
    rw [show 2 * (z.2 + 1) = 2 * z.2 + 1 + 1 by ring, dr, st, if_pos (by omega)]
    simp

theorem odd_part (x : Fam4 M) (hb : ∀ j k a, x j k a p = x j k a 0) (j k : Nat) :
    tri p (dlr p x (2 * j + 1) (2 * k + 1)) =
      (∑ s ∈ Finset.range p, x (2 * j) (2 * k + 1) s s - ∑ s ∈ Finset.range p, x (2 * j) (2 * k + 1) 0 s) -
      (∑ s ∈ Finset.range p, x (2 * j + 1) (2 * k) s 0 - ∑ s ∈ Finset.range p, x (2 * j + 1) (2 * k) s (s + 1)) := by
  have h : dlr p x (2 * j + 1) (2 * k + 1) = fun a b => (x (2 * j) (2 * k + 1) (a + 1) b - x (2 * j) (2 * k + 1) a b) -
      (x (2 * j + 1) (2 * k) a (b + 1) - x (2 * j + 1) (2 * k) a b) := by
    funext a b
    rw [dlr, if_neg (by omega), dl, dr, st, st, if_neg (by omega), if_neg (by omega), sub_eq_add_neg (_ - _) (_ - _)]
  rw [h, tri_sub (fun a b => x (2 * j) (2 * k + 1) (a + 1) b - x (2 * j) (2 * k + 1) a b), tri_sub (fun a b => x (2 * j) (2 * k + 1) (a + 1) b),
    tri_sub (fun a b => x (2 * j + 1) (2 * k) a (b + 1)), tri2, tri3]
  simp only [hb]

/-- The differential of the diagonal in even degrees. -/
theorem Ev_dlr (x : Fam4 M) (hb : ∀ j k a, x j k a p = x j k a 0) (i : Nat) :
    Ev p (dlr p x) (i + 1) = ∑ t ∈ Finset.range p, Od (shf t x) i := by
  have e : ∑ z ∈ antidiagonal i, tri p (dlr p x (2 * z.1 + 1) (2 * z.2 + 1)) = _ :=
    Finset.sum_congr rfl fun z _ => odd_part x hb z.1 z.2
  rw [Ev, even_part, oddPart, e, ← Finset.sum_add_distrib]
  unfold Od
  rw [Finset.sum_comm]
  refine Finset.sum_congr rfl fun z _ => ?_
  simp only [shf, Finset.sum_add_distrib, zero_add, Nat.add_comm 1]
  abel

/-- The differential of the diagonal in odd degrees. -/
theorem Od_dlr (x : Fam4 M) (hb : ∀ j k a, x j k a p = x j k a 0) (i : Nat) :
    Od (dlr p x) i = Ev p (shf 1 x) i - Ev p x i := by
  have h1 : ∀ z : Nat × Nat, dlr p x (2 * z.1) (2 * z.2 + 1) 0 0 + dlr p x (2 * z.1 + 1) (2 * z.2) 0 1 =
      (dl p x (2 * z.1) (2 * z.2 + 1) 0 0 - dr p x (2 * z.1 + 1) (2 * z.2) 0 1) + (x (2 * z.1) (2 * z.2) 1 1 - x (2 * z.1) (2 * z.2) 0 0) := by
    intro z
    rw [dlr, dlr, if_pos (by omega), if_neg (by omega), dl_succ x (2 * z.1), dr_succ x _ (2 * z.2), st, st, if_neg (by omega), if_neg (by omega)]
    simp only [zero_add]
    abel
  have h2 : ∑ z ∈ antidiagonal i, (dl p x (2 * z.1) (2 * z.2 + 1) 0 0 - dr p x (2 * z.1 + 1) (2 * z.2) 0 1) =
      oddPart p (shf 1 x) i - oddPart p x i := by
    cases i with
    | zero => simp [oddPart, dl, dr]
    | succ i =>
      rw [Finset.sum_sub_distrib, Finset.Nat.sum_antidiagonal_succ (f := fun z : Nat × Nat => dl p x (2 * z.1) (2 * z.2 + 1) 0 0),
        Finset.Nat.sum_antidiagonal_succ' (f := fun z : Nat × Nat => dr p x (2 * z.1 + 1) (2 * z.2) 0 1), oddPart, oddPart,
        ← Finset.sum_sub_distrib (s := antidiagonal i), Nat.mul_zero, dl_zero, dr_zero, zero_add, zero_add, ← Finset.sum_sub_distrib]
      refine Finset.sum_congr rfl fun z _ => ?_
      have e := tri1 (x (2 * z.1 + 1) (2 * z.2 + 1)) p
      have e' : shf 1 x (2 * z.1 + 1) (2 * z.2 + 1) = fun r s => x (2 * z.1 + 1) (2 * z.2 + 1) (r + 1) (s + 1) := rfl
      have es : ∀ F : Nat → M, F p = F 0 → ∑ t ∈ Finset.range p, F (1 + t) = ∑ t ∈ Finset.range p, F t := by
        intro F hF
        have := (Finset.sum_range_succ F p).symm.trans (Finset.sum_range_succ' F p)
        rw [hF] at this
        rw [add_right_cancel this]
        simp only [Nat.add_comm 1]
      rw [e', e]
      dsimp only
      rw [show 2 * (z.1 + 1) = 2 * z.1 + 1 + 1 by ring, show 2 * (z.2 + 1) = 2 * z.2 + 1 + 1 by ring, dl_succ, dr_succ, st, st, if_pos (by omega),
        if_pos (by omega), es (fun b => x (2 * z.1 + 1) (2 * z.2 + 1) 0 b) (hb _ _ _)]
      simp only [zero_add, hb]
      abel
  rw [Od, Finset.sum_congr rfl fun z _ => h1 z, Finset.sum_add_distrib, h2, Ev, Ev, Finset.sum_sub_distrib]
  simp only [shf, zero_add]
  abel

/-- The differential of the diagonal. -/
theorem Dg_dlr (x : Fam4 M) (hb : ∀ j k a, x j k a p = x j k a 0) (d : Nat) :
    Dg p (dlr p x) (d + 1) = if (d + 1) % 2 = 0 then ∑ t ∈ Finset.range p, Dg p (shf t x) d else Dg p (shf 1 x) d - Dg p x d := by
  unfold Dg
  by_cases h : d % 2 = 0
  · simp only [if_pos h]
    rw [if_neg (by omega), if_neg (by omega), show (d + 1) / 2 = d / 2 by omega, Od_dlr x hb]
  · simp only [if_neg h]
    rw [if_pos (by omega), if_pos (by omega), show (d + 1) / 2 = d / 2 + 1 by omega, Ev_dlr x hb]

theorem Dg_zero (x : Fam4 M) : Dg p (dlr p x) 0 = 0 := Ev_zero x

theorem Dg_map {N : Type} [AddCommGroup N] (φ : M →+ N) (x : Fam4 M) (d : Nat) :
    φ (Dg p x d) = Dg p (fun j k a b => φ (x j k a b)) d := by
  have ho : ∀ i, φ (oddPart p x i) = oddPart p (fun j k a b => φ (x j k a b)) i := by
    intro i
    cases i with
    | zero => simp [oddPart]
    | succ i => rw [oddPart, oddPart, map_sum]; exact Finset.sum_congr rfl fun z _ => tri_map φ _ _
  unfold Dg Ev Od
  split
  · rw [map_add, map_sum, ho]
  · rw [map_sum]; exact Finset.sum_congr rfl fun z _ => map_add φ _ _

theorem Dg_add (x y : Fam4 M) (d : Nat) : Dg p (fun j k a b => x j k a b + y j k a b) d = Dg p x d + Dg p y d := by
  have ho : ∀ i, oddPart p (fun j k a b => x j k a b + y j k a b) i = oddPart p x i + oddPart p y i := by
    intro i
    cases i with
    | zero => simp [oddPart]
    | succ i => simp only [oddPart]; rw [← Finset.sum_add_distrib]; exact Finset.sum_congr rfl fun z _ => tri_add _ _ _
  unfold Dg Ev Od
  split
  · rw [ho, Finset.sum_add_distrib]; abel
  · rw [← Finset.sum_add_distrib]; exact Finset.sum_congr rfl fun z _ => add_add_add_comm _ _ _ _

/-- Only the terms of degree `d` matter. -/
theorem Dg_congr {x y : Fam4 M} {d : Nat} (h : ∀ j k a b, j + k = d → x j k a b = y j k a b) : Dg p x d = Dg p y d := by
  unfold Dg
  split
  · rename_i hd
    unfold Ev
    congr 1
    · refine Finset.sum_congr rfl fun z hz => h _ _ _ _ ?_
      have := Finset.mem_antidiagonal.1 hz
      omega
    · match hi : d / 2 with
      | 0 => rfl
      | i + 1 =>
        refine Finset.sum_congr rfl fun z hz => Finset.sum_congr rfl fun s _ => Finset.sum_congr rfl fun r _ => h _ _ _ _ ?_
        have := Finset.mem_antidiagonal.1 hz
        omega
  · rename_i hd
    refine Finset.sum_congr rfl fun z hz => ?_
    have := Finset.mem_antidiagonal.1 hz
    rw [h _ _ _ _ (by omega), h (2 * z.1 + 1) _ _ _ (by omega)]

theorem Dg_mem (s : AddSubgroup M) {x : Fam4 M} {d : Nat} (h : ∀ j k a b, j + k = d → x j k a b ∈ s) :
    Dg p x d ∈ s := by
  unfold Dg
  split
  · rename_i hd
    unfold Ev
    refine add_mem (sum_mem fun z hz => h _ _ _ _ ?_) ?_
    · have := Finset.mem_antidiagonal.1 hz
      omega
    · match hi : d / 2 with
      | 0 => exact zero_mem s
      | i + 1 =>
        refine sum_mem fun z hz => sum_mem fun _ _ => sum_mem fun r _ => h _ _ _ _ ?_
        have := Finset.mem_antidiagonal.1 hz
        omega
  · rename_i hd
    refine sum_mem fun z hz => ?_
    have := Finset.mem_antidiagonal.1 hz
    exact add_mem (h _ _ _ _ (by omega)) (h _ _ _ _ (by omega))

end OddP
end Comch
