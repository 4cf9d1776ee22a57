import Verif.Spec.Perm

/-! # Specification vocabulary for the structure elements of the cyclic groups -/

namespace Comch.Spec

/-- The rotation `i ↦ i + e` of `1, …, r`, modulo `r`. -/
def rotation (r e : Nat) : List Nat := (List.range r).map fun i => (i + e) % r + 1

/-- All sequences of `d` increments, alternately equal to 1 and arbitrary between 1 and `r - 1`, the last of them
equal to 1: `1, k_1, 1, k_2, …, 1` for odd `d` and `k_1, 1, k_2, 1, …, 1` for even `d`. -/
def increments (r : Nat) : Nat → List (List Nat)
  | 0 => [[]]
  | d + 1 =>
    if d % 2 = 0 then (increments r d).map (1 :: ·)
    else (List.range' 1 (r - 1)).flatMap fun k => (increments r d).map (k :: ·)

/-- The rotations by `e`, `e + k_1`, `e + k_1 + k_2`, …. -/
def rotations (r : Nat) : Nat → List Nat → List (List Nat)
  | e, [] => [rotation r e]
  | e, k :: l => rotation r e :: rotations r (e + k) l

end Comch.Spec
