import Verif.Model.Py

/-!
# Specification vocabulary for simplicial chains

Nothing here refers to the model; everything is elementary list arithmetic.
-/

namespace Comch.Spec

/-- Sum of an integer valued function over `0, …, n-1`. -/
def sumTo (n : Nat) (f : Nat → Int) : Int := ((List.range n).map f).sum

/-- Incidence number of two tensors of simplices.  Replacing the `j`-th factor of `k` by its `i`-th
face (vertex `i` deleted) contributes the sign `(-1)^(d + i)`, where `d` is the sum of the dimensions
of the factors in front of it, whenever the result is `m`. -/
def simplicialIncidence (k m : List (List Nat)) : Int :=
  sumTo k.length fun j =>
    sumTo (k.getD j []).length fun i =>
      if k.set j ((k.getD j []).eraseIdx i) = m then
        (-1) ^ (((k.take j).map fun s => s.length - 1).sum + i)
      else 0

end Comch.Spec

namespace Comch.Spec

/-- Gluing of pieces: consecutive pieces must share their end vertex, which is then written only
once.  `glue [(0,1),(1,2,5),(5)] = (0,1,2,5)`. -/
def glue {A : Type} [DecidableEq A] : List (List A) → Option (List A)
  | [] => none
  | [s] => some s
  | p :: q :: qs =>
    match glue (q :: qs) with
    | some (a :: w) => if p.getLast? = some a then some (p ++ w) else none
    | _ => none

/-- `m` arises from the tensor `k` by cutting its factor number `c` (counted from 1) into `t + 1`
consecutive pieces with common end vertices. -/
def isCutAt (k m : List (List Nat)) (c t : Nat) : Prop :=
  m.length = k.length + t ∧ m.take (c - 1) = k.take (c - 1) ∧ m.drop (c + t) = k.drop c ∧
    glue ((m.drop (c - 1)).take (t + 1)) = k[c - 1]?

instance (k m : List (List Nat)) (c t : Nat) : Decidable (isCutAt k m c t) :=
  inferInstanceAs (Decidable (_ ∧ _ ∧ _ ∧ _))

end Comch.Spec

namespace Comch.Spec

/-- Positions of the intervals (entries `2`) of a cube. -/
def intervalPositions (c : List Nat) : List Nat :=
  (List.range c.length).filter fun i => c.getD i 0 = 2

/-- Incidence number of two tensors of cubes.  Replacing the `i`-th interval (`i = 0, 1, …`) of the
`j`-th factor of `k` by its end point `1` contributes `(-1)^(d + i)`, replacing it by `0` contributes
the opposite sign, `d` being the number of intervals in the factors in front of it. -/
def cubicalIncidence (k m : List (List Nat)) : Int :=
  sumTo k.length fun j =>
    sumTo (intervalPositions (k.getD j [])).length fun i =>
      let d := ((k.take j).map fun c => (intervalPositions c).length).sum
      let pos := (intervalPositions (k.getD j [])).getD i 0
      (if k.set j ((k.getD j []).set pos 1) = m then (-1) ^ (d + i) else 0) -
        (if k.set j ((k.getD j []).set pos 0) = m then (-1) ^ (d + i) else 0)

end Comch.Spec

namespace Comch.Spec

/-- The entries number `i` of the cubes `L`. -/
def column (L : List (List Nat)) (i : Nat) : List Nat := L.map fun c => c.getD i 0

/-- The cubes `L` are one of the terms of the diagonal of the cube `q` with `t + 1` factors: an end
point of `q` is repeated in all factors; an interval of `q` becomes `0, …, 0, 2, 1, …, 1`. -/
def isSerreTerm (t : Nat) (q : List Nat) (L : List (List Nat)) : Prop :=
  L.length = t + 1 ∧ (∀ c ∈ L, c.length = q.length) ∧ ∀ i ∈ List.range q.length,
    if q.getD i 0 = 2 then
      ∃ f ∈ List.range (t + 1), column L i = List.replicate f 0 ++ 2 :: List.replicate (t - f) 1
    else column L i = List.replicate (t + 1) (q.getD i 0)

instance (t : Nat) (q : List Nat) (L : List (List Nat)) : Decidable (isSerreTerm t q L) := by
  unfold isSerreTerm; infer_instance

/-- For each interval of `q`, the number of the factor in which it stays an interval. -/
def serrePositions (q : List Nat) (L : List (List Nat)) : List Nat :=
  (intervalPositions q).map fun i => (column L i).idxOf 2

/-- `m` arises from the tensor of cubes `k` by replacing its factor number `c` (counted from 1) by a
term of the diagonal. -/
def isSerreTermAt (k m : List (List Nat)) (c t : Nat) : Prop :=
  m.length = k.length + t ∧ m.take (c - 1) = k.take (c - 1) ∧ m.drop (c + t) = k.drop c ∧
    isSerreTerm t (k.getD (c - 1) []) ((m.drop (c - 1)).take (t + 1))

instance (k m : List (List Nat)) (c t : Nat) : Decidable (isSerreTermAt k m c t) :=
  inferInstanceAs (Decidable (_ ∧ _ ∧ _ ∧ _))

end Comch.Spec

namespace Comch.Spec

/-- Position of the first end point `0` of a cube (its length, when there is none). -/
def firstZero (c : List Nat) : Nat := (c.takeWhile fun e => e ≠ 0).length

/-- The collapse of the cube onto the simplex: the positions of the intervals in front of the first
`0`, followed by the position of this `0`. -/
def collapse (c : List Nat) : List Nat :=
  (intervalPositions c).filter (fun i => i < firstZero c) ++ [firstZero c]

/-- The collapse keeps the dimension: there are no intervals behind the first `0`. -/
def collapseKeepsDim (c : List Nat) : Prop := ∀ i ∈ intervalPositions c, i < firstZero c

instance (c : List Nat) : Decidable (collapseKeepsDim c) := by unfold collapseKeepsDim; infer_instance

end Comch.Spec

namespace Comch.Spec

/-- The join of two end points of an interval: `0 * 1 = 1` and `1 * 0 = -1` (times the interval), all
other joins of entries are zero. -/
def endpointJoin (e f : Nat) : Int := if (e, f) = (0, 1) then 1 else if (e, f) = (1, 0) then -1 else 0

/-- The coefficient of the cube `m` in the join of the cubes `k`, which are joined one after the other.
The join of `a` and `b` is `(-1)^|a|` times the sum over the positions `i` of
`a_{<i} ε(b_{<i}) ⊗ (a_i * b_i) ⊗ ε(a_{>i}) b_{>i}`, where `ε` is `1` on a cube without intervals and `0`
otherwise. -/
def joinCoeff : List (List Nat) → List Nat → Int
  | [], _ => 0
  | [a], m => if a = m then 1 else 0
  | a :: b :: k, m => sumTo a.length fun i =>
      if 2 ∉ b.take i ∧ 2 ∉ a.drop (i + 1) then
        (-1) ^ a.count 2 * endpointJoin (a.getD i 0) (b.getD i 0) *
          joinCoeff ((a.take i ++ [2] ++ b.drop (i + 1)) :: k) m
      else 0
  termination_by k => k.length

/-- The coefficient of the tensor `m` in the alternating sum of the tensors obtained from `k` by
omitting one factor, a vertex of the cube. -/
def omitVertexCoeff (k m : List (List Nat)) : Int :=
  sumTo k.length fun i => if 2 ∉ k.getD i [] ∧ k.eraseIdx i = m then (-1) ^ i else 0

end Comch.Spec
