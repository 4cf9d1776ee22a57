import Verif.Model.Py
import Mathlib.Data.List.Defs
import Mathlib.Data.List.Sort
import Mathlib.Order.Defs.LinearOrder

/-!
# Model of `comch/utils/utils.py`
(`pairwise` is in `Verif/Model/Py.lean`.)
-/

namespace Comch

/-- `unordered_partitions(n, k, r, m)` (utils.py:16-23).  In Python `n - i` may become negative; a
negative `n` yields nothing because then `r = i > 0 > n`, which is the guard `i ≤ n` here.  For
`k = 0` Python recurses without end (or yields nothing when the range is empty); `k ≥ 1` is the
documented use ("the length of partitions"), the model yields nothing. -/
def unorderedPartitions : (n k r m : Nat) → List (List Nat)
  | _, 0, _, _ => []
  | n, 1, r, m => if r ≤ n ∧ n ≤ m then [[n]] else []
  | n, k + 2, r, m => (pyRange r (m + 1)).flatMap fun i =>
      if i ≤ n then (unorderedPartitions (n - i) (k + 1) i m).map (i :: ·) else []

/-- `partitions(n, k, smallest_value, largest_value, ordered)` (utils.py:13-29), as the list of
what the returned iterator yields.  With `ordered=True` each partition is replaced by
`set(permutations(p))`; the iteration order of a set is unspecified, the model lists the distinct
permutations in one particular order. -/
def partitions (n k : Nat) (smallest : Nat := 1) (largest : Option Nat := none)
    (ordered : Bool := false) : List (List Nat) :=
  let m := largest.getD n
  if ordered then (unorderedPartitions n k smallest m).flatMap fun p => (permutations p).dedup
  else unorderedPartitions n k smallest m

/-- `tuple(accumulate(l, add))`, running sums starting from `acc`. -/
def runningSums (acc : Nat) : List Nat → List Nat
  | [] => []
  | a :: l => (acc + a) :: runningSums (acc + a) l

/-- `decompositions(x, k)` for an int `x` (utils.py:42-47). -/
def decompositionsInt (x k : Nat) : List (List (Nat × Nat)) :=
  (partitions (x + k) (k + 1) 1 none true).map fun part =>
    let indices := runningSums 0 ([0] ++ part.map (· - 1))
    (pairwise indices).map fun (i, j) => (i, j + 1)

/-- `decompositions(x, k)` for a sequence `x` (utils.py:49-50). -/
def decompositions {α : Type} (x : List α) (k : Nat) : List (List (List α)) :=
  (decompositionsInt x.length k).map fun pairs => pairs.map fun (a, b) => slice x a b

section DistinctPermutations
variable {α : Type} [LinearOrder α]

/-- `for i in range(size - 2, -1, -1): if A[i] < A[i + 1]: break` (utils.py:82-84): the largest
`i < bound` with `A[i] < A[i+1]`, scanning downwards. -/
def findAscent (A : List α) : Nat → Option Nat
  | 0 => none
  | b + 1 => match A[b]?, A[b + 1]? with
    | some x, some y => if x < y then some b else findAscent A b
    | _, _ => findAscent A b

/-- `for j in range(size - 1, i, -1): if A[i] < A[j]: break` (utils.py:90-92): scanning `j`
downwards; `steps` is the number of candidates left (`j = i + steps`).  If no break occurs `j`
keeps its last value `i + 1`. -/
def findLarger (A : List α) (i : Nat) : Nat → Nat
  | 0 => i + 1
  | s + 1 => match A[i]?, A[i + 1 + s]? with
    | some x, some y => if x < y then i + 1 + s else findLarger A i s
    | _, _ => findLarger A i s

/-- `A[i], A[j] = A[j], A[i]`. -/
def swapAt (A : List α) (i j : Nat) : List α :=
  match A[i]?, A[j]? with
  | some x, some y => (A.set i y).set j x
  | _, _ => A

/-- One round of the `while True` loop of `_full` (utils.py:82-97): `none` for `return`.
`A[i + 1:] = A[: i - size: -1]` reverses the tail after position `i`. -/
def nextPermutation (A : List α) : Option (List α) :=
  match findAscent A (A.length - 1) with
  | none => none
  | some i =>
    let j := findLarger A i (A.length - 1 - i)
    let B := swapAt A i j
    some (B.take (i + 1) ++ (B.drop (i + 1)).reverse)

/-- The generator `_full` (utils.py:76-97): the values yielded during the first `fuel` rounds. -/
def fullLoop : Nat → List α → List (List α)
  | 0, _ => []
  | fuel + 1, A => A :: match nextPermutation A with
    | none => []
    | some B => fullLoop fuel B

/-- `for i in right_head_indexes: if head[i] < pivot: break; pivot = head[i]` (utils.py:112-116),
scanning downwards from `bound - 1`; `none` when the loop ends without `break`. -/
def findPivot (head : List α) (pivot : α) : Nat → Option Nat
  | 0 => none
  | b + 1 => match head[b]? with
    | some x => if x < pivot then some b else findPivot head x b
    | none => findPivot head pivot b

/-- `for j in left_tail_indexes: if tail[j] > head[i]: ... break` (utils.py:122-125): the first such
position counting from `start`. -/
def findInTail (x : α) (start : Nat) : List α → Option Nat
  | [] => none
  | t :: ts => if t > x then some start else findInTail x (start + 1) ts

/-- `for j in right_head_indexes: if head[j] > head[i]: ... break` (utils.py:129-132), scanning
downwards from `bound - 1`. -/
def findInHead (head : List α) (x : α) : Nat → Option Nat
  | 0 => none
  | b + 1 => match head[b]? with
    | some y => if y > x then some b else findInHead head x b
    | none => findInHead head x b

/-- The swap of `head[i]` with an entry of the tail or of the head (utils.py:122-132). -/
def partialSwap (head tail : List α) (i : Nat) (x : α) : List α × List α :=
  match findInTail x 0 tail with
  | some j => (head.set i (tail.getD j x), tail.set j x)
  | none => match findInHead head x head.length with
    | some j => (swapAt head i j, tail)
    | none => (head, tail)

/-- One round of the `while True` loop of `_partial` (utils.py:112-137): `none` for `return`.
`tail += head[: i - r: -1]` appends the reversed `head[i + 1:]`. The case of an empty `tail`, where
`tail[-1]` would raise, does not arise since `_partial` is called with `r < size` only; the model
stops there. -/
def partialStep (head tail : List α) : Option (List α × List α) :=
  match tail.getLast? with
  | none => none
  | some pivot => match findPivot head pivot head.length with
    | none => none
    | some i => match head[i]? with
      | none => none
      | some x =>
        let (head', tail') := partialSwap head tail i x
        let tail'' := tail' ++ (head'.drop (i + 1)).reverse
        some (head'.take (i + 1) ++ tail''.take (head.length - (i + 1)),
          tail''.drop (head.length - (i + 1)))

/-- The generator `_partial` (utils.py:100-137): the values yielded during the first `fuel` rounds. -/
def partialLoop : Nat → List α → List α → List (List α)
  | 0, _, _ => []
  | fuel + 1, head, tail => head :: match partialStep head tail with
    | none => []
    | some (head', tail') => partialLoop fuel head' tail'

/-- `distinct_permutations(iterable, r)` (utils.py:139-148): sorts, then `_full` when `r == size`,
`_partial` when `0 < r < size`, else the empty tuple for `r == 0` and nothing for other `r`.
`fuel` bounds the number of values taken from the generator. -/
def distinctPermutations (fuel : Nat) (l : List α) (r : Option Int := none) : List (List α) :=
  let items := l.insertionSort (· ≤ ·)
  let size := items.length
  let r := r.getD size
  if 0 < r ∧ r ≤ size then
    if r = size then fullLoop fuel items
    else partialLoop fuel (items.take r.toNat) (items.drop r.toNat)
  else if r = 0 then [[]].take fuel else []

end DistinctPermutations

end Comch
