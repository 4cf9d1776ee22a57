import Verif.Model.Simplicial

/-!
# Model of `comch/cubical/cubical.py`

A `Cube` is a tuple with entries 0, 1, 2 (`List Nat`), 2 standing for the interval.
-/

namespace Comch

/-- A `Cube`. -/
abbrev Cube := List Nat

namespace Cube

/-- `dimension` (cubical.py:54). -/
def dimension (c : Cube) : Nat := c.count 2

/-- `intervals` (cubical.py:73). -/
def intervals (c : Cube) : List Nat :=
  ((enumerate c).filter fun p => p.2 == 2).map Prod.fst

/-- `face(i, epsilon)` (cubical.py:91-93). -/
def face (c : Cube) (i epsilon : Nat) : Py Cube := do
  let idx ← pyGet c.intervals i
  .ok (c.take idx ++ [(epsilon + 1) % 2] ++ c.drop (idx + 1))

/-- `cartan_serre_map()` (cubical.py:114-119). -/
def cartanSerre (c : Cube) : Simplex :=
  let end_ := if c.contains 0 then c.idxOf 0 else c.length
  (c.intervals.filter fun i => i < end_) ++ [end_]

end Cube

/-- Basis elements of `CubicalElement`: tuples of cubes. -/
abbrev CKey := List Cube

/-- The class `CubicalElement` (its `preferred_rep` is inherited). -/
def cubical : Cls CKey := { drops := fun _ => false }

/-- A `CubicalElement`. -/
abbrev CElem := Elem CKey

namespace CElem

/-- `arity` (cubical.py:247-250). -/
def arity (x : CElem) : Option Nat :=
  uniqueValue (x.data.map fun p => p.1.length)

/-- Sum of the dimensions of the factors of a key. -/
def keyDegree (k : CKey) : Nat := (k.map Cube.dimension).sum

/-- `degree` (cubical.py:272-275). -/
def degree (x : CElem) : Option Nat :=
  uniqueValue (x.data.map fun p => keyDegree p.1)

/-- The summands produced by `boundary` for one item (cubical.py:297-304). -/
def boundaryEvents (k : CKey) (v : Int) : Py (List (CKey × Int)) := do
  let ls ← (enumerate k).mapM fun (idx, cube) => do
    let accDim := keyDegree (k.take idx)
    (pyProduct (List.range cube.dimension) [0, 1]).mapM fun ((i, epsilon) : Nat × Nat) => do
      let newCube ← cube.face i epsilon
      .ok (k.take idx ++ [newCube] ++ k.drop (idx + 1),
        v * pySign ((accDim + i + epsilon : Nat) : Int))
  .ok ls.flatten

/-- `boundary` (cubical.py:295-305). -/
def boundary (x : CElem) : Py CElem := do
  let events ← x.data.mapM fun (k, v) => boundaryEvents k v
  .ok (Elem.accumulate cubical (x.zero cubical) events.flatten)

/-- `__rmul__` by a `SymmetricRingElement` (cubical.py:334-364). -/
def rmul (other : RingElem) (x : CElem) : Py CElem :=
  if x.torsion ≠ other.torsion then .error .typeError
  else if x.arity ≠ other.arity then .error .typeError
  else do
    let events ← (pyProduct x.data other.data).mapM fun (p, q) => do
      let newKey ← permuteFactors q.1 p.1
      let e ← koszulExp q.1 (p.1.map fun c => (c.dimension : Int) % 2)
      .ok (newKey, pySign e * p.2 * q.2)
    .ok (Elem.accumulate cubical (x.zero cubical) events)

/-- `sign(p)` of `iterated_diagonal` (cubical.py:410-414). -/
def reversedPairsSign (p : List Nat) : Int :=
  pySign (((combinations p 2).filter fun ab =>
    match ab with
    | [a, b] => a > b
    | _ => false).length : Int)

/-- `elementary_summand(fixed, i)` (cubical.py:416-424). -/
def elementarySummand (fixed i : Nat) : Nat :=
  if i < fixed then 0 else if i = fixed then 2 else 1

/-- `base = [i for idx, i in enumerate(cube) if idx not in intervals]` (cubical.py:435). -/
def base (cube : Cube) : List Nat :=
  ((enumerate cube).filter fun p => !cube.intervals.contains p.1).map Prod.snd

/-- `list.insert(at, x)`: inserts before position `at` (at the end when `at` exceeds the length). -/
def listInsert (l : List Nat) (at_ x : Nat) : List Nat := l.take at_ ++ [x] ++ l.drop at_

/-- Body of the loop over `p` (cubical.py:437-443): builds the `times + 1` cubes. -/
def multibase (times : Nat) (cube : Cube) (p : List Nat) : Py (List Cube) :=
  (enumerate p).foldlM (fun (mb : List (List Nat)) (idx, fixed) => do
      let at_ ← pyGet cube.intervals idx
      .ok ((enumerate mb).map fun (i, newBase) =>
        listInsert newBase at_ (elementarySummand fixed i)))
    (List.replicate (times + 1) (base cube))

/-- Summands of `iterated_diagonal` for one item (cubical.py:433-444). `coord ≥ 1`, as for
simplices. -/
def diagonalEvents (times coord : Nat) (k : CKey) (v : Int) : Py (List (CKey × Int)) :=
  let left := k.take (coord - 1)
  let cube := (k[coord - 1]?).getD []
  let right := k.drop coord
  (productRepeat (List.range (times + 1)) (cube.count 2)).mapM fun p => do
    let newK ← multibase times cube p
    .ok (left ++ newK ++ right, v * reversedPairsSign p)

/-- `iterated_diagonal` (cubical.py:426-445). -/
def iteratedDiagonal (x : CElem) (times : Nat := 1) (coord : Nat := 1) : Py CElem :=
  match x.degree, x.arity with
  | none, _ => .error .typeError
  | _, none => .error .typeError
  | some _, some a =>
    if a < coord then .error .typeError
    else do
      let events ← x.data.mapM fun (k, v) => diagonalEvents times coord k v
      .ok (Elem.accumulate cubical (x.zero cubical) events.flatten)

/-- `is_zero(cube1.intervals, i)` (cubical.py:496-505). -/
def isZeroLeft (left : List Nat) (right : Nat) : Bool :=
  if left = [] then false else right ≤ pyMax left

/-- `min(l)` of a non-empty tuple. -/
def pyMin (l : List Nat) : Nat := l.foldr min (l.headD 0)

/-- `is_zero(i, cube2.intervals)` (cubical.py:496-507). -/
def isZeroRight (left : Nat) (right : List Nat) : Bool :=
  if right = [] then false else left ≥ pyMin right

/-- `_join(i, cube1, cube2, sign_exp)` (cubical.py:509-519); `none` models `(None, None)`. -/
def joinStep (i : Nat) (cube1 cube2 : Cube) (signExp : Nat) : Py (Option (Cube × Nat)) := do
  let signExp := signExp + cube1.dimension
  let cube := cube1.take i ++ [2] ++ cube2.drop (i + 1)
  let p ← pyGet cube1 i
  let q ← pyGet cube2 i
  if p = 0 ∧ q = 1 then .ok (some (cube, signExp % 2))
  else if p = 1 ∧ q = 0 then .ok (some (cube, (1 + signExp) % 2))
  else .ok none

/-- The inner `for i, next_cube in zip(indices, k[1:])` (cubical.py:540-544). -/
def joinLoop : List (Nat × Cube) → Cube → Nat → Py (Option (Cube × Nat))
  | [], cube, signExp => .ok (some (cube, signExp))
  | (i, nextCube) :: rest, cube, signExp => do
    match ← joinStep i cube nextCube signExp with
    | none => .ok none
    | some (cube', signExp') => joinLoop rest cube' signExp'

/-- Summands of `join` for one item (cubical.py:529-546); `arity` is `self.arity`.  Every key
has `arity` factors, and `arity = 0` makes `combinations(…, -1)` raise `ValueError` (after `k[0]`
has raised `IndexError`, in fact). -/
def joinEvents (arity : Nat) (k : CKey) (v : Int) : Py (List (CKey × Int)) := do
  match k with
  | [] => .error .indexError
  | k0 :: _ =>
    let ls ← (combinations (List.range k0.length) (arity - 1)).mapM fun indices => do
      let skip := (indices.zip (pairwise k)).any fun (i, cube1, cube2) =>
        isZeroLeft cube1.intervals i || isZeroRight i cube2.intervals
      if skip then .ok []
      else
        match ← joinLoop (indices.zip k.tail) k0 0 with
        | none => .ok []
        | some (cube, signExp) => .ok [([cube], (-1) ^ signExp * v)]
    .ok ls.flatten

/-- `join` (cubical.py:521-547). -/
def join (x : CElem) : Py CElem :=
  if !x.truthy then .ok x
  else match x.degree, x.arity with
    | none, _ => .error .typeError
    | _, none => .error .typeError
    | some _, some a => do
      let events ← x.data.mapM fun (k, v) => joinEvents a k v
      .ok (Elem.accumulate cubical (x.zero cubical) events.flatten)

/-- `cartan_serre_map` (cubical.py:566-575). -/
def cartanSerreMap (x : CElem) : SElem :=
  let answer := Elem.new simplicial [] (some x.torsion)
  if Elem.pyEq x (x.zero cubical) then answer
  else Elem.accumulate simplicial answer
    (x.data.filterMap fun (k, v) =>
      let newK := k.map Cube.cartanSerre
      if (keyDegree k : Int) = SElem.keyDegree newK then some (newK, v) else none)

end CElem

namespace Cubical

/-- `Cubical.standard_element(n, times, torsion)` (cubical.py:599-600). -/
def standardElement (n : Int) (times : Nat := 1) (torsion : Option Nat := none) : CElem :=
  Elem.new cubical [(List.replicate times (List.replicate n.toNat 2), 1)] torsion

/-- `Cubical.basis(n, torsion)` (cubical.py:619-620).  `product({0, 1, 2}, …)` iterates over a set
of small ints, in CPython in increasing order. -/
def basis (n : Nat) (torsion : Option Nat := none) : List CElem :=
  (productRepeat [0, 1, 2] n).map fun b => Elem.new cubical [([b], 1)] torsion

end Cubical

end Comch
