import Verif.Model.Cubical
import Mathlib.Data.List.Sort

/-!
# Model of `comch/surjection/surjection.py`

A basis element of `SurjectionElement` is a tuple of positive ints `(s(1), …, s(r+d))`, modelled as
a `List Nat`.
-/

namespace Comch

/-- Basis elements of `SurjectionElement`. -/
abbrev Surj := List Nat

namespace Surj

/-- `set(k) != set(range(1, max(k) + 1))` (surjection.py:744), negated. -/
def isOnto (k : Surj) : Bool :=
  k.all (fun i => (pyRange 1 (pyMax k + 1)).contains i) &&
    (pyRange 1 (pyMax k + 1)).all (fun i => k.contains i)

/-- `k[i] == k[i + 1]` for some `i` (surjection.py:749-750). -/
def hasRepeat (k : Surj) : Bool := (pairwise k).any fun ij => ij.1 == ij.2

/-- Keys removed by `preferred_rep` (surjection.py:742-752): not a surjection onto `1..max`, or
equal consecutive values.  On the empty tuple `max` raises `ValueError` in Python, see
`SurjElem.new?`; in the model of the other operations it counts as removed. -/
def drops (k : Surj) : Bool := k.isEmpty || !k.isOnto || k.hasRepeat

end Surj

/-- The class `SurjectionElement`. -/
def surjection : Cls Surj := { drops := Surj.drops }

/-- A `SurjectionElement`. -/
abbrev SurjElem := Elem Surj

/-- `representation` argument of the `orbit` methods. -/
inductive Representation
  | trivial | sign
deriving DecidableEq, Repr

namespace SurjElem

/-- `SurjectionElement(data, torsion, convention)` (surjection.py:80-83): `max(k)` in
`preferred_rep` raises `ValueError` when a key is the empty tuple. -/
def new? (data : Dict Surj) (torsion : Option Nat := none)
    (convention : Convention := .bergerFresse) : Py SurjElem :=
  if data.any fun p => p.1.isEmpty then .error .valueError
  else .ok (Elem.new surjection data torsion convention)

/-- `arity` (surjection.py:107-112). -/
def arity (x : SurjElem) : Option Nat := uniqueValue (x.data.map fun p => pyMax p.1)

/-- `len(surj) - max(surj)`. -/
def keyDegree (k : Surj) : Int := (k.length : Int) - (pyMax k : Int)

/-- `degree` (surjection.py:132-137). -/
def degree (x : SurjElem) : Option Int := uniqueValue (x.data.map fun p => keyDegree p.1)

/-- `len([p for p, q in pairwise(seq) if p != q])` for the subsequence of `k` with values `i`, `j`
(surjection.py:169-170 and 193-194). -/
def binaryComplexity (k : Surj) (i j : Nat) : Nat :=
  ((pairwise (k.filter fun x => x == i || x == j)).filter fun pq => pq.1 != pq.2).length

/-- `combinations(range(1, max(k) + 1), 2)` as pairs. -/
def pairsUpTo (m : Nat) : List (Nat × Nat) :=
  (combinations (pyRange 1 (m + 1)) 2).filterMap fun l => match l with
    | [i, j] => some (i, j)
    | _ => none

/-- `complexity` (surjection.py:166-172). -/
def complexity (x : SurjElem) : Nat :=
  x.data.foldl (fun c p => (pairsUpTo (pyMax p.1)).foldl
    (fun c ij => max (binaryComplexity p.1 ij.1 ij.2) c) c) 0

/-- `filtration` (surjection.py:189-197). -/
def filtration (x : SurjElem) : Nat :=
  x.data.foldl (fun f p => max f
    ((pairsUpTo (pyMax p.1)).map fun ij => binaryComplexity p.1 ij.1 ij.2).sum) 0

/-! ### boundary -/

/-- Loop computing the dict `signs` in the Berger-Fresse convention (surjection.py:239-249).
`signs` is indexed by `idx`; `alt` is `alternating_sign`. -/
def bfSignsLoop (k : Surj) : List (Nat × Nat) → List Int → Int → List Int
  | [], signs, _ => signs
  | (idx, i) :: rest, signs, alt =>
    if (k.drop (idx + 1)).contains i then bfSignsLoop k rest (signs ++ [alt]) (alt * (-1))
    else if (k.take idx).contains i then
      let occurs := ((enumerate (k.take idx)).filter fun p => i == p.2).map Prod.fst
      bfSignsLoop k rest (signs ++ [(signs[pyMax occurs]?).getD 0 * (-1)]) alt
    else bfSignsLoop k rest (signs ++ [0]) alt

/-- `signs`. -/
def bfSigns (k : Surj) : List Int := bfSignsLoop k (enumerate k) [] 1

/-- Summands of `boundary` for one item, Berger-Fresse (surjection.py:251-254). -/
def bfBoundaryEvents (k : Surj) (v : Int) : List (Surj × Int) :=
  (List.range k.length).filterMap fun idx =>
    let summand := removeAt k idx
    if summand.contains ((k[idx]?).getD 0) then some (summand, ((bfSigns k)[idx]?).getD 0 * v)
    else none

/-- Inner loop over the occurrences of one value (surjection.py:259-263). Returns the summands and
the new value of the variable `sign`. -/
def msInner (k : Surj) (v : Int) : List Nat → Int → List (Surj × Int) × Int
  | [], sign => ([], sign)
  | idx :: rest, sign =>
    let newK := removeAt k idx
    let (ev, s) := msInner k v rest (sign * (-1))
    if newK.contains ((k[idx]?).getD 0) then ((newK, v * sign) :: ev, s) else (ev, s)

/-- Outer loop over the values `i` (surjection.py:258-264). -/
def msOuter (k : Surj) (v : Int) : List Nat → Int → List (Surj × Int)
  | [], _ => []
  | i :: rest, sign =>
    let occ := ((enumerate k).filter fun p => p.2 == i).map Prod.fst
    let (ev, s) := msInner k v occ sign
    ev ++ msOuter k v rest (s * (-1))

/-- Summands of `boundary` for one item, McClure-Smith (surjection.py:257-264). -/
def msBoundaryEvents (k : Surj) (v : Int) : List (Surj × Int) :=
  msOuter k v (pyRange 1 (pyMax k + 1)) 1

/-- Summands of `boundary` for one key when `torsion == 2` (surjection.py:231-234). -/
def mod2BoundaryEvents (k : Surj) : List (Surj × Int) :=
  (List.range k.length).filterMap fun idx =>
    let summand := removeAt k idx
    if summand.contains ((k[idx]?).getD 0) then some (summand, 1) else none

/-- `boundary` (surjection.py:228-265). -/
def boundary (x : SurjElem) : SurjElem :=
  Elem.accumulate surjection (x.zero surjection)
    (if x.torsion = 2 then x.data.flatMap fun (k, _) => mod2BoundaryEvents k
     else match x.attrs.convention with
       | .bergerFresse => x.data.flatMap fun (k, v) => bfBoundaryEvents k v
       | .mcClureSmith => x.data.flatMap fun (k, v) => msBoundaryEvents k v)

/-! ### action of the symmetric group ring, orbits -/

/-- `sign(perm, surj, convention)` (surjection.py:303-314). -/
def actionSign (perm : Perm) (k : Surj) : Convention → Py Int
  | .bergerFresse => .ok 1
  | .mcClureSmith => do
    let weights := (pyRange 1 (pyMax k + 1)).map fun i => (k.count i : Int) - 1
    let e ← koszulExp perm weights
    .ok (pySign e)

/-- `__rmul__` by a `SymmetricRingElement` (surjection.py:294-326). -/
def rmul (other : RingElem) (x : SurjElem) : Py SurjElem :=
  if x.torsion ≠ other.torsion then .error .typeError
  else if x.arity ≠ other.arity then .error .typeError
  else do
    let events ← (pyProduct x.data other.data).mapM fun (p, q) => do
      let newKey ← p.1.mapM fun i => pyGet1 q.1 i
      let sgn ← actionSign q.1 p.1 x.attrs.convention
      .ok (newKey, sgn * p.2 * q.2)
    .ok (Elem.accumulate surjection (x.zero surjection) events)

/-- `SymmetricGroupElement.__mul__` by a non-group element (symmetric.py:138-140), here with a
surjection element on the right. -/
def rmulPerm (p : Perm) (x : SurjElem) : Py SurjElem :=
  rmul (Elem.new symmetricRing [(p, 1)] (some x.torsion)) x

/-- `seen` (surjection.py:360-363): the values of `k` in the order of first occurrence. -/
def seen (k : Surj) : List Nat :=
  k.foldl (fun seen i => if seen.contains i then seen else seen ++ [i]) []

/-- `orbit(representation)` (surjection.py:352-368). -/
def orbit (x : SurjElem) (representation : Representation := .trivial) : Py SurjElem :=
  x.data.foldlM (fun answer (k, v) => do
      let permutation ← Perm.inverse (seen k)
      let s ← match representation with
        | .trivial => .ok 1
        | .sign => permutation.sign
      let moved ← rmulPerm permutation (x.create surjection [(k, s * v)])
      Elem.iadd surjection answer moved)
    (x.zero surjection)

/-! ### operadic composition -/

/-- `caesuras(k)` (surjection.py:628-634). -/
def caesuras (k : Surj) : List Nat :=
  ((enumerate k).filter fun p => (k.drop (p.1 + 1)).contains p.2).map Prod.fst

/-- `weights(cae, p)` (surjection.py:636-642). -/
def spliceWeights (cae p : List Nat) : List Nat :=
  (pairwise p).map fun (i, j) => (cae.filter fun e => i ≤ e && e < j).length % 2

/-- `bf_sign(p1, k1, p2, k2)` (surjection.py:625-653). -/
def bfSign (p1 : List Nat) (k1 : Surj) (p2 : List Nat) (k2 : Surj) : Int :=
  let p1' := [0] ++ p1 ++ [k1.length - 1]
  let w1 := spliceWeights (caesuras k1) p1'
  let w2 := spliceWeights (caesuras k2) p2
  (-1) ^ (((enumerate w2).map fun (idx, w) =>
    if w ≠ 0 then (w1.drop (idx + 1)).sum % 2 else 0).sum)

/-- The loop building `new_k` (surjection.py:668-675); `parts` is what is left in the generator
`to_insert`.  `otherArity = none` models `other.arity is None`, on which `None - 1` raises. -/
def spliceLoop (position : Nat) (otherArity : Option Nat) : Surj → List (List Nat) → Py Surj
  | [], _ => .ok []
  | j :: k, parts =>
    if j < position then do .ok (j :: (← spliceLoop position otherArity k parts))
    else if j = position then
      match parts with
      | [] => .error .valueError  -- `StopIteration`; never reached, see `splice`
      | part :: parts => do .ok (part ++ (← spliceLoop position otherArity k parts))
    else match otherArity with
      | none => .error .typeError
      | some a => do .ok ((j + a - 1) :: (← spliceLoop position otherArity k parts))

/-- Summands of `compose` for one pair of items (surjection.py:660-682). -/
def composeEvents (torsion : Nat) (convention : Convention) (otherArity : Option Nat)
    (position : Nat) (k1 : Surj) (v1 : Int) (k2 : Surj) (v2 : Int) : Py (List (Surj × Int)) :=
  let positions := ((enumerate k1).filter fun p => p.2 == position).map Prod.fst
  if positions = [] then .error .valueError
  else (combinationsWithReplacement (List.range k2.length) (positions.length - 1)).mapM fun p => do
    let p' := [0] ++ p ++ [k2.length - 1]
    let split := (pairwise p').map fun (a, b) => slice k2 a (b + 1)
    let toInsert := split.map fun part => part.map fun j => j + position - 1
    let newK ← spliceLoop position otherArity k1 toInsert
    let sign ← if torsion = 2 then .ok 1
      else match convention with
        | .bergerFresse => .ok (bfSign positions k1 p' k2)
        | .mcClureSmith => .error .notImplementedError
    .ok (newK, v1 * v2 * sign)

/-- `compose(other, position)` (surjection.py:658-683). -/
def compose (x y : SurjElem) (position : Nat) : Py SurjElem := do
  let events ← (pyProduct x.data y.data).mapM fun (p, q) =>
    composeEvents x.torsion x.attrs.convention y.arity position p.1 p.2 q.1 q.2
  .ok (Elem.accumulate surjection (x.zero surjection) events.flatten)

/-- `suspension()` (surjection.py:705-722). `SymmetricGroupElement.sign` raises `TypeError` when
the prefix is not a permutation, which is caught. -/
def suspension (x : SurjElem) : Py SurjElem :=
  if !x.truthy then .ok x
  else match x.arity, x.degree with
    | none, _ => .error .typeError
    | _, none => .error .typeError
    | some a, some _ =>
      if x.attrs.convention ≠ .bergerFresse then .error .notImplementedError
      else do
        let events ← x.data.mapM fun (k, v) =>
          match Perm.sign (k.take a) with
          | .ok sign => .ok [(k.drop (a - 1), v * sign)]
          | .error .typeError => .ok []
          | .error e => .error e
        .ok (Elem.accumulate surjection (x.zero surjection) events.flatten)

/-! ### action on chains -/

/-- `ordering_sign(permu, weights)` (surjection.py:442-453): the same double loop as
`koszulExp`. -/
def orderingSign (permu : List Nat) (weights : List Int) : Int :=
  ((enumerate permu).map fun (idx, j) =>
    let toAdd := ((permu.drop (idx + 1)).filter fun i => i < j).map fun i =>
      (weights[permu.idxOf i]?).getD 0
    (weights[idx]?).getD 0 * toAdd.sum).sum % 2

/-- `action_sign(ordered_k1, ordered_weights)` (surjection.py:455-466). -/
def insertionSign (orderedK1 : List Nat) (orderedWeights : List Int) : Int :=
  ((enumerate (pairwise orderedK1)).map fun (idx, i, j) =>
    if i = j then (orderedWeights.take (idx + 1)).sum else 0).sum % 2

/-- `[pair[0] for pair in sorted(enumerate(k1), key=itemgetter(1))]` (surjection.py:470-471); the
sort is stable. -/
def invOrderingPermu (k1 : Surj) : List Nat :=
  ((enumerate k1).insertionSort (fun a b => a.2 ≤ b.2)).map Prod.fst

/-- `compute_sign(k1, k2)` (surjection.py:439-478), given the weights of `k2`. -/
def computeSign (k1 : Surj) (weights : List Int) : Int :=
  let inv := invOrderingPermu k1
  let orderingPermu := (List.range inv.length).map fun i => inv.idxOf i
  let orderedK1 := k1.insertionSort (· ≤ ·)
  let orderedWeights := inv.map fun i => (weights[i]?).getD 0
  pySign (orderingSign orderingPermu weights + insertionSign orderedK1 orderedWeights)

/-- The factors of `k2` at the positions where `k1` takes the value `i`. -/
def fiber {α : Type} (k1 : Surj) (k2 : List α) (i : Nat) : List α :=
  ((k1.zip k2).filter fun p => p.1 == i).map Prod.snd

/-- Summand for one pair in the simplicial action (surjection.py:486-506). -/
def simplicialSummand (torsion : Nat) (degree : Int) (coord : Nat)
    (k1 : Surj) (v1 : Int) (key : SKey) (v2 : Int) : List (SKey × Int) :=
  let left := key.take (coord - 1)
  let k2 := slice key (coord - 1) (coord + k1.length - 1)
  let right := key.drop (coord + k1.length - 1)
  let newK := (pyRange 1 (pyMax k1 + 1)).map fun i => (fiber k1 k2 i).flatten
  if newK.any fun s => Simplex.isDegenerate s then []
  else
    let sign := if torsion = 2 then 1
      else computeSign k1 (k2.map fun s => s.dimension % 2) *
        pySign ((SElem.keyDegree left % 2) * degree)
    [(left ++ newK ++ right, sign * v1 * v2)]

/-- `__call__` on a `SimplicialElement` (surjection.py:431-437, 480-507, 565-573). -/
def callSimplicial (x : SurjElem) (other : SElem) (coord : Nat := 1) : Py SElem :=
  if !x.truthy || !other.truthy then .ok (other.zero simplicial)
  else match x.degree, x.arity, other.arity with
    | some d, some a, some oa =>
      if oa < coord then .error .typeError
      else if x.torsion ≠ other.torsion then .error .typeError
      else if x.attrs.convention ≠ .mcClureSmith then .error .notImplementedError
      else do
        let preJoin ← other.iteratedDiagonal (a + d - 1).toNat coord
        .ok (Elem.accumulate simplicial (other.zero simplicial)
          ((pyProduct x.data preJoin.data).flatMap fun (p, q) =>
            simplicialSummand x.torsion d coord p.1 p.2 q.1 q.2))
    | _, _, _ => .error .typeError

/-- Exponent of `cubical_sign(k1, k2, groups)` (surjection.py:512-527), given the weights of
`k2`. -/
def cubicalSignExp (arity : Nat) (weights : List Int) (groups : List (List Nat)) : Int :=
  let w := fun i => (weights[i]?).getD 0
  if arity ≤ 2 then
    (groups.map fun g => ((g.length : Int) - 1) * w (g.headD 0)).sum +
      ((enumerate groups).map fun (i, left) =>
        ((groups.drop (i + 1)).map fun right =>
          if left.headD 0 > right.headD 0 then
            ((left.length : Int) - 1) * ((right.length : Int) - 1) else 0).sum).sum
  else
    (groups.map fun g => ((enumerate g).map fun (idx, i) =>
      ((g.length : Int) - 1 - idx) * w i).sum).sum +
      (groups.map fun g => (g.length : Int) - 1).sum

/-- Summands for one pair in the cubical action (surjection.py:533-562). -/
def cubicalSummands (other : CElem) (torsion arity : Nat) (degree : Int) (coord : Nat)
    (k1 : Surj) (v1 : Int) (key : CKey) (v2 : Int) : Py (List (CKey × Int)) := do
  let left := key.take (coord - 1)
  let k2 := slice key (coord - 1) (coord + k1.length - 1)
  let right := key.drop (coord + k1.length - 1)
  let joins ← (pyRange 1 (pyMax k1 + 1)).mapM fun i =>
    CElem.join (other.create cubical [(fiber k1 k2 i, 1)])
  if joins.any fun j => !j.truthy then .ok []
  else
    let groups := (pyRange 1 (pyMax k1 + 1)).map fun i =>
      ((enumerate k1).filter fun p => p.2 == i).map Prod.fst
    let weights := k2.map fun c => ((Cube.dimension c : Nat) : Int) % 2
    let sign := if torsion = 2 then 1
      else computeSign k1 weights * pySign (cubicalSignExp arity weights groups) *
        pySign (((CElem.keyDegree left : Nat) : Int) % 2 * degree)
    .ok ((productAll (joins.map fun j => j.data)).map fun pairs =>
      (left ++ (pairs.map Prod.fst).flatten ++ right,
        sign * (pairs.map Prod.snd).prod * v1 * v2))

/-- `__call__` on a `CubicalElement` (surjection.py:431-437, 509-563, 565-575).  (In Python the
loop over `i` stops at the first zero join; the model computes all joins and then tests, which can
only differ in exceptions raised by later joins, and `join` of a single key raises none.) -/
def callCubical (x : SurjElem) (other : CElem) (coord : Nat := 1) : Py CElem :=
  if !x.truthy || !other.truthy then .ok (other.zero cubical)
  else match x.degree, x.arity, other.arity with
    | some d, some a, some oa =>
      if oa < coord then .error .typeError
      else if x.torsion ≠ other.torsion then .error .typeError
      else do
        let preJoin ← other.iteratedDiagonal (a + d - 1).toNat coord
        let events ← (pyProduct x.data preJoin.data).mapM fun (p, q) =>
          cubicalSummands other x.torsion a d coord p.1 p.2 q.1 q.2
        .ok (Elem.accumulate cubical (other.zero cubical) events.flatten)
    | _, _, _ => .error .typeError

end SurjElem

/-! ### `class Surjection` -/

namespace Surjection

/-- `i(surj)` with `iterate=1` (surjection.py:822-827). -/
def incl (x : SurjElem) : SurjElem :=
  Elem.accumulate surjection (x.zero surjection)
    (x.data.map fun (k, v) => (1 :: k.map (· + 1), v))

/-- `p(surj)` with `iterate=1` (surjection.py:838-846). -/
def proj (x : SurjElem) : SurjElem :=
  Elem.accumulate surjection (x.zero surjection)
    ((x.data.filter fun (k, _) => k.count 1 == 1).map fun (k, v) =>
      ((k.take (k.idxOf 1)).map (· - 1) ++ (k.drop (k.idxOf 1 + 1)).map (· - 1), v))

/-- `i(surj, iterate)`, `p(surj, iterate)` for `iterate ≥ 1` (surjection.py:828-829, 847-848). -/
def iter (f : SurjElem → SurjElem) : Nat → SurjElem → SurjElem
  | 0, x => x
  | n + 1, x => f (iter f n x)

/-- `s(surj)` (surjection.py:850-856). -/
def sHomotopy (x : SurjElem) : SurjElem :=
  Elem.accumulate surjection (x.zero surjection) (x.data.map fun (k, v) => (1 :: k, v))

/-- `h(surj)` (surjection.py:858-864). -/
def hHomotopy (arity : Nat) (x : SurjElem) : Py SurjElem :=
  (pyRange 1 (arity - 1)).foldlM (fun answer r =>
    Elem.iadd surjection answer (iter incl r (sHomotopy (iter proj r x)))) (sHomotopy x)

/-- `psi(arity, degree, convention)` (surjection.py:871-880) for the operators
`0: norm`, `1: transposition`. -/
def psi (norm trans : RingElem) (arity : Nat) (convention : Convention) : Nat → Py SurjElem
  | 0 => .ok (Elem.new surjection [(pyRange 1 (arity + 1), 1)] none convention)
  | degree + 1 => do
    let previous ← psi norm trans arity convention degree
    let actedOn ← SurjElem.rmul (if (degree + 1) % 2 = 0 then norm else trans) previous
    hHomotopy arity actedOn

/-- `Surjection.may_steenrod_structure(arity, degree, torsion, convention)`
(surjection.py:816-887). -/
def maySteenrodStructure (arity degree : Nat) (torsion : Option Nat := none)
    (convention : Convention := .bergerFresse) : Py SurjElem := do
  let norm ← RingElem.normElement arity
  let trans := RingElem.transpositionElement arity
  let answer ← psi norm trans arity convention degree
  match torsion with
  | none => .ok answer
  | some n => if n = 0 then .ok answer else .ok (answer.setTorsion surjection n)

end Surjection

/-! ### coefficient and degree of Steenrod operations, shared by both operads -/

/-- Conversion of a Python int to a double (53-bit mantissa, round half to even), result as an
exact integer; `OverflowError` beyond the range of doubles. -/
def intToDouble (n : Nat) : Py Nat :=
  if n < 2 ^ 53 then .ok n
  else
    let e := Nat.log2 n - 52
    let q := n / 2 ^ e
    let r := n % 2 ^ e
    let q' := if 2 * r < 2 ^ e then q
      else if 2 * r > 2 ^ e then q + 1
      else if q % 2 = 0 then q else q + 1
    if q' * 2 ^ e ≥ 2 ^ 1024 then .error .overflowError else .ok (q' * 2 ^ e)

/-- `math.factorial`. -/
def pyFactorial : Nat → Nat
  | 0 => 1
  | n + 1 => (n + 1) * pyFactorial n

/-- `int(coeff)` in `steenrod_operation` for odd `p` (surjection.py:984-986,992;
barratt_eccles.py:650-652,658): `(-1) ** (q // 2 + s)`, times `((p - 1) // 2)!` when `q` is odd.
A negative exponent makes the power a *float*, and the product is then a float product. -/
def steenrodCoeff (p : Nat) (s q : Int) : Py Int :=
  let e := q / 2 + s  -- Python `//` with positive divisor is `Int./`
  if q % 2 = 0 then .ok (pySign e)
  else if 0 ≤ e then .ok (pySign e * pyFactorial ((p - 1) / 2))
  else do
    let f ← intToDouble (pyFactorial ((p - 1) / 2))
    .ok (pySign e * f)

/-- `d = (2 * s - q) * (p - 1) - b` (surjection.py:988, barratt_eccles.py:654). -/
def steenrodDegree (p : Nat) (s q : Int) (bockstein : Bool) : Int :=
  (2 * s - q) * ((p : Int) - 1) - (if bockstein then 1 else 0)

namespace Surjection

/-- `Surjection.steenrod_operation(p, s, q, bockstein, convention)` (surjection.py:973-993). -/
def steenrodOperation (p : Nat) (s q : Int) (bockstein : Bool := false)
    (convention : Convention := .mcClureSmith) : Py SurjElem :=
  if p = 2 then
    if bockstein then .error .typeError
    else if s - q < 0 then .ok (Elem.new surjection [] (some 2))
    else do
      let m ← maySteenrodStructure p (s - q).toNat (some p) convention
      .ok (m.smul surjection 1)
  else
    let d := steenrodDegree p s q bockstein
    if d < 0 then do
      let _ ← steenrodCoeff p s q
      .ok (Elem.new surjection [] (some p))
    else do
      let c ← steenrodCoeff p s q
      let m ← maySteenrodStructure p d.toNat (some p) convention
      .ok (m.smul surjection c)

/-- `d` in `steenrod_chain` (surjection.py:1042-1045). -/
def chainDegree (p : Nat) (s q : Int) (bockstein : Bool) : Int :=
  if p = 2 then q + s else q + 2 * s * ((p : Int) - 1) - (if bockstein then 1 else 0)

/-- `len(set(elmt.dimension for elmt in k)) == 1` (surjection.py:1035). -/
def homogeneousKey {A : Type} (dim : A → Int) (k : List A) : Bool :=
  (uniqueValue (k.map dim)).isSome

/-- `Surjection.steenrod_chain(p, s, q, bockstein, shape='simplex')` (surjection.py:1032-1052). -/
def steenrodChainSimplex (p : Nat) (s q : Int) (bockstein : Bool := false) : Py SElem := do
  let surj ← steenrodOperation p s q bockstein
  let d := chainDegree p s q bockstein
  let element := Simplicial.standardElement (-d) 1 (some p)
  let result ← surj.callSimplicial element
  .ok (result.create simplicial (result.data.filter fun p => homogeneousKey Simplex.dimension p.1))

/-- `Surjection.steenrod_chain(p, s, q, bockstein, shape='cube')` (surjection.py:1032-1052). -/
def steenrodChainCube (p : Nat) (s q : Int) (bockstein : Bool := false) : Py CElem := do
  let surj ← steenrodOperation p s q bockstein
  let d := chainDegree p s q bockstein
  let element := Cubical.standardElement (-d) 1 (some p)
  let result ← surj.callCubical element
  .ok (result.create cubical
    (result.data.filter fun p => homogeneousKey (fun c => (Cube.dimension c : Int)) p.1))

/-- `Surjection.basis(arity, degree, complexity)` (surjection.py:1081-1089).  For
`arity = degree = 0` the only tuple is `()`, on which the constructor raises `ValueError`. -/
def basis (arity degree : Nat) (complexity : Option Nat := none) : Py (List Surj) := do
  let c := complexity.getD (degree + 1)
  let ls ← (productRepeat (pyRange 1 (arity + 1)) (arity + degree)).mapM fun s => do
    let surj ← SurjElem.new? [(s, 1)]
    if surj.truthy && surj.complexity ≤ c && surj.arity == some arity then .ok [s] else .ok []
  .ok ls.flatten

end Surjection

end Comch
