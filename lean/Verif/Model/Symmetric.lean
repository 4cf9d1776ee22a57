import Verif.Model.FreeModule

/-!
# Model of `comch/symmetric/symmetric.py`

A `SymmetricGroupElement` is a tuple of ints, modelled as a `List Nat`; the tuple of images
`(π(1), …, π(r))`.  The constructor checks nothing, so the operations are defined on arbitrary
tuples and raise what Python raises.
-/

namespace Comch

/-- A `SymmetricGroupElement`. -/
abbrev Perm := List Nat

namespace Perm

/-- `arity` (symmetric.py:116): `max(self)`, `ValueError` on the empty tuple. -/
def arity (p : Perm) : Py Nat := if p = [] then .error .valueError else .ok (pyMax p)

/-- Inner `while` of `to_cycles` (symmetric.py:89-91).  `p` is the work list, `none` standing for
`False`.  Returns the cycle and the new work list.  `fuel` bounds the number of iterations; running
out of it, or reading a `False` entry, only happens on tuples which are not permutations, for which
the Python loop does not terminate properly. -/
def cycleLoop (first : Nat) : Nat → List (Option Nat) → Nat → List Nat →
    Py (List Nat × List (Option Nat))
  | fuel, p, next, cycle =>
    if next = first then .ok (cycle, p)
    else match fuel with
      | 0 => .error .nonTermination
      | fuel + 1 =>
        if next = 0 then .error .nonTermination
        else match p[next - 1]? with
          | none => .error .indexError
          | some none => .error .nonTermination
          | some (some nxt) => cycleLoop first fuel (p.set (next - 1) none) nxt (cycle ++ [next])

/-- Outer `for` of `to_cycles` (symmetric.py:83-94) over the remaining indices `is`. -/
def cyclesLoop (singletons : Bool) : List Nat → List (Option Nat) → List (List Nat) →
    Py (List (List Nat))
  | [], _, cycles => .ok cycles
  | i :: is, p, cycles =>
    match p[i]? with
    | none => .error .indexError
    | some none => cyclesLoop singletons is p cycles
    | some (some nxt) => do
      let (cycle, p') ← cycleLoop (i + 1) p.length (p.set i none) nxt [i + 1]
      if singletons || 1 < cycle.length then cyclesLoop singletons is p' (cycles ++ [cycle])
      else cyclesLoop singletons is p' cycles

/-- `to_cycles(singletons)` (symmetric.py:81-96). -/
def toCycles (p : Perm) (singletons : Bool := false) : Py (List (List Nat)) :=
  cyclesLoop singletons (List.range p.length) (p.map some) []

/-- `set(self) == set(range(1, len(self)+1))` (symmetric.py:56). -/
def isPermTuple (p : Perm) : Bool :=
  p.all (fun i => (pyRange 1 (p.length + 1)).contains i) &&
    (pyRange 1 (p.length + 1)).all (fun i => p.contains i)

/-- `sign` (symmetric.py:56-60). -/
def sign (p : Perm) : Py Int :=
  if !p.isPermTuple then .error .typeError
  else do
    let cycles ← p.toCycles
    .ok ((-1) ^ (cycles.map fun c => c.length - 1).sum)

/-- `__mul__` by another `SymmetricGroupElement` (symmetric.py:142-145). -/
def mul (p q : Perm) : Py Perm := do
  let a ← p.arity
  let b ← q.arity
  if a ≠ b then .error .typeError
  else q.mapM fun i => pyGet1 p i

/-- `inverse` (symmetric.py:162-163). -/
def inverse (p : Perm) : Py Perm := do
  let a ← p.arity
  (List.range a).mapM fun i => do
    let j ← pyIndex p (i + 1)
    .ok (j + 1)

/-- The loop of `__pow__` (symmetric.py:182-186): `m` further multiplications. -/
def powLoop (p : Perm) : Nat → Perm → Py Perm
  | 0, answer => .ok answer
  | m + 1, answer => do powLoop p m (← answer.mul p)

/-- `__pow__` (symmetric.py:180-186).  A negative exponent makes `range(times - 1)` empty. -/
def pow (p : Perm) (times : Int) : Py Perm :=
  if times = 0 then do
    let a ← p.arity
    .ok (pyRange 1 (a + 1))
  else powLoop p (times - 1).toNat p

/-- `compose` (symmetric.py:225-230).  `i + position - 1` is evaluated left to right; for
`position ≥ 1` (the only positions at which `self.index` can succeed on a permutation) it is a
natural number. `s = len(other) - 1` may be `-1`, when `other` is empty. -/
def compose (p q : Perm) (position : Nat) : Py Perm := do
  let toInsert := q.map fun i => i + position - 1
  let at_ ← pyIndex p position
  let shift := p.map fun i => if i > position then i + q.length - 1 else i
  .ok (shift.take at_ ++ toInsert ++ shift.drop (at_ + 1))

end Perm

namespace SymmetricGroup

/-- `SymmetricGroup.all(n)` (symmetric.py:256-257). -/
def all (n : Nat) : List Perm := permutations (pyRange 1 (n + 1))

/-- `SymmetricGroup.shuffles(i, j)` (symmetric.py:279-284). -/
def shuffles (i j : Nat) : List Perm :=
  (permutations (pyRange 1 (i + j + 1))).filter fun p =>
    (pairwise (p.take i)).all (fun xy => xy.1 < xy.2) &&
      (pairwise (p.drop i)).all (fun xy => xy.1 < xy.2)

end SymmetricGroup

/-- The class `SymmetricRingElement` (its `preferred_rep` is inherited). -/
def symmetricRing : Cls Perm := { drops := fun _ => false }

/-- A `SymmetricRingElement`. -/
abbrev RingElem := Elem Perm

namespace RingElem

/-- `arity` (symmetric.py:353-360); `max(k)` raises on the empty tuple, which is not a
permutation of a positive number of letters. -/
def arity (x : RingElem) : Option Nat :=
  uniqueValue (x.data.map fun p => pyMax p.1)

/-- `__mul__` by a ring element (symmetric.py:392-400): `answer[…] += v1 * v2` on the dict, one
`preferred_rep` at the end. -/
def mul (x y : RingElem) : Py RingElem :=
  if x.torsion ≠ y.torsion then .error .typeError
  else do
    let terms ← (pyProduct x.data y.data).mapM fun (p, q) => do
      let k ← q.1.mapM fun i => pyGet1 p.1 i
      .ok (k, p.2 * q.2)
    let d := terms.foldl (fun d t => Dict.set d t.1 (d.get t.1 + t.2))
      (x.zero symmetricRing).data
    .ok (Elem.preferredRep symmetricRing { x with data := d })

/-- `SymmetricRing.identity_element` (symmetric.py:490-491). -/
def identityElement (arity : Nat) (torsion : Option Nat := none) : RingElem :=
  Elem.new symmetricRing [(pyRange 1 (arity + 1), 1)] torsion

/-- The tuple `rho` (symmetric.py:525). -/
def rho (arity : Nat) : Perm := pyRange 2 (arity + 1) ++ [1]

/-- `SymmetricRing.rotation_element` (symmetric.py:525-526). -/
def rotationElement (arity : Nat) (torsion : Option Nat := none) : RingElem :=
  Elem.new symmetricRing [(rho arity, 1)] torsion

/-- `SymmetricRing.transposition_element` (symmetric.py:550-553): the dict display
`{rho: 1, identity: -1}`. -/
def transpositionElement (arity : Nat) (torsion : Option Nat := none) : RingElem :=
  Elem.new symmetricRing (Dict.ofPairs [(rho arity, 1), (pyRange 1 (arity + 1), -1)]) torsion

/-- `__pow__` (symmetric.py:417-422).  `identity_element(None, …)` raises `TypeError`. -/
def pow (x : RingElem) (times : Int) : Py RingElem :=
  if times = 0 then
    match x.arity with
    | none => .error .typeError
    | some a => .ok (identityElement a (some x.torsion))
  else do
    let events ← x.data.mapM fun (k, v) => do
      let k' ← k.pow times
      .ok (k', v)
    .ok (Elem.accumulate symmetricRing (x.zero symmetricRing) events)

/-- `compose` (symmetric.py:450-462). -/
def compose (x y : RingElem) (position : Nat) : Py RingElem :=
  if !x.truthy then .ok (x.zero symmetricRing)
  else if x.torsion ≠ y.torsion then .error .typeError
  else do
    let events ← (pyProduct x.data y.data).mapM fun (p, q) => do
      let k ← p.1.compose q.1 position
      .ok (k, p.2 * q.2)
    .ok (Elem.accumulate symmetricRing (x.zero symmetricRing) events)

/-- Loop of `SymmetricRing.norm_element` (symmetric.py:577-581). -/
def normLoop (rho : RingElem) : List Nat → RingElem → Py RingElem
  | [], answer => .ok answer
  | i :: is, answer => do
    let r ← rho.pow i
    let answer ← Elem.iadd symmetricRing answer r
    normLoop rho is answer

/-- `SymmetricRing.norm_element` (symmetric.py:577-581). -/
def normElement (arity : Nat) (torsion : Option Nat := none) : Py RingElem :=
  normLoop (rotationElement arity torsion) (List.range arity)
    (Elem.new symmetricRing [] torsion)

end RingElem

end Comch
