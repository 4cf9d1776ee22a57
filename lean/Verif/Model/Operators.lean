import Verif.Model.BarrattEccles

/-!
# Operator dispatch and the Python type of the keys

The other model files identify a `SymmetricGroupElement` with the tuple it is a subclass of, and model
each operator between fixed classes.  This file models the two things they leave out.

* `RingObj`: a `SymmetricRingElement` together with the Python type of its keys.  Plain tuples and
  `SymmetricGroupElement`s with the same entries are equal and have the same hash, hence are the same key of a
  dict, but only the latter have `compose`, `**` and the group multiplication.  The constructor
  (symmetric.py:326-328) turns all keys into `SymmetricGroupElement`s, but `__mul__` (symmetric.py:398)
  inserts plain tuples.
* `star`: the operator `*` between all classes of the package, Python `int`s and tuples.
-/

namespace Comch

/-- A `SymmetricRingElement`; `plain` lists the keys that are plain tuples. -/
structure RingObj where
  el : RingElem
  plain : List Perm := []

namespace RingObj

/-- `k` is stored as a plain tuple. -/
def isPlain (x : RingObj) (k : Perm) : Bool := x.plain.contains k

/-- Result of constructing an element from the key-value pairs of `e`: `__init__` (symmetric.py:326-328), also
reached through `create`, makes every key a `SymmetricGroupElement`. -/
def wrapped (e : RingElem) : RingObj := ⟨e, []⟩

/-- `SymmetricRingElement(data, torsion)` (symmetric.py:325-331). -/
def new (data : Dict Perm) (torsion : Option Nat := none) : RingObj :=
  wrapped (Elem.new symmetricRing data torsion)

/-- The plain keys after `Counter.update`/`Counter.subtract`: a key already present keeps its key object, a
new key is the key object of the other operand; `preferred_rep` may delete keys. -/
def mergePlain (present plainX plainY : List Perm) (result : RingElem) : List Perm :=
  (plainX ++ plainY.filter fun k => !present.contains k).filter fun k => result.data.keys.contains k

/-- `__iadd__` (free_module.py:217-221). -/
def iadd (x y : RingObj) : Py RingObj := do
  let r ← Elem.iadd symmetricRing x.el y.el
  .ok ⟨r, mergePlain x.el.data.keys x.plain y.plain r⟩

/-- `__isub__` (free_module.py:239-243). -/
def isub (x y : RingObj) : Py RingObj := do
  let r ← Elem.isub symmetricRing x.el y.el
  .ok ⟨r, mergePlain x.el.data.keys x.plain y.plain r⟩

/-- `__add__` (free_module.py:97-102): `self.create(self)` wraps the keys of `self`. -/
def add (x y : RingObj) : Py RingObj := do
  let r ← Elem.add symmetricRing x.el y.el
  .ok ⟨r, mergePlain (x.el.create symmetricRing x.el.data).data.keys [] y.plain r⟩

/-- `__sub__` (free_module.py:123-128). -/
def sub (x y : RingObj) : Py RingObj := do
  let r ← Elem.sub symmetricRing x.el y.el
  .ok ⟨r, mergePlain (x.el.create symmetricRing x.el.data).data.keys [] y.plain r⟩

/-- `__rmul__` by an `int` (free_module.py:152-153). -/
def smul (c : Int) (x : RingObj) : RingObj := wrapped (x.el.smul symmetricRing c)

/-- `__truediv__` (free_module.py:176-183). -/
def truediv (x : RingObj) (c : Int) : Py RingObj := do .ok (wrapped (← x.el.truediv symmetricRing c))

/-- `set_torsion` (free_module.py:282-284): the keys that stay are not replaced. -/
def setTorsion (x : RingObj) (n : Nat) : RingObj :=
  let r := x.el.setTorsion symmetricRing n
  ⟨r, x.plain.filter fun k => r.data.keys.contains k⟩

/-- `__mul__` by a ring element (symmetric.py:392-400): `answer[tuple(…)] += …`; the keys are only iterated
over and indexed, so their type does not matter, and all keys of the result are plain tuples. -/
def mul (x y : RingObj) : Py RingObj := do
  let r ← RingElem.mul x.el y.el
  .ok ⟨r, r.data.keys⟩

/-- `__pow__` (symmetric.py:417-422): `k ** times` raises `TypeError` on a plain tuple. -/
def pow (x : RingObj) (times : Int) : Py RingObj :=
  if times = 0 then do .ok (wrapped (← RingElem.pow x.el 0))
  else do
    let events ← x.el.data.mapM fun (k, v) => do
      let k' ← if x.isPlain k then .error .typeError else k.pow times
      .ok (k', v)
    .ok (wrapped (Elem.accumulate symmetricRing (x.el.zero symmetricRing) events))

/-- `compose` (symmetric.py:450-462): `k1.compose` raises `AttributeError` on a plain tuple; `k2` is only
iterated over. -/
def compose (x y : RingObj) (position : Nat) : Py RingObj :=
  if !x.el.truthy then .ok (wrapped (x.el.zero symmetricRing))
  else if x.el.torsion ≠ y.el.torsion then .error .typeError
  else do
    let events ← (pyProduct x.el.data y.el.data).mapM fun (p, q) => do
      let k ← if x.isPlain p.1 then .error .attributeError else p.1.compose q.1 position
      .ok (k, p.2 * q.2)
    .ok (wrapped (Elem.accumulate symmetricRing (x.el.zero symmetricRing) events))

end RingObj

/-- `BarrattEcclesElement.__rmul__` by a `SymmetricRingElement` (barratt_eccles.py:249-257): `k2 * pi` is the
group multiplication if `k2` is a `SymmetricGroupElement`; if it is a plain tuple, Python looks up
`__rmul__` of `pi`, which is inherited from `tuple` and raises `TypeError`. -/
def BElem.rmulObj (other : RingObj) (x : BElem) : Py BElem :=
  if x.torsion ≠ other.el.torsion then .error .typeError
  else if x.arity ≠ other.el.arity then .error .typeError
  else do
    let events ← (pyProduct x.data other.el.data).mapM fun (p, q) => do
      let newK ← p.1.mapM fun pi => if other.isPlain q.1 then .error .typeError else q.1.mul pi
      .ok (newK, p.2 * q.2)
    .ok (Elem.accumulate barrattEccles (x.zero barrattEccles) events)

/-- The Python objects that can meet in a product. -/
inductive Val
  | int (n : Int)
  | tup (l : List Nat)
  | perm (p : Perm)
  | ring (s : RingObj)
  | simp (x : SElem)
  | cub (x : CElem)
  | be (x : BElem)
  | surj (x : SurjElem)

namespace Val

/-- `n * l` for a tuple: repetition (Python's `sq_repeat`), always a plain tuple. -/
def repeatTuple (n : Int) (l : List Nat) : Val := .tup (List.replicate n.toNat l).flatten

/-- `{p: 1}` with the torsion of the other operand (symmetric.py:139). -/
def asRing (p : Perm) (torsion : Nat) : RingObj := RingObj.new [(p, 1)] (some torsion)

/-- `a * b`.  Python calls `a.__mul__(b)` if the class of `a` has it — `SymmetricGroupElement.__mul__`
(symmetric.py:137-145), `SymmetricRingElement.__mul__` (symmetric.py:386-400), `int` — and otherwise, or if that
returns `NotImplemented`, `b.__rmul__(a)` when the classes differ: `FreeModuleElement.__rmul__`
(free_module.py:149-153) for ring elements, `SimplicialElement.__rmul__` (simplicial.py:393-423),
`CubicalElement.__rmul__` (cubical.py:334-364), `BarrattEcclesElement.__rmul__` (barratt_eccles.py:245-257),
`SurjectionElement.__rmul__` (surjection.py:294-326), `tuple.__rmul__`.  If neither exists: `TypeError`. -/
def star : Val → Val → Py Val
  -- int on the left
  | .int a, .int b => .ok (.int (a * b))
  | .int n, .tup l => .ok (repeatTuple n l)
  | .int n, .perm p => .ok (repeatTuple n p)
  | .int n, .ring s => .ok (.ring (s.smul n))
  | .int n, .simp x => .ok (.simp (x.smul simplicial n))
  | .int n, .cub x => .ok (.cub (x.smul cubical n))
  | .int n, .be x => .ok (.be (x.smul barrattEccles n))
  | .int n, .surj x => .ok (.surj (x.smul surjection n))
  -- plain tuple on the left: repetition, or the `__rmul__` of the right operand, which rejects tuples
  | .tup l, .int n => .ok (repeatTuple n l)
  | .tup _, .be _ => .error .notImplementedError
  | .tup _, _ => .error .typeError
  -- SymmetricGroupElement.__mul__; `other.torsion` raises AttributeError for ints and tuples
  | .perm _, .int _ => .error .attributeError
  | .perm _, .tup _ => .error .attributeError
  | .perm p, .perm q => do .ok (.perm (← p.mul q))
  | .perm _, .ring _ => .error .typeError
  | .perm p, .simp x => do .ok (.simp (← SElem.rmul (asRing p x.torsion).el x))
  | .perm p, .cub x => do .ok (.cub (← CElem.rmul (asRing p x.torsion).el x))
  | .perm p, .be x => do .ok (.be (← BElem.rmulObj (asRing p x.torsion) x))
  | .perm p, .surj x => do .ok (.surj (← SurjElem.rmul (asRing p x.torsion).el x))
  -- SymmetricRingElement.__mul__
  | .ring s, .int n => .ok (.ring (s.smul n))
  | .ring _, .tup _ => .error .typeError
  | .ring _, .perm _ => .error .typeError
  | .ring s, .ring t => do .ok (.ring (← s.mul t))
  | .ring s, .simp x => do .ok (.simp (← SElem.rmul s.el x))
  | .ring s, .cub x => do .ok (.cub (← CElem.rmul s.el x))
  | .ring s, .be x => do .ok (.be (← BElem.rmulObj s x))
  | .ring s, .surj x => do .ok (.surj (← SurjElem.rmul s.el x))
  -- chains on the left have no `__mul__`; the `__rmul__` of the right operand rejects them
  | .be _, .be _ => .error .typeError
  | .simp _, .be _ => .error .notImplementedError
  | .cub _, .be _ => .error .notImplementedError
  | .surj _, .be _ => .error .notImplementedError
  | _, _ => .error .typeError

end Val

end Comch
