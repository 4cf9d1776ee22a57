import Verif.Model.Py

/-!
# Model of `comch/free_module/free_module.py`

A `FreeModuleElement` is a `collections.Counter` (an insertion-ordered dict with integer values)
together with an instance dictionary `__dict__` holding the attributes.  `Dict` models the payload,
`Attrs` the instance dictionary and `Elem` an element.  In this file attributes are values: the fact
that `create` makes two objects *share* one `__dict__` is modelled separately in
`Verif/Model/Heap.lean`.

The five classes of the package override only `preferred_rep` (which keys are dropped); a class is
therefore a record `Cls` carrying that predicate and the class attribute `default_torsion`.
`torsion` is a `Nat`: the documentation only allows non-negative ints.
-/

namespace Comch

/-- Payload of a `Counter`: insertion-ordered association list. -/
abbrev Dict (K : Type) := List (K × Int)

namespace Dict
variable {K : Type} [DecidableEq K]

/-- `counter[k]` (a `Counter` returns 0 for missing keys). -/
def get : Dict K → K → Int
  | [], _ => 0
  | (k', v) :: t, k => if k' = k then v else get t k

/-- `counter[k] = v`: overwrites in place, or appends. -/
def set : Dict K → K → Int → Dict K
  | [], k, v => [(k, v)]
  | (k', v') :: t, k, v => if k' = k then (k', v) :: t else (k', v') :: set t k v

/-- `d.keys()`. -/
def keys (d : Dict K) : List K := d.map Prod.fst

/-- Dict display/comprehension `{k: v for k, v in pairs}`: a later pair overwrites an earlier one
with the same key. -/
def ofPairs (pairs : List (K × Int)) : Dict K := pairs.foldl (fun d p => d.set p.1 p.2) []

/-- `Counter.update(other)`: adds counts. -/
def update (d e : Dict K) : Dict K := e.foldl (fun d p => d.set p.1 (p.2 + d.get p.1)) d

/-- `Counter.subtract(other)`. -/
def subtract (d e : Dict K) : Dict K := e.foldl (fun d p => d.set p.1 (d.get p.1 - p.2)) d

end Dict

/-- Sign conventions of `SurjectionElement` (comch/surjection/surjection.py:49-56). -/
inductive Convention
  | bergerFresse | mcClureSmith
deriving DecidableEq, Repr

/-- The instance dictionary `__dict__`.  `convention` only exists on `SurjectionElement`s; for the
other classes it is a dummy.  (`SimplicialElement.dimension`, documented "NOT SURE IF NEEDED", is
never read by the package; it is modelled in `Model/Construct.lean`.) -/
structure Attrs where
  torsion : Nat
  convention : Convention := .bergerFresse
deriving DecidableEq, Repr

/-- A class of elements: its `default_torsion` attribute (free_module.py:26, shipped value 0) and
the basis elements that its `preferred_rep` removes. -/
structure Cls (K : Type) where
  defaultTorsion : Nat := 0
  drops : K → Bool

/-- An object of one of the element classes. -/
structure Elem (K : Type) where
  data : Dict K
  attrs : Attrs
deriving Repr

namespace Elem
variable {K : Type} [DecidableEq K]

/-- `self.torsion`. -/
abbrev torsion (x : Elem K) : Nat := x.attrs.torsion

/-- `self[k]`. -/
abbrev coeff (x : Elem K) (k : K) : Int := x.data.get k

/-- First half of `preferred_rep` in the subclasses: `self[k] = 0` for every dropped key
(simplicial.py:520-522, barratt_eccles.py:520-525, surjection.py:742-751). -/
def zeroDropped (drops : K → Bool) (d : Dict K) : Dict K :=
  d.map fun p => if drops p.1 then (p.1, 0) else p

/-- `FreeModuleElement.preferred_rep` (free_module.py:258-266): reduce coefficients mod torsion
when torsion is non-zero (Python `%`, i.e. into `0..n-1`), then delete the keys with value 0. -/
def basePreferredRep (n : Nat) (d : Dict K) : Dict K :=
  let reduced := if n ≠ 0 then d.map (fun p => (p.1, p.2 % (n : Int))) else d
  reduced.filter fun p => p.2 ≠ 0

/-- `preferred_rep` of a class: drop, then `super().preferred_rep()`. -/
def preferredRep (C : Cls K) (x : Elem K) : Elem K :=
  { x with data := basePreferredRep x.torsion (zeroDropped C.drops x.data) }

/-- `__init__(data, torsion)` (free_module.py:49-53; `Counter.__init__` copies the mapping).
`torsion = none` selects the class attribute `default_torsion`.  `data` is a Python dict, so its
keys are pairwise distinct; `Dict.ofPairs` builds such a dict from a display. -/
def new (C : Cls K) (data : Dict K) (torsion : Option Nat := none)
    (convention : Convention := .bergerFresse) : Elem K :=
  preferredRep C ⟨data, { torsion := torsion.getD C.defaultTorsion, convention }⟩

/-- `create(other)` (free_module.py:306-309): `type(self)(other)` — built, and normalised, with the
*default* torsion — then given the attributes of `self` and normalised again. -/
def create (C : Cls K) (x : Elem K) (data : Dict K) : Elem K :=
  preferredRep C { new C data with attrs := x.attrs }

/-- `zero()` (free_module.py:326). -/
def zero (C : Cls K) (x : Elem K) : Elem K := create C x []

/-- Body of `__iadd__` after the torsion check (free_module.py:219-221). -/
def iaddCore (C : Cls K) (x y : Elem K) : Elem K :=
  preferredRep C { x with data := x.data.update y.data }

/-- `__iadd__` (free_module.py:217-221). -/
def iadd (C : Cls K) (x y : Elem K) : Py (Elem K) :=
  if x.torsion ≠ y.torsion then .error .typeError else .ok (iaddCore C x y)

/-- `__isub__` (free_module.py:239-243). -/
def isub (C : Cls K) (x y : Elem K) : Py (Elem K) :=
  if x.torsion ≠ y.torsion then .error .typeError
  else .ok (preferredRep C { x with data := x.data.subtract y.data })

/-- `__add__` (free_module.py:97-102). -/
def add (C : Cls K) (x y : Elem K) : Py (Elem K) :=
  if x.torsion ≠ y.torsion then .error .typeError
  else
    let answer := create C x x.data
    .ok (preferredRep C { answer with data := answer.data.update y.data })

/-- `__sub__` (free_module.py:123-128). -/
def sub (C : Cls K) (x y : Elem K) : Py (Elem K) :=
  if x.torsion ≠ y.torsion then .error .typeError
  else
    let answer := create C x x.data
    .ok (preferredRep C { answer with data := answer.data.subtract y.data })

/-- `__rmul__` by an `int` (free_module.py:152-153). -/
def smul (C : Cls K) (c : Int) (x : Elem K) : Elem K :=
  create C x (x.data.map fun p => (p.1, c * p.2))

/-- `__neg__` (free_module.py:199). -/
def neg (C : Cls K) (x : Elem K) : Elem K := smul C (-1) x

/-- Python's `pow(c, -1, n)` for `n > 0`: the inverse of `c` modulo `n` in `0..n-1`, `ValueError`
if `c` is not invertible.  (Bezout coefficient computed by the extended Euclid of the library.) -/
def powInv (c : Int) (n : Nat) : Py Int :=
  if Int.gcd c n = 1 then
    match (List.range n).find? (fun (i : Nat) => (c * (i : Int)) % (n : Int) = 1 % (n : Int)) with
    | some i => .ok (i : Int)
    | none => .error .valueError
  else .error .valueError

/-- `__truediv__` (free_module.py:176-183). -/
def truediv (C : Cls K) (x : Elem K) (c : Int) : Py (Elem K) :=
  if x.torsion = 0 then .error .typeError
  else do
    let inv ← powInv c x.torsion
    .ok (create C x (x.data.map fun p => (p.1, inv * p.2)))

/-- `set_torsion` (free_module.py:282-284), as a function returning the changed object. -/
def setTorsion (C : Cls K) (x : Elem K) (n : Nat) : Elem K :=
  preferredRep C { x with attrs := { x.attrs with torsion := n } }

/-- `==` between two elements: `Counter.__eq__` compares the counts of all keys (missing = 0) and
ignores the attributes. -/
def pyEq (x y : Elem K) : Bool :=
  x.data.all (fun p => p.2 == y.coeff p.1) && y.data.all (fun p => x.coeff p.1 == p.2)

/-- `bool(self)`: a `dict` is true iff it is non-empty. -/
def truthy (x : Elem K) : Bool := !x.data.isEmpty

/-- The accumulation loop `answer += answer.create({k: c})` used by every linear method of the
package; `events` is the list of the `(k, c)` in the order in which the Python loops produce them.
(`create` copies the attributes of `self`/`answer`, so the torsion check of `__iadd__` always
succeeds.) -/
def accumulate (C : Cls K) (answer : Elem K) (events : List (K × Int)) : Elem K :=
  events.foldl (fun a e => iaddCore C a (create C a [(e.1, e.2)])) answer

end Elem

/-- The class `FreeModuleElement` itself: nothing is dropped. -/
def freeModule (K : Type) : Cls K := { drops := fun _ => false }

end Comch
