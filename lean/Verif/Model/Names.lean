import Verif.Model.Heap
import Verif.Model.BarrattEccles

/-!
# Programs with variables

`Model/Heap.lean` models objects with shared attribute dictionaries.  Here variables are added: a variable refers
to an object, two variables may refer to the same object, and every method of the package either builds a new
object or returns the object it was called on.
-/

namespace Comch

/-- How the object returned by a method is made. -/
inductive Origin
  /-- `return self`. -/
  | same
  /-- Built with `self.zero()`/`self.create(…)`: a new object sharing the `__dict__` of `self`. -/
  | shared
  /-- Built with a constructor: a new object with its own `__dict__`. -/
  | own
deriving DecidableEq

/-- A method: the value it computes from `self` and its other arguments of the same class, and how the result is
made, which may depend on `self`. -/
structure Method (K : Type) where
  run : Elem K → List (Elem K) → Py (Elem K)
  origin : Elem K → Origin

/-- A statement; variables are numbered. -/
inductive Stmt (K : Type)
  /-- `v = X(d, torsion, convention)`. -/
  | new (v : Nat) (d : Dict K) (torsion : Option Nat) (c : Convention)
  /-- `v = w`. -/
  | assign (v w : Nat)
  /-- `v = o.m(args)`. -/
  | call (v o : Nat) (args : List Nat) (m : Method K)
  /-- `v += w`. -/
  | iadd (v w : Nat)
  /-- `v -= w`. -/
  | isub (v w : Nat)
  /-- `v.set_torsion(n)`. -/
  | setTorsion (v : Nat) (n : Nat)

/-- The objects, and the object each variable refers to. -/
structure PyState (K : Type) where
  heap : Heap K
  names : Nat → Option Nat

namespace PyState
variable {K : Type} [DecidableEq K]

/-- The value of a variable. -/
def see (s : PyState K) (v : Nat) : Option (Elem K) := do s.heap.view (← s.names v)

/-- `v = (object number a)`. -/
def bind (s : PyState K) (v a : Nat) : PyState K :=
  { s with names := fun w => if w = v then some a else s.names w }

/-- In-place operation of the heap on the object of `v`, with the object of `w` as operand; the variable is
rebound to the object returned, which is `self` (free_module.py:221, 243). -/
def inplace (C : Cls K) (s : PyState K) (v w : Nat) (op : Nat → Nat → HeapOp K) : Py (PyState K) :=
  match s.names v, s.names w with
  | some a, some b => do .ok { s with heap := ← Heap.step C s.heap (op a b) }
  | _, _ => .error .typeError

/-- Execute one statement.  `TypeError` also stands for unbound variables. -/
def exec (C : Cls K) (s : PyState K) : Stmt K → Py (PyState K)
  | .new v d t c => do
    let h ← Heap.step C s.heap (.new d t c)
    .ok (bind { s with heap := h } v s.heap.objs.length)
  | .assign v w => match s.names w with
    | some a => .ok (s.bind v a)
    | none => .error .typeError
  | .call v o args m => match s.names o, s.see o, args.mapM s.see with
    | some a, some x, some ys => do
      let z ← m.run x ys
      match m.origin x with
      | .same => .ok (s.bind v a)
      | .shared => .ok (bind { s with heap := s.heap.alloc a z.data } v s.heap.objs.length)
      | .own => .ok (bind { s with heap := { objs := s.heap.objs ++ [⟨z.data, s.heap.dicts.length⟩]
                                             dicts := s.heap.dicts ++ [z.attrs] } } v s.heap.objs.length)
    | _, _, _ => .error .typeError
  | .iadd v w => s.inplace C v w .iadd
  | .isub v w => s.inplace C v w .isub
  | .setTorsion v n => match s.names v with
    | some a => do .ok { s with heap := ← Heap.step C s.heap (.setTorsion a n) }
    | none => .error .typeError

/-- Execute a program. -/
def execAll (C : Cls K) (s : PyState K) : List (Stmt K) → Py (PyState K)
  | [] => .ok s
  | st :: rest => do execAll C (← exec C s st) rest

/-- No objects, no variables. -/
def init : PyState K := ⟨Heap.empty, fun _ => none⟩

end PyState

/-! ### The methods of the package -/

namespace Method

/-- A method without further arguments of the same class. -/
def unary {K : Type} (f : Elem K → Py (Elem K)) (origin : Elem K → Origin) : Method K :=
  ⟨fun x _ => f x, origin⟩

/-- A method with one further argument of the same class. -/
def binary {K : Type} (f : Elem K → Elem K → Py (Elem K)) (origin : Elem K → Origin) : Method K :=
  ⟨fun x ys => match ys with
    | [y] => f x y
    | _ => .error .typeError, origin⟩

/-- `+`, `-`, multiplication by an int, negation, division, `zero()`, `create(d)` (free_module.py:97-199, 306-326):
all built with `create`. -/
def arithmetic {K : Type} [DecidableEq K] (C : Cls K) (c : Int) (d : Dict K) : List (Method K) :=
  [binary (Elem.add C) fun _ => .shared, binary (Elem.sub C) fun _ => .shared,
   unary (fun x => .ok (x.smul C c)) fun _ => .shared, unary (fun x => .ok (x.neg C)) fun _ => .shared,
   unary (fun x => x.truediv C c) fun _ => .shared, unary (fun x => .ok (x.zero C)) fun _ => .shared,
   unary (fun x => .ok (x.create C d)) fun _ => .shared]

/-- `boundary`, action of `s`, `iterated_diagonal`, `one_reduced` (simplicial.py:355, 416, 467, 496). -/
def simplicialMethods (s : RingElem) (times coord : Nat) : List (Method SKey) :=
  [unary (fun x => .ok (SElem.boundary x)) fun _ => .shared, unary (fun x => SElem.rmul s x) fun _ => .shared,
   unary (fun x => SElem.iteratedDiagonal x times coord) fun _ => .shared,
   unary (fun x => .ok (SElem.oneReduced x)) fun _ => .shared]

/-- `CubicalElement.join` (cubical.py:521-547): `if not self: return self`, otherwise built with `self.zero()`. -/
def join : Method CKey := unary CElem.join fun x => if x.truthy then .shared else .same

/-- `boundary`, action of `s`, `iterated_diagonal`, `join` (cubical.py:295, 357, 431, 522-527). -/
def cubicalMethods (s : RingElem) (times coord : Nat) : List (Method CKey) :=
  [unary CElem.boundary fun _ => .shared, unary (fun x => CElem.rmul s x) fun _ => .shared,
   unary (fun x => CElem.iteratedDiagonal x times coord) fun _ => .shared, join]

/-- `BarrattEcclesElement.orbit` (barratt_eccles.py:281-292): `if not self: return self`, otherwise built with the
constructor. -/
def orbitBE (r : Representation) : Method BKey :=
  unary (fun x => BElem.orbit x r) fun x => if x.truthy then .own else .same

/-- `boundary`, action of `s`, `orbit`, `compose` (barratt_eccles.py:205, 253, 281, 375). -/
def barrattEcclesMethods (s : RingElem) (r : Representation) (i : Nat) : List (Method BKey) :=
  [unary (fun x => .ok (BElem.boundary x)) fun _ => .shared, unary (fun x => BElem.rmul s x) fun _ => .shared,
   orbitBE r, binary (fun x y => BElem.compose x y i) fun _ => .shared]

/-- `SurjectionElement.suspension` (surjection.py:705-722): `if not self: return self`, otherwise built with
`self.zero()`. -/
def suspension : Method Surj := unary SurjElem.suspension fun x => if x.truthy then .shared else .same

/-- `boundary`, action of `s`, `orbit`, `compose`, `suspension` (surjection.py:228, 321, 358, 658, 705). -/
def surjectionMethods (s : RingElem) (r : Representation) (i : Nat) : List (Method Surj) :=
  [unary (fun x => .ok (SurjElem.boundary x)) fun _ => .shared, unary (fun x => SurjElem.rmul s x) fun _ => .shared,
   unary (fun x => SurjElem.orbit x r) fun _ => .shared,
   binary (fun x y => SurjElem.compose x y i) fun _ => .shared, suspension]

/-- `*`, `**`, `compose` of ring elements (symmetric.py:395, 417-419, 450-456): the power 0 is built with the
constructor. -/
def ringMethods (times : Int) (i : Nat) : List (Method Perm) :=
  [binary RingElem.mul fun _ => .shared,
   unary (fun x => RingElem.pow x times) fun _ => if times = 0 then .own else .shared,
   binary (fun x y => RingElem.compose x y i) fun _ => .shared]

end Method

end Comch
