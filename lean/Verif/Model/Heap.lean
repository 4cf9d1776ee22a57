import Verif.Model.FreeModule

/-!
# Objects and shared attribute dictionaries

`FreeModuleElement.create` executes `answer.__dict__ = self.__dict__` (free_module.py:308): the new
object and `self` *share* one attribute dictionary.  `__add__`, `__sub__`, `__rmul__`, `__neg__`,
`zero` build their result with `create`, so the result shares its attributes with `self`.  The other
model files treat attributes as values; here objects are modelled with identity.

An object is identified by its index in `objs`; an attribute dictionary by its index in `dicts`.
-/

namespace Comch

/-- An object: its `Counter` payload and the address of its `__dict__`. -/
structure Obj (K : Type) where
  payload : Dict K
  dictAddr : Nat

/-- All live objects and attribute dictionaries. -/
structure Heap (K : Type) where
  objs : List (Obj K)
  dicts : List Attrs

/-- Public operations on objects (operands are object indices). -/
inductive HeapOp (K : Type)
  | new (d : Dict K) (torsion : Option Nat) (c : Convention)
  | create (o : Nat) (d : Dict K)
  | zero (o : Nat)
  | add (o p : Nat)
  | sub (o p : Nat)
  | smul (c : Int) (o : Nat)
  | neg (o : Nat)
  | iadd (o p : Nat)
  | isub (o p : Nat)
  | setTorsion (o : Nat) (n : Nat)

namespace Heap
variable {K : Type} [DecidableEq K]

/-- What a user sees of object `o`: its payload and its attributes. -/
def view (h : Heap K) (o : Nat) : Option (Elem K) := do
  let obj ← h.objs[o]?
  let a ← h.dicts[obj.dictAddr]?
  some ⟨obj.payload, a⟩

/-- Allocate an object sharing the `__dict__` of `o` (`create`, free_module.py:306-309; the value of
the payload is computed by the value model). -/
def alloc (h : Heap K) (o : Nat) (payload : Dict K) : Heap K :=
  match h.objs[o]? with
  | some obj => { h with objs := h.objs ++ [⟨payload, obj.dictAddr⟩] }
  | none => h

/-- Execute one operation.  `TypeError` also stands for dangling operands, which do not occur in
Python. -/
def step (C : Cls K) (h : Heap K) : HeapOp K → Py (Heap K)
  | .new d t c =>
    let x := Elem.new C d t c
    .ok { objs := h.objs ++ [⟨x.data, h.dicts.length⟩], dicts := h.dicts ++ [x.attrs] }
  | .create o d => match h.view o with
    | none => .error .typeError
    | some x => .ok (h.alloc o (Elem.create C x d).data)
  | .zero o => match h.view o with
    | none => .error .typeError
    | some x => .ok (h.alloc o (Elem.zero C x).data)
  | .add o p => match h.view o, h.view p with
    | some x, some y => do
      let z ← Elem.add C x y
      .ok (h.alloc o z.data)
    | _, _ => .error .typeError
  | .sub o p => match h.view o, h.view p with
    | some x, some y => do
      let z ← Elem.sub C x y
      .ok (h.alloc o z.data)
    | _, _ => .error .typeError
  | .smul c o => match h.view o with
    | none => .error .typeError
    | some x => .ok (h.alloc o (Elem.smul C c x).data)
  | .neg o => match h.view o with
    | none => .error .typeError
    | some x => .ok (h.alloc o (Elem.neg C x).data)
  | .iadd o p => match h.view o, h.view p, h.objs[o]? with
    | some x, some y, some obj => do
      let z ← Elem.iadd C x y
      .ok { h with objs := h.objs.set o ⟨z.data, obj.dictAddr⟩ }
    | _, _, _ => .error .typeError
  | .isub o p => match h.view o, h.view p, h.objs[o]? with
    | some x, some y, some obj => do
      let z ← Elem.isub C x y
      .ok { h with objs := h.objs.set o ⟨z.data, obj.dictAddr⟩ }
    | _, _, _ => .error .typeError
  -- `setattr(self, 'torsion', n); self.preferred_rep()` (free_module.py:283-284): writes to the
  -- (possibly shared) `__dict__`, but renormalises the payload of `self` only.
  | .setTorsion o n => match h.view o, h.objs[o]? with
    | some x, some obj =>
      let z := Elem.setTorsion C x n
      .ok { objs := h.objs.set o ⟨z.data, obj.dictAddr⟩
            dicts := h.dicts.set obj.dictAddr z.attrs }
    | _, _ => .error .typeError

/-- Execute a history. -/
def run (C : Cls K) (h : Heap K) : List (HeapOp K) → Py (Heap K)
  | [] => .ok h
  | op :: ops => do run C (← step C h op) ops

/-- The empty heap. -/
def empty : Heap K := ⟨[], []⟩

end Heap
end Comch
