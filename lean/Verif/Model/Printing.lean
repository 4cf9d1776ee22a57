import Verif.Model.FreeModule
import Mathlib.Data.Finset.Dedup

/-!
# Model of `__str__`, `_latex_` and `__hash__`

Python strings are lists of characters.  The keys printed are the tuples of non-negative ints of
`SymmetricRingElement`, `SurjectionElement` and the tuples of such tuples of the other classes.
-/

namespace Comch

/-- A Python `str`. -/
abbrev PyStr := List Char

/-- `s.replace(old, new)` for non-empty `old`: occurrences are replaced from left to right without
overlap; `skip` counts the characters of a matched occurrence still to be consumed. -/
def replaceGo (old new : PyStr) : Nat → PyStr → PyStr
  | _, [] => []
  | k + 1, _ :: s => replaceGo old new k s
  | 0, c :: s =>
    if old.isPrefixOf (c :: s) then new ++ replaceGo old new (old.length - 1) s
    else c :: replaceGo old new 0 s

/-- `s.replace(old, new)`. -/
def pyReplace (s : PyStr) (old new : String) : PyStr := replaceGo old.toList new.toList 0 s

/-- `str(n)` for a non-negative int. -/
def natStr (n : Nat) : PyStr := Nat.toDigits 10 n

/-- `repr` of a tuple whose entries have the given `repr`s: `()`, `(a,)`, `(a, b, ...)`. -/
def tupleRepr : List PyStr → PyStr
  | [] => "()".toList
  | [a] => "(".toList ++ a ++ ",)".toList
  | a :: b :: l => "(".toList ++ (", ".toList).intercalate (a :: b :: l) ++ ")".toList

/-- `repr` of the keys of the element classes. -/
class PyRepr (K : Type) where
  /-- `repr(k)`. -/
  repr : K → PyStr

/-- A tuple of non-negative ints. -/
instance : PyRepr (List Nat) := ⟨fun k => tupleRepr (k.map natStr)⟩

/-- A tuple of tuples; `Simplex`, `Cube` and `SymmetricGroupElement` override `__str__` but not
`__repr__`, so their `repr` is that of a tuple. -/
instance : PyRepr (List (List Nat)) := ⟨fun k => tupleRepr (k.map PyRepr.repr)⟩

variable {K : Type} [PyRepr K]

/-- The text appended for one item (free_module.py:64-71).  For the keys modelled `f'{key}'` is
`str(key)`; a key with its own `__str__` (a `Simplex` or `SymmetricGroupElement`, which occur inside
keys only, or as keys of `SymmetricRingElement`) writes `,` for `, `, which is undone by the final
`replace` of the subclasses. -/
def itemStr (p : K × Int) : PyStr :=
  if p.2 < -1 then "- ".toList ++ natStr p.2.natAbs ++ PyRepr.repr p.1 ++ " ".toList
  else if p.2 = -1 then "- ".toList ++ PyRepr.repr p.1 ++ " ".toList
  else if p.2 = 1 then "+ ".toList ++ PyRepr.repr p.1 ++ " ".toList
  else if p.2 > 1 then "+ ".toList ++ natStr p.2.natAbs ++ PyRepr.repr p.1 ++ " ".toList
  else []

/-- `FreeModuleElement.__str__` (free_module.py:58-76). `answer[0]` raises on the empty string. -/
def baseStr (d : Dict K) : Py PyStr :=
  if d.isEmpty then .ok "0".toList
  else
    let answer := (d.map itemStr).flatten
    match answer with
    | [] => .error .indexError
    | c :: _ => .ok ((if c = '+' then answer.drop 2 else answer).dropLast)

/-- `__str__` of the five subclasses (symmetric.py:330-332, simplicial.py:260-262,
cubical.py:197-199, barratt_eccles.py:81-83, surjection.py:85-87):
`super().__str__().replace(', ', ',')`. -/
def Elem.str (x : Elem K) : Py PyStr := do
  let s ← baseStr x.data
  .ok (pyReplace s ", " ",")

/-- `SimplicialElement._latex_` (simplicial.py:264-286). -/
def simplicialLatex (x : Elem (List (List Nat))) : Py PyStr := do
  let s ← x.str
  let s := pyReplace s ",),(" "] \\otimes ["
  let s := pyReplace s "),(" "] \\otimes ["
  let s := pyReplace s "((" "["
  let s := pyReplace (pyReplace s ",))" "]") "),)" "]"
  .ok (pyReplace s "))" "]")

/-- `CubicalElement._latex_` (cubical.py:201-226). -/
def cubicalLatex (x : Elem (List (List Nat))) : Py PyStr := do
  let s ← x.str
  let s := pyReplace (pyReplace s "1" "[1]") "0" "[0]"
  let s := pyReplace (pyReplace s "2," "[01],") ",2" ",[01]"
  let s := pyReplace s ",),(" " \\otimes "
  let s := pyReplace s "),(" " \\otimes "
  let s := pyReplace (pyReplace s ")" "") "((" ""
  let s := pyReplace (pyReplace s ")" "") "))" ""
  .ok (pyReplace s "," "")

/-- `__hash__` (free_module.py:55-56): `hash(frozenset(self))`, where `setHash` is Python's `hash` of
a frozenset, which depends on the set only. -/
def Elem.pyHash {K : Type} [DecidableEq K] (setHash : Finset K → Int) (x : Elem K) : Int :=
  setHash x.data.keys.toFinset

end Comch
