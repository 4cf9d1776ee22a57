import Verif.Model.Surjection

/-!
# What the element classes inherit from `collections.Counter`

Copies, the unary plus, and the methods of `dict` and `Counter` that change an element without normalising it.
-/

namespace Comch
namespace Elem
variable {K : Type} [DecidableEq K]

/-- `x.copy()` (inherited `Counter.copy`: `return self.__class__(self)`), and `copy.copy(x)`, `copy.deepcopy(x)`
and a pickle round trip (inherited `Counter.__reduce__`: `(self.__class__, (dict(self),))`): the constructor of the
class (free_module.py:49-53, surjection.py:79-86) is called with the coefficients only. -/
def copy (C : Cls K) (x : Elem K) : Elem K := Elem.new C x.data

/-- `+x` (inherited `Counter.__pos__`): a plain `Counter` with the positive counts only. -/
def pos (x : Elem K) : Dict K := x.data.filter fun p => p.2 > 0

/-- Changes of the coefficients with the methods inherited from `dict` and `Counter`; none of them normalises. -/
inductive Edit (K : Type)
  /-- `x[k] = v` (also `x[k] += v` with the sum as value). -/
  | setItem (k : K) (v : Int)
  /-- `del x[k]`, `x.pop(k)`; nothing happens when the key is missing (`Counter.__delitem__`). -/
  | delItem (k : K)
  /-- `x.update(d)`. -/
  | update (d : Dict K)
  /-- `x.subtract(d)`. -/
  | subtract (d : Dict K)
  /-- `x.clear()`. -/
  | clear

/-- The effect of an edit on the dict. -/
def editDict (d : Dict K) : Edit K → Dict K
  | .setItem k v => d.set k v
  | .delItem k => d.filter fun p => p.1 ≠ k
  | .update e => d.update e
  | .subtract e => d.subtract e
  | .clear => []

/-- A sequence of edits of `x`. -/
def edit (x : Elem K) (es : List (Edit K)) : Elem K := { x with data := es.foldl editDict x.data }

end Elem
end Comch
