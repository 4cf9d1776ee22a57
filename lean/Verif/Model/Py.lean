/-!
# Python run-time primitives used by `comch`

Nothing here models a function of the repository itself: this file fixes the (small) part of
Python and of `itertools` that the modelled functions call.  It is part of the trusted base.
Exceptions are values (`Except PyErr`).  Tuples and lists are `List`; Python `int` is `Int`, or
`Nat` where the code only ever uses non-negative values (indices, lengths, entries of tuples).
-/

namespace Comch

/-- The Python exceptions that the modelled code can raise.  `nonTermination` is not an exception:
it marks a Python loop that never ends. -/
inductive PyErr
  | typeError | valueError | indexError | notImplementedError | attributeError
  | overflowError | nonTermination
deriving DecidableEq, Repr

/-- A Python computation that may raise. -/
abbrev Py := Except PyErr

/-- `utils.pairwise` (comch/utils/utils.py:151-155): `s -> (s0,s1), (s1,s2), ...`. -/
def pairwise {α : Type} (l : List α) : List (α × α) := l.zip l.tail

/-- Slice `l[a:b]` for non-negative `a`, `b` (Python clips out-of-range bounds, so do
`take`/`drop`). -/
def slice {α : Type} (l : List α) (a b : Nat) : List α := (l.take b).drop a

/-- `l[:i] + l[i+1:]`, the tuple with the `i`-th entry removed. -/
def removeAt {α : Type} (l : List α) (i : Nat) : List α := l.take i ++ l.drop (i + 1)

/-- `range(a, b)`. -/
def pyRange (a b : Nat) : List Nat := List.range' a (b - a)

/-- `enumerate(l)`. -/
def enumerate {α : Type} (l : List α) : List (Nat × α) := (List.range l.length).zip l

/-- `max(l)` for a non-empty tuple of non-negative ints.  Python raises `ValueError` on the empty
tuple; callers that can meet the empty tuple test for it explicitly. -/
def pyMax (l : List Nat) : Nat := l.foldr max 0

/-- `s = set(l); s.pop() if len(s) == 1 else None`: the common value of all entries. -/
def uniqueValue {α : Type} [DecidableEq α] : List α → Option α
  | [] => none
  | a :: t => if t.all (· == a) then some a else none

/-- `(-1) ** (e % 2)` for a Python int `e`. -/
def pySign (e : Int) : Int := if e % 2 = 0 then 1 else -1

/-- `itertools.product(l, m)`. -/
def pyProduct {α β : Type} (l : List α) (m : List β) : List (α × β) :=
  l.flatMap fun a => m.map fun b => (a, b)

/-- `itertools.product(l, repeat=n)`. -/
def productRepeat {α : Type} (l : List α) : Nat → List (List α)
  | 0 => [[]]
  | n + 1 => l.flatMap fun a => (productRepeat l n).map (a :: ·)

/-- `itertools.product(*ls)`. -/
def productAll {α : Type} : List (List α) → List (List α)
  | [] => [[]]
  | l :: ls => l.flatMap fun a => (productAll ls).map (a :: ·)

/-- `itertools.combinations(l, r)`, in the lexicographic order of positions. -/
def combinations {α : Type} : List α → Nat → List (List α)
  | _, 0 => [[]]
  | [], _ + 1 => []
  | x :: xs, r + 1 => (combinations xs r).map (x :: ·) ++ combinations xs (r + 1)

/-- Tuples of `combinations_with_replacement` with first entry at position of `x`, then the later
ones; `f` enumerates the remaining entries. -/
def cwrAux {α : Type} (f : List α → List (List α)) : List α → List (List α)
  | [] => []
  | x :: xs => (f (x :: xs)).map (x :: ·) ++ cwrAux f xs

/-- `itertools.combinations_with_replacement(l, r)`. -/
def combinationsWithReplacement {α : Type} (l : List α) : Nat → List (List α)
  | 0 => [[]]
  | r + 1 => cwrAux (fun l => combinationsWithReplacement l r) l

/-- `itertools.permutations(l)` for a list of length `n`, in the lexicographic order of
positions. -/
def permutationsAux {α : Type} : Nat → List α → List (List α)
  | 0, _ => [[]]
  | n + 1, l => (enumerate l).flatMap fun p =>
      (permutationsAux n (removeAt l p.1)).map (p.2 :: ·)

/-- `itertools.permutations(l)`. -/
def permutations {α : Type} (l : List α) : List (List α) := permutationsAux l.length l

/-- `t.index(v)`: position of the first occurrence, `ValueError` if there is none. -/
def pyIndex {α : Type} [DecidableEq α] (l : List α) (v : α) : Py Nat :=
  if l.idxOf v < l.length then .ok (l.idxOf v) else .error .valueError

/-- `t[i]` for a non-negative index, `IndexError` if out of range. -/
def pyGet {α : Type} (l : List α) (i : Nat) : Py α :=
  match l[i]? with
  | some a => .ok a
  | none => .error .indexError

/-- `t[i - 1]` for an entry `i` of a tuple of positive ints.  (For `i = 0` Python would wrap
around to the last entry; tuples containing `0` are not permutations or surjections and never
occur in well-formed elements, the model reports `IndexError` for them.) -/
def pyGet1 {α : Type} (l : List α) (i : Nat) : Py α :=
  if i = 0 then .error .indexError else pyGet l (i - 1)

end Comch
