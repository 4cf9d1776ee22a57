import Verif.Model.Symmetric

/-!
# Model of `comch/simplicial/simplicial.py`

A `Simplex` is a tuple of non-negative ints (`List Nat`); a basis element of `SimplicialElement` is
a tuple of simplices.
-/

namespace Comch

/-- A `Simplex`. -/
abbrev Simplex := List Nat

namespace Simplex

/-- `dimension` (simplicial.py:51); `-1` for the empty tuple. -/
def dimension (s : Simplex) : Int := (s.length : Int) - 1

/-- `face(i)` (simplicial.py:69). -/
def face (s : Simplex) (i : Nat) : Simplex := removeAt s i

/-- `degeneracy(i)` (simplicial.py:88). -/
def degeneracy (s : Simplex) (i : Nat) : Simplex := s.take (i + 1) ++ s.drop i

/-- `coface(i)` (simplicial.py:108-111). -/
def coface (s : Simplex) (i : Nat) : Simplex := s.map fun j => if j ≥ i then j + 1 else j

/-- `codegeneracy(i)` (simplicial.py:131-134). -/
def codegeneracy (s : Simplex) (i : Nat) : Simplex := s.map fun j => if j > i then j - 1 else j

/-- `is_degenerate()` (simplicial.py:155-157). -/
def isDegenerate (s : Simplex) : Bool :=
  decide (s.dimension = -1) || (pairwise s).any fun ij => ij.1 == ij.2

/-- `is_nondegenerate()` (simplicial.py:176). -/
def isNondegenerate (s : Simplex) : Bool := !s.isDegenerate

end Simplex

/-- Basis elements of `SimplicialElement`: tuples of simplices. -/
abbrev SKey := List Simplex

/-- The class `SimplicialElement`; `preferred_rep` (simplicial.py:520-524). -/
def simplicial : Cls SKey := { drops := fun k => k.any fun s => s.isDegenerate }

/-- A `SimplicialElement`. -/
abbrev SElem := Elem SKey

/-! ### Koszul sign and permutation of tensor factors, shared by both chain classes

`SimplicialElement.__rmul__` and `CubicalElement.__rmul__` contain the same code up to the names of
the bound variables; the parameter `dim` is the dimension of a factor. -/

/-- `sign(perm, multispx)` (simplicial.py:403-410, cubical.py:344-351), given the list of weights
`[spx.dimension % 2 for spx in multispx]`; also `sign` of surjection.py:307-314 with the weights
`surj.count(i) - 1`. Returns the exponent `sign_exp`. -/
def koszulExp (perm : Perm) (weights : List Int) : Py Int := do
  let terms ← (enumerate perm).mapM fun (idx, i) => do
    let right ← ((perm.drop (idx + 1)).filter fun j => i > j).mapM fun j => do
      let at_ ← pyIndex perm j
      pyGet weights at_
    if right = [] then
      -- `sum(right) * weights[idx]` still evaluates `weights[idx]`
      let _ ← pyGet weights idx
      .ok 0
    else do
      let w ← pyGet weights idx
      .ok (right.sum * w)
  .ok terms.sum

/-- `new_key = [None] * len(k2); for idx, i in enumerate(k2): new_key[i - 1] = k1[idx]`
(simplicial.py:418-420, cubical.py:359-361).  `none` models `None`; a key which still contains
`None` (only possible when `k2` is not a permutation) is an error in the model. -/
def permuteFactors {A : Type} (k2 : Perm) (k1 : List A) : Py (List A) := do
  let filled ← (enumerate k2).foldlM (fun (nk : List (Option A)) (idx, i) => do
      let a ← pyGet k1 idx
      if i = 0 ∨ nk.length < i then .error .indexError
      else .ok (nk.set (i - 1) (some a)))
    (List.replicate k2.length none)
  filled.mapM fun o => match o with
    | some a => .ok a
    | none => .error .typeError

namespace SElem

/-- `arity` (simplicial.py:307-310). -/
def arity (x : SElem) : Option Nat :=
  uniqueValue (x.data.map fun p => p.1.length)

/-- Sum of the dimensions of the factors of a key. -/
def keyDegree (k : SKey) : Int := (k.map Simplex.dimension).sum

/-- `degree` (simplicial.py:332-335). -/
def degree (x : SElem) : Option Int :=
  uniqueValue (x.data.map fun p => keyDegree p.1)

/-- The summands produced by `boundary` for one item (simplicial.py:357-363). -/
def boundaryEvents (k : SKey) (v : Int) : List (SKey × Int) :=
  (enumerate k).flatMap fun (idx, spx) =>
    let accDim := keyDegree (k.take idx)
    (List.range spx.length).map fun (i : Nat) =>
      (k.take idx ++ [spx.face i] ++ k.drop (idx + 1), v * pySign (accDim + i))

/-- `boundary` (simplicial.py:355-364). -/
def boundary (x : SElem) : SElem :=
  Elem.accumulate simplicial (x.zero simplicial)
    (x.data.flatMap fun (k, v) => boundaryEvents k v)

/-- `__rmul__` by a `SymmetricRingElement` (simplicial.py:393-423). -/
def rmul (other : RingElem) (x : SElem) : Py SElem :=
  if x.torsion ≠ other.torsion then .error .typeError
  else if x.arity ≠ other.arity then .error .typeError
  else do
    let events ← (pyProduct x.data other.data).mapM fun (p, q) => do
      let newKey ← permuteFactors q.1 p.1
      let e ← koszulExp q.1 (p.1.map fun s => s.dimension % 2)
      .ok (newKey, pySign e * p.2 * q.2)
    .ok (Elem.accumulate simplicial (x.zero simplicial) events)

/-- Summands of `iterated_diagonal` for one item (simplicial.py:469-475); `deg` is
`self.degree`.  `coord ≥ 1`: the documentation counts tensor positions from 1 (for `coord = 0`
Python's negative indices would select the last factor; not modelled). -/
def diagonalEvents (deg times coord : Nat) (k : SKey) (v : Int) : List (SKey × Int) :=
  let left := k.take (coord - 1)
  let spx := (k[coord - 1]?).getD []
  let right := k.drop coord
  (combinationsWithReplacement (List.range (deg + 1)) times).map fun p =>
    let p' := [0] ++ p ++ [deg]
    let newK := (pairwise p').map fun (i, j) => slice spx i (j + 1)
    (left ++ newK ++ right, v)

/-- `iterated_diagonal` (simplicial.py:462-476).  `self.degree` is never negative on a
normalised element. -/
def iteratedDiagonal (x : SElem) (times : Nat := 1) (coord : Nat := 1) : Py SElem :=
  match x.degree, x.arity with
  | none, _ => .error .typeError
  | _, none => .error .typeError
  | some d, some a =>
    if a < coord then .error .typeError
    else .ok (Elem.accumulate simplicial (x.zero simplicial)
      (x.data.flatMap fun (k, v) => diagonalEvents d.toNat times coord k v))

/-- `one_reduced` (simplicial.py:496-500). -/
def oneReduced (x : SElem) : SElem :=
  Elem.accumulate simplicial (x.zero simplicial)
    (x.data.filter fun p => p.1.all fun s => s.dimension != 1)

end SElem

namespace Simplicial

/-- `Simplicial.standard_element(n, times, torsion)` (simplicial.py:549-550). `n` is an int: for
`n < 0` the range is empty. -/
def standardElement (n : Int) (times : Nat := 1) (torsion : Option Nat := none) : SElem :=
  Elem.new simplicial [(List.replicate times (List.range (n + 1).toNat), 1)] torsion

/-- `Simplicial.basis(n, torsion)` (simplicial.py:569-571). -/
def basis (n : Nat) (torsion : Option Nat := none) : List SElem :=
  (pyRange 1 (n + 2)).flatMap fun m =>
    (combinations (List.range (n + 1)) m).map fun b =>
      Elem.new simplicial [([b], 1)] torsion

end Simplicial

end Comch
