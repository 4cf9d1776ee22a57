import Verif.Conformance.Docstrings

/-! # The unit tests of the package

Not a part of the proofs: a check of the model.  Each assertion in `/repo/comch/*/tests/test_*.py` is repeated
with the model and the kernel computes it.  Every example cites the line of the assertion.  Three assertions are left
out because the kernel takes minutes or gigabytes to compute them (Lean's evaluator, outside the kernel, agrees with
them): test_barratt_eccles.py:80 and test_surjection.py:124, which are instances of C46 and C56, and
test_surjection.py:80 (the action on a pair of 3-cubes). -/

namespace Comch.Conformance
open Comch

/-- `assertEqual(a, b)` on elements: `a == b`. -/
def same {K : Type} [DecidableEq K] (a b : Py (Elem K)) : Py Bool := do
  return (← a).pyEq (← b)

/-! ### free_module/tests/test_free_module.py -/

section
def tx : Elem Char := fm [('a', 3), ('b', 1)]
def ty : Elem Char := fm [('a', 2), ('b', -1)]
local notation "FMC" => freeModule Char

example : same (tx.add FMC ty) (.ok (fm [('a', 5)])) = .ok true := by decide +kernel -- 17
example : same (tx.sub FMC ty) (.ok (fm [('a', 1), ('b', 2)])) = .ok true := by decide +kernel -- 20
example : same (.ok (tx.smul FMC 3)) (.ok (fm [('a', 9), ('b', 3)])) = .ok true := by decide +kernel -- 24
example : same ((fm [('a', 1), ('b', 2)] (some 5)).truediv FMC 3) (.ok (fm [('a', 2), ('b', 4)] (some 5))) = .ok true := by
  decide +kernel -- 29
example : same (.ok (tx.neg FMC)) (.ok (fm [('a', -3), ('b', -1)])) = .ok true := by decide +kernel -- 32
example : same (tx.iadd FMC ty) (.ok (fm [('a', 5)])) = .ok true := by decide +kernel -- 36
example : same (tx.isub FMC ty) (.ok (fm [('a', 1), ('b', 2)])) = .ok true := by decide +kernel -- 40
end

/-! ### symmetric/tests/test_symmetric.py -/

example : Perm.sign [5, 2, 4, 3, 1] = .ok 1 := by decide +kernel -- 12
example : Perm.arity [5, 2, 4, 3, 1] = .ok 5 := by decide +kernel -- 15
example : Perm.inverse [5, 2, 4, 3, 1] = .ok [5, 2, 4, 3, 1] := by decide +kernel -- 18
example : Perm.mul [5, 2, 4, 3, 1] [1, 2, 3, 4, 5] = .ok [5, 2, 4, 3, 1] := by decide +kernel -- 21
example : Perm.pow [5, 2, 4, 3, 1] 2 = .ok [1, 2, 3, 4, 5] := by decide +kernel -- 24
example : Perm.compose [5, 2, 4, 3, 1] [2, 1] 3 = .ok [6, 2, 5, 4, 3, 1] := by decide +kernel -- 27

def rx : RingElem := sr [([5, 2, 4, 3, 1], 1)]
def ry : RingElem := sr [([1, 2, 3, 4, 5], 1)]

example : rx.arity = some 5 := by decide +kernel -- 38
example : same (.ok (rx.smul symmetricRing 3)) (.ok (sr [([5, 2, 4, 3, 1], 3)])) = .ok true := by decide +kernel -- 41
example : same (rx.mul ry) (.ok rx) = .ok true := by decide +kernel -- 44
example : same (rx.pow 2) (.ok ry) = .ok true := by decide +kernel -- 47
example : same (rx.compose (sr [([2, 1], 1)]) 3) (.ok (sr [([6, 2, 5, 4, 3, 1], 1)])) = .ok true := by
  decide +kernel -- 50

/-! ### simplicial/tests/test_simplicial.py -/

def px : SElem := sx [([[0], [0, 1, 2]], 1), ([[0, 1], [1, 2]], -1), ([[0, 1, 2], [2]], 1)]

example : px.arity = some 2 := by decide +kernel -- 13
example : px.degree = some 2 := by decide +kernel -- 16
example : same (.ok px.boundary.boundary) (.ok (px.zero simplicial)) = .ok true := by decide +kernel -- 19
example : same (do return (← SElem.rmul (RingElem.rotationElement 2) px).boundary)
    (SElem.rmul (RingElem.rotationElement 2) px.boundary) = .ok true := by decide +kernel -- 24
example : same (px.boundary.iteratedDiagonal 3 2) (do return (← px.iteratedDiagonal 3 2).boundary) = .ok true := by
  decide +kernel -- 29

/-! ### cubical/tests/test_cubical.py -/

def qx : CElem := cu [([[0, 2, 1], [0, 1, 2]], 1), ([[2, 1, 1], [1, 2, 0]], -1), ([[0, 1, 0], [2, 2, 1]], 1)]

example : qx.arity = some 2 := by decide +kernel -- 13
example : qx.degree = some 2 := by decide +kernel -- 16
example : same (do (← qx.boundary).boundary) (.ok (qx.zero cubical)) = .ok true := by decide +kernel -- 19
example : same (do (← CElem.rmul (RingElem.rotationElement 2) qx).boundary)
    (do CElem.rmul (RingElem.rotationElement 2) (← qx.boundary)) = .ok true := by decide +kernel -- 24
example : same (do (← qx.boundary).iteratedDiagonal 3 2) (do (← qx.iteratedDiagonal 3 2).boundary) = .ok true := by
  decide +kernel -- 29

/-- cubical/tests/test_cubical.py:31-41 -/
def testJoin : Py Bool := do
  let x : Cube := [2, 0]
  let y : Cube := [0, 1]
  let a := cu [([x], 1)]
  let da ← a.boundary
  let b := cu [([y], 1)]
  let db ← b.boundary
  let c := cu [([x, y], 1)]
  let da_b := cu (Dict.ofPairs (da.data.map fun p => ([p.1.headD [], y], p.2)))
  let a_db := cu (Dict.ofPairs (db.data.map fun p => ([x, p.1.headD []], p.2)))
  let left ← (← (← (← c.join).boundary).add cubical (← da_b.join)).add cubical
    ((← a_db.join).smul cubical ((-1) ^ (b.degree.getD 0)))
  return left.pyEq (a.neg cubical)
example : testJoin = .ok true := by decide +kernel -- 41

/-- cubical/tests/test_cubical.py:43-50, with `d = 3`; for every `d` it is C33. -/
def testCartanSerre : Py Bool :=
  (Cubical.basis 3).allM fun c => same (.ok c.cartanSerreMap.boundary) (do return (← c.boundary).cartanSerreMap)
example : testCartanSerre = .ok true := by decide +kernel -- 50

/-! ### barratt_eccles/tests/test_barratt_eccles.py -/

def bx : BElem := be [([[1, 3, 2], [2, 3, 1]], 1)]

example : bx.arity = some 3 := by decide +kernel -- 11
example : bx.complexity = 1 := by decide +kernel -- 14
example : bx.degree = some 1 := by decide +kernel -- 17
example : same (.ok bx.boundary.boundary) (.ok (bx.zero barrattEccles)) = .ok true := by decide +kernel -- 20
example : same (do return (← BElem.rmul (RingElem.rotationElement 3) bx).boundary)
    (BElem.rmul (RingElem.rotationElement 3) bx.boundary) = .ok true := by decide +kernel -- 25
example : same (bx.boundary.orbit .trivial) (do (← bx.orbit .trivial).boundary.orbit .trivial) = .ok true := by
  decide +kernel -- 30
example : same (bx.boundary.orbit .sign) (do (← bx.orbit .sign).boundary.orbit .sign) = .ok true := by
  decide +kernel -- 34

/-- barratt_eccles/tests/test_barratt_eccles.py:36-43 -/
def testCompose : Py Bool := do
  let x := be [([[1, 2, 3], [3, 2, 1], [1, 3, 2]], 1)]
  let y := be [([[1, 2, 3, 4], [4, 3, 2, 1], [4, 1, 3, 2]], 1)]
  let d_xy := (← x.compose y 2).boundary
  let dx_y ← x.boundary.compose y 2
  let x_dy ← x.compose y.boundary 2
  return d_xy.pyEq (← dx_y.add barrattEccles (x_dy.smul barrattEccles ((-1) ^ (x.degree.getD 0).toNat)))
example : testCompose = .ok true := by decide +kernel -- 43

def tb : BElem := be [([[1, 2, 3, 4], [1, 4, 3, 2]], 1), ([[1, 2, 4, 3], [3, 4, 2, 1]], 2)]
def tsym : RingElem := sr [([1, 3, 2, 4], 1), ([2, 1, 3, 4], -1)]
def ta : BElem := be [([[1, 2, 3], [1, 3, 2]], 1), ([[2, 1, 3], [1, 2, 3]], 2)]

example : same (do return (← tb.tableReduction).boundary) tb.boundary.tableReduction = .ok true := by decide +kernel -- 51
example : same (do SurjElem.rmul tsym (← tb.tableReduction)) (do (← BElem.rmul tsym tb).tableReduction) = .ok true := by
  decide +kernel -- 58
example : same (do (← ta.compose tb 2).tableReduction)
    (do (← ta.tableReduction).compose (← tb.tableReduction) 2) = .ok true := by decide +kernel -- 64

example : same (do return (← BarrattEccles.maySteenrodStructure 6 3).boundary)
    (do BElem.rmul (RingElem.transpositionElement 6) (← BarrattEccles.maySteenrodStructure 6 2)) = .ok true := by
  decide +kernel -- 75
example : same (BarrattEccles.steenrodOperation 3 2 3)
    (.ok (be [([[1, 2, 3], [2, 3, 1], [3, 1, 2]], 2), ([[1, 2, 3], [3, 1, 2], [1, 2, 3]], 2)])) = .ok true := by
  decide +kernel -- 88

/-! ### surjection/tests/test_surjection.py -/

def wx (cv : Convention := .bergerFresse) : SurjElem := sv cv [([1, 3, 1, 2, 1], 1)]
def wx2 : SurjElem := wx.setTorsion surjection 2

example : wx.arity = some 3 := by decide +kernel -- 14
example : wx.degree = some 2 := by decide +kernel -- 17
example : wx.complexity = 2 := by decide +kernel -- 20
example : same (.ok wx.boundary.boundary) (.ok (wx.zero surjection)) = .ok true := by decide +kernel -- 23, 26
example : same (.ok wx2.boundary.boundary) (.ok (wx2.zero surjection)) =
    .ok true := by decide +kernel -- 29
example : same (do return (← SurjElem.rmul (RingElem.rotationElement 3) wx).boundary)
    (SurjElem.rmul (RingElem.rotationElement 3) wx.boundary) = .ok true := by decide +kernel -- 34, 38
example : same (.ok (wx.smul surjection 3)) (.ok (su [([1, 3, 1, 2, 1], 3)])) = .ok true := by decide +kernel -- 40
example : ∀ cv : Convention, same ((wx cv).orbit .trivial) (.ok (sv cv [([1, 2, 1, 3, 1], 1)])) = .ok true := by
  intro cv; cases cv <;> decide +kernel -- 46
example : ∀ cv : Convention, same ((wx cv).orbit .sign) (.ok (sv cv [([1, 2, 1, 3, 1], -1)])) = .ok true := by
  intro cv; cases cv <;> decide +kernel -- 50

/-- surjection/tests/test_surjection.py:57-60, 63-66 -/
def testCallSimplicial (s : SurjElem) (x : SElem) (coord : Nat) : Py Bool := do
  let ds_x ← s.boundary.callSimplicial x coord
  let d_sx := (← s.callSimplicial x coord).boundary
  let s_dx ← s.callSimplicial x.boundary coord
  return (← d_sx.sub simplicial (s_dx.smul simplicial ((-1) ^ (s.degree.getD 0).toNat))).pyEq ds_x
example : testCallSimplicial (wx .mcClureSmith) (Simplicial.standardElement 3) 1 = .ok true := by decide +kernel -- 60
example : testCallSimplicial (wx .mcClureSmith) (sx [([[0, 1, 2], [3, 4], [5, 6]], 1)]) 2 = .ok true := by
  decide +kernel -- 66

/-- surjection/tests/test_surjection.py:71-74, 77-80 -/
def testCallCubical (s : SurjElem) (y : CElem) (coord : Nat) : Py Bool := do
  let ds_y ← s.boundary.callCubical y coord
  let d_sy ← (← s.callCubical y coord).boundary
  let sdy ← s.callCubical (← y.boundary) coord
  return (← d_sy.sub cubical (sdy.smul cubical ((-1) ^ (s.degree.getD 0).toNat))).pyEq ds_y
example : testCallCubical wx (Cubical.standardElement 3) 1 = .ok true := by decide +kernel -- 74

/-- surjection/tests/test_surjection.py:82-92 -/
def testComposeBF : Py Bool := do
  let x := sv .bergerFresse [([3, 2, 1, 2, 1, 3], 1)]
  let y := sv .bergerFresse [([3, 1, 2, 1, 4, 3], 1)]
  let dx_y ← x.boundary.compose y 3
  let x_dy ← x.compose y.boundary 3
  let d_xy := (← x.compose y 3).boundary
  let r ← (← d_xy.sub surjection dx_y).sub surjection (x_dy.smul surjection ((-1) ^ (x.degree.getD 0).toNat))
  return r.pyEq (x.zero surjection)
example : testComposeBF = .ok true := by decide +kernel -- 92

def sx' : SurjElem := sv .bergerFresse [([1, 3, 2, 1, 2, 3, 4], 1)]
example : same (do (← sx'.compose (sv .bergerFresse [([1, 2, 3, 1, 2, 3], 1)]) 1).suspension)
    (do (← sx'.suspension).compose (← (sv .bergerFresse [([1, 2, 3, 1, 2, 3], 1)]).suspension) 1) = .ok true := by
  decide +kernel -- 102
example : same (do (← sx'.compose (sv .bergerFresse [([1, 2, 1, 3, 1, 2, 3], 1)]) 2).suspension)
    (do (← sx'.suspension).compose (← (sv .bergerFresse [([1, 2, 1, 3, 1, 2, 3], 1)]).suspension) 1) = .ok true := by
  decide +kernel -- 108

example : same (do return (← Surjection.maySteenrodStructure 6 3).boundary)
    (do SurjElem.rmul (RingElem.transpositionElement 6) (← Surjection.maySteenrodStructure 6 2)) = .ok true := by
  decide +kernel -- 118
example : same (do return (← Surjection.maySteenrodStructure 5 3 none .mcClureSmith).boundary)
    (do SurjElem.rmul (RingElem.transpositionElement 5) (← Surjection.maySteenrodStructure 5 2 none .mcClureSmith)) =
    .ok true := by decide +kernel -- 131
example : same (Surjection.steenrodOperation 3 2 3)
    (.ok (su [([1, 2, 3, 1, 2], 2), ([1, 3, 1, 2, 3], 2), ([1, 2, 3, 2, 3], 2)])) = .ok true := by decide +kernel -- 140

end Comch.Conformance
