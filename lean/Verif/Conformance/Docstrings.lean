import Verif.Model.Printing
import Verif.Model.BarrattEccles
import Verif.Model.Operators
import Verif.Model.Copy

/-! # The examples in the docstrings of the package

Not a part of the proofs: a check of the model.  The docstrings of the package record the output of
calls.  Each is repeated here with the model, and the kernel computes that the model gives the same output,
including the order of the summands.  Where a docstring shows a `Counter` by `repr`, which sorts by
coefficient, the data are compared as a dictionary in insertion order.  Every example cites the line of
the `>>>`. -/

namespace Comch.Conformance
open Comch

/-- `print(x)` shows `s`. -/
abbrev Prints {K : Type} [PyRepr K] (x : Elem K) (s : String) : Prop := x.str = .ok s.toList

/-- The call succeeds and `print` shows `s`. -/
abbrev Shows {K : Type} [PyRepr K] (x : Py (Elem K)) (s : String) : Prop :=
  (x.bind fun y => y.str) = .ok s.toList

/-- Keys of a free module that are strings, as in the docstrings of free_module.py; `f'{key}'` writes the string
itself. -/
instance : PyRepr Char := ⟨fun c => [c]⟩

abbrev fm (d : Dict Char) (n : Option Nat := none) : Elem Char := Elem.new (freeModule Char) d n
abbrev sr (d : Dict Perm) : RingElem := Elem.new symmetricRing d
abbrev sx (d : Dict SKey) : SElem := Elem.new simplicial d
abbrev cu (d : Dict CKey) : CElem := Elem.new cubical d
abbrev be (d : Dict BKey) : BElem := Elem.new barrattEccles d
abbrev su (d : Dict Surj) : SurjElem := Elem.new surjection d
abbrev sv (cv : Convention) (d : Dict Surj) : SurjElem := Elem.new surjection d none cv

/-! ### free_module.py -/

example : Prints (fm []) "0" := by decide +kernel -- 43
example : baseStr (fm [('a', 1), ('b', -1), ('c', 0)]).data = .ok "a - b".toList := by decide +kernel -- 45
example : ((fm [('a', 1), ('b', 2)]).add (freeModule Char) (fm [('a', 1)])).map (·.data) = .ok [('a', 2), ('b', 2)] := by
  decide +kernel -- 93
example : ((fm [('a', 1), ('b', 2)]).sub (freeModule Char) (fm [('a', 1)])).map (·.data) = .ok [('b', 2)] := by
  decide +kernel -- 119
example : ((fm [('a', 1), ('b', 2)]).smul (freeModule Char) 3).data = [('a', 3), ('b', 6)] := by decide +kernel -- 145
example : ((fm [('a', 1), ('b', 2)] (some 5)).truediv (freeModule Char) 3).map (·.data) = .ok [('a', 2), ('b', 4)] := by
  decide +kernel -- 172
example : ((fm [('a', 1), ('b', 2)]).neg (freeModule Char)).data = [('a', -1), ('b', -2)] := by decide +kernel -- 195
example : ((fm [('a', 1), ('b', 2)]).iadd (freeModule Char) (fm [('a', 3), ('b', 6)])).map (·.data) =
    .ok [('a', 4), ('b', 8)] := by decide +kernel -- 211
example : ((fm [('a', 1), ('b', 2)]).isub (freeModule Char) (fm [('a', 3), ('b', 6)])).map (·.data) =
    .ok [('a', -2), ('b', -4)] := by decide +kernel -- 233
example : (fm [('a', 1), ('b', 2), ('c', 0)]).data = [('a', 1), ('b', 2)] := by decide +kernel -- 254
example : ((fm [('a', 1), ('b', 2)]).setTorsion (freeModule Char) 2).data = [('a', 1)] := by decide +kernel -- 278
example : ((fm [('a', 1)]).add (freeModule Char) ((fm [('a', 1)]).create (freeModule Char) [('b', 1)])).map (·.data) =
    .ok [('a', 1), ('b', 1)] := by decide +kernel -- 301
example : ((fm [('a', 1)]).add (freeModule Char) ((fm [('a', 1)]).zero (freeModule Char))).map (·.pyEq (fm [('a', 1)])) =
    .ok true := by decide +kernel -- 321

/-! ### symmetric.py -/

example : Perm.sign [5, 2, 4, 3, 1] = .ok 1 := by decide +kernel -- 52
example : Perm.toCycles [5, 2, 4, 3, 1] = .ok [[1, 5], [3, 4]] := by decide +kernel -- 77
example : Perm.arity [5, 2, 4, 3, 1] = .ok 5 := by decide +kernel -- 112
example : Perm.mul [2, 3, 1] [1, 3, 2] = .ok [2, 1, 3] := by decide +kernel -- 131
example : Perm.inverse [2, 3, 1] = .ok [3, 1, 2] := by decide +kernel -- 157
example : Perm.pow [2, 3, 4, 5, 1] 5 = .ok [1, 2, 3, 4, 5] := by decide +kernel -- 175
example : Perm.compose [1, 3, 2] [2, 1] 1 = .ok [2, 1, 4, 3] := by decide +kernel -- 219
example : SymmetricGroup.all 3 = [[1, 2, 3], [1, 3, 2], [2, 1, 3], [2, 3, 1], [3, 1, 2], [3, 2, 1]] := by
  decide +kernel -- 252
example : SymmetricGroup.shuffles 1 2 = [[1, 2, 3], [2, 1, 3], [3, 1, 2]] := by decide +kernel -- 275
example : (sr [([5, 2, 4, 3, 1], 1)]).arity = some 5 := by decide +kernel -- 348
example : (sr [([2, 3, 1], 1), ([1, 2], 1)]).arity = none := by decide +kernel -- 350
example : Prints ((sr [([4, 3, 2, 1], 1), ([1, 2, 3, 4], 2)]).smul symmetricRing 3) "3(4,3,2,1) + 6(1,2,3,4)" := by
  decide +kernel -- 378
example : Shows ((sr [([4, 3, 2, 1], 1), ([1, 2, 3, 4], 2)]).mul (sr [([4, 1, 2, 3], 1)])) "(1,4,3,2) + 2(4,1,2,3)" := by
  decide +kernel -- 381
example : ((sr [([4, 3, 2, 1], 1), ([1, 2, 3, 4], 2)]).pow 2).map (·.data) = .ok [([1, 2, 3, 4], 3)] := by
  decide +kernel -- 412
example : Shows ((sr [([2, 3, 1], 1), ([1, 2, 3], -1)]).compose (sr [([2, 1], 1), ([1, 2], 1)]) 2)
    "(3,2,4,1) + (2,3,4,1) - (1,3,2,4) - (1,2,3,4)" := by decide +kernel -- 444
example : Prints (RingElem.identityElement 3) "(1,2,3)" := by decide +kernel -- 486
example : Prints (RingElem.rotationElement 3) "(2,3,1)" := by decide +kernel -- 521
example : Prints (RingElem.transpositionElement 3) "(2,3,1) - (1,2,3)" := by decide +kernel -- 546
example : Shows (RingElem.normElement 3) "(1,2,3) + (2,3,1) + (3,1,2)" := by decide +kernel -- 573

/-! ### simplicial.py -/

example : Simplex.dimension [1, 3, 4, 5] = 3 := by decide +kernel -- 47
example : Simplex.face [1, 3, 4, 5] 2 = [1, 3, 5] := by decide +kernel -- 65
example : Simplex.degeneracy [1, 3, 4, 5] 2 = [1, 3, 4, 4, 5] := by decide +kernel -- 83
example : Simplex.coface [1, 3, 4, 5] 2 = [1, 4, 5, 6] := by decide +kernel -- 103
example : Simplex.codegeneracy [1, 3, 4, 5] 2 = [1, 2, 3, 4] := by decide +kernel -- 126
example : Simplex.isDegenerate [] = true := by decide +kernel -- 149
example : Simplex.isDegenerate [1, 1, 2] = true := by decide +kernel -- 151
example : Simplex.isNondegenerate [1, 2, 5] = true := by decide +kernel -- 172
example : Prints (sx [([[0], [0, 1, 2]], 1), ([[0, 1], [1, 2]], -1), ([[0, 1, 2], [2]], 1)])
    "((0,),(0,1,2)) - ((0,1),(1,2)) + ((0,1,2),(2,))" := by decide +kernel -- 233
example : simplicialLatex (sx [([[0], [0, 1, 2]], 1)]) = .ok "[0] \\otimes [0,1,2]".toList := by decide +kernel -- 274
example : (sx [([[0], [0, 1, 2]], 1)]).arity = some 2 := by decide +kernel -- 302
example : (sx [([[0], [0, 1, 2]], 1)]).degree = some 2 := by decide +kernel -- 327
example : Prints (sx [([[0, 1], [1, 2]], 1)]).boundary
    "((1,),(1,2)) - ((0,),(1,2)) - ((0,1),(2,)) + ((0,1),(1,))" := by decide +kernel -- 350
example : Shows (SElem.rmul (sr [([2, 1], 1)]) (sx [([[0, 1], [1, 2]], 1)])) "- ((1,2),(0,1))" := by decide +kernel -- 384
example : Prints ((sx [([[0, 1], [1, 2]], 1)]).smul simplicial 3) "3((0,1),(1,2))" := by decide +kernel -- 388
example : Shows (sx [([[0, 1, 2]], 1)]).iteratedDiagonal "((0,),(0,1,2)) + ((0,1),(1,2)) + ((0,1,2),(2,))" := by
  decide +kernel -- 456
example : Prints (sx [([[1, 2], [2, 3, 4]], 1)]).oneReduced "0" := by decide +kernel -- 491
example : Prints (sx [([[1, 3], [1, 1]], 1)]) "0" := by decide +kernel -- 516
example : Prints (Simplicial.standardElement 3 2) "((0,1,2,3),(0,1,2,3))" := by decide +kernel -- 545
example : (Simplicial.basis 1).map (·.str) =
    [.ok "((0,),)".toList, .ok "((1,),)".toList, .ok "((0,1),)".toList] := by decide +kernel -- 565

/-! ### cubical.py -/

example : Cube.dimension [1, 2, 0, 2] = 2 := by decide +kernel -- 50
example : Cube.intervals [1, 2, 0, 2] = [1, 3] := by decide +kernel -- 69
example : Cube.face [1, 2, 0, 2] 1 0 = .ok [1, 2, 0, 1] := by decide +kernel -- 87
example : Cube.cartanSerre [2, 1, 2] = [0, 2, 3] := by decide +kernel -- 110
example : Prints (cu [([[0, 2], [0, 1]], 1), ([[2, 1], [1, 2]], -1), ([[1, 2], [2, 0]], 1)])
    "((0,2),(0,1)) - ((2,1),(1,2)) + ((1,2),(2,0))" := by decide +kernel -- 179
example : cubicalLatex (cu [([[2], [1]], 1), ([[0], [2]], 1)]) =
    .ok "[01] \\otimes [1] + [0] \\otimes [01]".toList := by decide +kernel -- 212
example : (cu [([[0, 2], [0, 1]], 1)]).arity = some 2 := by decide +kernel -- 242
example : (cu [([[0, 2], [0, 1]], 1)]).degree = some 1 := by decide +kernel -- 267
example : Shows (cu [([[0, 2], [2, 1]], 1)]).boundary
    "((0,1),(2,1)) - ((0,0),(2,1)) - ((0,2),(1,1)) + ((0,2),(0,1))" := by decide +kernel -- 290
example : Shows (CElem.rmul (sr [([2, 1], 1)]) (cu [([[0, 2], [1, 2]], 1)])) "- ((1,2),(0,2))" := by decide +kernel -- 325
example : Prints ((cu [([[0, 2], [1, 2]], 1)]).smul cubical 3) "3((0,2),(1,2))" := by decide +kernel -- 329
example : Shows ((cu [([[2, 2], [2]], 1)]).iteratedDiagonal 1 2) "((2,2),(2,),(1,)) + ((2,2),(0,),(2,))" := by
  decide +kernel -- 404
example : Shows (cu [([[0, 0, 1], [1, 0, 0]], 1)]).join "((2,0,0),) - ((0,0,2),)" := by decide +kernel -- 490
example : (cu [([[2, 1, 2], [2, 2, 0]], 1)]).cartanSerreMap.data = [([[0, 2, 3], [0, 1, 2]], 1)] := by
  decide +kernel -- 562
example : Prints (Cubical.standardElement 3 2) "((2,2,2),(2,2,2))" := by decide +kernel -- 596
example : (Cubical.basis 1).map (·.str) =
    [.ok "((0,),)".toList, .ok "((1,),)".toList, .ok "((2,),)".toList] := by decide +kernel -- 615

/-! ### barratt_eccles.py -/

example : Prints (be []) "0" := by decide +kernel -- 65
example : Prints (be [([[1, 3, 2], [2, 1, 3]], -1)]) "- ((1,3,2),(2,1,3))" := by decide +kernel -- 68
example : (be [([[1, 3, 2], [2, 3, 1]], 1)]).arity = some 3 := by decide +kernel -- 100
example : (be [([[1, 3, 2], [2, 3, 1]], 1)]).degree = some 1 := by decide +kernel -- 129
example : (be [([[1, 2, 3], [1, 3, 2], [1, 2, 3]], 1)]).complexity = 2 := by decide +kernel -- 168
example : Prints (be [([[1, 3, 2], [2, 3, 1], [1, 2, 3]], 1)]).boundary
    "((2,3,1),(1,2,3)) - ((1,3,2),(1,2,3)) + ((1,3,2),(2,3,1))" := by decide +kernel -- 200
example : Prints ((be [([[1, 3, 2], [2, 3, 1]], 1)]).neg barrattEccles) "- ((1,3,2),(2,3,1))" := by decide +kernel -- 237
example : Shows (BElem.rmul (sr [([2, 3, 1], 1)]) (be [([[1, 3, 2], [2, 3, 1]], 1)])) "((2,1,3),(3,1,2))" := by
  decide +kernel -- 240
example : Shows (be [([[1, 3, 2], [1, 2, 3]], 1)]).orbit "((1,2,3),(1,3,2))" := by decide +kernel -- 274
example : Shows ((be [([[1, 3, 2], [1, 2, 3]], 1)]).orbit .sign) "- ((1,2,3),(1,3,2))" := by decide +kernel -- 277
example : Shows ((be [([[1, 2], [2, 1]], 1)]).compose (be [([[1, 2], [2, 1]], 1)]) 1)
    "- ((1,2,3),(2,1,3),(3,2,1)) + ((1,2,3),(3,1,2),(3,2,1))" := by decide +kernel -- 333
example : Shows (be [([[1, 2, 3, 4], [1, 4, 3, 2], [1, 2, 4, 3]], 1)]).tableReduction "(1,2,4,2,4,3) + (1,2,4,3,2,3)" := by
  decide +kernel -- 429
example : (be [([[1, 2], [2, 1]], 1)]).diagonal.data =
    [([[[1, 2]], [[1, 2], [2, 1]]], 1), ([[[1, 2], [2, 1]], [[2, 1]]], 1)] := by decide +kernel -- 484
example : Prints (be [([[1, 2], [1, 2]], 1), ([], 1), ([[1, 2]], 0)]) "0" := by decide +kernel -- 517

/-! ### surjection.py -/

example : (SurjElem.new? []).map (·.str) = .ok (.ok "0".toList) := by decide +kernel -- 73
example : (SurjElem.new? [([1, 2, 1, 3, 1, 3], 1)]).map (·.str) = .ok (.ok "(1,2,1,3,1,3)".toList) := by
  decide +kernel -- 76
example : (su [([1, 2, 1, 3, 1], 1)]).arity = some 3 := by decide +kernel -- 103
example : (su [([1, 2, 1, 3, 1], 1)]).complexity = 2 := by decide +kernel -- 162
example : (su [([1, 2, 1, 3, 2], 1)]).filtration = 6 := by decide +kernel -- 185
example : Prints (sv .bergerFresse [([3, 2, 1, 3, 1, 3], 1)]).boundary
    "(2,1,3,1,3) - (3,2,3,1,3) - (3,2,1,3,1)" := by decide +kernel -- 218
example : Prints (sv .mcClureSmith [([3, 2, 1, 3, 1, 3], 1)]).boundary
    "(3,2,3,1,3) - (2,1,3,1,3) - (3,2,1,3,1)" := by decide +kernel -- 222
example : Prints ((su [([1, 2, 3, 1, 2], 1)]).neg surjection) "- (1,2,3,1,2)" := by decide +kernel -- 286
example : Shows (SurjElem.rmul (sr [([2, 3, 1], 1)]) (su [([1, 2, 3, 1, 2], 1)])) "(2,3,1,2,3)" := by decide +kernel -- 289
example : Shows ((su [([1, 3, 2], 1)]).orbit .trivial) "(1,2,3)" := by decide +kernel -- 344
example : Shows ((su [([1, 3, 2], 1)]).orbit .sign) "- (1,2,3)" := by decide +kernel -- 347
example : Shows ((su [([1, 2, 1], 1)]).callCubical (Cubical.standardElement 2))
    "- ((2,2),(1,2)) + ((2,1),(2,2)) + ((0,2),(2,2)) - ((2,2),(2,0))" := by decide +kernel -- 422
example : Shows ((su [([1, 2, 1], 1)]).callCubical (Cubical.standardElement 2 2) 2)
    "- ((2,2),(2,2),(1,2)) + ((2,2),(2,1),(2,2)) + ((2,2),(0,2),(2,2)) - ((2,2),(2,2),(2,0))" := by decide +kernel -- 426
example : Shows ((sv .bergerFresse [([1, 2, 1, 3], 1)]).compose
    (sv .bergerFresse [([1, 2, 1], 1)]) 1)
    "(1,3,1,2,1,4) - (1,2,3,2,1,4) - (1,2,1,3,1,4)" := by decide +kernel -- 618
example : Shows (sv .bergerFresse [([1, 3, 2, 1, 2], 1)]).suspension "- (2,1,2)" := by
  decide +kernel -- 700
example : (SurjElem.new? [([1, 1, 2], 1), ([1, 3], 1), ([1, 2], 0)]).map (·.str) = .ok (.ok "0".toList) := by
  decide +kernel -- 738
example : Shows (Surjection.steenrodChainSimplex 2 (-1) (-2)) "((0,2,3),(0,1,2)) + ((0,1,3),(1,2,3))" := by
  decide +kernel -- 1027
example : Surjection.basis 2 1 = .ok [[1, 2, 1], [2, 1, 2]] := by decide +kernel -- 1077

/-! ### utils.py -/

example : (decompositions [0, 1] 2).Perm [[[0], [0], [0, 1]], [[0], [0, 1], [1]], [[0, 1], [1], [1]]] := by
  decide +kernel -- 37
example : (distinctPermutations 100 [1, 0, 1]).Perm [[0, 1, 1], [1, 0, 1], [1, 1, 0]] := by decide +kernel -- 56
example : (distinctPermutations 100 [1, 0, 1] (some 3)).Perm [[0, 1, 1], [1, 0, 1], [1, 1, 0]] := by decide +kernel -- 71

end Comch.Conformance
