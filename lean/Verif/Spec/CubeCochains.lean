import Verif.Model.Surjection
import Verif.Spec.Cochains
import Mathlib.Data.ZMod.Basic

/-! # Cubical complexes, their cochains modulo 2 and the operations the package induces on them

As in `Spec/Cochains`: cochains are not part of the package.  The operations below are what a user obtains
from the package by acting on a cube and evaluating cochains on the factors of the result. -/

namespace Comch.Spec

/-- `f` is a face of the cube `c`: it agrees with `c` wherever `c` is not an interval. -/
def IsFaceOf (f c : Cube) : Prop := List.Forall₂ (fun v e => v ≤ 2 ∧ (e = 2 ∨ v = e)) f c

/-- A cubical complex: a set of faces of a standard cube that contains with every cube all its faces. -/
structure CubeComplex (N : Nat) where
  cubes : Set Cube
  isCube : ∀ c ∈ cubes, c.length = N ∧ ∀ v ∈ c, v ≤ 2
  faces : ∀ c ∈ cubes, ∀ f, IsFaceOf f c → f ∈ cubes

/-- `(δα)(c)` is the sum of the values at the two ends of every interval of `c`. -/
def cubeCoboundary (α : Cube → ZMod 2) (c : Cube) : ZMod 2 :=
  ((List.range c.length).map fun i => if c.getD i 0 = 2 then α (c.set i 0) + α (c.set i 1) else 0).sum

/-- `α` is a cocycle of degree `q` on `X`. -/
def IsCubeCocycle {N : Nat} (X : CubeComplex N) (q : Nat) (α : Cube → ZMod 2) : Prop :=
  ∀ c ∈ X.cubes, c.count 2 = q + 1 → cubeCoboundary α c = 0

/-- `α` and `β` differ by a coboundary in degree `q` on `X`. -/
def CubeCohomologous {N : Nat} (X : CubeComplex N) (q : Nat) (α β : Cube → ZMod 2) : Prop :=
  ∃ γ : Cube → ZMod 2, ∀ c ∈ X.cubes, c.count 2 = q → α c = β c + cubeCoboundary γ c

/-- The value of `α ⊗ β`, for `α` of degree `a` and `β` of degree `b`, on a tensor of cubes. -/
def cubeTensorValue (a : Nat) (α : Cube → ZMod 2) (b : Nat) (β : Cube → ZMod 2) : CKey → ZMod 2
  | [f, g] => if f.count 2 = a ∧ g.count 2 = b then α f * β g else 0
  | _ => 0

/-- The linear extension to elements of the class. -/
def cubeEvalOn (a : Nat) (α : Cube → ZMod 2) (b : Nat) (β : Cube → ZMod 2) (u : CElem) : ZMod 2 :=
  (u.data.map fun p => ((p.2 : Int) : ZMod 2) * cubeTensorValue a α b β p.1).sum

/-- `CubicalElement({(c,): 1}, torsion=2)`. -/
def cubeElement (c : Cube) : CElem := Elem.new cubical [([c], 1)] (some 2)

/-- The value at `c` of `α ∪_i β`: evaluate `α ⊗ β` on
`Surjection.may_steenrod_structure(2, i, 2, convention)(CubicalElement({(c,): 1}, torsion=2))`. -/
def cubeCupValue (cv : Convention) (i a : Nat) (α : Cube → ZMod 2) (b : Nat) (β : Cube → ZMod 2) (c : Cube) :
    Py (ZMod 2) := do
  let op ← Surjection.maySteenrodStructure 2 i (some 2) cv
  let u ← SurjElem.callCubical op (cubeElement c)
  .ok (cubeEvalOn a α b β u)

/-- The value at `c` of `Sq^s α` for `α` of degree `q`: evaluate `α ⊗ α` on
`Surjection.steenrod_operation(2, -s, -q)(CubicalElement({(c,): 1}, torsion=2))`. -/
def cubeSquareValue (s : Int) (q : Nat) (α : Cube → ZMod 2) (c : Cube) : Py (ZMod 2) := do
  let op ← Surjection.steenrodOperation 2 (-s) (-(q : Int)) false
  let u ← SurjElem.callCubical op (cubeElement c)
  .ok (cubeEvalOn q α q α u)

/-- All ways to give every interval of `c` to one of two faces: where the first face has the interval the second one
has its end `1`, where the second face has the interval the first one has its end `0`. -/
def cubeSplits : Cube → List (Cube × Cube)
  | [] => [([], [])]
  | e :: c =>
    if e = 2 then (cubeSplits c).map (fun p => (2 :: p.1, 1 :: p.2)) ++ (cubeSplits c).map (fun p => (0 :: p.1, 2 :: p.2))
    else (cubeSplits c).map fun p => (e :: p.1, e :: p.2)

/-- The pull-back of a simplicial cochain along the Cartan–Serre map: evaluate it on
`CubicalElement({(c,): 1}, torsion=2).cartan_serre_map()`. -/
def csPullback (α : List Nat → ZMod 2) (c : Cube) : ZMod 2 :=
  evalOn [(c.count 2, α)] (CElem.cartanSerreMap (cubeElement c))

end Comch.Spec
