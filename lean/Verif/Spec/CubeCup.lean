import Verif.Model.Surjection
import Verif.Spec.CubeCochains
import Mathlib.Data.ZMod.Basic

/-! # Cup products on the cochains of cubical complexes, with signs

As in `Spec/CubeCochains`, with coefficients in the integers modulo `n` (the integers for `n = 0`). -/

namespace Comch.Spec

/-- `(δα)(c)`: the differences of the values at the ends 1 and 0 of every interval of `c`, with alternating signs. -/
def signedCubeCoboundary {R : Type} [CommRing R] (α : Cube → R) (c : Cube) : R :=
  ((List.range c.length).map fun i =>
    if c.getD i 0 = 2 then (-1) ^ (c.take i).count 2 * (α (c.set i 1) - α (c.set i 0)) else 0).sum

/-- `α` is a cocycle of degree `q` on `X`. -/
def IsSignedCubeCocycle {R : Type} [CommRing R] {N : Nat} (X : CubeComplex N) (q : Nat) (α : Cube → R) : Prop :=
  ∀ c ∈ X.cubes, c.count 2 = q + 1 → signedCubeCoboundary α c = 0

/-- `α` and `β` differ by a coboundary in degree `q` on `X`. -/
def SignedCubeCohomologous {R : Type} [CommRing R] {N : Nat} (X : CubeComplex N) (q : Nat) (α β : Cube → R) : Prop :=
  ∃ γ : Cube → R, ∀ c ∈ X.cubes, c.count 2 = q → α c = β c + signedCubeCoboundary γ c

/-- The value of `α ⊗ β`, for `α` of degree `a` and `β` of degree `b`, on a tensor of cubes. -/
def cubePairValue {R : Type} [CommRing R] (a : Nat) (α : Cube → R) (b : Nat) (β : Cube → R) : CKey → R
  | [f, g] => if f.count 2 = a ∧ g.count 2 = b then α f * β g else 0
  | _ => 0

/-- The linear extension to elements of the class. -/
def cubePairEval {n : Nat} (a : Nat) (α : Cube → ZMod n) (b : Nat) (β : Cube → ZMod n) (u : CElem) : ZMod n :=
  (u.data.map fun p => ((p.2 : Int) : ZMod n) * cubePairValue a α b β p.1).sum

/-- `CubicalElement({(c,): 1}, torsion=n)`. -/
def cubeElementMod (n : Nat) (c : Cube) : CElem := Elem.new cubical [([c], 1)] (some n)

/-- The value at `c` of `α ∪_i β`: evaluate `α ⊗ β` on
`Surjection.may_steenrod_structure(2, i, n, convention)(CubicalElement({(c,): 1}, torsion=n))`. -/
def signedCubeCup (n : Nat) (cv : Convention) (i a : Nat) (α : Cube → ZMod n) (b : Nat) (β : Cube → ZMod n) (c : Cube) :
    Py (ZMod n) := do
  let op ← Surjection.maySteenrodStructure 2 i (some n) cv
  let u ← SurjElem.callCubical op (cubeElementMod n c)
  .ok (cubePairEval a α b β u)

/-- The number of pairs of an interval of `g` and a later interval of `f`. -/
def splitInversions : Cube → Cube → Nat
  | _ :: f, w :: g => (if w = 2 then f.count 2 else 0) + splitInversions f g
  | _, _ => 0

end Comch.Spec
