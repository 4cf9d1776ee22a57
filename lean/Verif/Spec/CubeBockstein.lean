import Verif.Spec.CubeCochains

/-! # The Bockstein homomorphism on cubical complexes -/

namespace Comch.Spec

/-- Integral cubical cochains: `(δA)(c)` is the sum over the intervals of `c` of the difference of the values at the ends
`1` and `0`, with the sign given by the number of earlier intervals. -/
def cubeCoboundaryZ (A : Cube → Int) (c : Cube) : Int :=
  ((List.range c.length).map fun i =>
    if c.getD i 0 = 2 then (-1) ^ (c.take i).count 2 * (A (c.set i 1) - A (c.set i 0)) else 0).sum

/-- The value of an integral cochain on an element of arity 1. -/
def cubeEvalZ (A : Cube → Int) (u : CElem) : Int :=
  (u.data.map fun p => p.2 * match p.1 with
    | [f] => A f
    | _ => 0).sum

/-- `β` is a value of the Bockstein on the cochain `α` of degree `m` modulo 2: for some integral cochain `A` which reduces
to `α`, the coboundary of `A` is twice an integral cochain which reduces to `β`. -/
def IsCubeBockstein {N : Nat} (X : CubeComplex N) (m : Nat) (α β : Cube → ZMod 2) : Prop :=
  ∃ A B : Cube → Int,
    (∀ c ∈ X.cubes, c.count 2 = m → ((A c : Int) : ZMod 2) = α c) ∧
    (∀ c ∈ X.cubes, c.count 2 = m + 1 → cubeCoboundaryZ A c = 2 * B c ∧ ((B c : Int) : ZMod 2) = β c)

end Comch.Spec
