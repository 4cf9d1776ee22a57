import Verif.Spec.Cochains
import Verif.Spec.CubeCup
import Verif.Spec.CubePullback

/-! # Pull-back of simplicial cochains to cubes, with any coefficients -/

namespace Comch.Spec

/-- The pull-back of a simplicial cochain along the Cartan–Serre map: evaluate it on
`CubicalElement({(c,): 1}, torsion=n).cartan_serre_map()`. -/
def signedCsPullback {n : Nat} (α : List Nat → ZMod n) (c : Cube) : ZMod n :=
  evalOn [(c.count 2, α)] (CElem.cartanSerreMap (cubeElementMod n c))

/-- `(f^* α)(c) = α(f(c))` for a composite of inclusions of faces and projections, and 0 if `f` collapses `c`. -/
def cubePullbackMod {n : Nat} (f : List CubeMap) (α : Cube → ZMod n) (c : Cube) : ZMod n :=
  match imageUnder f c with
  | some c' => α c'
  | none => 0

end Comch.Spec
