import Verif.Spec.CubeCochains
import Verif.Spec.CubeMaps

/-! # Maps of cubical complexes and cochains -/

namespace Comch.Spec

/-- The image of a cube under a composite of inclusions of faces and projections, the first map of the list being
applied first; none when the composite collapses the cube. -/
def imageUnder : List CubeMap → Cube → Option Cube
  | [], c => some c
  | g :: f, c => (g.image c).bind (imageUnder f)

/-- The composite maps every cube of `X` to a cube of `Y` or collapses it. -/
def IsCubicalMap {N M : Nat} (f : List CubeMap) (X : CubeComplex N) (Y : CubeComplex M) : Prop :=
  ∀ c ∈ X.cubes, ∀ c', imageUnder f c = some c' → c' ∈ Y.cubes

/-- `(f^* α)(c) = α(f(c))`, and 0 if `f` collapses `c`. -/
def cubePullback (f : List CubeMap) (α : Cube → ZMod 2) (c : Cube) : ZMod 2 :=
  match imageUnder f c with
  | some c' => α c'
  | none => 0

end Comch.Spec
