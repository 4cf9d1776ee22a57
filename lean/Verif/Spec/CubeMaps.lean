import Verif.Model.Cubical

/-! # Maps between standard cubes -/

namespace Comch.Spec

/-- The generating maps between standard cubes: the inclusion of a face (a new constant coordinate, 1 or 0,
before coordinate `j`), and the projection which forgets coordinate `j`. -/
inductive CubeMap
  | inclusion (j : Nat) (one : Bool)
  | projection (j : Nat)

/-- The image of a cube; none when the projection collapses it to a cube of smaller dimension. -/
def CubeMap.image : CubeMap → Cube → Option Cube
  | inclusion j one, c => some (c.take j ++ [if one then 1 else 0] ++ c.drop j)
  | projection j, c => if c[j]? = some 2 then none else some (c.take j ++ c.drop (j + 1))

/-- The images of the factors of a tensor; none when some factor is collapsed. -/
def CubeMap.images (g : CubeMap) : CKey → Option CKey
  | [] => some []
  | c :: k => match g.image c, g.images k with
    | some c', some k' => some (c' :: k')
    | _, _ => none

/-- The image of a chain: the sum of the images of its terms, a term with a collapsed factor being zero. -/
def cubicalPushforward (g : CubeMap) (y : CElem) : CElem :=
  Elem.accumulate cubical (y.zero cubical) (y.data.filterMap fun p => (g.images p.1).map fun k => (k, p.2))

end Comch.Spec
