import Verif.Model.Simplicial

/-! # Maps of vertices -/

namespace Comch.Spec

/-- The chain obtained by applying a map of vertices to all the simplices of all the terms: the sum over
the items `(k, v)` of `y` of `y.create({tuple(Simplex(f(a) for a in s) for s in k): v})`. -/
def pushforward (f : Nat → Nat) (y : SElem) : SElem :=
  Elem.accumulate simplicial (y.zero simplicial) (y.data.map fun p => (p.1.map (List.map f), p.2))

end Comch.Spec
