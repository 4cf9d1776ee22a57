import Verif.Model.Surjection
import Mathlib.Data.Nat.Choose.Basic
import Mathlib.Data.List.Dedup

/-! # The sign by which the cubical and simplicial actions differ -/

namespace Comch.Spec

/-- `Σ_i C(m_i, 2)`, where `m_i` is the number of occurrences of the value `i` in `k`. -/
def twistExponent (k : Surj) : Nat := (k.dedup.map fun i => (k.count i).choose 2).sum

/-- The element with the coefficient of every `k` multiplied by `(-1)^(twistExponent k)`. -/
def twist (x : SurjElem) : SurjElem :=
  Elem.new surjection (x.data.map fun p => (p.1, (-1) ^ twistExponent p.1 * p.2)) (some x.torsion) x.attrs.convention

end Comch.Spec
