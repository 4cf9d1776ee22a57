import Mathlib.Data.Set.Defs
import Verif.Model.Simplicial
import Verif.Model.Cubical
import Verif.Spec.FreeModule

/-! # Homogeneous chains on a full simplex and on a cube -/

namespace Comch.Spec

/-- `x` is a normal-form combination of `r`-fold tensors of simplices with vertices in `V`, all of
total dimension `d`. -/
structure OnSimplex (V : Set Nat) (r d : Nat) (x : SElem) : Prop where
  nf : x.NF simplicial
  vertices : ∀ p ∈ x.data, ∀ s ∈ p.1, ∀ v ∈ s, v ∈ V
  length : ∀ p ∈ x.data, p.1.length = r
  degree : ∀ p ∈ x.data, (p.1.map fun s => s.length - 1).sum = d

/-- `x` is a normal-form combination of `r`-fold tensors of cubes with `n` entries among 0, 1, 2, all
of total dimension `d`, the dimension of a cube being the number of its entries 2. -/
structure OnCube (n r d : Nat) (x : CElem) : Prop where
  nf : x.NF cubical
  cubes : ∀ p ∈ x.data, ∀ c ∈ p.1, c.length = n ∧ ∀ e ∈ c, e ≤ 2
  length : ∀ p ∈ x.data, p.1.length = r
  degree : ∀ p ∈ x.data, (p.1.map fun c => c.count 2).sum = d

end Comch.Spec
