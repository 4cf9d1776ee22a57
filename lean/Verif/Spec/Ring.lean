import Verif.Spec.Perm
import Verif.Spec.FreeModule
import Verif.Model.Symmetric

/-! # Specification vocabulary for the group ring of the symmetric group -/

namespace Comch.Spec

/-- `x` is a (normalised) element of the group ring of `Σ_r`: all its keys are permutations of
`1..r`. -/
structure InRing (r : Nat) (x : RingElem) : Prop where
  nf : x.NF symmetricRing
  perm : ∀ p ∈ x.data, IsPerm r p.1

/-- `m` is the composite function `i ↦ p(q(i))`. -/
def IsComposite (p q m : List Nat) : Prop :=
  m.length = q.length ∧ ∀ i < q.length, value m (i + 1) = value p (value q (i + 1))

instance (p q m : List Nat) : Decidable (IsComposite p q m) :=
  inferInstanceAs (Decidable (_ ∧ _))

end Comch.Spec
