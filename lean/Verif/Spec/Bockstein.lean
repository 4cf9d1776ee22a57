import Verif.Spec.Cochains

/-! # The Bockstein homomorphism -/

namespace Comch.Spec

/-- `β` is a value of the Bockstein on the cochain `α` of degree `m` modulo `p`: for some integral cochain `A` which
reduces to `α`, the coboundary of `A` is `p` times an integral cochain which reduces to `β`. -/
def IsBockstein (X : OrderedComplex) (p m : Nat) (α β : List Nat → ZMod p) : Prop :=
  ∃ A B : List Nat → Int,
    (∀ σ ∈ X.simplices, σ.length = m + 1 → ((A σ : Int) : ZMod p) = α σ) ∧
    (∀ σ ∈ X.simplices, σ.length = m + 2 → coboundary A σ = p * B σ ∧ ((B σ : Int) : ZMod p) = β σ)

end Comch.Spec
