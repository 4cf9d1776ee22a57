import Verif.Spec.CubeCochains

/-! # The connecting homomorphism of a pair of complexes -/

namespace Comch.Spec

/-- `β` is a value of the connecting homomorphism of the pair `(X, A)` on the cochain `α` of degree `q` on `A`: for some
cochain `γ` on `X` whose restriction to `A` is `α`, the cochain `β` is the coboundary of `γ`. -/
def IsConnecting {R : Type} [CommRing R] (X A : OrderedComplex) (q : Nat) (α β : List Nat → R) : Prop :=
  ∃ γ : List Nat → R, (∀ σ ∈ A.simplices, σ.length = q + 1 → γ σ = α σ) ∧
    ∀ σ ∈ X.simplices, σ.length = q + 2 → β σ = coboundary γ σ

/-- The same for cubical complexes and cochains modulo 2. -/
def IsCubeConnecting {N : Nat} (X A : CubeComplex N) (q : Nat) (α β : Cube → ZMod 2) : Prop :=
  ∃ γ : Cube → ZMod 2, (∀ c ∈ A.cubes, c.count 2 = q → γ c = α c) ∧
    ∀ c ∈ X.cubes, c.count 2 = q + 1 → β c = cubeCoboundary γ c

end Comch.Spec
