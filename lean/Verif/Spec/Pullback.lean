import Verif.Spec.Cochains

/-! # Maps of ordered simplicial complexes and cochains -/

namespace Comch.Spec

variable {R : Type} [CommRing R]

/-- `f` maps every simplex of `X` to a simplex of `Y`, possibly with repeated vertices, and preserves the
order of the vertices of every simplex weakly. -/
structure IsSimplicialMap (f : Nat → Nat) (X Y : OrderedComplex) : Prop where
  monotone : ∀ σ ∈ X.simplices, (σ.map f).Pairwise (· ≤ ·)
  image : ∀ σ ∈ X.simplices, (σ.map f).dedup ∈ Y.simplices

/-- `(f^* α)(τ) = α(f(τ))`, and 0 if `f` identifies vertices of `τ`. -/
def pullback (f : Nat → Nat) (α : List Nat → R) (τ : List Nat) : R :=
  if (τ.map f).Pairwise (· < ·) then α (τ.map f) else 0

end Comch.Spec
