import Verif.Model.Surjection
import Mathlib.Data.ZMod.Basic

/-! # Cochains on ordered simplicial complexes, and the operations the package induces on them

Cochains are not part of the package; the classes of the package are chains.  The operations below are what
a user obtains from the package by acting on a simplex and evaluating cochains on the factors of the result. -/

namespace Comch.Spec

/-- An ordered simplicial complex: a set of strictly increasing non-empty tuples of vertices that contains
with every simplex all its faces. -/
structure OrderedComplex where
  simplices : Set (List Nat)
  increasing : ∀ σ ∈ simplices, σ.Pairwise (· < ·)
  nonempty : ∀ σ ∈ simplices, σ ≠ []
  faces : ∀ σ ∈ simplices, ∀ τ : List Nat, τ.Sublist σ → τ ≠ [] → τ ∈ simplices

variable {R : Type} [CommRing R]

/-- `(δα)(σ) = Σ_i (-1)^i α(σ without its vertex i)`; a vertex has no faces. -/
def coboundary (α : List Nat → R) (σ : List Nat) : R :=
  if σ.length ≤ 1 then 0 else ((List.range σ.length).map fun i => (-1) ^ i * α (σ.eraseIdx i)).sum

/-- `α` is a cocycle of degree `q` on `X`. -/
def IsCocycle (X : OrderedComplex) (q : Nat) (α : List Nat → R) : Prop :=
  ∀ σ ∈ X.simplices, σ.length = q + 2 → coboundary α σ = 0

/-- `α` and `β` differ by a coboundary in degree `q` on `X`. -/
def Cohomologous (X : OrderedComplex) (q : Nat) (α β : List Nat → R) : Prop :=
  ∃ γ : List Nat → R, ∀ σ ∈ X.simplices, σ.length = q + 1 → α σ = β σ + coboundary γ σ

/-- The value of `α_1 ⊗ … ⊗ α_r`, with `α_i` of degree `q_i`, on a tensor of simplices: the product of the
values `α_i(f_i)`, and 0 if the dimensions or the number of the factors differ. -/
def tensorValue : List (Nat × (List Nat → R)) → SKey → R
  | [], [] => 1
  | (q, α) :: L, f :: k => (if f.length = q + 1 then α f else 0) * tensorValue L k
  | _, _ => 0

/-- The linear extension to elements of the class. -/
def evalOn {n : Nat} (L : List (Nat × (List Nat → ZMod n))) (u : SElem) : ZMod n :=
  (u.data.map fun p => ((p.2 : Int) : ZMod n) * tensorValue L p.1).sum

/-- `SimplicialElement({(σ,): 1}, torsion=n)`. -/
def simplexElement (n : Nat) (σ : List Nat) : SElem := Elem.new simplicial [([σ], 1)] (some n)

/-- The value at `σ` of the operation `P^s` (`β P^s` with the Bockstein, `Sq^s` at `p = 2`) on a cochain `α`
of degree `q`: evaluate `α ⊗ … ⊗ α` on
`Surjection.steenrod_operation(p, -s, -q, bockstein)(SimplicialElement({(σ,): 1}, torsion=p))`. -/
def steenrodValue (p : Nat) (s : Int) (q : Nat) (bockstein : Bool) (α : List Nat → ZMod p) (σ : List Nat) :
    Py (ZMod p) := do
  let op ← Surjection.steenrodOperation p (-s) (-(q : Int)) bockstein
  let u ← SurjElem.callSimplicial op (simplexElement p σ)
  .ok (evalOn (List.replicate p (q, α)) u)

/-- The value at `σ` of the operation of degree `d` of the cyclic group of order `p` on a cochain `α` of degree
`q`: evaluate `α ⊗ … ⊗ α` on
`Surjection.may_steenrod_structure(p, d, p, 'McClure-Smith')(SimplicialElement({(σ,): 1}, torsion=p))`. -/
def structureValue (p d q : Nat) (α : List Nat → ZMod p) (σ : List Nat) : Py (ZMod p) := do
  let op ← Surjection.maySteenrodStructure p d (some p) .mcClureSmith
  let u ← SurjElem.callSimplicial op (simplexElement p σ)
  .ok (evalOn (List.replicate p (q, α)) u)

/-- The value at `σ` of `α ∪_i β`, for `α` of degree `a` and `β` of degree `b`: evaluate `α ⊗ β` on
`Surjection.may_steenrod_structure(2, i, n, 'McClure-Smith')(SimplicialElement({(σ,): 1}, torsion=n))`. -/
def cupValue (n i : Nat) (a : Nat) (α : List Nat → ZMod n) (b : Nat) (β : List Nat → ZMod n) (σ : List Nat) :
    Py (ZMod n) := do
  let op ← Surjection.maySteenrodStructure 2 i (some n) .mcClureSmith
  let u ← SurjElem.callSimplicial op (simplexElement n σ)
  .ok (evalOn [(a, α), (b, β)] u)

/-- A family of computed values as a cochain (0 where the computation raises). -/
def cochain {A : Type} [Zero A] (f : List Nat → Py A) (σ : List Nat) : A :=
  match f σ with
  | .ok v => v
  | .error _ => 0

end Comch.Spec
