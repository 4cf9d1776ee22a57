import Verif.Spec.Perm
import Verif.Spec.Chains
import Verif.Spec.FreeModule
import Verif.Model.Surjection
import Mathlib.Algebra.BigOperators.Group.Finset.Basic
import Mathlib.Order.Interval.Finset.Nat
import Mathlib.Data.Finset.Prod

/-! # Specification vocabulary for the surjection operad

A surjection is written as the tuple of its values. -/

namespace Comch.Spec

/-- `x` is a normalised element of the surjection operad in arity `r`: the values taken by its keys
are exactly `1, …, r`. -/
structure InSurj (r : Nat) (x : SurjElem) : Prop where
  nf : x.NF surjection
  onto : ∀ p ∈ x.data, ∀ v, v ∈ p.1 ↔ 1 ≤ v ∧ v ≤ r

/-- Position `i` is a caesura: its value occurs again later. -/
def isCaesura (k : List Nat) (i : Nat) : Prop := k.getD i 0 ∈ k.drop (i + 1)

instance (k : List Nat) (i : Nat) : Decidable (isCaesura k i) :=
  inferInstanceAs (Decidable (_ ∈ _))

/-- The number of caesuras in front of position `i`. -/
def caesurasBefore (k : List Nat) (i : Nat) : Nat :=
  ((List.range i).filter fun p => isCaesura k p).length

/-- The last position in front of `i` with the same value. -/
def previousOccurrence (k : List Nat) (i : Nat) : Nat :=
  ((List.range i).filter fun p => k.getD p 0 = k.getD i 0).getLastD 0

/-- Exponent of the sign of the `i`-th face in the convention of Berger and Fresse: caesuras carry
alternating signs; the last occurrence of a value carries the sign opposite to that of the previous
one. -/
def bfExponent (k : List Nat) (i : Nat) : Nat :=
  if isCaesura k i then caesurasBefore k i else caesurasBefore k (previousOccurrence k i) + 1

/-- Exponent of the sign of the `i`-th face in the convention of McClure and Smith: the faces are
ordered by their value `v` and then by position; each smaller value `l` contributes the number of its
occurrences minus one, and each earlier occurrence of `v` contributes one. -/
def msExponent (k : List Nat) (i : Nat) : Nat :=
  ((List.range (k.getD i 0)).map fun l => k.count l - 1).sum + (k.take i).count (k.getD i 0)

/-- Exponent of a face, by convention. -/
def faceExponent : Convention → List Nat → Nat → Nat
  | .bergerFresse => bfExponent
  | .mcClureSmith => msExponent

/-- Incidence number of surjections: `m` is obtained from `k` by deleting an entry whose value occurs
at least twice. -/
def surjectionIncidence (c : Convention) (k m : List Nat) : Int :=
  sumTo k.length fun i =>
    if 2 ≤ k.count (k.getD i 0) ∧ k.eraseIdx i = m then (-1) ^ faceExponent c k i else 0

end Comch.Spec

namespace Comch.Spec

/-- `m` is a nondegenerate surjection onto `1, …, r`: these are its values, and no two consecutive
entries are equal. -/
structure NonDegenerate (r : Nat) (m : List Nat) : Prop where
  onto : ∀ v, v ∈ m ↔ 1 ≤ v ∧ v ≤ r
  noRepeat : ∀ i, i + 1 < m.length → m.getD i 0 ≠ m.getD (i + 1) 0

end Comch.Spec

namespace Comch.Spec

/-- Exponent of the sign with which a permutation `q` of the values acts on a surjection `k` of arity
`r`: none in the convention of Berger and Fresse; in that of McClure and Smith the value `l` has degree
"number of its occurrences minus one", and `q` permutes factors of these degrees. -/
def relabelExponent (r : Nat) : Convention → List Nat → List Nat → Nat
  | .bergerFresse, _, _ => 0
  | .mcClureSmith, q, k => koszulExponent q ((List.range' 1 r).map fun l => k.count l - 1)

end Comch.Spec

namespace Comch.Spec

/-- The values `1, 2, …, r` appear for the first time in this order. -/
def FirstOccurrencesInOrder (r : Nat) (k : List Nat) : Prop :=
  ∀ v, 1 ≤ v → v + 1 ≤ r → k.idxOf v < k.idxOf (v + 1)

end Comch.Spec

namespace Comch.Spec

/-- The number of changes in the subsequence of `k` formed by the values `i` and `j`: the documented
complexity of `k` for the pair `i < j`. -/
def alternations (k : List Nat) (i j : Nat) : Nat :=
  let l := k.filter fun x => x = i ∨ x = j
  ((List.range (l.length - 1)).filter fun t => l.getD t 0 ≠ l.getD (t + 1) 0).length

/-- Sum of the numbers of changes over all pairs `1 ≤ i < j ≤ r`. -/
def totalAlternations (r : Nat) (k : List Nat) : Nat :=
  ∑ p ∈ (Finset.Icc 1 r ×ˢ Finset.Icc 1 r) with p.1 < p.2, alternations k p.1 p.2

end Comch.Spec
