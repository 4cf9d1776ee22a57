import Verif.Model.BarrattEccles
import Verif.Spec.Perm
import Verif.Spec.Cuts

/-! # Specification vocabulary for the Hopf structure of the Barratt-Eccles operad

The values of `BarrattEcclesElement.diagonal` are free module elements whose keys are tuples of basis
elements of the Barratt-Eccles operad. The following operations on them are not part of the package. -/

namespace Comch.Spec

/-- A tuple of basis elements which are non-zero in the operad: no factor is empty or has two equal
consecutive permutations. -/
def ProperTensor (k : BElem.DKey) : Prop := ∀ s ∈ k, s ≠ [] ∧ s.IsChain (· ≠ ·)

instance (k : BElem.DKey) : Decidable (ProperTensor k) := by unfold ProperTensor; infer_instance

/-- The terms of the boundary of a tensor: Leibniz rule `∂(a ⊗ k) = ∂a ⊗ k + (-1)^|a| a ⊗ ∂k`, the boundary
of a sequence being the alternating sum of the deletions of one entry. -/
def tensorBoundaryTerms : BElem.DKey → List (BElem.DKey × Int)
  | [] => []
  | a :: k => ((List.range a.length).map fun j => (a.eraseIdx j :: k, (-1) ^ j)) ++
      (tensorBoundaryTerms k).map fun q => (a :: q.1, pySign ((a.length : Int) - 1) * q.2)

/-- The boundary of an element of a tensor power of the Barratt-Eccles complex. -/
def tensorBoundary (t : Elem BElem.DKey) : Elem BElem.DKey :=
  Elem.accumulate (freeModule BElem.DKey) (t.zero (freeModule BElem.DKey))
    (t.data.flatMap fun p => ((tensorBoundaryTerms p.1).filter fun q => ProperTensor q.1).map fun q => (q.1, p.2 * q.2))

/-- Cut factor number `j` (counted from 0) of all terms in all ways into `s + 1` pieces. -/
def cutFactor (s j : Nat) (t : Elem BElem.DKey) : Elem BElem.DKey :=
  Elem.accumulate (freeModule BElem.DKey) (t.zero (freeModule BElem.DKey))
    (t.data.flatMap fun p => (allCuts (s + 1) (p.1.getD j [])).map fun ps =>
      (p.1.take j ++ ps ++ p.1.drop (j + 1), p.2))

/-- Omit factor number `j` of the terms in which it has degree 0; the other terms become zero. -/
def omitFactor (j : Nat) (t : Elem BElem.DKey) : Elem BElem.DKey :=
  Elem.accumulate (freeModule BElem.DKey) (t.zero (freeModule BElem.DKey))
    ((t.data.filter fun p => (p.1.getD j []).length = 1).map fun p => (p.1.eraseIdx j, p.2))

/-- Multiply all the permutations of all the factors by the permutations of a group ring element. -/
def translateFactors (s : RingElem) (t : Elem BElem.DKey) : Elem BElem.DKey :=
  Elem.accumulate (freeModule BElem.DKey) (t.zero (freeModule BElem.DKey))
    ((pyProduct t.data s.data).map fun pq =>
      (pq.1.1.map (List.map fun τ => τ.map (value pq.2.1)), pq.1.2 * pq.2.2))

/-- Coefficient of `m ⊗ m'` in `(k ⊗ k') ∘ᵢ (l ⊗ l') = (-1)^(|k'||l|) (k ∘ᵢ l) ⊗ (k' ∘ᵢ l')`. -/
def tensorCompositionCoeff (i : Nat) (k l : BElem.DKey) (m m' : BKey) : Int :=
  (-1) ^ (((k.getD 1 []).length - 1) * ((l.getD 0 []).length - 1)) *
    (barrattEcclesCoeff i (k.getD 0 []) (l.getD 0 []) m * barrattEcclesCoeff i (k.getD 1 []) (l.getD 1 []) m')

end Comch.Spec
