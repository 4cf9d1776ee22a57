import Verif.Spec.Ring
import Verif.Model.BarrattEccles

/-! # Specification vocabulary for the operads -/

namespace Comch.Spec

/-- `x` is a normalised element of the Barratt-Eccles operad in arity `r`: the entries of its keys
are permutations of `1..r`. -/
structure InBE (r : Nat) (x : BElem) : Prop where
  nf : x.NF barrattEccles
  perm : ∀ p ∈ x.data, ∀ σ ∈ p.1, IsPerm r σ

/-- Incidence number: `m` is obtained from `k` by deleting the entry number `i = 0, 1, …`, with sign
`(-1)^i`. -/
def deletionIncidence (k m : List (List Nat)) : Int :=
  ((List.range k.length).map fun i => if k.eraseIdx i = m then (-1) ^ i else 0).sum

/-- `m` is `k` with all entries multiplied from the left by `p`. -/
def IsTranslate (p : List Nat) (k m : List (List Nat)) : Prop :=
  m.length = k.length ∧ ∀ i < k.length, IsComposite p (k.getD i []) (m.getD i [])

instance (p : List Nat) (k m : List (List Nat)) : Decidable (IsTranslate p k m) :=
  inferInstanceAs (Decidable (_ ∧ _))

end Comch.Spec

namespace Comch.Spec

/-- The number of steps of a sequence of permutations at which the letters `i` and `j` change their
order: the documented complexity of the sequence for the pair `i < j`. -/
def orderChanges (k : List (List Nat)) (i j : Nat) : Nat :=
  ((List.range (k.length - 1)).filter fun t =>
    decide ((k.getD t []).filter (fun x => x = i ∨ x = j) ≠
      (k.getD (t + 1) []).filter (fun x => x = i ∨ x = j))).length

/-- The sign which a representation assigns to a permutation: `(-1)` to the number of inversions for
the sign representation. -/
def repSign : Representation → List Nat → Int
  | .trivial, _ => 1
  | .sign, p => (-1) ^ inversions p

end Comch.Spec

namespace Comch.Spec

/-- `x` is a normalised element of the Barratt-Eccles operad of arity `r` and degree `d` (or zero): its
keys are sequences of `d + 1` permutations of `1..r`. -/
structure HomBE (r d : Nat) (x : BElem) : Prop extends InBE r x where
  len : ∀ p ∈ x.data, p.1.length = d + 1

/-- The composition `x ∘ᵢ y`, read as 0 when `x` or `y` is 0 (there `compose` raises `TypeError`, see
C41). -/
def composeOrZero (x y : BElem) (i : Nat) : Py BElem :=
  if x.data = [] ∨ y.data = [] then .ok { x with data := [] } else x.compose y i

end Comch.Spec

namespace Comch.Spec

/-- The letters of row `i` of the table which are not crossed out: a letter is crossed out below a row
if it was read in this row, but not as the last letter of the row. -/
def tableRow (k S : List (List Nat)) (i : Nat) : List Nat :=
  (k.getD i []).filter fun v => v ∉ ((S.take i).map List.dropLast).flatten

/-- `m` is read off the table with rows `k`: one reads a non-empty initial segment `S_i` of each row
(without the letters crossed out so far), the whole row in the case of the last row, and crosses out
all letters read, except the last one, in the rows below. -/
def IsTableReading (k : List (List Nat)) (m : List Nat) : Prop :=
  ∃ S : List (List Nat), S.flatten = m ∧ S.length = k.length ∧ ∀ i < k.length,
    S.getD i [] ≠ [] ∧ S.getD i [] <+: tableRow k S i ∧
      (i + 1 = k.length → S.getD i [] = tableRow k S i)

end Comch.Spec
