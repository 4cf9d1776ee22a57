import Verif.Model.Py

/-!
# Specification vocabulary for permutations

A permutation of `1..r` is written as the tuple of its values.
-/

namespace Comch.Spec

/-- `p` is a permutation of `1..r`: `r` pairwise distinct entries between `1` and `r`. -/
structure IsPerm (r : Nat) (p : List Nat) : Prop where
  length : p.length = r
  nodup : p.Nodup
  range : ∀ i ∈ p, 1 ≤ i ∧ i ≤ r

instance (r : Nat) (p : List Nat) : Decidable (IsPerm r p) :=
  decidable_of_iff (p.length = r ∧ p.Nodup ∧ ∀ i ∈ p, 1 ≤ i ∧ i ≤ r)
    ⟨fun h => ⟨h.1, h.2.1, h.2.2⟩, fun h => ⟨h.1, h.2, h.3⟩⟩

/-- The value `p(i)`, for `1 ≤ i ≤ r`. -/
def value (p : List Nat) (i : Nat) : Nat := p.getD (i - 1) 0

/-- Number of inversions: pairs of positions `i < j` with `p_i > p_j`. -/
def inversions : List Nat → Nat
  | [] => 0
  | a :: p => (p.filter fun b => b < a).length + inversions p

/-- `c` lists an orbit of `p`: each entry is mapped to the next one, the last one to the first. -/
structure IsCycle (p c : List Nat) : Prop where
  ne_nil : c ≠ []
  nodup : c.Nodup
  step : ∀ i, i < c.length → value p (c.getD i 0) = c.getD ((i + 1) % c.length) 0

end Comch.Spec

namespace Comch.Spec

/-- `m` is the tuple `k` with its `j`-th factor moved to position `p(j)`. -/
def IsMoved {A : Type} (p : List Nat) (k m : List A) : Prop :=
  m.length = k.length ∧ ∀ j, j < k.length → m[value p (j + 1) - 1]? = k[j]?

instance {A : Type} [DecidableEq A] (p : List Nat) (k m : List A) : Decidable (IsMoved p k m) :=
  inferInstanceAs (Decidable (_ ∧ _))

/-- Koszul exponent of moving factors of degrees `d_1, …, d_r` by `p`: each pair of factors that
changes its order contributes the product of the two degrees. -/
def koszulExponent : List Nat → List Nat → Nat
  | s :: p, a :: d => a * (((p.zip d).filter fun y => y.1 < s).map Prod.snd).sum + koszulExponent p d
  | _, _ => 0

end Comch.Spec
