import Verif.Spec.Cuts

/-! # Specification vocabulary for the formula of Steenrod for the products `∪_i` -/

namespace Comch.Spec

/-- The tuple `(1, 2, 1, 2, …)` with `m` entries. -/
def alternating (m : Nat) : List Nat := (List.range m).map fun i => i % 2 + 1

/-- The cuts of a tuple into `m` overlapping pieces of which all but the first and the last one have at least two
entries.  They are given by the places `0 ≤ t_1 < t_2 < … < t_(m-1) < l` of the common entries. -/
def properCuts (m : Nat) (V : List Nat) : List (List (List Nat)) :=
  (allCuts m V).filter fun ps => (List.range m).all fun j => j = 0 ∨ j + 1 = m ∨ 2 ≤ (ps.getD j []).length

/-- The concatenation of the pieces number 0, 2, 4, …. -/
def evenPieces (ps : List (List Nat)) : List Nat :=
  ((List.range ps.length).map fun j => if j % 2 = 0 then ps.getD j [] else []).flatten

/-- The concatenation of the pieces number 1, 3, 5, …. -/
def oddPieces (ps : List (List Nat)) : List Nat :=
  ((List.range ps.length).map fun j => if j % 2 = 0 then [] else ps.getD j []).flatten

end Comch.Spec
