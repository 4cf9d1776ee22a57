import Mathlib.NumberTheory.Wilson
import Mathlib.Algebra.Field.ZMod

/-! # Specification of the coefficients of Steenrod operations at odd primes -/

namespace Comch.Spec

/-- `ν(q) = (-1)^{q(q-1)m/2} (m!)^q` with `m = (p-1)/2`, as in the documentation of
`steenrod_operation`; `q` is any integer, the powers are taken in the field with `p` elements. -/
noncomputable def nu (p : Nat) [Fact p.Prime] (q : Int) : ZMod p :=
  (-1) ^ (q * (q - 1) / 2 * (((p - 1) / 2 : Nat) : Int)) * ((((p - 1) / 2).factorial : Nat) : ZMod p) ^ q

end Comch.Spec
