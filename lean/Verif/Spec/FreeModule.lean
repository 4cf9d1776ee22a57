import Verif.Model.FreeModule

/-!
# Specification vocabulary for free modules

* `NF C x`: the element `x` of class `C` is in normal form, i.e. it is what Python objects of this
  class always look like from outside.
* `Built C x`: `x` is obtained by a finite sequence of calls of the public constructors/operators.
-/

namespace Comch
namespace Dict
variable {K : Type}

/-- The keys are pairwise distinct, as in every Python dict. -/
def KeysNodup (d : Dict K) : Prop := (d.map Prod.fst).Nodup

instance [DecidableEq K] (d : Dict K) : Decidable d.KeysNodup :=
  inferInstanceAs (Decidable (d.map Prod.fst).Nodup)

end Dict

namespace Elem
variable {K : Type} [DecidableEq K]

/-- Normal form: distinct keys, non-zero coefficients, reduced modulo the torsion, and no key that
the class regards as zero (e.g. degenerate simplices). -/
structure NF (C : Cls K) (x : Elem K) : Prop where
  nodup : x.data.KeysNodup
  coeff_ne : ∀ p ∈ x.data, p.2 ≠ 0
  coeff_range : x.torsion ≠ 0 → ∀ p ∈ x.data, 0 ≤ p.2 ∧ p.2 < x.torsion
  kept : ∀ p ∈ x.data, C.drops p.1 = false

/-- Elements obtained by arbitrary sequences of public operations. -/
inductive Built (C : Cls K) : Elem K → Prop
  | new (d : Dict K) (h : d.KeysNodup) (t : Option Nat) (c : Convention) : Built C (new C d t c)
  | create (x : Elem K) (hx : Built C x) (d : Dict K) (h : d.KeysNodup) : Built C (create C x d)
  | zero (x : Elem K) (hx : Built C x) : Built C (zero C x)
  | add (x y z : Elem K) (hx : Built C x) (hy : Built C y) (h : add C x y = .ok z) : Built C z
  | sub (x y z : Elem K) (hx : Built C x) (hy : Built C y) (h : sub C x y = .ok z) : Built C z
  | iadd (x y z : Elem K) (hx : Built C x) (hy : Built C y) (h : iadd C x y = .ok z) : Built C z
  | isub (x y z : Elem K) (hx : Built C x) (hy : Built C y) (h : isub C x y = .ok z) : Built C z
  | smul (c : Int) (x : Elem K) (hx : Built C x) : Built C (smul C c x)
  | neg (x : Elem K) (hx : Built C x) : Built C (neg C x)
  | truediv (x z : Elem K) (c : Int) (hx : Built C x) (h : truediv C x c = .ok z) : Built C z
  | setTorsion (x : Elem K) (n : Nat) (hx : Built C x) : Built C (setTorsion C x n)

end Elem
end Comch
