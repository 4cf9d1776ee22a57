import Verif.Model.Operators

/-! # Specification of the operator `*`: which classes can be multiplied -/

namespace Comch.Spec

/-- The Python types that can meet in a product. -/
inductive Tag
  | int | tuple | permutation | ringElement | simplicial | cubical | barrattEccles | surjection
deriving DecidableEq, Repr

/-- `type(v)`. -/
def tag : Val → Tag
  | .int _ => .int
  | .tup _ => .tuple
  | .perm _ => .permutation
  | .ring _ => .ringElement
  | .simp _ => .simplicial
  | .cub _ => .cubical
  | .be _ => .barrattEccles
  | .surj _ => .surjection

/-- The four classes of chains. -/
def Tag.isChain : Tag → Bool
  | .simplicial | .cubical | .barrattEccles | .surjection => true
  | _ => false

/-- The class of `a * b`, if the classes can be multiplied at all: integers scale everything from the left,
and ring elements also from the right (tuples, and permutations from the left, are repeated);
permutations and ring elements multiply their own class and act on the four classes of chains. -/
def productClass (a b : Tag) : Option Tag :=
  if a = .int ∧ b = .int then some .int
  else if a = .int ∧ (b = .tuple ∨ b = .permutation) ∨ a = .tuple ∧ b = .int then some .tuple
  else if a = .permutation ∧ b = .permutation then some .permutation
  else if (a = .ringElement ∨ a = .int) ∧ b = .ringElement ∨ a = .ringElement ∧ b = .int then some .ringElement
  else if (a = .int ∨ a = .permutation ∨ a = .ringElement) ∧ b.isChain = true then some b
  else none

/-- Every key of the element is a `SymmetricGroupElement`. -/
def AllGroupElements (x : RingObj) : Prop := ∀ p ∈ x.el.data, p.1 ∉ x.plain

/-- Ring elements computed by a program that never multiplies two ring elements. -/
inductive ProductFree : RingObj → Prop
  | new (d : Dict Perm) (t : Option Nat) : ProductFree (RingObj.new d t)
  | smul (c : Int) (x : RingObj) : ProductFree (x.smul c)
  | truediv (x z : RingObj) (c : Int) (h : x.truediv c = .ok z) : ProductFree z
  | pow (x z : RingObj) (n : Int) (h : x.pow n = .ok z) : ProductFree z
  | compose (x y z : RingObj) (i : Nat) (h : x.compose y i = .ok z) : ProductFree z
  | add (x y z : RingObj) (hy : ProductFree y) (h : x.add y = .ok z) : ProductFree z
  | sub (x y z : RingObj) (hy : ProductFree y) (h : x.sub y = .ok z) : ProductFree z
  | iadd (x y z : RingObj) (hx : ProductFree x) (hy : ProductFree y) (h : x.iadd y = .ok z) : ProductFree z
  | isub (x y z : RingObj) (hx : ProductFree x) (hy : ProductFree y) (h : x.isub y = .ok z) : ProductFree z
  | setTorsion (x : RingObj) (n : Nat) (hx : ProductFree x) : ProductFree (x.setTorsion n)

end Comch.Spec
