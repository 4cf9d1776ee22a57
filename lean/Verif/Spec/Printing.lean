import Verif.Model.Printing

/-! # Specification of the printed text

A tuple is printed as `()`, `(a,)` or `(a,b,...)`; an element as the sum of its terms in the order of
the dictionary, the coefficient before the basis element and omitted when it is `1` or `-1`. -/

namespace Comch.Spec.Printing

/-- The entries after the first, and the closing bracket. -/
def tailText : List PyStr → PyStr
  | [] => [')']
  | a :: l => ',' :: (a ++ tailText l)

/-- A tuple printed without spaces. -/
def tupleText : List PyStr → PyStr
  | [] => ['(', ')']
  | [a] => '(' :: (a ++ [',', ')'])
  | a :: b :: l => '(' :: (a ++ tailText (b :: l))

/-- How a basis element is printed. -/
class KeyText (K : Type) where
  /-- The text. -/
  text : K → PyStr

instance : KeyText (List Nat) := ⟨fun k => tupleText (k.map natStr)⟩

instance : KeyText (List (List Nat)) := ⟨fun k => tupleText (k.map KeyText.text)⟩

/-- A term without its sign, for a given way to print basis elements. -/
def termOf {K : Type} (key : K → PyStr) (p : K × Int) : PyStr :=
  (if p.2.natAbs = 1 then [] else natStr p.2.natAbs) ++ key p.1

/-- A sum, for a given way to print basis elements. -/
def sumOf {K : Type} (key : K → PyStr) : Dict K → PyStr
  | [] => ['0']
  | p :: l => (if p.2 < 0 then "- ".toList else []) ++ termOf key p ++
      (l.map fun q => (if q.2 < 0 then " - ".toList else " + ".toList) ++ termOf key q).flatten

/-- A term as `str` prints it. -/
abbrev termText {K : Type} [KeyText K] (p : K × Int) : PyStr := termOf KeyText.text p

/-- A sum as `str` prints it. -/
abbrev strText {K : Type} [KeyText K] (d : Dict K) : PyStr := sumOf KeyText.text d

/-- A simplex in LaTeX: `[0,1,2]`. -/
def simplexLatex (σ : List Nat) : PyStr := '[' :: ([','].intercalate (σ.map natStr) ++ [']'])

/-- A tensor of simplices in LaTeX. -/
def simplicesLatex (k : List (List Nat)) : PyStr := (" \\otimes ".toList).intercalate (k.map simplexLatex)

/-- A cube in LaTeX: its intervals `[0]`, `[1]`, `[01]` side by side. -/
def cubeLatex (c : List Nat) : PyStr :=
  (c.map fun a => if a = 0 then "[0]".toList else if a = 1 then "[1]".toList else "[01]".toList).flatten

/-- A tensor of cubes in LaTeX. -/
def cubesLatex (k : List (List Nat)) : PyStr := (" \\otimes ".toList).intercalate (k.map cubeLatex)

end Comch.Spec.Printing
