import Verif.Spec.Surjections

/-! # Specification vocabulary for the closed formulas of the action and of the compositions

Sums over all the ways of cutting a tuple into consecutive pieces with common end entries. -/

namespace Comch.Spec

/-- All the ways of cutting `V` into `n` consecutive pieces such that the last entry of each piece is the
first entry of the next one: `allCuts 2 (a,b,c) = [(a)(a,b,c), (a,b)(b,c), (a,b,c)(c)]`. -/
def allCuts {A : Type} : Nat → List A → List (List (List A))
  | 0, _ => []
  | 1, V => [[V]]
  | n + 2, V => (List.range V.length).flatMap fun i => (allCuts (n + 1) (V.drop i)).map (V.take (i + 1) :: ·)

/-- Dimension of the simplex with the given vertices. -/
def dimOf (s : List Nat) : Int := (s.length : Int) - 1

/-- The tensor assembled from pieces labelled by the letters of the surjection `k`: factor number `v` is
the concatenation of the pieces with label `v`. -/
def assemble (r : Nat) (k : List Nat) (ps : List (List Nat)) : List (List Nat) :=
  (List.range r).map fun v => (((k.zip ps).filter fun p => p.1 = v + 1).map Prod.snd).flatten

/-- Exponent of the Koszul sign of sorting the pieces by their labels: a pair of pieces in the wrong order
contributes the product of the dimensions. -/
def sortingExponent (k : List Nat) (ps : List (List Nat)) : Int :=
  sumTo k.length fun a => sumTo k.length fun b =>
    if a < b ∧ k.getD b 0 < k.getD a 0 then dimOf (ps.getD a []) * dimOf (ps.getD b []) else 0

/-- Exponent of the sign of concatenating the sorted pieces: each concatenation is an operator of degree
one, standing behind the piece of the caesura `a`; it is moved past the pieces up to that place. -/
def concatenationExponent (k : List Nat) (ps : List (List Nat)) : Int :=
  sumTo k.length fun a => sumTo k.length fun b =>
    if isCaesura k a ∧ (k.getD b 0 < k.getD a 0 ∨ (k.getD b 0 = k.getD a 0 ∧ b ≤ a)) then
      dimOf (ps.getD b []) else 0

/-- Coefficient of the tensor `m` in the value of the surjection `k` of arity `r` on factor number `c`
of the tensor `t`, for a surjection of degree `d`. -/
def actionCoeff (r : Nat) (d : Int) (c : Nat) (k : List Nat) (t m : List (List Nat)) : Int :=
  ((allCuts k.length (t.getD (c - 1) [])).map fun ps =>
    if t.take (c - 1) ++ assemble r k ps ++ t.drop c = m then
      pySign (sortingExponent k ps + concatenationExponent k ps + ((t.take (c - 1)).map dimOf).sum * d)
    else 0).sum

/-- Each of the `n + 1` windows of `r` consecutive entries of `k`, starting at the positions
`0, r - 1, 2 (r - 1), …, n (r - 1)`, has pairwise different entries. -/
def FillsUp (r n : Nat) (k : List Nat) : Prop := ∀ j ≤ n, ((k.drop (j * (r - 1))).take r).Nodup

instance (r n : Nat) (k : List Nat) : Decidable (FillsUp r n k) := by unfold FillsUp; infer_instance

end Comch.Spec

namespace Comch.Spec

/-- All lattice paths with `p` steps in the first and `q` steps in the second coordinate; `true` is a step
in the first coordinate. -/
def stepWords : Nat → Nat → List (List Bool)
  | 0, 0 => [[]]
  | p + 1, 0 => (stepWords p 0).map (true :: ·)
  | 0, q + 1 => (stepWords 0 q).map (false :: ·)
  | p + 1, q + 1 => (stepWords p (q + 1)).map (true :: ·) ++ (stepWords (p + 1) q).map (false :: ·)

/-- The points visited by a path which starts at `(i, j)`. -/
def visited : List Bool → Nat → Nat → List (Nat × Nat)
  | [], i, j => [(i, j)]
  | true :: w, i, j => (i, j) :: visited w (i + 1) j
  | false :: w, i, j => (i, j) :: visited w i (j + 1)

/-- Number of pairs of steps, the first one in the second coordinate and the later one in the first
coordinate: the area on one side of the path, whose parity is the sign of the shuffle. -/
def shuffleExponent : List Bool → Nat
  | [] => 0
  | true :: w => shuffleExponent w
  | false :: w => w.count true + shuffleExponent w

/-- Operadic substitution of the permutation `t` for the value `i` of the permutation `s`. -/
def substitutePerm (i : Nat) (s t : List Nat) : List Nat :=
  s.flatMap fun a => if a < i then [a] else if a = i then t.map (fun b => b + i - 1) else [a + t.length - 1]

/-- Coefficient of the sequence `m` in the operadic composition of two sequences of permutations: the
compositions along the lattice paths. -/
def barrattEcclesCoeff (i : Nat) (k1 k2 m : List (List Nat)) : Int :=
  ((stepWords (k1.length - 1) (k2.length - 1)).map fun w =>
    if ((visited w 0 0).map fun ab => substitutePerm i (k1.getD ab.1 []) (k2.getD ab.2 [])) = m then
      (-1) ^ shuffleExponent w else 0).sum

end Comch.Spec

namespace Comch.Spec

/-- Number of caesuras of `k` at positions `u ≤ e < v`. -/
def caesurasIn (k : List Nat) (u v : Nat) : Nat :=
  ((List.range k.length).filter fun e => u ≤ e ∧ e < v ∧ isCaesura k e).length

/-- The position in the cut tuple at which piece number `a` starts. -/
def startOf (ps : List (List Nat)) (a : Nat) : Nat := ((ps.take a).map fun p => p.length - 1).sum

/-- The position of occurrence number `a` (counted from 0) of the value `i` in `k`. -/
def occurrence (k : List Nat) (i a : Nat) : Nat :=
  ((List.range k.length).filter fun p => k.getD p 0 = i).getD a 0

/-- Operadic substitution of surjections: the occurrences of `i` in `k` are replaced by the successive
pieces, the values are shifted; `s` is the arity of the inserted surjection. -/
def fillIn (i s : Nat) : List Nat → List (List Nat) → List Nat
  | [], _ => []
  | j :: k, ps =>
    if j = i then (ps.headD []).map (fun a => a + i - 1) ++ fillIn i s k ps.tail
    else (if j < i then j else j + s - 1) :: fillIn i s k ps

/-- Exponent of the sign: the caesuras of piece number `a` are moved past the caesuras of the outer
surjection from the place of insertion on. -/
def insertionExponent (i : Nat) (k1 k2 : List Nat) (ps : List (List Nat)) : Nat :=
  ((List.range ps.length).map fun a =>
    caesurasIn k2 (startOf ps a) (startOf ps (a + 1)) * caesurasIn k1 (occurrence k1 i a) k1.length).sum

/-- Coefficient of the surjection `m` in the operadic composition of two surjections, the second one of
arity `s`. -/
def surjectionCompositionCoeff (i s : Nat) (k1 k2 m : List Nat) : Int :=
  ((allCuts (k1.count i) k2).map fun ps =>
    if fillIn i s k1 ps = m then (-1) ^ insertionExponent i k1 k2 ps else 0).sum

end Comch.Spec
