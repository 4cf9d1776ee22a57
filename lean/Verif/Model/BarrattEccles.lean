import Verif.Model.Surjection
import Verif.Model.Utils

/-!
# Model of `comch/barratt_eccles/barratt_eccles.py`

A basis element of `BarrattEcclesElement` is a tuple of permutations `(σ₀, …, σₙ)`.
-/

namespace Comch

/-- Basis elements of `BarrattEcclesElement`. -/
abbrev BKey := List Perm

/-- The class `BarrattEcclesElement`; `preferred_rep` (barratt_eccles.py:520-526). -/
def barrattEccles : Cls BKey :=
  { drops := fun k => k.isEmpty || (pairwise k).any fun pq => pq.1 == pq.2 }

/-- A `BarrattEcclesElement`. -/
abbrev BElem := Elem BKey

namespace BElem

/-- `arity` (barratt_eccles.py:105-113): the common arity of all the permutations occurring. -/
def arity (x : BElem) : Option Nat := uniqueValue (x.data.flatMap fun p => p.1.map pyMax)

/-- `degree` (barratt_eccles.py:134-139).  Keys are never empty in a normalised element. -/
def degree (x : BElem) : Option Int := uniqueValue (x.data.map fun p => (p.1.length : Int) - 1)

/-- `complexity` (barratt_eccles.py:172-178).  `seq` is a generator of `filter` *objects*, so
`p != q` compares two distinct iterator objects by identity and is always `True`: the comprehension
`[p for p, q in pairwise(seq) if p != q]` has one entry per pair of consecutive permutations. -/
def complexity (x : BElem) : Nat :=
  x.data.foldl (fun c p => (SurjElem.pairsUpTo (pyMax (p.1.headD []))).foldl
    (fun c _ => max (pairwise p.1).length c) c) 0

/-- Summands of `boundary` for one item (barratt_eccles.py:207-210). -/
def boundaryEvents (spx : BKey) (coeff : Int) : List (BKey × Int) :=
  (List.range spx.length).map fun i => (removeAt spx i, pySign i * coeff)

/-- `boundary` (barratt_eccles.py:205-212). -/
def boundary (x : BElem) : BElem :=
  Elem.preferredRep barrattEccles
    (Elem.accumulate barrattEccles (x.zero barrattEccles)
      (x.data.flatMap fun (k, v) => boundaryEvents k v))

/-- `__rmul__` by a `SymmetricRingElement` (barratt_eccles.py:249-257). -/
def rmul (other : RingElem) (x : BElem) : Py BElem :=
  if x.torsion ≠ other.torsion then .error .typeError
  else if x.arity ≠ other.arity then .error .typeError
  else do
    let events ← (pyProduct x.data other.data).mapM fun (p, q) => do
      let newK ← p.1.mapM fun pi => q.1.mul pi
      .ok (newK, p.2 * q.2)
    .ok (Elem.accumulate barrattEccles (x.zero barrattEccles) events)

/-- `SymmetricGroupElement.__mul__` by a non-group element (symmetric.py:138-140), here with a
Barratt-Eccles element on the right. -/
def rmulPerm (p : Perm) (x : BElem) : Py BElem :=
  rmul (Elem.new symmetricRing [(p, 1)] (some x.torsion)) x

/-- `orbit(representation)` (barratt_eccles.py:281-292). -/
def orbit (x : BElem) (representation : Representation := .trivial) : Py BElem :=
  if !x.truthy then .ok x
  else x.data.foldlM (fun answer (k, v) => do
      let k0 ← pyGet k 0
      let inverse ← (List.range k0.length).mapM fun i => do
        let j ← pyIndex k0 (i + 1)
        .ok (j + 1)
      let permutation := Elem.new symmetricRing [(inverse, 1)] (some x.torsion)
      let permutation ← match representation with
        | .trivial => .ok permutation
        | .sign => do
          let s ← k0.sign
          .ok (permutation.smul symmetricRing s)
      let moved ← rmul permutation (Elem.new barrattEccles [(k, v)] (some x.torsion))
      Elem.iadd barrattEccles answer moved)
    (Elem.new barrattEccles [] (some x.torsion))

/-- `paths(p, q)` (barratt_eccles.py:350-363): all increasing paths from `(0,0)` to `(p,q)`. -/
def paths : Nat → Nat → List (List (Nat × Nat))
  | 0, 0 => [[(0, 0)]]
  | p + 1, 0 => (paths p 0).map (· ++ [(p + 1, 0)])
  | 0, q + 1 => (paths 0 q).map (· ++ [(0, q + 1)])
  | p + 1, q + 1 =>
    (paths p (q + 1)).map (· ++ [(p + 1, q + 1)]) ++ (paths (p + 1) q).map (· ++ [(p + 1, q + 1)])
termination_by p q => p + q

/-- `sign_of_path(path)` (barratt_eccles.py:365-372). -/
def signOfPath (path : List (Nat × Nat)) : Int :=
  let vectors : List (Int × Int) :=
    (pairwise path).map fun (b, a) => ((a.1 : Int) - b.1, (a.2 : Int) - b.2)
  (-1) ^ (((enumerate vectors).map fun (idx, v) =>
    if v = (0, 1) then ((vectors.drop (idx + 1)).filter fun v => v = (1, 0)).length else 0).sum)

/-- `compose(other, position)` (barratt_eccles.py:339-385).  `check_input` *returns* `self.zero()`
when one of the elements is zero, but the returned value is not used; the code goes on with
`paths(None, …)` resp. `paths(…, None)`, whose comparison `None > 0` raises `TypeError`. -/
def compose (x y : BElem) (position : Nat) : Py BElem :=
  if x.torsion ≠ y.torsion then .error .typeError
  else match x.arity, y.arity, x.degree, y.degree with
    | some a, some _, some p, some q =>
      if a < position then .error .typeError
      else do
        let events ← (pyProduct x.data y.data).mapM fun ((k1, v1), (k2, v2)) =>
          (paths p.toNat q.toNat).mapM fun path => do
            let newK ← path.mapM fun (i, j) => do
              let a ← pyGet k1 i
              let b ← pyGet k2 j
              a.compose b position
            let sign := if x.torsion = 2 then 1 else signOfPath path
            .ok (newK, sign * v1 * v2)
        .ok (Elem.accumulate barrattEccles (x.zero barrattEccles) events.flatten)
    | _, _, _, _ => .error .typeError

/-- barratt_eccles/barratt_eccles.py:387-388 `suspension`: not implemented. -/
def suspension (_ : BElem) : Py BElem := .error .notImplementedError

/-- The loop over `enumerate(pi)` in `table_reduction` (barratt_eccles.py:446-454), on the list of
pairs (permutation, part) still to be treated.  `first` says `idx == 0`; `none` means
`degenerate`. -/
def tableLoop : Bool → List (Perm × Nat) → List Nat → List Nat → Py (Option (List Nat))
  | _, [], k2, _ => .ok (some k2)
  | first, (sigma, i) :: rest, k2, removed => do
    let filtered := sigma.filter fun j => !removed.contains j
    let degenerate ← if first then .ok false
      else match k2.getLast?, filtered.head? with
        | some a, some b => .ok (a == b)
        | _, _ => .error .indexError
    if degenerate then .ok none
    else
      let removed' := if i > 1 then removed ++ filtered.take (i - 1) else removed
      tableLoop false rest (k2 ++ filtered.take i) removed'

/-- `table_reduction()` (barratt_eccles.py:439-458). -/
def tableReduction (x : BElem) : Py SurjElem := do
  let answer := Elem.new surjection [] (some x.torsion) .bergerFresse
  let events ← x.data.mapM fun (k1, v) => do
    let d := k1.length - 1
    let a := pyMax (k1.headD [])
    let ls ← (partitions (d + a) (d + 1) 1 none true).mapM fun pi => do
      match ← tableLoop true (k1.zip pi) [] [] with
      | none => .ok []
      | some k2 => .ok [(k2, v)]
    .ok ls.flatten
  .ok (Elem.preferredRep surjection (Elem.accumulate surjection answer events.flatten))

/-- Basis elements of the target of `diagonal`. -/
abbrev DKey := List BKey

/-- `split(multispx)` (barratt_eccles.py:490-492); the summands are pairwise different, so the set
is listed without repetition. -/
def split (multispx : DKey) : List DKey :=
  match multispx with
  | [] => []
  | a :: b => (List.range a.length).map fun i => [a.take (i + 1), a.drop i] ++ b

/-- `to_add` after `r` rounds (barratt_eccles.py:496-498), without repetition. -/
def splits : Nat → List DKey → List DKey
  | 0, l => l
  | r + 1, l => splits r (l.flatMap split).dedup

/-- `diagonal(r)` (barratt_eccles.py:494-501). -/
def diagonal (x : BElem) (r : Nat := 1) : Elem DKey :=
  x.data.foldl (fun answer (k, v) =>
      Elem.iaddCore (freeModule DKey) answer
        (answer.create (freeModule DKey) ((splits r [[k]]).map fun m => (m, v))))
    (Elem.new (freeModule DKey) [] (some x.torsion))

end BElem

namespace BarrattEccles

/-- `psi(arity, degree)` (barratt_eccles.py:570-581). -/
def psi (norm trans : RingElem) (arity : Nat) : Nat → Py BElem
  | 0 => .ok (Elem.new barrattEccles [([pyRange 1 (arity + 1)], 1)])
  | degree + 1 => do
    let previous ← psi norm trans arity degree
    let actedOn ← BElem.rmul (if (degree + 1) % 2 = 0 then norm else trans) previous
    .ok (Elem.new barrattEccles
      (Dict.ofPairs (actedOn.data.map fun (k, v) => (pyRange 1 (arity + 1) :: k, v))))

/-- `BarrattEccles.may_steenrod_structure(arity, degree, torsion)` (barratt_eccles.py:565-586). -/
def maySteenrodStructure (arity degree : Nat) (torsion : Option Nat := none) : Py BElem := do
  let norm ← RingElem.normElement arity
  let trans := RingElem.transpositionElement arity
  let answer ← psi norm trans arity degree
  match torsion with
  | none => .ok answer
  | some n => if n = 0 then .ok answer else .ok (answer.setTorsion barrattEccles n)

/-- `BarrattEccles.steenrod_operation(p, s, q, bockstein)` (barratt_eccles.py:639-659). -/
def steenrodOperation (p : Nat) (s q : Int) (bockstein : Bool := false) : Py BElem :=
  if p = 2 then
    if bockstein then .error .typeError
    else if s - q < 0 then .ok (Elem.new barrattEccles [] (some 2))
    else do
      let m ← maySteenrodStructure p (s - q).toNat (some p)
      .ok (m.smul barrattEccles 1)
  else
    let d := steenrodDegree p s q bockstein
    if d < 0 then do
      let _ ← steenrodCoeff p s q
      .ok (Elem.new barrattEccles [] (some p))
    else do
      let c ← steenrodCoeff p s q
      let m ← maySteenrodStructure p d.toNat (some p)
      .ok (m.smul barrattEccles c)

end BarrattEccles

end Comch
