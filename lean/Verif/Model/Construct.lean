import Verif.Model.BarrattEccles
import Verif.Model.Cubical

/-!
# Constructors: conversion of the keys, and the attribute `dimension`

The other model files start from keys that already have the right type.  The constructors accept a dict whose
keys are arbitrary hashable iterables and convert every key; two different keys of the argument may become the
same key.
-/

namespace Comch

/-- `X(data, torsion, …)` for a dict `data` with keys of type `R`, converted by `conv`: the dict comprehension of
`SymmetricRingElement.__init__` (symmetric.py:326-328) and the loops `new_data[new_k] = v` of
`SimplicialElement.__init__` (simplicial.py:249-253), `CubicalElement.__init__` (cubical.py:187-191) and
`BarrattEcclesElement.__init__` (barratt_eccles.py:73-77), followed by `FreeModuleElement.__init__`. -/
def Elem.newRaw {R K : Type} [DecidableEq K] (C : Cls K) (conv : R → K) (data : List (R × Int))
    (torsion : Option Nat := none) : Elem K :=
  Elem.new C (Dict.ofPairs (data.map fun p => (conv p.1, p.2))) torsion

/-- The attribute `dimension` set by `SimplicialElement.__init__` (simplicial.py:241-255).  `if not dimension`
treats `dimension=0` as missing; `max` is taken over the vertices of all keys of the argument. -/
def SElem.initDimension (data : List (SKey × Int)) (dimension : Option Int) : Option Int :=
  if data = [] then dimension
  else
    let vertices := data.flatMap fun p => p.1.flatten
    let computed : Int := if vertices = [] then -1 else pyMax vertices
    match dimension with
    | none => some computed
    | some d => if d = 0 then some computed else some d

/-- A `SimplicialElement` with its attribute `dimension`. -/
structure DimSElem where
  el : SElem
  dimension : Option Int

namespace DimSElem

/-- `SimplicialElement(data, dimension, torsion)` (simplicial.py:241-258). -/
def new (data : Dict SKey) (dimension : Option Int := none) (torsion : Option Nat := none) : DimSElem :=
  ⟨Elem.new simplicial data torsion, SElem.initDimension data dimension⟩

/-- `create(other)` (free_module.py:306-309): the attribute dictionary of `self` replaces the new one. -/
def create (x : DimSElem) (data : Dict SKey) : DimSElem := ⟨x.el.create simplicial data, x.dimension⟩

/-- `__add__` (free_module.py:97-102). -/
def add (x y : DimSElem) : Py DimSElem := do .ok ⟨← x.el.add simplicial y.el, x.dimension⟩

/-- `boundary` (simplicial.py:355-366): starts from `self.zero()`. -/
def boundary (x : DimSElem) : DimSElem := ⟨x.el.boundary, x.dimension⟩

end DimSElem

end Comch
