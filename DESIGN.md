# Design of the formal model of `ammedmar/comch`

## 1. Layout

| Path | Content |
|---|---|
| `properties.jsonl` | the properties C01… (generated by `tools/mkprops.py`) |
| `lean/Verif/Model/*.lean` | executable model of the Python code, one file per Python module; every definition cites file and lines |
| `lean/Verif/Spec/*.lean` | small, readable specifications, independent of the model's helpers |
| `lean/Verif/Lib/*.lean` | helper lemmas (linear algebra, lists, permutations, signs) |
| `lean/Verif/Props/*.lean` | the property theorems, with a non-vacuity `example` beside each |
| `lean/Verif/Conformance/*.lean` | checks of the model, not proofs: the outputs recorded in the docstrings of the package and the assertions of its unit tests, computed by the kernel |
| `MANIFEST.json` | property → theorems (generated by `tools/mkmanifest.py`) |
| `axioms.txt` | the axioms each theorem depends on (generated by `tools/mkaxioms.py` from `#print axioms`) |
| `seeded/LOG.jsonl` | log of the mutation (seeded bug) experiments |

## 2. What is modelled and how

* **Elements.** A `FreeModuleElement` is a `Counter` (insertion ordered dict, integer values) with
  an instance dictionary.  `Dict K` is an association list with the update rules of Python dicts,
  `Elem K` adds the attributes, a class is a record `Cls K` (which keys does `preferred_rep` drop,
  what is `default_torsion`).  All loops `answer += answer.create({k: v})` are modelled literally as
  a left fold over the list of the pairs `(k, v)` produced by the Python loops, in the same order
  (`Elem.accumulate`), including the repeated normalisation.
* **Exceptions** are values: `Py α = Except PyErr α`.  `IndexError`, `ValueError`, `TypeError`,
  `AttributeError`, `NotImplementedError`, `OverflowError` are distinguished;
  `nonTermination` marks a Python loop that does not end.
* **Objects/aliasing**: `create` makes the new object share the `__dict__` of `self`.  The value
  model ignores this; `Model/Heap.lean` models objects with shared attribute dictionaries and is
  used for C08; `Model/Names.lean` adds variables (C99).
* **Python ints** are `Int` (or `Nat` where only non-negative values occur). Float arithmetic occurs
  in one place (`steenrod_operation`, negative exponent) and is modelled by exact rounding to 53
  bits (`intToDouble`).
* **Strings** (`Model/Printing.lean`) are `String`/`List Char`; `str(int)` is `Int.repr`, `str.replace`
  is modelled on characters.

Modelled, by Python module:

| Module | Model | Functions |
|---|---|---|
| `free_module.py` | `Model/FreeModule`, `Model/Heap`, `Model/Printing` | the whole class (`__init__`, `__hash__`, `__str__`, `_latex_`, arithmetic, in-place operators, `__truediv__`, `create`, `zero`, `set_torsion`, `preferred_rep`, `__eq__`) |
| `symmetric.py` | `Model/Symmetric` | `SymmetricGroupElement`, `SymmetricRingElement`, `SymmetricRing`, `ArityError` cases |
| `simplicial.py` | `Model/Simplicial` | `Simplex`, `SimplicialElement`, `Simplicial` |
| `cubical.py` | `Model/Cubical` | `Cube`, `CubicalElement`, `Cubical` |
| `barratt_eccles.py` | `Model/BarrattEccles` | `BarrattEcclesElement` (incl. `table_reduction`, `compose`, `orbit`, `complexity`, `diagonal`), `BarrattEccles` |
| `surjection.py` | `Model/Surjection` | `SurjectionElement` (incl. `__call__` on both kinds of chains, `compose`, `suspension`, `orbit`), `Surjection` |
| all | `Model/Operators`, `Model/Construct`, `Model/Names`, `Model/Copy` | the operator `*` between all classes, types of keys, constructors with key conversion, variables and object identity, methods inherited from `Counter` (`copy`, `__reduce__`, `__pos__`, `__setitem__`, `__delitem__`, `update`, `subtract`, `clear`) |
| `utils.py` | `Model/Utils` | `pairwise`, `partitions`, `decompositions`, `distinct_permutations` (with and without `r`) |

### Not modelled
Notebooks (their recorded outputs are empty), conventions other than the two documented
strings, non-integer coefficients. Performance, memory use, recursion limits and generator laziness are outside
the model. Except in `Model/Operators` (ring elements) the tuple subclasses `SymmetricGroupElement`, `Simplex`,
`Cube` are identified with the tuples they are equal to; this is justified by the constructors converting all
keys, the two exceptions being products of ring elements (C96) and `coface`/`codegeneracy` (defect 18).

## 3. Trusted base

* Lean 4.33.0's kernel and the Mathlib definitions that occur in statements (`Finsupp`, `ZMod`,
  `Int.ModEq`, `List.Perm`, `Nat.Prime`, `Finset.Icc`, …).
* Axioms: at most `propext`, `Classical.choice`, `Quot.sound`, listed theorem by theorem in
  `axioms.txt` (no axioms of our own, no gaps, no compiled evaluation).
* The reading of the Python source: the code was not run; each model definition cites the lines it
  models.  `Model/Py.lean` fixes the used part of Python/itertools.  As a check of this reading,
  `Conformance/Docstrings.lean` computes every output recorded in the docstrings of the package and
  `Conformance/UnitTests.lean` every assertion of its unit tests (three excepted, named there) with the model;
  all agree.

## 4. Proof method

1. **Denotation.** `den R d : K →₀ R` is the vector of a dictionary.  For each operation a bridging
   lemma (`…_ok`) computes the denotation of the result by a linear map of denotations; for normal forms,
   `==` is equality of denotations over `ZMod torsion` (C02). Hence an identity between programs
   becomes an identity of linear maps, which is checked on basis elements.
2. **Complexes.** `∂² = 0` for all four complexes follows from deletion lemmas on lists with signs;
   tensor powers are treated by a bilinear `cons`.
3. **Chain maps/homotopies** by structural induction on lists (diagonals, joins, shuffles/paths). The code's
   index arithmetic (caesuras, splittings, lattice paths, sign exponents) is first proved equal to a
   recursive function on lists (`cmp`, `sact`, `ecmp`, `tr`, `jn`, …), which is then analysed by induction.
4. **Sign conventions.** The McClure–Smith boundary is conjugate to that of Berger–Fresse by a diagonal
   sign map (`convS`), which transports theorems between the conventions.
5. **Enumerations** (`all`, `basis`, `partitions`, …): membership characterisation + `Nodup`.
6. **Defects.** Where the property a user would expect is false of the code, the statement in
   `properties.jsonl` says what the code does, the theorem proves that, and a witness theorem proves that the
   expected property fails (the theorem is about the model of the code as it is).

Property by property (all are proved; no `_partial` theorem remains):

| Id | Model | Proof |
|---|---|---|
| C01–C05, C07, C09 | `Model/FreeModule` | denotation + normal-form invariant; C01 over arbitrary operation sequences |
| C06 | `truediv`, `powInv` | gcd/Bezout |
| C08 | `Model/Heap` | exact effect of every operation on all objects; the frame property is false of the code: witness |
| C10–C15 | `Model/Symmetric` | lists as functions; cycle loop invariant; enumeration |
| C16–C19 | `RingElem` | bilinear extension; C17 exact value of `**`, not the ring power: witness |
| C20–C27 | `Model/Simplicial` | list lemmas, tensor complex, Koszul signs, Alexander–Whitney by induction; C26 chain-map clause false: witness |
| C28–C35 | `Model/Cubical` | induction on cubes (Serre diagonal, joins, Cartan–Serre map) |
| C36–C41, C44–C46 | `Model/BarrattEccles` | deletion complex, Eilenberg–Zilber shuffles by double recursion (`EZ`), lattice paths (`BEPaths`), contracting homotopy for C46; C41, C45: witnesses of defects |
| C42, C43, C73, C79, C80 | `table_reduction` | recursive description `tr` of the table, induction; C79 by comparing lattice paths with splittings of surjections |
| C47–C51, C55, C58, C59, C66 | `Model/Surjection` | deletion complex with caesura signs; `compose` as recursion on pairs of words, Leibniz rule and associativity by induction; C55: witness + exact description |
| C52, C53, C67, C68 | `__call__` (simplices) | `sact` as labelled path words; Koszul sign of the code proved equal to the operadic one |
| C54 | `__call__` (cubes) | false over ℤ: witness; chain map modulo 2 via the join as a coderivation-like operation |
| C56, C57, C60 | May–Steenrod structure, `steenrod_operation`, `steenrod_chain` | contraction `h` of McClure–Smith; floats by exact rounding |
| C61–C64 | `Model/Utils` | enumeration, loop invariants |
| C65 | all `rmul` | characterisation of the exceptions |
| C69–C71 | `compose` × `rmul` | permutations of blocks, equivariance on basis elements |
| C72 | `complexity` × `compose` | alternation counts along splittings |
| C74, C75, C83 | `orbit` × `boundary` | canonical representatives and signs; C83 coinvariants |
| C76–C78 | `Model/Printing` | injectivity of printing by parsing lemmas; LaTeX defects as witnesses |
| C81 | `psi(d)(c)` | C52 + C56 |
| C82 | `boundary` of both operads | contracting homotopies |
| C84–C86 | `__call__`, both `compose` | unfolding of the recursions to sums over cuts/paths (`Spec/Cuts.lean`) |
| C87, C88 | `__call__`, `steenrod_chain` | subsequence arguments on cuts, counting of cuts |
| C89 | the simplicial operations under vertex maps | compatibility of the free module maps with `mapK` |
| C90 | the cubical operations under face inclusions and projections (`Spec.CubeMap`) | induction on the position of the coordinate |
| C91 | BE `diagonal` against Leibniz boundary, cutting, counit, translation (`Spec.tensorBoundary`, `cutFactor`, `omitFactor`, `translateFactors`) | the code's diagonal is the Alexander-Whitney map; its algebra from Lib/AW |
| C92 | `diagonal` of `compose` (`Spec.tensorCompositionCoeff`) | the shuffle map is a coalgebra map, double induction on the two sequences |
| C93 | `__call__` on cubes and simplices and `cartan_serre_map` (`Spec.twist`) | factors of the Serre diagonal are ordered, so their join collapses to a concatenation up to sign (induction on the cube); the signs of the code are then compared group by group |
| C94 | `standard_element` in both modules, `cartan_serre_map` | direct computation of the data for every n and t; induction on n for the image of the top cube |
| C95 | the operator `*` between all classes (`Model/Operators`: `Val.star`; `Spec.productClass`) | case analysis over the classes; the four associativity theorems applied to single permutations, inverses to see that the intermediate result is non-zero |
| C96 | `SymmetricRingElement` with the Python type of its keys (`Model/Operators`: `RingObj`; `Spec.ProductFree`) | induction over programs; direct evaluation of the loops on plain keys |
| C97 | constructors with key conversion, attribute `dimension` (`Model/Construct`) | induction over the argument; `den_new` |
| C98 | boundaries of C20/C28 | contraction of a tensor power built from a contraction of one factor (cone operator, corner of the cube): `Lib/Contract` |
| C99 | programs with variables over `Model/Heap` and tables of all methods with the way their result object is made (`Model/Names`) | invariant over programs (addresses valid, normal forms); case analysis of each method |
| C100, C101 | what is inherited from `Counter` (`Model/Copy`): `copy`, `+x`, item assignment, `update`, `subtract` | `C01_nf_iff_fixed`; induction over the sequence of changes, `den_preferredRep` |
| C102, C103, C104 | cochains on ordered simplicial complexes, not part of the package (`Spec/Cochains`); values obtained from `steenrod_operation`, `may_steenrod_structure` and `__call__` | evaluation is adjoint to the action (`Lib/Cochains`, `Lib/CochainsAct`): C52 (chain map), C53 (equivariance) and C56 (boundary of psi) give `delta(wv(d+1))`; support and degree by C52, C88 |
| C105 | as C102 | tensors of cochains as words with adjoint differential and action (`Lib/CochainsWords`); contraction of the words that contain `γ` or `δγ`, descent along `∂ψ(d+1) = Tψ(d), Nψ(d)`; for additivity the mixed words are a norm (weights `1/#β`, `Lib/CochainsHomotopy`) |
| C106 | as C102; `Spec/Pullback` | C89 (naturality of the action) on the structure elements; evaluation of a pullback is evaluation after `mapK` and dropping of degenerate keys |
| C107 | as C102; `Spec/Bockstein` (integral lifts) | the values of the structure elements come from one integral chain (`W_integral`); over ℤ the coboundary of the value on `A^p` is `p` times the value on the words `A…B…A` minus the next structure element on `A^p`; modulo `p` the sum of those words is a norm, so its value is a coboundary |
| C108 | as C104 | both sides are families of tensors of faces, equivariant up to homotopy; the faces of a simplex are contractible (`contr_faces`), so a cycle of such families is a boundary (`acyclic_carrier`), and the homotopy is built by induction on the degree (`cartan_homotopy`) |
| C109 | as C105 | only `σ⊗…⊗σ` counts; its coefficient satisfies a recursion in the degree, found by a zig-zag of words in a cochain and its coboundary: contractions of the single factors anticommute (`LK_anti`), are permuted by the rotation and contract the differential, so the sum `Ω` of their cyclic products commutes with everything (`ZigZag.double_step`) and `L_0 Ω^m = (-1)^m m! L_0⋯L_{2m}` (`ZigZag.zero_omega_pow`); Wilson's theorem then compares with the coefficient of the code |
| C110 | C15, C24, C30, C61, C62, C94 and `allCuts` | the lists are compared with counted duplicate-free lists; the keys of a normal form whose vector is a signed sum of distinct basis vectors are these (`data_length`) |
| C111, C112 | cochains modulo 2 on complexes of cubes (`Spec/CubeCochains`); values from `steenrod_operation`, `may_steenrod_structure` and the cubical `__call__` | as C103, C104: evaluation is adjoint to the action (`Lib/CubeCochains`), C54 (chain map modulo 2), C81 and the locality of the cubical action (`Lib/CubeFaces`); `Sq^0 = id` by induction on the dimension: on one cube every value is a coboundary `δγ`, and Steenrod's formula for `γ ∪ δγ` and `γ ∪ γ` reduces the coefficient to the faces |
| C113 | as C102 and C111, `cartan_serre_map` | C93 (the map intertwines the actions modulo 2) and C33 (chain map), evaluated on cochains |
| C114 | as C102, C105 and C111; `Spec/Connecting`: the connecting homomorphism of a pair on cochains | for squares the explicit primitive γ∪_iγ + γ∪_{i+1}δγ; at odd primes the zig-zag of C109 with its coboundary terms kept: all of them are words with a letter δγ and vanish on A; the coefficients of `steenrod_operation` in degrees q and q+1 compared (C57) |
| C115 | as C103 and C111 | closed formulas (C103 front/back faces, C111 Serre's formula) for associativity and unit; the coboundary formulas for the statements on classes |
| C116 | as C104 | acyclic carriers on fourfold tensors (`Lib/Adem`, `Lib/AdemHomotopy`): the double family built from the higher diagonals of the resolution of Z/2, with coefficients C(A+1,k+1)C(B,k) and C(A,k+1)C(B,k), is homotopic to its transpose; evaluation on alpha^4 and binomial identities modulo 2 (`Lib/AdemArith`) |
| C117 | `suspension` on vectors with the letters read so far (`Lib/SurjSusp`, `Lib/SurjSuspComp`) | induction along the word: the alternating sum of the signs of the words with one letter deleted vanishes; reading the recursive form of the composition letter by letter, only the branch that copies the inner permutation as one block survives |
| C118 | as C102 (`structureValue`: the structure element acting on a simplex, without the coefficient) | comparison theorem for families of maps with the symmetry of the cyclic resolution (`Lib/Compare`, acyclic carriers); multiplication by a unit k modulo p permutes the factors and acts on the resolution by powers of k, so k^(q(p-1)/2) D_d ~ k^((d+1)/2) D_d; the sign is determined on the circle with the value of P^0 (C109); k a primitive root (`Lib/OddVanish`) |
| C119 | as C102, C103, C118 | two families of maps to the 2p-fold tensor power with the symmetry of the cyclic resolution, one from the structure map of the product, one from the diagonal of the cyclic resolution (`Lib/OddSums`) and the shuffle (`Lib/OddShuffle`), compared by `Lib/Compare` (`Lib/OddCartan`); evaluation on the cocycles with all signs (`Lib/OddCartanEval`); the extra terms of the diagonal are coboundaries by C118 or vanish by degree, and the coefficients multiply: nu(-a-b) (-1)^(ab(p-1)/2) = nu(-a) nu(-b) |
| C120, C121 | as C111, C112 | the faces of a cube are contractible coordinate by coordinate (`contr_FC`), so acyclic carriers exist on cubes (`Lib/CubeCarrier`); with them the constructions of C108 and C116 carry over to families of tensors of faces of cubes (`Lib/CubeCartan`, `Lib/CubeAdem`, `Lib/CubeAdemHomotopy`), starting from C81 (boundary of psi acting on cubes modulo 2) |
| C122 | as C111; `Spec/CubeBockstein` (integral cubical cochains, integral lifts) | the package's action is no chain map over ℤ, so an integral family of cup-i coproducts is built by acyclic carriers from Serre's diagonal (`exists_fam` in `Lib/CubeBock`); its reduction modulo 2 and the package's family are equivariantly homotopic (`fam_homotopy`); then as C107 |
| C123 | `rmul` of the four classes when both arities are `None` | `permuteFactors` and `koszulExp` only read the first `len(perm)` entries (`Mixed.permuteFactors_take`, `koszulExp_take`) and raise `IndexError` when there are fewer; a monadic map in which every step succeeds or raises `e` and one raises `e` raises `e` (`Mixed.mapM_error`) |
| C124 | as C111; `Spec/CubePullback` (composites of the maps of C90, pull-back of cochains) | for one generating map evaluation of the pulled-back cochains on a tensor is evaluation on the image of the tensor (`CubeCoch.value_pull`), and the action commutes with images (`CubNat.callCV_g1` of C90); induction on the length of the composite |
| C125 | as C54 and C93 | normalised joins with the sign of (de)suspension are derivations up to omission of vertices (`CubTwist.cubeD_jt`); sorting the cut pieces by label with Koszul signs commutes with these derivations (`thT_gam`, `lin_sE2`); a closed count of all signs of a cut (`total_sign`, `sign_onto`, `ms_sign`) gives the boundary of one summand (`cubicalD_ct`), then one cube (`cubicalD_cactT`), one factor of a tensor (`tens_atKd`), elements. The code's sign differs from the normalised one by a constant (`loc_ct` with `Twists` of C93, `twists_2121`). Failures outside the range by evaluation |
| C126 | as C48, C54 and C125 | the exponent of the sign of a cut, written through the word in which every value is repeated as often as its piece has vertices (`cexp_joinW` of C53), changes under relabelling by the Koszul exponent of the joined pieces (`cexp_mulL`, by `invE_mulL` of C48); joined cubes have the dimensions of these pieces (`tmK_jt_degrees`); so the normalised action is equivariant (`ct_mulL`, `cactT_mulL`) and the code's sign is a constant times the normalised one (`cactS_mulL`, `twistExponent_mulL`). Failures outside the range by kernel evaluation |
| C127 | as C111, with the integral `__call__` and `may_steenrod_structure` of C54 and C56 | cochains are paired with the values of the structure elements (`evP_cubicalD`, `evP_sw`); these satisfy the relations of a twisted equivariant map in degree at most 2 by C125 (chain map), C126 (equivariance) and C56 (boundary of the structure elements) (`WI_zero`, `WI_succ`); the Serre formula by induction on the cube (`serre_splits`), associativity from it (`ssplits_assoc`). `C127_cup_three_fails`: kernel evaluation |
| C128 | as C93, C103 and C127 | as C113 with signs: pairing with the collapse (`evP_pull`), C33 for the coboundary, `C93_low_degree` for the products (`wi_pull`) |
| C129 | as C124 and C127 | as C124 with signs, by the naturality of the action (`callCV_g1` of C90, for every torsion) and of the boundary |
| C130 | as C103 | the structure element of degree 1 is (1,2,1) (`psiS_two_one`); the closed formula of the action (`sact_apply`, C84) turned into a sum over intervals, the degenerate cuts removed; Hirsch's formula by splitting the sum at the front face |
| C131 | as C103; `Spec/Alternating.lean`: the tuple (1,2,1,...), proper cuts, unions of the even and of the odd pieces | induction on the degree (`psiS_two`: prepending 1 to the swapped tuple, the other summand is degenerate); `sact_apply`; a cut gives a non-degenerate tensor iff its inner pieces have two vertices (`pieces_sublist`, `pieces_rep`, by strong induction on the number of pieces) |
| C132 | `BarrattEccles.maySteenrodStructure`; `Spec/Rotations.lean`: rotations, sequences of increments | induction on the degree (`psiV_rotations`): prepending the identity to T and N times the previous element, the degenerate sequences drop out; injectivity of the sequences for the count |
| C133 | as C131 | C131; lengths of the pieces of a cut; the number of proper cuts by induction (`tails_length`, hockey stick), so the cut into edges is the only one in the extremal case; closed forms of the two sign exponents (`sorting_closed`, `concat_closed`); on cubes: locality of the value, faces have no higher dimension |
| C134 | `Surjection.steenrodOperation`, `BarrattEccles.steenrodOperation`; C131, C132 | C131 and C132 in arity 2; at odd primes the coefficient of C57 is a unit, so the terms are those of the structure element |
| C135 | `Surjection.maySteenrodStructure`; `Spec/Operads.lean` (readings of a table), `Spec/Rotations.lean` | C80 (the structure elements correspond under table reduction), C42 (coefficients of the table reduction) and C132 (closed form of the source); the signs of the conversion between the conventions |
| C136 | as C135 | readings row by row with the set of crossed out letters (`Rec`); the segments of a reading are determined by the surjection (`first_le`: their last letters are the caesuras), a row followed by its rotation by one step begins with a letter that is not crossed out (`head_eq`), so that the increments are determined, by induction on the degree |

Rows for later properties are appended below.

## 5. Disagreements between the code and its documentation found while modelling

1. `create` shares `__dict__` with `self` (free_module.py:306-309): changing torsion/convention of a
   derived element changes the parent without renormalising it (C08).
2. `SymmetricRingElement.__pow__` applies the power to each permutation and keeps the coefficients;
   it is not the ring power (C17).  Negative exponents act like exponent 1 (C13).
3. `transposition_element(1)` is `-(1)`, not `0`: in the dict display both keys coincide;
   `norm_element(torsion=1)` raises TypeError (C19).
4. `BarrattEcclesElement.complexity` compares `filter` objects by identity, so it always returns
   the degree (arity ≥ 2) (C45).
5. `BarrattEcclesElement.compose` with a zero element raises TypeError: `check_input` returns
   `self.zero()` but the value is ignored (C41).
6. The `__rmul__` actions raise TypeError on zero elements because `arity` is None (C65).
7. `SurjectionElement.suspension` may lower the arity, violating the documented degree (C55).
8. `SimplicialElement.one_reduced` does not commute with the boundary (C26).
9. `steenrod_operation` computes the coefficient in floating point when `q // 2 + s < 0` (C57).
10. `SurjectionElement.__call__` on cubical chains is not a chain map over ℤ, in either sign
    convention (e.g. `(1,2,1,3)` on the standard 1-cube); modulo 2 it is (C54).
11. `SurjectionElement.compose` takes torsion and convention of `self` only and does not compare them with
    those of `other`.
12. `__hash__` depends on the mutable content: an in-place operation changes the hash (C77).
13. Equal elements may print differently (insertion order) (C76).
14. `_latex_` of a simplicial element prints `[0,]` for the arity-one vertex; `_latex_` of a cubical element
    also rewrites the digits 0 and 1 of the coefficients, and prints the zero element as `[0]` (C78).
15. `SurjectionElement({(): 1})` raises ValueError (`max` of an empty sequence).
16. `SymmetricRingElement.__mul__` inserts plain tuples as keys, so `(s*t)*x` for a Barratt-Eccles element,
    `(s*t)**n` and `(s*t).compose(…)` raise (C96).
17. `SymmetricRingElement * SymmetricGroupElement` raises TypeError although it is documented; so does
    `SymmetricGroupElement * SymmetricRingElement` (C95).
18. `Simplex.coface` and `Simplex.codegeneracy` return plain tuples, so `s.coface(i).coface(j)` raises
    AttributeError; the cosimplicial identities (C20) hold after converting with `Simplex(…)`.
19. Over ℤ the Cartan-Serre map intertwines the cubical and simplicial actions only up to a sign (C93).
20. `Cubical.standard_element` of a negative dimension is the 0-dimensional cube (C94).
21. `SimplicialElement.dimension` is inherited by derived elements and not recomputed (C97).
22. `CubicalElement.join`, `BarrattEcclesElement.orbit` and `SurjectionElement.suspension` return `self` when it is
    zero, so changing the result in place changes the operand (C99).
23. Copies (`copy`, `deepcopy`, pickle) lose torsion and convention (C100).
24. The powers `P^s` at odd primes are stable only up to the sign (-1)^((p-1)/2) (C114), in accordance with C109.
25. The unit test `test_suspension` asserts `suspension(x.compose(y, i)) == suspension(x).compose(suspension(y), i)`; it
    only meets zero suspensions. In general the two sides differ by the sign (-1)^((s-1)(d+i-1)): for x = y = (1,2,1) and
    i = 1 they are opposite (C117).
26. The arity check of the left action compares `None` with `None` for elements of mixed arity: permutations shorter than
    a multisimplex or multicube silently discard its last factors instead of raising an exception (C123).
27. The sign of the action on cubical chains over the integers is off by a constant which depends on the surjection
    (C93, C125): as computed the action is a chain map in arity at most 2 only up to degree 2 (in the McClure-Smith
    convention not even for (2, 1, 2, 1)), and in arity 3 not for (1, 2, 1, 3). So cubical cup-i products over the integers
    with i >= 3 and the odd-primary cubical structure do not satisfy the relations of the simplicial ones.
28. The action on cubical chains is not equivariant over the integers in the default convention from arity 3 on
    (`C126_bergerFresse_fails`), and not in the McClure-Smith one for arity 2 and degree 2 (`C126_mcClureSmith_fails`).
29. Steenrod's formula with signs for cup-3 on cubical cochains fails over the integers (`C127_cup_three_fails`; the same
    computation fails in the McClure-Smith convention on a 4-cube). It holds for cup-1 and cup-2 (C127).
