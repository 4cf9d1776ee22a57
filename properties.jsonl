{"id": "C01", "title": "Elements are always in normal form", "statement": "Every element returned by a constructor, create, zero, +, -, unary -, integer *, /, +=, -= or set_torsion has pairwise distinct basis elements, no zero coefficient, coefficients in 1..n-1 when the torsion is n>0, and no basis element that its class treats as zero.", "quantifier": "all classes, all data, all torsions, all operands in normal form and all sequences of these operations", "why_tests_cant": "The domain (dictionaries of any size, any integers, any torsion) is infinite; a test only samples it.", "anchors": ["comch/free_module/free_module.py:FreeModuleElement.preferred_rep", "comch/free_module/free_module.py:FreeModuleElement.__init__", "comch/free_module/free_module.py:FreeModuleElement.create", "comch/simplicial/simplicial.py:SimplicialElement.preferred_rep", "comch/barratt_eccles/barratt_eccles.py:BarrattEcclesElement.preferred_rep", "comch/surjection/surjection.py:SurjectionElement.preferred_rep"]}
{"id": "C02", "title": "== decides equality in the free module", "statement": "For elements of the same class and torsion n, x == y exactly when for every basis element the coefficients agree modulo n; the insertion order of the terms is irrelevant, and an element is falsy exactly when it is 0.", "quantifier": "all pairs of elements of one class with the same torsion", "why_tests_cant": "The domain (dictionaries of any size, any integers, any torsion) is infinite; a test only samples it.", "anchors": ["comch/free_module/free_module.py:FreeModuleElement", "comch/free_module/free_module.py:FreeModuleElement.preferred_rep"]}
{"id": "C03", "title": "Abelian group laws", "statement": "x+y == y+x, (x+y)+z == x+(y+z), x+x.zero() == x, x-x == 0, x-y == x+(-y); coefficients of x+y are the sums modulo the torsion.", "quantifier": "all elements of one class with a common torsion", "why_tests_cant": "The domain (dictionaries of any size, any integers, any torsion) is infinite; a test only samples it.", "anchors": ["comch/free_module/free_module.py:FreeModuleElement.__add__", "comch/free_module/free_module.py:FreeModuleElement.__sub__", "comch/free_module/free_module.py:FreeModuleElement.__neg__", "comch/free_module/free_module.py:FreeModuleElement.zero"]}
{"id": "C04", "title": "Scalar multiplication laws", "statement": "a*(b*x) == (ab)*x, (a+b)*x == a*x+b*x, a*(x+y) == a*x+a*y, 1*x == x, 0*x == 0, n*x == 0 for torsion n.", "quantifier": "all integers a, b and all elements with a common torsion", "why_tests_cant": "The domain (dictionaries of any size, any integers, any torsion) is infinite; a test only samples it.", "anchors": ["comch/free_module/free_module.py:FreeModuleElement.__rmul__", "comch/free_module/free_module.py:FreeModuleElement.__neg__"]}
{"id": "C05", "title": "In-place operators agree with the binary ones, mismatching torsions are rejected", "statement": "x += y and x -= y leave x equal to x+y and x-y with the torsion of x; all four operators raise TypeError exactly when the torsions differ, and do not change the operands then.", "quantifier": "all pairs of elements", "why_tests_cant": "The domain (dictionaries of any size, any integers, any torsion) is infinite; a test only samples it.", "anchors": ["comch/free_module/free_module.py:FreeModuleElement.__iadd__", "comch/free_module/free_module.py:FreeModuleElement.__isub__", "comch/free_module/free_module.py:FreeModuleElement.__add__", "comch/free_module/free_module.py:FreeModuleElement.__sub__"]}
{"id": "C06", "title": "Division by a unit", "statement": "For torsion n>0 and c invertible modulo n, x/c is the unique element with c*(x/c) == x; for c not invertible ValueError is raised, for torsion 0 TypeError.", "quantifier": "all elements, all integers c, all n", "why_tests_cant": "Invertibility depends on number theory for every n and c; tests cover a few.", "anchors": ["comch/free_module/free_module.py:FreeModuleElement.__truediv__"]}
{"id": "C07", "title": "set_torsion is reduction of coefficients", "statement": "After x.set_torsion(n) (from torsion 0, or from a multiple of n) x is the reduction of the old x modulo n; reduction commutes with +, -, scalar multiplication, and reducing in two steps is reducing once.", "quantifier": "all elements and all n, m with n | m (0 counted as a multiple of everything)", "why_tests_cant": "The domain (dictionaries of any size, any integers, any torsion) is infinite; a test only samples it.", "anchors": ["comch/free_module/free_module.py:FreeModuleElement.set_torsion"]}
{"id": "C08", "title": "Which objects an operation can change", "statement": "No operation other than +=, -= and set_torsion changes anything seen of an existing object, and += and -= change their left operand only. set_torsion(n) on p changes data of p only, but (defect: create shares the attribute dictionary) it also changes the torsion, without renormalising, of every object of the family of p, i.e. the objects connected with p by create, zero, +, -, scalar *; all other objects are unchanged.", "quantifier": "all histories of object creations and set_torsion calls", "why_tests_cant": "Aliasing depends on the history of calls; it only shows when a derived object is mutated later.", "anchors": ["comch/free_module/free_module.py:FreeModuleElement.create", "comch/free_module/free_module.py:FreeModuleElement.set_torsion"]}
{"id": "C09", "title": "create is exact for the shipped default torsion", "statement": "x.create(data) represents data in the module of x whenever the class default_torsion is a multiple of the torsion of x (in particular for the shipped value 0), and can be wrong otherwise.", "quantifier": "all elements, all data, all default torsions", "why_tests_cant": "The domain (dictionaries of any size, any integers, any torsion) is infinite; a test only samples it.", "anchors": ["comch/free_module/free_module.py:FreeModuleElement.create", "comch/free_module/free_module.py:FreeModuleElement.default_torsion"]}
{"id": "C10", "title": "Permutations form a group", "statement": "On permutations of 1..r, * is associative composition of functions, (1,...,r) is neutral, p.inverse() is a two-sided inverse, and none of them raises; permutations of different arities raise TypeError.", "quantifier": "all permutations of all arities", "why_tests_cant": "There are infinitely many permutations.", "anchors": ["comch/symmetric/symmetric.py:SymmetricGroupElement.__mul__", "comch/symmetric/symmetric.py:SymmetricGroupElement.inverse", "comch/symmetric/symmetric.py:SymmetricGroupElement.arity"]}
{"id": "C11", "title": "sign is the parity of inversions and multiplicative", "statement": "For every permutation sign returns (-1)^(number of inversions), so sign(pq) = sign(p) sign(q); tuples which are not permutations raise TypeError.", "quantifier": "all permutations, all tuples", "why_tests_cant": "Infinite domain; a wrong cycle loop can agree on small examples.", "anchors": ["comch/symmetric/symmetric.py:SymmetricGroupElement.sign", "comch/symmetric/symmetric.py:SymmetricGroupElement.to_cycles"]}
{"id": "C12", "title": "to_cycles returns the disjoint cycle decomposition", "statement": "For a permutation the returned tuples are pairwise disjoint, each entry is mapped to the next one (cyclically), with singletons=True every letter occurs exactly once, with singletons=False exactly the moved letters occur; the call terminates.", "quantifier": "all permutations", "why_tests_cant": "Termination and disjointness must hold for every permutation.", "anchors": ["comch/symmetric/symmetric.py:SymmetricGroupElement.to_cycles"]}
{"id": "C13", "title": "Powers of a permutation", "statement": "p**n is the n-fold product for n>=0, p**0 the identity, p**(m+n) == p**m * p**n; for negative exponents the code returns p itself.", "quantifier": "all permutations and exponents", "why_tests_cant": "The domain (dictionaries of any size, any integers, any torsion) is infinite; a test only samples it.", "anchors": ["comch/symmetric/symmetric.py:SymmetricGroupElement.__pow__"]}
{"id": "C14", "title": "Operadic composition of permutations", "statement": "For permutations p of arity r, q of arity s and 1<=i<=r, p.compose(q,i) is a permutation of arity r+s-1; units (1); sequential associativity (p o_i q) o_{i+j-1} t = p o_i (q o_j t); parallel associativity (p o_i q) o_{k+s-1} t = (p o_k t) o_i q for i<k. The sign of p o_i q is sign(p) sign(q), times -1 when s is even and i stands in p at a position k with k - i odd.", "quantifier": "all permutations, all positions", "why_tests_cant": "Operad axioms quantify over all arities.", "anchors": ["comch/symmetric/symmetric.py:SymmetricGroupElement.compose"]}
{"id": "C15", "title": "all(n) and shuffles(i,j) enumerate exactly once", "statement": "SymmetricGroup.all(n) yields each permutation of 1..n exactly once; shuffles(i,j) yields each permutation which increases on the first i and on the last j entries exactly once.", "quantifier": "all n, i, j", "why_tests_cant": "Completeness for every n.", "anchors": ["comch/symmetric/symmetric.py:SymmetricGroup.all", "comch/symmetric/symmetric.py:SymmetricGroup.shuffles"]}
{"id": "C16", "title": "Group ring multiplication", "statement": "* of SymmetricRingElement is the bilinear extension of composition: associative, distributive, identity_element neutral, coefficients are convolution sums modulo the torsion; operands with different torsion raise TypeError.", "quantifier": "all ring elements of one arity and torsion", "why_tests_cant": "The domain (dictionaries of any size, any integers, any torsion) is infinite; a test only samples it.", "anchors": ["comch/symmetric/symmetric.py:SymmetricRingElement.__mul__", "comch/symmetric/symmetric.py:SymmetricRing.identity_element"]}
{"id": "C17", "title": "Powers in the group ring", "statement": "x**n (n>=1) is computed by raising every permutation of x to the n-th power and keeping the coefficients; this equals the n-fold product for elements {p: 1}, and (defect) not for general elements such as 1+t.", "quantifier": "all ring elements and n>=0", "why_tests_cant": "False for most elements although true for the single permutations used in the tests.", "anchors": ["comch/symmetric/symmetric.py:SymmetricRingElement.__pow__"]}
{"id": "C18", "title": "Group ring composition", "statement": "compose of SymmetricRingElement is bilinear and satisfies the (ungraded) operad axioms.", "quantifier": "all ring elements, all positions", "why_tests_cant": "The domain (dictionaries of any size, any integers, any torsion) is infinite; a test only samples it.", "anchors": ["comch/symmetric/symmetric.py:SymmetricRingElement.compose"]}
{"id": "C19", "title": "rotation, transposition and norm elements", "statement": "rho^r = 1, T = rho - 1, N = 1 + rho + ... + rho^(r-1), N*T == T*N == 0, for every arity r>=2 and every torsion other than 1 (norm_element raises TypeError for torsion 1, where every element is zero).", "quantifier": "all arities and torsions", "why_tests_cant": "All arities; arity 1 is a corner case in which the code is wrong (T is -1 instead of 0).", "anchors": ["comch/symmetric/symmetric.py:SymmetricRing.rotation_element", "comch/symmetric/symmetric.py:SymmetricRing.transposition_element", "comch/symmetric/symmetric.py:SymmetricRing.norm_element"]}
{"id": "C20", "title": "Simplicial and cosimplicial identities", "statement": "face, degeneracy satisfy the simplicial identities, coface, codegeneracy (whose results are plain tuples and have to be converted with Simplex(...) before the next operation) the cosimplicial identities.", "quantifier": "all simplices and all admissible indices", "why_tests_cant": "Every dimension and index.", "anchors": ["comch/simplicial/simplicial.py:Simplex.face", "comch/simplicial/simplicial.py:Simplex.degeneracy", "comch/simplicial/simplicial.py:Simplex.coface", "comch/simplicial/simplicial.py:Simplex.codegeneracy"]}
{"id": "C21", "title": "is_degenerate", "statement": "A non-empty simplex is degenerate exactly when it is the image of some degeneracy map; is_nondegenerate is the negation.", "quantifier": "all simplices", "why_tests_cant": "Every dimension.", "anchors": ["comch/simplicial/simplicial.py:Simplex.is_degenerate", "comch/simplicial/simplicial.py:Simplex.is_nondegenerate"]}
{"id": "C22", "title": "Simplicial boundary", "statement": "boundary is additive, lowers the degree of homogeneous elements by one, preserves arity, and x.boundary().boundary() == 0, in all tensor powers and modulo every torsion.", "quantifier": "all SimplicialElements", "why_tests_cant": "Sign errors cancel on small examples; all arities, dimensions and torsions needed.", "anchors": ["comch/simplicial/simplicial.py:SimplicialElement.boundary", "comch/simplicial/simplicial.py:SimplicialElement.degree"]}
{"id": "C23", "title": "Symmetric group action on simplicial chains", "statement": "s*(t*x) == (s*t)*x, 1*x == x, bilinear, with Koszul signs, commutes with boundary.", "quantifier": "all ring elements and all SimplicialElements of the same arity and torsion", "why_tests_cant": "Koszul signs for all permutations and dimensions.", "anchors": ["comch/simplicial/simplicial.py:SimplicialElement.__rmul__"]}
{"id": "C24", "title": "Alexander-Whitney diagonal is a chain map", "statement": "x.iterated_diagonal(times, coord).boundary() == x.boundary().iterated_diagonal(times, coord), for homogeneous x of positive degree, and the arity grows by times.", "quantifier": "all homogeneous elements, all times, all coord within the arity", "why_tests_cant": "All dimensions, numbers of iterations, coordinates.", "anchors": ["comch/simplicial/simplicial.py:SimplicialElement.iterated_diagonal"]}
{"id": "C25", "title": "Alexander-Whitney diagonal is coassociative and iterated", "statement": "iterated_diagonal(a, coord) followed by iterated_diagonal(b, coord+j), 0<=j<=a, equals iterated_diagonal(a+b, coord).", "quantifier": "all homogeneous elements, all a, b, j, coord", "why_tests_cant": "As above.", "anchors": ["comch/simplicial/simplicial.py:SimplicialElement.iterated_diagonal"]}
{"id": "C26", "title": "one_reduced", "statement": "one_reduced is additive, idempotent and removes exactly the terms with a 1-dimensional factor; (defect) it does not commute with the boundary, as a quotient by the 1-skeleton should.", "quantifier": "all SimplicialElements", "why_tests_cant": "The domain (dictionaries of any size, any integers, any torsion) is infinite; a test only samples it.", "anchors": ["comch/simplicial/simplicial.py:SimplicialElement.one_reduced"]}
{"id": "C27", "title": "Simplicial basis", "statement": "Simplicial.basis(n) lists every nondegenerate increasing simplex of the standard n-simplex exactly once, as a non-zero element.", "quantifier": "all n", "why_tests_cant": "Completeness for every n.", "anchors": ["comch/simplicial/simplicial.py:Simplicial.basis", "comch/simplicial/simplicial.py:Simplicial.standard_element"]}
{"id": "C28", "title": "Cubical boundary", "statement": "boundary never raises, is additive, lowers the degree by one, and squares to zero.", "quantifier": "all CubicalElements (arbitrary tuples), all torsions", "why_tests_cant": "Signs for all dimensions.", "anchors": ["comch/cubical/cubical.py:CubicalElement.boundary", "comch/cubical/cubical.py:Cube.face", "comch/cubical/cubical.py:Cube.intervals"]}
{"id": "C29", "title": "Symmetric group action on cubical chains", "statement": "As C23, for CubicalElement.", "quantifier": "all ring elements and CubicalElements of the same arity and torsion", "why_tests_cant": "Koszul signs.", "anchors": ["comch/cubical/cubical.py:CubicalElement.__rmul__"]}
{"id": "C30", "title": "Serre diagonal is a chain map", "statement": "x.iterated_diagonal(times, coord) commutes with boundary.", "quantifier": "all homogeneous CubicalElements, all times, coord", "why_tests_cant": "All dimensions.", "anchors": ["comch/cubical/cubical.py:CubicalElement.iterated_diagonal"]}
{"id": "C31", "title": "Serre diagonal is coassociative", "statement": "iterated_diagonal(a, coord) followed by iterated_diagonal(b, coord+j) equals iterated_diagonal(a+b, coord).", "quantifier": "all homogeneous CubicalElements, all a,b,j,coord", "why_tests_cant": "All dimensions.", "anchors": ["comch/cubical/cubical.py:CubicalElement.iterated_diagonal"]}
{"id": "C32", "title": "Cubical join", "statement": "join does not raise on a homogeneous element whose factors are cubes of one length; the coefficients of the result are those of the iterated documented join (-1)^|a| sum_i a_{<i} eps(b_{<i}) (a_i*b_i) eps(a_{>i}) b_{>i}; its terms are single cubes of degree d + r - 1; and it is a homotopy: boundary(join x) = (-1)^(r-1) (join(boundary x) - join(o)), o being the alternating sum of the tensors obtained by omitting a vertex.", "quantifier": "all homogeneous elements of arity r >= 1 (homotopy: r >= 2) whose factors are cubes of one length", "why_tests_cant": "All dimensions and arities.", "anchors": ["comch/cubical/cubical.py:CubicalElement.join"]}
{"id": "C33", "title": "Cartan-Serre map is a chain map", "statement": "x.cartan_serre_map() commutes with boundary.", "quantifier": "all CubicalElements of tuples of cubes", "why_tests_cant": "All dimensions and arities.", "anchors": ["comch/cubical/cubical.py:CubicalElement.cartan_serre_map", "comch/cubical/cubical.py:Cube.cartan_serre_map"]}
{"id": "C34", "title": "Cartan-Serre map respects diagonals", "statement": "The Cartan-Serre map takes the Serre diagonal to the Alexander-Whitney diagonal.", "quantifier": "all cubes", "why_tests_cant": "All dimensions.", "anchors": ["comch/cubical/cubical.py:CubicalElement.cartan_serre_map", "comch/cubical/cubical.py:CubicalElement.iterated_diagonal", "comch/simplicial/simplicial.py:SimplicialElement.iterated_diagonal"]}
{"id": "C35", "title": "Cubical basis", "statement": "Cubical.basis(n) lists every cell of the n-cube exactly once.", "quantifier": "all n", "why_tests_cant": "Completeness.", "anchors": ["comch/cubical/cubical.py:Cubical.basis", "comch/cubical/cubical.py:Cubical.standard_element"]}
{"id": "C36", "title": "Barratt-Eccles boundary", "statement": "boundary is additive, lowers degree by one and squares to zero.", "quantifier": "all BarrattEcclesElements", "why_tests_cant": "All degrees and arities.", "anchors": ["comch/barratt_eccles/barratt_eccles.py:BarrattEcclesElement.boundary"]}
{"id": "C37", "title": "Symmetric action on the Barratt-Eccles operad", "statement": "s*(t*x) == (1*(s*t))*x (the factor 1 turns the keys of the product into SymmetricGroupElements, see C96), 1*x == x, action commutes with boundary, keeps arity and degree.", "quantifier": "all ring elements and elements of equal arity, torsion", "why_tests_cant": "All arities.", "anchors": ["comch/barratt_eccles/barratt_eccles.py:BarrattEcclesElement.__rmul__"]}
{"id": "C38", "title": "Orbits in the Barratt-Eccles operad", "statement": "orbit() is idempotent, (s*x).orbit() == x.orbit() for every permutation s (trivial representation), (s*x).orbit(\"sign\") == sign(s) x.orbit(\"sign\"), and every key of the result starts with the identity.", "quantifier": "all elements and permutations", "why_tests_cant": "All arities.", "anchors": ["comch/barratt_eccles/barratt_eccles.py:BarrattEcclesElement.orbit"]}
{"id": "C39", "title": "Barratt-Eccles composition satisfies the Leibniz rule", "statement": "boundary(x o_i y) == boundary(x) o_i y + (-1)^deg(x) x o_i boundary(y), and deg, arity are the expected ones.", "quantifier": "all homogeneous x, y (with non-zero boundaries, or with 0 counted as 0), all positions", "why_tests_cant": "Signs over all lattice paths.", "anchors": ["comch/barratt_eccles/barratt_eccles.py:BarrattEcclesElement.compose"]}
{"id": "C40", "title": "Barratt-Eccles operad axioms", "statement": "units, sequential and parallel associativity (with Koszul sign) of compose.", "quantifier": "all homogeneous elements, all positions", "why_tests_cant": "All lattice paths.", "anchors": ["comch/barratt_eccles/barratt_eccles.py:BarrattEcclesElement.compose"]}
{"id": "C41", "title": "Composition with a zero element", "statement": "compose raises TypeError whenever one of the operands is zero (defect: by bilinearity the result should be zero).", "quantifier": "all elements, including 0", "why_tests_cant": "Zero elements arise as results of computations (e.g. boundaries).", "anchors": ["comch/barratt_eccles/barratt_eccles.py:BarrattEcclesElement.compose"]}
{"id": "C42", "title": "Table reduction lands in the surjection operad", "statement": "table_reduction never raises on well-formed elements; the result has the same arity, degree and torsion, in the Berger-Fresse convention, and the coefficient of a non-degenerate surjection m is the sum of the coefficients of the terms of x from whose table of permutations m can be read (initial segments of the rows, crossing out all letters read but the last one of each row).", "quantifier": "all elements", "why_tests_cant": "All arities/degrees.", "anchors": ["comch/barratt_eccles/barratt_eccles.py:BarrattEcclesElement.table_reduction"]}
{"id": "C43", "title": "Table reduction is an equivariant chain map", "statement": "table_reduction commutes with boundary (Berger-Fresse convention) and with the symmetric group action; if the reduction of x is zero (where the package cannot form s*0), so is that of s*x.", "quantifier": "all elements", "why_tests_cant": "Signs.", "anchors": ["comch/barratt_eccles/barratt_eccles.py:BarrattEcclesElement.table_reduction"]}
{"id": "C44", "title": "Barratt-Eccles diagonal", "statement": "diagonal(r) is additive, and its terms for (s0,...,sn) are exactly the (r+1)-tuples of consecutive overlapping pieces (Alexander-Whitney).", "quantifier": "all elements and r", "why_tests_cant": "All degrees.", "anchors": ["comch/barratt_eccles/barratt_eccles.py:BarrattEcclesElement.diagonal"]}
{"id": "C45", "title": "Barratt-Eccles complexity", "statement": "For arity >= 2, complexity returns the largest degree of a term. This is an upper bound of the documented complexity (largest number of order changes of a pair i<j along the sequence), equal to it in arity 2, and (defect) larger in general.", "quantifier": "all elements", "why_tests_cant": "Differs from the documented value only for some inputs.", "anchors": ["comch/barratt_eccles/barratt_eccles.py:BarrattEcclesElement.complexity"]}
{"id": "C46", "title": "Barratt-Eccles May-Steenrod structure", "statement": "psi(0) is the identity permutation; boundary psi(2n+1) == T psi(2n), boundary psi(2n) == N psi(2n-1); no exception; degree psi(n) = n.", "quantifier": "all arities >= 2, all degrees, all torsions", "why_tests_cant": "Recursive construction; every degree needed.", "anchors": ["comch/barratt_eccles/barratt_eccles.py:BarrattEccles.may_steenrod_structure"]}
{"id": "C47", "title": "Surjection boundary squares to zero", "statement": "boundary is additive, lowers degree by one, preserves arity and squares to zero, in both sign conventions and modulo 2.", "quantifier": "all SurjectionElements", "why_tests_cant": "Signs depend on caesuras in all surjections.", "anchors": ["comch/surjection/surjection.py:SurjectionElement.boundary"]}
{"id": "C48", "title": "Symmetric action on the surjection operad", "statement": "s*(t*x) == (s*t)*x, 1*x == x, the action commutes with boundary, in both conventions.", "quantifier": "all ring elements, all elements of equal arity, torsion", "why_tests_cant": "Koszul signs.", "anchors": ["comch/surjection/surjection.py:SurjectionElement.__rmul__"]}
{"id": "C49", "title": "Orbits in the surjection operad", "statement": "In both conventions: every key of x.orbit(rep) has its values in order of first occurrence and its coefficient is the signed sum of the coefficients of all its relabellings in x; orbit is idempotent; (s*x).orbit(rep) == eps(s) * x.orbit(rep), where eps(s) adds up the coefficients of s weighted by the representation.", "quantifier": "all elements, permutations", "why_tests_cant": "All arities.", "anchors": ["comch/surjection/surjection.py:SurjectionElement.orbit"]}
{"id": "C50", "title": "Surjection composition satisfies the Leibniz rule", "statement": "boundary(x o_i y) == boundary(x) o_i y + (-1)^deg(x) x o_i boundary(y) in the Berger-Fresse convention, and modulo 2 in both conventions; no exception is raised.", "quantifier": "all homogeneous x, y, all positions", "why_tests_cant": "Signs of all splittings.", "anchors": ["comch/surjection/surjection.py:SurjectionElement.compose"]}
{"id": "C51", "title": "Surjection composition: arity, degree, units", "statement": "x o_i (1) == x, (1) o_1 y == y; arity r+s-1, degree d+e; additive in both arguments; positions outside 1..arity raise ValueError; McClure-Smith raises NotImplementedError (torsion not 2); composing with zero gives zero.", "quantifier": "all elements", "why_tests_cant": "All sizes.", "anchors": ["comch/surjection/surjection.py:SurjectionElement.compose"]}
{"id": "C52", "title": "Action on simplicial chains is a chain map", "statement": "boundary(x(c)) == boundary(x)(c) + (-1)^deg(x) x(boundary(c)) in the McClure-Smith convention.", "quantifier": "all homogeneous x, c", "why_tests_cant": "Signs for all surjections and simplices.", "anchors": ["comch/surjection/surjection.py:SurjectionElement.__call__"]}
{"id": "C53", "title": "Action on simplicial chains is equivariant", "statement": "(s*x)(c) == s*(x(c)) in the McClure-Smith convention; if x(c) is zero (where the package cannot form s*(x(c))), (s*x)(c) is zero.", "quantifier": "all elements s of the group ring, homogeneous x, homogeneous chains c", "why_tests_cant": "Signs.", "anchors": ["comch/surjection/surjection.py:SurjectionElement.__call__"]}
{"id": "C54", "title": "Action on cubical chains", "statement": "x(c) for a homogeneous surjection element x of arity r and degree d and a homogeneous tensor c of faces of one cube never raises, has arity a+r-1 and degree e+d, and is bilinear, for every torsion and convention; (1,...,r) acts as the iterated diagonal; modulo 2 boundary(x(c)) == boundary(x)(c) + x(boundary(c)) and (s*x)(c) == s*(x(c)). (Defect: over the integers it does not commute with the boundary in either convention, e.g. for (1,2,1,3) acting on the interval; and composites do not act as composites even modulo 2: (1,2,1) o_1 (1,2) acting on the square is not (1,2) acting on the first factor of (1,2,1) acting on the square.) Zero acts as zero; a missing factor, different torsions and inhomogeneous x raise TypeError.", "quantifier": "all homogeneous x, c, all coordinates", "why_tests_cant": "Diagonals and joins of cubes of any dimension, all surjections.", "anchors": ["comch/surjection/surjection.py:SurjectionElement.__call__", "comch/cubical/cubical.py:CubicalElement.join"]}
{"id": "C55", "title": "Suspension", "statement": "suspension returns only terms of degree d-r+1; (defect) terms of lower arity are kept, so that the result need not have the arity of the input and does not commute with the boundary.", "quantifier": "all elements", "why_tests_cant": "All surjections.", "anchors": ["comch/surjection/surjection.py:SurjectionElement.suspension"]}
{"id": "C56", "title": "Surjection May-Steenrod structure", "statement": "psi(0) = (1,...,r); boundary psi(2n+1) == T psi(2n), boundary psi(2n) == N psi(2n-1) in both conventions; no exception is raised.", "quantifier": "all arities >= 2, all degrees, all torsions", "why_tests_cant": "Recursive construction.", "anchors": ["comch/surjection/surjection.py:Surjection.may_steenrod_structure"]}
{"id": "C57", "title": "Steenrod operation coefficients", "statement": "For odd p the coefficient used by steenrod_operation is congruent mod p to the documented (-1)^(floor(q/2)+s) nu(q) whenever q is even, the exponent is non-negative, or p < 47; p=2 with bockstein raises TypeError; negative degree gives 0; otherwise the result is the coefficient times psi of the degree. (Defects: the float division makes the coefficient wrong at p=47 for some negative exponents, and raises OverflowError for p >= 343.)", "quantifier": "all primes p, all integers s, q", "why_tests_cant": "Number-theoretic, and float arithmetic enters for negative exponents.", "anchors": ["comch/surjection/surjection.py:Surjection.steenrod_operation", "comch/barratt_eccles/barratt_eccles.py:BarrattEccles.steenrod_operation"]}
{"id": "C58", "title": "Surjection basis", "statement": "Surjection.basis(arity, degree, complexity) lists every non-degenerate surjection of that arity and degree with complexity at most the bound exactly once; with the default bound it lists all.", "quantifier": "all arities, degrees, bounds", "why_tests_cant": "Completeness.", "anchors": ["comch/surjection/surjection.py:Surjection.basis", "comch/surjection/surjection.py:SurjectionElement.complexity"]}
{"id": "C59", "title": "Complexity and filtration of surjections", "statement": "complexity and filtration are invariant under the symmetric group action (both conventions) and do not increase under boundary; complexity <= degree + 1.", "quantifier": "all elements", "why_tests_cant": "All sizes.", "anchors": ["comch/surjection/surjection.py:SurjectionElement.complexity", "comch/surjection/surjection.py:SurjectionElement.filtration"]}
{"id": "C60", "title": "steenrod_chain keeps exactly the homogeneous terms", "statement": "steenrod_chain returns the part of (operation)(standard element) whose keys have factors of one common dimension, and nothing else.", "quantifier": "all p, s, q", "why_tests_cant": "All parameters.", "anchors": ["comch/surjection/surjection.py:Surjection.steenrod_chain"]}
{"id": "C61", "title": "partitions", "statement": "partitions(n,k,a,b) yields exactly once every nondecreasing k-tuple with sum n and entries in a..b; with ordered=True exactly once every k-tuple with these properties.", "quantifier": "all n, k>=1, a, b", "why_tests_cant": "Completeness.", "anchors": ["comch/utils/utils.py:partitions"]}
{"id": "C62", "title": "decompositions", "statement": "decompositions(x,k) yields exactly once each way to cut x into k+1 consecutive non-empty pieces overlapping in one entry.", "quantifier": "all sequences x, all k", "why_tests_cant": "Completeness.", "anchors": ["comch/utils/utils.py:decompositions"]}
{"id": "C63", "title": "distinct_permutations", "statement": "distinct_permutations(l) yields every distinct rearrangement of l exactly once, in lexicographic order, and terminates; distinct_permutations(l, r) does the same for the arrangements of r of its entries (none for r negative or beyond the length).", "quantifier": "all finite lists over a linear order, all integers r", "why_tests_cant": "Completeness and termination.", "anchors": ["comch/utils/utils.py:distinct_permutations"]}
{"id": "C64", "title": "pairwise", "statement": "pairwise(l) yields the n-1 pairs of consecutive entries.", "quantifier": "all sequences", "why_tests_cant": "Every length.", "anchors": ["comch/utils/utils.py:pairwise"]}
{"id": "C65", "title": "Zero elements under the action", "statement": "(defect) if one of s, x is zero and the other one is non-zero and homogeneous of some arity, s*x raises TypeError instead of returning zero, for all four chain classes.", "quantifier": "all ring elements", "why_tests_cant": "Zero arises as a result of computations such as boundaries.", "anchors": ["comch/simplicial/simplicial.py:SimplicialElement.__rmul__", "comch/cubical/cubical.py:CubicalElement.__rmul__", "comch/barratt_eccles/barratt_eccles.py:BarrattEcclesElement.__rmul__", "comch/surjection/surjection.py:SurjectionElement.__rmul__"]}
{"id": "C66", "title": "Surjection composition is associative", "statement": "(x o_i y) o_{i+j-1} z == x o_i (y o_j z), and (x o_i y) o_{k+s-1} z == (-1)^(deg y deg z) (x o_k z) o_i y for i<k and y, z homogeneous, in the Berger-Fresse convention and modulo 2; no exception is raised.", "quantifier": "all elements x, y, z of one torsion, all positions", "why_tests_cant": "Signs and splittings of three surjections of any length.", "anchors": ["comch/surjection/surjection.py:SurjectionElement.compose"]}
{"id": "C67", "title": "Surjections act through composition, modulo 2", "statement": "(x o_i y)(c, coord=j) == y(x(c, coord=j), coord=j+i-1) with torsion 2; no exception is raised.", "quantifier": "all homogeneous x, y of any arity, all homogeneous tensors c of simplices, all positions", "why_tests_cant": "Cuts of simplices of every dimension by composites of surjections of any length.", "anchors": ["comch/surjection/surjection.py:SurjectionElement.__call__", "comch/surjection/surjection.py:SurjectionElement.compose"]}
{"id": "C68", "title": "Actions on different factors commute", "statement": "For p<q, y(x(c, coord=p), coord=q+r-1) == (-1)^(deg x deg y) x(y(c, coord=q), coord=p), r the arity of x, over every torsion (McClure-Smith convention); no exception is raised.", "quantifier": "all homogeneous x, y, c, all p<q", "why_tests_cant": "Koszul signs for tensors of any length.", "anchors": ["comch/surjection/surjection.py:SurjectionElement.__call__"]}
{"id": "C69", "title": "Composition of permutations is equivariant", "statement": "(s*p).compose(t*q, s(i)) == s.compose(t, s(i)) * p.compose(q, i); no exception is raised.", "quantifier": "all permutations s, p of one arity r, t, q of one arity, all positions 1 <= i <= r", "why_tests_cant": "All arities.", "anchors": ["comch/symmetric/symmetric.py:SymmetricGroupElement.compose", "comch/symmetric/symmetric.py:SymmetricGroupElement.__mul__"]}
{"id": "C70", "title": "Barratt-Eccles composition is equivariant", "statement": "(s*x).compose(t*y, s(i)) == s.compose(t, s(i)) * x.compose(y, i) for permutations s, t; if x.compose(y, i) is zero (where the package cannot form the right side) so is the left side.", "quantifier": "all homogeneous non-zero x, y of one torsion, all permutations of their arities, all positions", "why_tests_cant": "All lattice paths and permutations.", "anchors": ["comch/barratt_eccles/barratt_eccles.py:BarrattEcclesElement.compose", "comch/barratt_eccles/barratt_eccles.py:BarrattEcclesElement.__rmul__", "comch/symmetric/symmetric.py:SymmetricGroupElement.__mul__"]}
{"id": "C71", "title": "Surjection composition is equivariant", "statement": "(s*x).compose(t*y, s(i)) == s.compose(t, s(i)) * x.compose(y, i) for permutations s, t, in the Berger-Fresse convention and modulo 2; if x.compose(y, i) is zero so is the left side.", "quantifier": "all non-zero x, y of one torsion and convention, all permutations of their arities, all positions", "why_tests_cant": "Signs for all splittings and relabellings.", "anchors": ["comch/surjection/surjection.py:SurjectionElement.compose", "comch/surjection/surjection.py:SurjectionElement.__rmul__", "comch/symmetric/symmetric.py:SymmetricGroupElement.__mul__"]}
{"id": "C72", "title": "Composition respects the complexity filtration", "statement": "complexity(x o_i y) <= max(complexity(x), complexity(y)) (Berger-Fresse convention, or torsion 2).", "quantifier": "all elements, all positions", "why_tests_cant": "Every splitting of surjections of any length.", "anchors": ["comch/surjection/surjection.py:SurjectionElement.compose", "comch/surjection/surjection.py:SurjectionElement.complexity"]}
{"id": "C73", "title": "Table reduction respects the complexity filtration", "statement": "If along every term of x no pair of letters changes its order more than c times, complexity(x.table_reduction()) <= c + 1.", "quantifier": "all elements, all c", "why_tests_cant": "Tables of any size.", "anchors": ["comch/barratt_eccles/barratt_eccles.py:BarrattEcclesElement.table_reduction", "comch/surjection/surjection.py:SurjectionElement.complexity"]}
{"id": "C74", "title": "The boundary is defined on orbits", "statement": "x.orbit(rep).boundary().orbit(rep) == x.boundary().orbit(rep), in both operads, both sign conventions and for both representations; no exception is raised.", "quantifier": "all elements", "why_tests_cant": "All arities and degrees.", "anchors": ["comch/surjection/surjection.py:SurjectionElement.orbit", "comch/surjection/surjection.py:SurjectionElement.boundary", "comch/barratt_eccles/barratt_eccles.py:BarrattEcclesElement.orbit", "comch/barratt_eccles/barratt_eccles.py:BarrattEcclesElement.boundary"]}
{"id": "C75", "title": "Steenrod operations are cycles up to the action", "statement": "For a prime p every element x returned by steenrod_operation(p, s, q, bockstein) satisfies x.boundary().orbit(rep) == 0, in both operads, both conventions and for both representations. In general psi(2m+1).boundary().orbit() == 0 and psi(2m+2).boundary().orbit() == r * psi(2m+1).orbit().", "quantifier": "all primes p, all integers s, q; all arities, degrees and torsions", "why_tests_cant": "Recursive construction; all degrees and primes.", "anchors": ["comch/surjection/surjection.py:Surjection.steenrod_operation", "comch/barratt_eccles/barratt_eccles.py:BarrattEccles.steenrod_operation", "comch/surjection/surjection.py:SurjectionElement.orbit", "comch/barratt_eccles/barratt_eccles.py:BarrattEcclesElement.orbit"]}
{"id": "C76", "title": "Printing is faithful", "statement": "str(x) is the sum of the terms of x in dictionary order, with coefficient 1 omitted; elements of one class that print alike are equal (and list their terms in the same order), and exactly the elements equal to zero print as \"0\". (Equal elements may print differently: the order of insertion is kept.)", "quantifier": "all elements of the five classes, all integers", "why_tests_cant": "Injectivity of a text format over all keys and coefficients.", "anchors": ["comch/free_module/free_module.py:FreeModuleElement.__str__", "comch/symmetric/symmetric.py:SymmetricRingElement.__str__", "comch/simplicial/simplicial.py:SimplicialElement.__str__", "comch/cubical/cubical.py:CubicalElement.__str__", "comch/barratt_eccles/barratt_eccles.py:BarrattEcclesElement.__str__", "comch/surjection/surjection.py:SurjectionElement.__str__"]}
{"id": "C77", "title": "Hashing agrees with equality", "statement": "x == y implies hash(x) == hash(y), for elements in normal form. (The hash changes under in-place operations.)", "quantifier": "all elements, every hash function of sets", "why_tests_cant": "All pairs of equal elements.", "anchors": ["comch/free_module/free_module.py:FreeModuleElement.__hash__"]}
{"id": "C78", "title": "LaTeX output", "statement": "_latex_ of a simplicial element prints each basis element as [..] \\\\otimes [..], unless it is a vertex in arity one (printed [0,]); _latex_ of a non-zero cubical element prints [0], [1], [01] for the intervals, provided no coefficient contains the digits 0 or 1 (those are rewritten as intervals, and zero prints as [0]).", "quantifier": "all simplicial and cubical elements with the stated restrictions", "why_tests_cant": "Chains of overlapping string replacements on texts of any length.", "anchors": ["comch/simplicial/simplicial.py:SimplicialElement._latex_", "comch/cubical/cubical.py:CubicalElement._latex_"]}
{"id": "C79", "title": "Table reduction is a morphism of operads", "statement": "For homogeneous non-zero Barratt-Eccles elements x of arity r and y of arity s of one torsion and 1 <= i <= r, x.compose(y, i).table_reduction() == x.table_reduction().compose(y.table_reduction(), i), and nothing raises on either side; the arity-one identity goes to the arity-one identity. Together with C43 table_reduction is a morphism of differential graded symmetric operads.", "quantifier": "all arities r and s >= 1, all positions, all degrees, all homogeneous elements with any coefficients, all torsions", "why_tests_cant": "The two sides are computed by unrelated enumerations (lattice paths then table readings against table readings then splittings of the inner word), agree only after cancellation of degenerate terms, and the number of terms grows exponentially.", "anchors": ["comch/barratt_eccles/barratt_eccles.py:BarrattEcclesElement.table_reduction", "comch/barratt_eccles/barratt_eccles.py:BarrattEcclesElement.compose", "comch/surjection/surjection.py:SurjectionElement.compose"]}
{"id": "C80", "title": "The two May-Steenrod structures agree under table reduction", "statement": "For every arity r >= 2, degree d and torsion n, BarrattEccles.may_steenrod_structure(r, d, n).table_reduction() == Surjection.may_steenrod_structure(r, d, n, convention='Berger-Fresse'); for every p >= 2 and integers s, q, BarrattEccles.steenrod_operation(p, s, q, bockstein) raises exactly when Surjection.steenrod_operation(p, s, q, bockstein, convention='Berger-Fresse') does, with the same exception, and otherwise its table reduction equals the latter.", "quantifier": "all arities, degrees, torsions, primes (in fact all p >= 2), integers s and q, both values of bockstein", "why_tests_cant": "The two recursions are different (prepending the identity against the contracting homotopy h of the surjection operad); the number of terms grows exponentially with the degree.", "anchors": ["comch/barratt_eccles/barratt_eccles.py:BarrattEccles.may_steenrod_structure", "comch/barratt_eccles/barratt_eccles.py:BarrattEccles.steenrod_operation", "comch/barratt_eccles/barratt_eccles.py:BarrattEcclesElement.table_reduction", "comch/surjection/surjection.py:Surjection.may_steenrod_structure", "comch/surjection/surjection.py:Surjection.steenrod_operation"]}
{"id": "C81", "title": "The cup-i coboundary relation on chains", "statement": "For every arity r >= 2, torsion n != 1 and homogeneous chain c of simplices, with psi(d) = Surjection.may_steenrod_structure(r, d, n, convention='McClure-Smith'): boundary(psi(2m+1)(c)) == T*psi(2m)(c) - psi(2m+1)(boundary(c)) and boundary(psi(2m+2)(c)) == N*psi(2m+1)(c) + psi(2m+2)(boundary(c)), T and N being the transposition and norm elements (a product with zero is zero); nothing raises. Modulo 2 the same holds for chains of faces of a cube, in both conventions.", "quantifier": "all arities, degrees, torsions, all homogeneous simplicial chains, all homogeneous mod 2 cubical chains", "why_tests_cant": "Infinitely many degrees and arities; the number of terms grows exponentially.", "anchors": ["comch/surjection/surjection.py:Surjection.may_steenrod_structure", "comch/surjection/surjection.py:SurjectionElement.__call__", "comch/simplicial/simplicial.py:SimplicialElement.boundary", "comch/simplicial/simplicial.py:SimplicialElement.__rmul__"]}
{"id": "C82", "title": "Both operads are acyclic", "statement": "If x is homogeneous of arity r and degree d >= 1 with boundary(x) == 0 then there is y of arity r and degree d+1 (same torsion, same convention) with boundary(y) == x; if d = 0 then such y exists exactly if the coefficients of x sum to zero modulo the torsion. This holds in the Barratt-Eccles operad and in the surjection operad in both conventions.", "quantifier": "all arities, degrees, torsions, conventions, all cycles", "why_tests_cant": "Existence of a primitive for every cycle.", "anchors": ["comch/barratt_eccles/barratt_eccles.py:BarrattEcclesElement.boundary", "comch/surjection/surjection.py:SurjectionElement.boundary"]}
{"id": "C83", "title": "Orbits classify coinvariants; the actions are free", "statement": "x.orbit(representation) == y.orbit(representation) exactly if f(x) == f(y) for every linear function f into the integers modulo the torsion with f(s*z) = sign(s) f(z) (sign of the representation); a permutation other than the identity maps no basis element to a multiple of itself. For the Barratt-Eccles operad and for the surjection operad in both conventions.", "quantifier": "all arities, all elements, all torsions, both representations, all equivariant functions", "why_tests_cant": "Completeness of an invariant over all elements.", "anchors": ["comch/barratt_eccles/barratt_eccles.py:BarrattEcclesElement.orbit", "comch/surjection/surjection.py:SurjectionElement.orbit", "comch/barratt_eccles/barratt_eccles.py:BarrattEcclesElement.__rmul__", "comch/surjection/surjection.py:SurjectionElement.__rmul__"]}
{"id": "C84", "title": "Closed formula for the action on simplicial chains", "statement": "For x homogeneous of arity r and degree d in the McClure-Smith convention and y a homogeneous tensor of simplices, the coefficient in x(y, coord) of a tensor m without degenerate factors is the sum, over the terms k of x, the terms t of y and all the ways of cutting factor coord of t into len(k) consecutive pieces with common end vertices such that replacing the factor by the concatenations of the pieces with equal label gives m, of the product of the coefficients and the sign: Koszul sign of sorting the pieces by label, times the sign of the degree one concatenation operators placed at the caesuras, times (-1)^(d * degree of the factors to the left).", "quantifier": "all arities, degrees, torsions, factors, elements and target tensors", "why_tests_cant": "Every coefficient of every value; the number of cuts grows without bound.", "anchors": ["comch/surjection/surjection.py:SurjectionElement.__call__", "comch/simplicial/simplicial.py:SimplicialElement.iterated_diagonal"]}
{"id": "C85", "title": "Closed formula for the Barratt-Eccles composition", "statement": "For homogeneous x, y the coefficient in x.compose(y, i) of a sequence m without equal consecutive entries is the sum over pairs of terms and over the lattice paths from (0,0) to (deg x, deg y), of the product of the coefficients and (-1)^(number of pairs of a step of y before a step of x), taken over the paths along which the permutations x_a o_i y_b form m.", "quantifier": "all arities, degrees, torsions, positions, elements and targets", "why_tests_cant": "Every coefficient of every composition; the number of paths grows without bound.", "anchors": ["comch/barratt_eccles/barratt_eccles.py:BarrattEcclesElement.compose"]}
{"id": "C86", "title": "Closed formula for the surjection composition", "statement": "For x of arity r, y of arity s, 1 <= i <= r (x in the Berger-Fresse convention or torsion 2) the coefficient in x.compose(y, i) of a non-degenerate surjection m is the sum over pairs of terms k1, k2 and over the ways of cutting k2 into as many consecutive overlapping pieces as k1 has occurrences of i, such that inserting the pieces gives m, of the product of the coefficients and (-1)^(sum over the pieces of the caesuras of the piece times the caesuras of k1 from the place of insertion on).", "quantifier": "all arities, degrees, torsions, positions, elements and targets", "why_tests_cant": "Every coefficient of every composition; the number of splittings grows without bound.", "anchors": ["comch/surjection/surjection.py:SurjectionElement.compose"]}
{"id": "C87", "title": "Locality and instability of the action on simplicial chains", "statement": "For x homogeneous of arity r and degree d in the McClure-Smith convention and y a homogeneous tensor, every key of x(y, coord) arises from a key of y by replacing factor coord by r simplices whose vertices form subsequences of its vertices. If y is a chain of dimension e then x(y) is zero when d > (r-1)e, and when d = (r-1)e every key of x(y) is the r-th tensor power of a simplex of y.", "quantifier": "all arities, degrees, torsions, factors and elements", "why_tests_cant": "A statement about every term of every value.", "anchors": ["comch/surjection/surjection.py:SurjectionElement.__call__"]}
{"id": "C88", "title": "The extremal part of the action; Sq^0 is the identity", "statement": "For x of arity r >= 2 and degree (r-1)n and a chain y of dimension n, the coefficient in x(y) of the r-th tensor power of a simplex V is the coefficient of V in y times a signed count (fixed signs) of those terms of x in which each of the n+1 windows of r consecutive entries beginning at the positions 0, r-1, 2(r-1), ... has pairwise different entries. In arity 2 a single term c*k acts by +-c times the square of V. Surjection.steenrod_chain(2, 0, -n) is exactly [0..n] tensor [0..n] with coefficient 1 (Sq^0 is the identity), and steenrod_chain(p, s, q, bockstein) is zero for every s >= 1.", "quantifier": "all arities, dimensions, torsions, chains; all n; all p >= 2, s >= 1, q, bockstein", "why_tests_cant": "Every dimension and every coefficient.", "anchors": ["comch/surjection/surjection.py:SurjectionElement.__call__", "comch/surjection/surjection.py:Surjection.steenrod_chain", "comch/surjection/surjection.py:Surjection.steenrod_operation"]}
{"id": "C89", "title": "Naturality of the simplicial operations", "statement": "Applying an arbitrary map f of vertices to all the simplices of all terms of a chain (and letting the package drop degenerate simplices and merge like terms) commutes with boundary, with iterated_diagonal (all times and coordinates), with the action x(y, coord) of every McClure-Smith surjection element, and with the action of symmetric ring elements. Simplex.coface and Simplex.codegeneracy are particular maps of vertices.", "quantifier": "all vertex maps (injective or not, monotone or not), chains, torsions, times, factors, surjection and ring elements", "why_tests_cant": "Ranges over all maps and all chains; unit tests use a few simplices.", "anchors": ["comch/simplicial/simplicial.py:SimplicialElement.boundary", "comch/simplicial/simplicial.py:SimplicialElement.iterated_diagonal", "comch/surjection/surjection.py:SurjectionElement.__call__", "comch/simplicial/simplicial.py:SimplicialElement.__rmul__", "comch/simplicial/simplicial.py:Simplex.coface", "comch/simplicial/simplicial.py:Simplex.codegeneracy"]}
{"id": "C90", "title": "Naturality of the cubical operations", "statement": "Inserting a constant coordinate 0 or 1 at any place in all the cubes of a chain, and deleting any coordinate (a term in which a deleted coordinate is an interval becoming zero), commute with boundary, with iterated_diagonal (all times and coordinates), with join, with the action x(y, coord) of every surjection element (all torsions, both conventions) and with the action of symmetric ring elements.", "quantifier": "all face inclusions and projections (hence all maps of the cube category), chains, torsions, times, factors, surjection and ring elements", "why_tests_cant": "Ranges over all dimensions, maps and chains.", "anchors": ["comch/cubical/cubical.py:CubicalElement.boundary", "comch/cubical/cubical.py:CubicalElement.iterated_diagonal", "comch/cubical/cubical.py:CubicalElement.join", "comch/surjection/surjection.py:SurjectionElement.__call__", "comch/cubical/cubical.py:CubicalElement.__rmul__"]}
{"id": "C91", "title": "The diagonal of the Barratt-Eccles operad is a differential graded coalgebra structure", "statement": "BarrattEcclesElement.diagonal is a chain map for the Leibniz boundary of tensor powers; cutting any factor of x.diagonal(r) into s+1 pieces in all ways gives x.diagonal(r+s) (coassociativity); omitting any factor of x.diagonal(r+1) where it has degree zero, and dropping the other terms, gives x.diagonal(r) (counit); for a symmetric ring element s, the diagonal of s*x is obtained by multiplying all the permutations of all the factors (equivariance).", "quantifier": "all elements (not only homogeneous ones), torsions, numbers of factors, positions and ring elements", "why_tests_cant": "Identities between elements with unboundedly many terms, for all elements.", "anchors": ["comch/barratt_eccles/barratt_eccles.py:BarrattEcclesElement.diagonal", "comch/barratt_eccles/barratt_eccles.py:BarrattEcclesElement.boundary", "comch/barratt_eccles/barratt_eccles.py:BarrattEcclesElement.__rmul__"]}
{"id": "C92", "title": "The Barratt-Eccles operad is a Hopf operad", "statement": "For homogeneous non-zero x, y, the diagonal of x.compose(y, i) is the composition of the diagonals of x and y in the tensor square of the operad: the coefficient of m (x) m' is the sum over the terms a (x) a' of x.diagonal() and b (x) b' of y.diagonal() of the product of the coefficients, (-1)^(|a'||b|), the coefficient of m in a o_i b and the coefficient of m' in a' o_i b'.", "quantifier": "all arities, degrees, torsions, positions, elements and targets", "why_tests_cant": "Every coefficient of every composition.", "anchors": ["comch/barratt_eccles/barratt_eccles.py:BarrattEcclesElement.diagonal", "comch/barratt_eccles/barratt_eccles.py:BarrattEcclesElement.compose"]}
{"id": "C93", "title": "The Cartan-Serre map relates the cubical and simplicial actions", "statement": "For a homogeneous x in the McClure-Smith convention and a homogeneous tensor c of faces of a cube, x(c, coord).cartan_serre_map() == x(c.cartan_serre_map(), coord) and neither side raises: (1) always with torsion 2; (2) with every torsion when the arity is at least 3, after the coefficient of each surjection on the simplicial side is multiplied by (-1)^(sum over the values i of C(m_i,2)), m_i being the number of occurrences of i (without this sign the equality fails, e.g. for (1,2,1,3) on an interval); (3) with every torsion, without any correction, for arity at most 2 and degree at most 1, and for (1,2,1,2).", "quantifier": "all surjection elements, tensors of cube faces, factors and torsions as in the three cases", "why_tests_cant": "Infinitely many cubes, surjections and signs.", "anchors": ["comch/surjection/surjection.py:SurjectionElement.__call__", "comch/cubical/cubical.py:CubicalElement.cartan_serre_map"]}
{"id": "C94", "title": "Standard elements", "statement": "Simplicial.standard_element(n, t) (n, t >= 0, torsion not 1) is the basis element given by t copies of (0,...,n), with coefficient 1, degree n*t and arity t; Cubical.standard_element(n, t) is t copies of (2,...,2) (n twos), with coefficient 1, degree n*t and arity t; both carry the requested torsion. With torsion 1 both are zero. A negative dimension gives the zero simplicial element (t >= 1) and the 0-dimensional standard cube. cartan_serre_map takes the standard cube to the standard simplex for every n, t and torsion.", "quantifier": "all dimensions, numbers of factors and torsions", "why_tests_cant": "Infinitely many dimensions and numbers of factors.", "anchors": ["comch/simplicial/simplicial.py:Simplicial.standard_element", "comch/cubical/cubical.py:Cubical.standard_element", "comch/cubical/cubical.py:CubicalElement.cartan_serre_map"]}
{"id": "C95", "title": "The operator *", "statement": "a * b between ints, tuples, permutations, ring elements and the four classes of chains: it can only succeed when a is an int (any b), a tuple and b an int, a permutation and b a permutation or chain, a ring element and b an int, ring element or chain, and the result then has the documented class; all other pairs raise (AttributeError for a permutation times an int or a tuple, NotImplementedError for a tuple or a chain of another class times a Barratt-Eccles element, TypeError otherwise; in particular permutation * ring element and ring element * permutation raise TypeError although the documentation of SymmetricRingElement.__mul__ allows the latter). n times a tuple in either order, and n times a permutation, is the plain tuple of n repetitions (a permutation times n raises). For a permutation p, p*x == {p: 1}*x, and p*(q*x) == (p*q)*x for permutations p, q and non-zero x of the same arity, in all four classes and for every torsion.", "quantifier": "all pairs of objects; all permutations and elements of equal arity", "why_tests_cant": "Every combination of classes and every element.", "anchors": ["comch/symmetric/symmetric.py:SymmetricGroupElement.__mul__", "comch/symmetric/symmetric.py:SymmetricRingElement.__mul__", "comch/free_module/free_module.py:FreeModuleElement.__rmul__", "comch/simplicial/simplicial.py:SimplicialElement.__rmul__", "comch/cubical/cubical.py:CubicalElement.__rmul__", "comch/barratt_eccles/barratt_eccles.py:BarrattEcclesElement.__rmul__", "comch/surjection/surjection.py:SurjectionElement.__rmul__"]}
{"id": "C96", "title": "Keys of products of ring elements", "statement": "Ring elements computed by any program without products of ring elements only have SymmetricGroupElements as keys. (Defect) s*t of two ring elements has plain tuples as keys. Hence (s*t)*x raises TypeError for every Barratt-Eccles element x unless s*t and x are both zero, (s*t)**n raises TypeError for n != 0 and (s*t).compose(y, i) raises AttributeError (operands non-zero, equal torsion), although s*(t*x) is defined; 1*(s*t) is equal to s*t, has the right keys, and (1*(s*t))*x == s*(t*x). The actions on the other three classes of chains do not depend on the type of the keys.", "quantifier": "all ring elements, all programs building them, all Barratt-Eccles elements", "why_tests_cant": "The type of the keys depends on the history of the element.", "anchors": ["comch/symmetric/symmetric.py:SymmetricRingElement.__mul__", "comch/symmetric/symmetric.py:SymmetricRingElement.__pow__", "comch/symmetric/symmetric.py:SymmetricRingElement.compose", "comch/barratt_eccles/barratt_eccles.py:BarrattEcclesElement.__rmul__"]}
{"id": "C97", "title": "Construction of elements", "statement": "X(data, torsion) is in normal form, has the given torsion (default_torsion if none is given), and the coefficient of a key is 0 if the key is degenerate and otherwise the one given last for that key, modulo the torsion: the coefficients of different keys of data that become equal after conversion are not added. SimplicialElement.dimension is the given non-zero dimension, otherwise the largest vertex in data (degenerate keys and keys with coefficient 0 included), -1 if there are no vertices, None for empty data; elements derived from x (create, +, boundary) inherit x.dimension unchanged.", "quantifier": "all dictionaries, torsions and dimensions", "why_tests_cant": "Every dictionary.", "anchors": ["comch/free_module/free_module.py:FreeModuleElement.__init__", "comch/symmetric/symmetric.py:SymmetricRingElement.__init__", "comch/simplicial/simplicial.py:SimplicialElement.__init__", "comch/cubical/cubical.py:CubicalElement.__init__", "comch/barratt_eccles/barratt_eccles.py:BarrattEcclesElement.__init__"]}
{"id": "C98", "title": "Simplicial and cubical chains are acyclic", "statement": "Let x be a combination of r-fold tensors of simplices on a non-empty set V of vertices (respectively of r-fold tensors of faces of the n-cube), all of the same total dimension d. If d >= 1 and x.boundary() is zero, then x == y.boundary() for some y of the same kind with total dimension d + 1. If d = 0 then such a y exists exactly when the sum of the coefficients of x is divisible by the torsion (is 0 for torsion 0).", "quantifier": "all r, d, n, vertex sets, torsions and cycles", "why_tests_cant": "The statement quantifies over all cycles and asserts existence of a chain.", "anchors": ["comch/simplicial/simplicial.py:SimplicialElement.boundary", "comch/cubical/cubical.py:CubicalElement.boundary"]}
{"id": "C99", "title": "Variables, aliasing and in-place operators", "statement": "After any program, v = o.m(args) computes its result from the current values, binds it to v and changes the value of no other variable; unless the method returned self, v then refers to an object no other variable refers to, so a later v += w changes v only. v += w and v -= w change exactly the variables that refer to the same object as v; v.set_torsion(n) changes those, and the torsion (not the coefficients) of objects derived from v. Without set_torsion every variable is in normal form at every point. The methods that return self are join, orbit (Barratt-Eccles) and suspension applied to a zero element: then y = x.join(); y += z changes x.", "quantifier": "all programs (sequences of constructor calls, assignments, method calls, in-place operations), all variables, all the element classes and their methods", "why_tests_cant": "Aliasing depends on the whole history of a program.", "anchors": ["comch/free_module/free_module.py:FreeModuleElement.create", "comch/free_module/free_module.py:FreeModuleElement.__iadd__", "comch/free_module/free_module.py:FreeModuleElement.__isub__", "comch/free_module/free_module.py:FreeModuleElement.set_torsion", "comch/cubical/cubical.py:CubicalElement.join", "comch/barratt_eccles/barratt_eccles.py:BarrattEcclesElement.orbit", "comch/surjection/surjection.py:SurjectionElement.suspension"]}
{"id": "C100", "title": "Copies", "statement": "x.copy() (likewise copy.copy, copy.deepcopy and a pickle round trip, all inherited from Counter) has the coefficients of x and compares equal to x, but has the default torsion and convention: it is faithful exactly if x has those. Otherwise x + x.copy() raises TypeError, and equal elements x and x.copy() can have different boundaries and multiples. +x (inherited) is the plain Counter of the positive coefficients.", "quantifier": "all elements of all classes, torsions and conventions", "why_tests_cant": "The statement ranges over all elements and torsions.", "anchors": ["comch/free_module/free_module.py:FreeModuleElement.__init__", "comch/surjection/surjection.py:SurjectionElement.__init__"]}
{"id": "C101", "title": "Direct changes of coefficients", "statement": "A sequence of item assignments, deletions, update, subtract and clear on an element has exactly the effect on its coefficients that dict and Counter document, and leaves torsion and convention alone. A following preferred_rep() - or an arithmetic operation - gives an element in normal form with those coefficients modulo the torsion and no degenerate basis elements. Before that, an element may be true although it equals zero.", "quantifier": "all elements, all sequences of changes", "why_tests_cant": "The statement ranges over all sequences of changes.", "anchors": ["comch/free_module/free_module.py:FreeModuleElement.preferred_rep", "comch/free_module/free_module.py:FreeModuleElement.__add__"]}
{"id": "C102", "title": "Steenrod operations send cocycles to cocycles", "statement": "Let X be an ordered simplicial complex, p a prime and alpha a mod p cochain of degree q. Evaluating alpha x ... x alpha on Surjection.steenrod_operation(p, -s, -q, bockstein)(sigma) for every simplex sigma of X never raises if the operation exists, and defines a cochain P^s(alpha) (Sq^s, beta P^s) that vanishes outside of dimension q + s (p = 2) or q + 2s(p-1) (+ 1 with the Bockstein). If alpha is a cocycle so is the result.", "quantifier": "all ordered simplicial complexes (finite or not), primes, s, q, with and without Bockstein, all cocycles", "why_tests_cant": "Every complex, prime and cocycle.", "anchors": ["comch/surjection/surjection.py:Surjection.steenrod_operation", "comch/surjection/surjection.py:SurjectionElement.__call__", "comch/simplicial/simplicial.py:SimplicialElement.boundary"]}
{"id": "C103", "title": "Cup-i products of cochains", "statement": "Evaluating alpha x beta on Surjection.may_steenrod_structure(2, i, n, 'McClure-Smith')(sigma) defines a cochain alpha cup_i beta on every ordered simplicial complex, modulo every n != 1 (integers included). cup_0 is the product of the values on the front and back face; d(a cup_0 b) = da cup_0 b + (-1)^|a| a cup_0 db, and (-1)^(i+1) d(a cup_(i+1) b) = da cup_(i+1) b + (-1)^|a| a cup_(i+1) db - (-1)^(|a||b|) b cup_i a - (-1)^(i+1) a cup_i b.", "quantifier": "all complexes, moduli, i, degrees and cochains", "why_tests_cant": "Every complex and pair of cochains.", "anchors": ["comch/surjection/surjection.py:Surjection.may_steenrod_structure", "comch/surjection/surjection.py:SurjectionElement.__call__"]}
{"id": "C104", "title": "Steenrod squares on cohomology", "statement": "The cochain operations Sq^s of C102 at p = 2 are defined and additive on cohomology: cohomologous cocycles have cohomologous squares and Sq^s(a + b) is cohomologous to Sq^s(a) + Sq^s(b). Sq^0(a) = a, Sq^q(a) = a cup a for a of degree q, and Sq^s(a) = 0 for s < 0 and for s > q.", "quantifier": "all ordered simplicial complexes, s, q and cocycles", "why_tests_cant": "Every complex and cocycle; the statement asserts the existence of a cochain.", "anchors": ["comch/surjection/surjection.py:Surjection.steenrod_operation", "comch/surjection/surjection.py:SurjectionElement.__call__"]}
{"id": "C105", "title": "Steenrod operations on cohomology at every prime", "statement": "For every prime p the operations P^s and beta P^s of C102 are defined and additive on cohomology: cohomologous cocycles have cohomologous images, and the image of a + b is cohomologous to the sum of the images. For odd p they vanish for s < 0 and for 2s > q (beta P^s also for 2s = q), and P^s on cochains of degree 2s is the p-th power: the product of the values on p consecutive faces of dimension 2s.", "quantifier": "all ordered simplicial complexes, primes, s, q, with and without Bockstein, all cocycles", "why_tests_cant": "Every complex, prime and cocycle; the statement asserts the existence of a cochain.", "anchors": ["comch/surjection/surjection.py:Surjection.steenrod_operation", "comch/surjection/surjection.py:SurjectionElement.__call__"]}
{"id": "C106", "title": "Naturality of the operations on cochains", "statement": "A map of ordered simplicial complexes (weakly monotone on every simplex, sending simplices to simplices) pulls cochains back: (f^* a)(t) = a(f(t)), and 0 when f identifies vertices of t. The pullback commutes with the coboundary, preserves cocycles and cohomologous cochains, and commutes, simplex by simplex, with every operation of C102-C105: the values computed by the package for P^s, beta P^s and Sq^s on f^* a, and for f^* a cup_i f^* b, are the pullbacks of the values for a and b.", "quantifier": "all maps of ordered simplicial complexes, cochains, primes (moduli for cup-i), degrees and simplices", "why_tests_cant": "Every complex, map, cochain and simplex.", "anchors": ["comch/surjection/surjection.py:Surjection.steenrod_operation", "comch/surjection/surjection.py:SurjectionElement.__call__"]}
{"id": "C107", "title": "The Bockstein and the operations", "statement": "The Bockstein of a mod p cocycle (lift it to an integral cochain, take the coboundary, divide by p, reduce) exists for every cocycle of every ordered complex, is a cocycle, and up to coboundaries does not depend on the choices or on the representative. The operations which the package computes satisfy, on cohomology: at p = 2 the Bockstein of Sq^s is Sq^{s+1} for even s and 0 for odd s, in particular Sq^1 is the Bockstein; at odd p the operation obtained with bockstein=True is minus the Bockstein of the one obtained with bockstein=False, for every s and q for which steenrod_operation returns.", "quantifier": "all primes, complexes, cocycles, degrees s and q and all choices of integral lifts", "why_tests_cant": "Every complex, cocycle, degree and lift.", "anchors": ["comch/surjection/surjection.py:Surjection.steenrod_operation", "comch/surjection/surjection.py:SurjectionElement.__call__"]}
{"id": "C108", "title": "The Cartan formula modulo 2", "statement": "On the mod 2 cohomology of every ordered simplicial complex the squares computed by the package and the cup product computed by the package satisfy Sq^s(\u03b1 \u222a \u03b2) = \u03a3_{k=0..s} Sq^k \u03b1 \u222a Sq^{s-k} \u03b2: for cocycles \u03b1 and \u03b2 of any degrees and every s the two sides, each obtained by calling steenrod_operation, may_steenrod_structure and __call__, differ by a coboundary.", "quantifier": "all ordered complexes, all mod 2 cocycles of all degrees and all s", "why_tests_cant": "Every complex, pair of cocycles and degree.", "anchors": ["comch/surjection/surjection.py:Surjection.steenrod_operation", "comch/surjection/surjection.py:Surjection.may_steenrod_structure", "comch/surjection/surjection.py:SurjectionElement.__call__"]}
{"id": "C109", "title": "P^0 at odd primes", "statement": "At every odd prime p the operation P^0 computed by the package is the identity up to a sign fixed by the degree: for every cochain \u03b1 of degree q with values modulo p and every q-simplex \u03c3, evaluating \u03b1\u2297\u2026\u2297\u03b1 on steenrod_operation(p, 0, -q)(\u03c3) gives (-1)^(q(p-1)/2)\u00b7\u03b1(\u03c3), exactly and not only up to coboundaries; so P^0 twice is the identity and P^0 kills no class. (Defect: for odd q the coefficient is a float; from p = 47 on it is rounded and P^0 of a cochain of degree 1 is not even a sign times it, and from p = 343 on the call raises OverflowError.)", "quantifier": "all odd primes, all degrees q (for odd q: p < 47), all cochains, all simplices with any vertices", "why_tests_cant": "Every prime, degree, cochain and simplex; the chains involved have more terms than can be listed beyond the smallest cases.", "anchors": ["comch/surjection/surjection.py:Surjection.steenrod_operation", "comch/surjection/surjection.py:Surjection.may_steenrod_structure", "comch/surjection/surjection.py:SurjectionElement.__call__"]}
{"id": "C110", "title": "How many objects are produced", "statement": "The sizes of results are the closed formulas a user plans with: Simplicial.basis(n) has 2^(n+1)-1 elements, Cubical.basis(n) has 3^n, the list of permutations n!, shuffles(i, j) has C(i+j, i), partitions(n, k, ordered=True) C(n-1, k-1), decompositions of a tuple of length n into k+1 pieces C(n-1+k, k); iterated_diagonal(t) of the standard n-simplex has exactly C(n+t, t) terms and of the standard n-cube exactly (t+1)^n, the boundary of the standard n-simplex n+1 (n > 0) and of the n-cube 2n, over the integers and modulo every torsion but 1: no terms cancel or coincide.", "quantifier": "all n, i, j, k, t and all torsions other than 1", "why_tests_cant": "Every size; the counts grow exponentially.", "anchors": ["comch/simplicial/simplicial.py:Simplicial.basis", "comch/simplicial/simplicial.py:SimplicialElement.iterated_diagonal", "comch/cubical/cubical.py:Cubical.basis", "comch/cubical/cubical.py:CubicalElement.iterated_diagonal", "comch/symmetric/symmetric.py:SymmetricGroup.shuffles", "comch/utils/utils.py:partitions", "comch/utils/utils.py:decompositions"]}
{"id": "C111", "title": "Cup-i products on the cochains of cubical complexes modulo 2", "statement": "For cochains modulo 2 on any complex of cubes the products alpha cup_i beta, obtained by evaluating alpha x beta on may_steenrod_structure(2, i, 2)(cube), are defined on every cube in both conventions, have degree |alpha|+|beta|-i, depend only on the values on faces of the cube, and satisfy Steenrod's formula delta(alpha cup_i beta) = delta alpha cup_i beta + alpha cup_i delta beta + alpha cup_(i-1) beta + beta cup_(i-1) alpha (without the last two terms for i = 0). For i = 0 the product is Serre's formula: the sum over all distributions of the intervals of the cube over a face ending in 0s and a face starting in 1s.", "quantifier": "all complexes of cubes of every dimension, all cochains, all i and degrees, both conventions", "why_tests_cant": "Every cube of every dimension and every cochain.", "anchors": ["comch/surjection/surjection.py:SurjectionElement.__call__", "comch/surjection/surjection.py:Surjection.may_steenrod_structure", "comch/cubical/cubical.py:CubicalElement.iterated_diagonal", "comch/cubical/cubical.py:CubicalElement.join"]}
{"id": "C112", "title": "Steenrod squares on the cohomology of cubical complexes", "statement": "steenrod_operation(2, -s, -q) applied to cubes sends cocycles modulo 2 of degree q to cocycles of degree q+s; the class of the result depends only on the class of the cocycle; the squares are additive on classes; Sq^0 is the identity on all cochains, Sq^q is the cup square, Sq^s vanishes for s > q and s < 0; cup products of cocycles are cocycles, descend to classes and commute up to a coboundary.", "quantifier": "all complexes of cubes, all cocycles, all s and q", "why_tests_cant": "Every complex and every cochain.", "anchors": ["comch/surjection/surjection.py:SurjectionElement.__call__", "comch/surjection/surjection.py:Surjection.steenrod_operation", "comch/surjection/surjection.py:Surjection.may_steenrod_structure"]}
{"id": "C113", "title": "The Cartan-Serre map preserves cochain operations modulo 2", "statement": "Pulling simplicial cochains modulo 2 back along cartan_serre_map commutes with coboundaries, with all cup-i products and with all Steenrod squares, as cochains: the value of alpha cup_i beta or Sq^s alpha on the collapse of a cube is the value of the cubical operation on the pulled back cochains.", "quantifier": "all cubes, all cochains, all i, s and degrees", "why_tests_cant": "Every cube of every dimension and every cochain.", "anchors": ["comch/cubical/cubical.py:CubicalElement.cartan_serre_map", "comch/surjection/surjection.py:SurjectionElement.__call__", "comch/surjection/surjection.py:Surjection.steenrod_operation"]}
{"id": "C114", "title": "Stability: Steenrod operations and the connecting homomorphism", "statement": "For every pair of complexes (X, A) the operations induced by steenrod_operation commute with the connecting homomorphism from the cohomology of A to the relative cohomology of X in the next degree: if beta is the coboundary of an extension to X of a cocycle alpha of A, then Sq^s beta (computed with degree q+1) is the coboundary of an extension of Sq^s alpha (computed with degree q), for simplicial complexes and for complexes of cubes. At odd primes the same holds with the fixed sign (-1)^((p-1)/2) for P^s and the opposite sign for beta P^s; (defect) the sign is really there: modulo 3 it cannot be dropped on the pair of an edge and its ends.", "quantifier": "all pairs of complexes, all cocycles and extensions, all s, all degrees; p = 2 and all odd primes below 47 (where the coefficients are exact)", "why_tests_cant": "Every complex, cochain, prime and degree.", "anchors": ["comch/surjection/surjection.py:Surjection.steenrod_operation", "comch/surjection/surjection.py:Surjection.may_steenrod_structure", "comch/surjection/surjection.py:SurjectionElement.__call__"]}
{"id": "C115", "title": "The cohomology ring", "statement": "The cup product obtained by evaluating alpha x beta on may_steenrod_structure(2, 0, n)(simplex) makes the cochains of every ordered complex, with coefficients modulo n or in the integers, a ring: it is associative on cochains, the constant cochain 1 is a two-sided unit and a cocycle, it is additive in each factor; products of cocycles are cocycles, the class of a product depends only on the classes of the factors, and on classes it is commutative up to (-1)^(|alpha||beta|). On complexes of cubes modulo 2 it is associative with unit too, in both conventions.", "quantifier": "all complexes, all cochains and degrees, all n other than 1", "why_tests_cant": "Every complex, modulus and cochain.", "anchors": ["comch/surjection/surjection.py:Surjection.may_steenrod_structure", "comch/surjection/surjection.py:SurjectionElement.__call__", "comch/simplicial/simplicial.py:SimplicialElement.iterated_diagonal", "comch/cubical/cubical.py:CubicalElement.iterated_diagonal"]}
{"id": "C116", "title": "Adem relations", "statement": "On the cohomology modulo 2 of every ordered complex the squares induced by steenrod_operation(2, -s, -q) satisfy the Adem relations: for a < 2b, Sq^a Sq^b = sum over c <= a/2 of binomial(b-c-1, a-2c) Sq^(a+b-c) Sq^c, each side computed by applying the operations one after the other with the degree of the intermediate cochain. In particular Sq^1 Sq^1 = 0, Sq^1 Sq^(2n) = Sq^(2n+1) and Sq^2 Sq^2 = Sq^3 Sq^1.", "quantifier": "all ordered complexes, all cocycles of every degree, all a and b with a < 2b", "why_tests_cant": "Every complex, cocycle and pair of exponents; the relation holds only up to coboundaries.", "anchors": ["comch/surjection/surjection.py:Surjection.steenrod_operation", "comch/surjection/surjection.py:Surjection.may_steenrod_structure", "comch/surjection/surjection.py:SurjectionElement.__call__"]}
{"id": "C117", "title": "Suspension is an operad map up to lower arity", "statement": "For homogeneous elements x of arity r and degree d of the surjection operad in the Berger-Fresse convention, the part of arity r of x.suspension() has degree d - r + 1 and, in that arity: suspension of the boundary is (-1)^(r-1) times the boundary of the suspension; suspension of p * x is sign(p) times p * suspension(x); and suspension of x.compose(y, i), y of arity s, is (-1)^((s-1)(d+i-1)) times the composition of the suspensions. (The equality without sign which the unit test of the project asserts only holds there because both sides are zero.)", "quantifier": "all homogeneous x and y of all arities and degrees, all torsions, permutations and positions", "why_tests_cant": "Every element, permutation and position; the test suite only checks cases in which the suspension vanishes.", "anchors": ["comch/surjection/surjection.py:SurjectionElement.suspension", "comch/surjection/surjection.py:SurjectionElement.compose", "comch/surjection/surjection.py:SurjectionElement.boundary", "comch/surjection/surjection.py:SurjectionElement.__rmul__"]}
{"id": "C118", "title": "Vanishing of the operations of the cyclic group at odd primes", "statement": "Let p be an odd prime, alpha a q-cocycle modulo p on an ordered simplicial complex, and D_d(alpha) the cochain whose value on a simplex is alpha x ... x alpha evaluated on may_steenrod_structure(p, d, torsion=p) acting on the simplex. D_d(alpha) is always defined, lives in degree p q - d and is a cocycle. It is a coboundary unless d or d + 1 is (q - 2s)(p - 1) for an integer s: the degrees the package uses for P^s and beta P^s are the only ones that give non-zero operations on cohomology. In these degrees the package's operation is (-1)^s nu(-q) times D_d, a non-zero multiple (q even or p < 47, where the coefficient is exact).", "quantifier": "all odd primes, complexes, cocycles of every degree, and all d", "why_tests_cant": "Every prime, complex, cocycle and degree; the values are not zero as cochains.", "anchors": ["comch/surjection/surjection.py:Surjection.may_steenrod_structure", "comch/surjection/surjection.py:Surjection.steenrod_operation", "comch/surjection/surjection.py:SurjectionElement.__call__"]}
{"id": "C119", "title": "Cartan formula at odd primes", "statement": "Let p be an odd prime and alpha, beta cocycles modulo p, of degrees a and b, on an ordered simplicial complex, with products and operations computed by the package. On cohomology classes P^s(alpha u beta) is the sum of P^k(alpha) u P^{s-k}(beta) over k = 0, ..., s, and beta P^s(alpha u beta) is the sum of (beta P^k)(alpha) u P^{s-k}(beta) + (-1)^a P^k(alpha) u (beta P^{s-k})(beta) (p < 47 or a and b even, where the coefficients are exact). With the package's coefficients no further sign is needed.", "quantifier": "all odd primes, complexes, pairs of cocycles, and all s >= 0", "why_tests_cant": "Every prime, complex, pair of cocycles and s; the two sides differ by a coboundary and are not equal as cochains.", "anchors": ["comch/surjection/surjection.py:Surjection.may_steenrod_structure", "comch/surjection/surjection.py:Surjection.steenrod_operation", "comch/surjection/surjection.py:SurjectionElement.__call__"]}
{"id": "C120", "title": "The Cartan formula on cubical complexes", "statement": "On the mod 2 cohomology of every complex of cubes the squares computed by the package and the cup product computed by the package satisfy Sq^s(\u03b1 \u222a \u03b2) = \u03a3_{k=0..s} Sq^k \u03b1 \u222a Sq^{s-k} \u03b2: for cocycles \u03b1 and \u03b2 of any degrees and every s the two sides, each obtained by calling steenrod_operation, may_steenrod_structure and __call__ on cubes, differ by a coboundary, whichever of the two conventions the cup products are formed in. (Over the integers and for composites the action of surjections on cubes fails to be an operad action, see C54; the formula does not follow from the operad structure.)", "quantifier": "all complexes of cubes, all mod 2 cocycles of all degrees, all s and both conventions", "why_tests_cant": "Every complex, pair of cocycles and degree; the two sides agree only up to a coboundary.", "anchors": ["comch/surjection/surjection.py:Surjection.steenrod_operation", "comch/surjection/surjection.py:Surjection.may_steenrod_structure", "comch/surjection/surjection.py:SurjectionElement.__call__"]}
{"id": "C121", "title": "Adem relations on cubical complexes", "statement": "On the cohomology modulo 2 of every complex of cubes the squares induced by steenrod_operation(2, -s, -q) satisfy the Adem relations: for a < 2b, Sq^a Sq^b = sum over c <= a/2 of binomial(b-c-1, a-2c) Sq^(a+b-c) Sq^c. In particular Sq^1 Sq^1 = 0, Sq^1 Sq^(2n) = Sq^(2n+1) and Sq^2 Sq^2 = Sq^3 Sq^1.", "quantifier": "all complexes of cubes, all cocycles of every degree, all a and b with a < 2b", "why_tests_cant": "Every complex, cocycle and pair of exponents; the relation holds only up to coboundaries.", "anchors": ["comch/surjection/surjection.py:Surjection.steenrod_operation", "comch/surjection/surjection.py:Surjection.may_steenrod_structure", "comch/surjection/surjection.py:SurjectionElement.__call__"]}
{"id": "C122", "title": "The Bockstein on cubical complexes", "statement": "On every cubical complex X: (0) the integral coboundary of a cochain A at a cube c is the value of A on CubicalElement({(c,): 1}).boundary(); (1) every cocycle modulo 2 has a Bockstein (lift it to an integral cochain, take the coboundary, halve), which is a cocycle whose class depends only on the class; (2) the Bockstein of the square Sq^s of a cocycle, computed with Surjection.steenrod_operation(2, -s, -q) acting on cubes, is cohomologous to Sq^{s+1} for even s and to zero for odd s; (3) in particular Sq^1 is the Bockstein.", "quantifier": "all cubical complexes, all cocycles of every degree, all s in Z, all cubes", "why_tests_cant": "the claim is about cohomology classes on arbitrary complexes; the action of surjections on cubes is not even a chain map over the integers, so no computation of examples suggests an integral lift", "anchors": ["comch/surjection/surjection.py:Surjection.steenrod_operation", "comch/surjection/surjection.py:SurjectionElement.__call__", "comch/cubical/cubical.py:CubicalElement.boundary"]}
{"id": "C123", "title": "Acting on an element of mixed arity", "statement": "An element whose basis elements have different arities has attribute arity None, like a ring element whose permutations have different lengths, and the check \"Unequal arity attribute\" of the left action lets the product of two such non-zero elements pass. What happens then: for multisimplices and multicubes, IndexError when some permutation is longer than some basis element, and otherwise no exception, with every factor beyond the length of the permutation silently discarded (the product of a permutation of 1..r with a longer tensor is its product with the first r factors, with their Koszul sign); in the Barratt-Eccles operad always TypeError; in the surjection operad IndexError when some permutation is shorter than some value, and otherwise in the Berger-Fresse convention the permutations are applied to the values (a result which is no surjection is zero), while in the McClure-Smith convention IndexError is raised. The product of the zero ring element with an element of mixed arity is zero, without exception.", "quantifier": "all ring elements with permutations of any lengths and all elements of the four classes whose arity is None, with equal torsion, in both conventions", "why_tests_cant": "A test covers some combinations of lengths; which exception is raised, and which factors are lost, depends on all pairs of a permutation and a basis element.", "anchors": ["comch/simplicial/simplicial.py:SimplicialElement.__rmul__", "comch/cubical/cubical.py:CubicalElement.__rmul__", "comch/barratt_eccles/barratt_eccles.py:BarrattEcclesElement.__rmul__", "comch/surjection/surjection.py:SurjectionElement.__rmul__"]}
{"id": "C124", "title": "Naturality of the operations on cubical cochains", "statement": "Let f be a composite of inclusions of faces of cubes and of projections which forget a coordinate that maps the cubes of a cubical complex X to cubes of a cubical complex Y or collapses them. The pull-back of cochains modulo 2, (f^* a)(c) = a(f(c)), and 0 when f collapses c, commutes with the coboundary, so that it sends cocycles to cocycles and cohomologous cochains to cohomologous ones; and the operations induced by the package commute with it on the level of cochains: (f^* a) cup_i (f^* b) = f^*(a cup_i b) in both sign conventions and Sq^s(f^* a) = f^*(Sq^s a).", "quantifier": "all composites of generating maps of cubes, all cubical complexes they map to each other, all cochains of all degrees, all i and all s, both conventions", "why_tests_cant": "There are infinitely many complexes, maps and cochains; a test compares finitely many values.", "anchors": ["comch/surjection/surjection.py:SurjectionElement.__call__", "comch/surjection/surjection.py:Surjection.may_steenrod_structure", "comch/surjection/surjection.py:Surjection.steenrod_operation", "comch/cubical/cubical.py:CubicalElement.iterated_diagonal", "comch/cubical/cubical.py:CubicalElement.join"]}
{"id": "C125", "title": "Integral action of surjections on cubical chains", "statement": "Over the integers and every torsion, the action of surjections on cubical chains commutes with the boundaries, d(x(c)) = (dx)(c) + (-1)^{deg x} x(dc), on any tensor factor, with nothing raising, (a) for homogeneous x of arity at most 2 and degree at most 2 exactly as the package computes it, in the default (Berger-Fresse) convention, and in the McClure-Smith one if in degree 2 only (1,2,1,2) occurs; (b) for homogeneous x of arity at least 3 in the McClure-Smith convention once the coefficient of every surjection k in x and in dx is multiplied by (-1)^{sum_i C(m_i,2)}, m_i the number of occurrences of i in k. Outside this range the formula as computed is false: it fails for (1,2,1,2,1) on the 3-cube in both conventions, for (2,1,2,1) on the square in the McClure-Smith convention, and (C54) for (1,2,1,3) on the interval.", "quantifier": "all homogeneous surjection elements of arity at most 2 and degree at most 2, and all of arity at least 3, all homogeneous cubical elements, all tensor factors, every torsion", "why_tests_cant": "The signs involve every cut of every cube for every surjection; a test multiplies out finitely many, and the package itself only has the mod 2 case and low examples tested.", "anchors": ["comch/surjection/surjection.py:SurjectionElement.__call__", "comch/surjection/surjection.py:SurjectionElement.boundary", "comch/cubical/cubical.py:CubicalElement.iterated_diagonal", "comch/cubical/cubical.py:CubicalElement.join", "comch/cubical/cubical.py:CubicalElement.boundary"]}
{"id": "C126", "title": "Equivariance of the integral action on cubical chains", "statement": "Over the integers and every torsion, multiplying a surjection element x by an element s of the group ring and acting on a homogeneous cubical chain c of arity 1 gives the same as permuting the factors of x(c) with Koszul signs: (s * x)(c) == s * (x(c)), and (s * x)(c) is zero when x(c) is; this holds for homogeneous x of arity at least 3 in the McClure-Smith convention, for homogeneous x of arity at most 2 and degree at most 1 in either convention and of degree 2 in the default convention. It is false of the package for (1,2,1,2,3) and the transposition (2,1,3) on the square in the default convention, and for (1,2,1,2) and the transposition in the McClure-Smith one.", "quantifier": "all elements of the group ring, all homogeneous surjection elements in the stated range, all homogeneous chains of faces of a cube, every torsion", "why_tests_cant": "The signs of the two sides are computed by different code (the sign of the permuted surjection, and the Koszul sign of every value); tests compare a handful of products.", "anchors": ["comch/surjection/surjection.py:SurjectionElement.__call__", "comch/surjection/surjection.py:SurjectionElement.__rmul__", "comch/cubical/cubical.py:CubicalElement.__rmul__", "comch/symmetric/symmetric.py:SymmetricRingElement.__mul__"]}
{"id": "C127", "title": "Signed cup products on cubical cochains with any coefficients", "statement": "Evaluating alpha (x) beta on Surjection.may_steenrod_structure(2, i, torsion, convention) applied to a cube of a complex of cubes defines products of cochains with integral coefficients or coefficients modulo n: no exception, degree a + b - i, depending only on the values on faces; the product for i = 0 is given by the formula of Serre with the sign of the shuffle, is associative with the constant 1 as unit, is a derivation with signs, induces a well defined and graded commutative product on cohomology classes; the products for i = 1 and i = 2 satisfy the formula of Steenrod with signs. For i = 3 that formula is false of the package over the integers.", "quantifier": "all complexes of cubes, all cubes in them, all cochains with values modulo n for every n other than 1 (the integers for n = 0), all degrees, both conventions", "why_tests_cant": "Tests compute a few products of elements; the relations quantify over all cochains on all complexes.", "anchors": ["comch/surjection/surjection.py:Surjection.may_steenrod_structure", "comch/surjection/surjection.py:SurjectionElement.__call__", "comch/cubical/cubical.py:CubicalElement.boundary"]}
{"id": "C128", "title": "The Cartan-Serre map preserves cochains and cup products with any coefficients", "statement": "Over the integers and modulo every n, the pull-back of a simplicial cochain along cartan_serre_map is its value on the collapse of the cube (zero if the dimension drops), the pull-back commutes with the coboundaries, and the cubical products of pull-backs for i at most 2 in the McClure-Smith convention are the pull-backs of the simplicial products.", "quantifier": "all cochains with values modulo n for every n other than 1 (the integers for n = 0), all degrees, all cubes of all complexes, i = 0, 1, 2", "why_tests_cant": "Tests compare the two actions on a few basis elements; the statement is about all cochains, and its signs are computed by different code on the two sides.", "anchors": ["comch/cubical/cubical.py:CubicalElement.cartan_serre_map", "comch/surjection/surjection.py:SurjectionElement.__call__", "comch/surjection/surjection.py:Surjection.may_steenrod_structure"]}
{"id": "C129", "title": "Naturality of the signed products of cubical cochains", "statement": "Maps of cubical complexes composed of inclusions of faces and projections pull back cochains with integral coefficients or coefficients modulo n: the pull-back commutes with the coboundaries, preserves cocycles and cohomologous cochains, and the products for every i computed from the package commute with it.", "quantifier": "all composites of inclusions and projections, all cochains with values modulo n for every n other than 1 (the integers for n = 0), all i, both conventions, all cubes", "why_tests_cant": "Naturality is a statement about all maps and cochains; the repository has no cochains and no maps of cubes to test it with.", "anchors": ["comch/surjection/surjection.py:Surjection.may_steenrod_structure", "comch/surjection/surjection.py:SurjectionElement.__call__"]}
{"id": "C130", "title": "The cup-1 product and the Hirsch formula", "statement": "On every ordered simplicial complex, modulo every n other than 1 and over the integers, the product alpha u_1 beta computed by the package (degrees a and c >= 1, dimension a + c - 1) is the signed sum, over the intervals of c + 1 consecutive vertices of the simplex, of the value of beta on the interval times the value of alpha on the simplex without the inner vertices of the interval, with sign (-1)^(i + c(a-1-i)) for the interval starting at vertex i; in every other dimension, and for c = 0, it is 0. Hence on cochains (alpha u beta) u_1 gamma = (-1)^(|beta||gamma|) (alpha u_1 gamma) u beta + (-1)^|alpha| alpha u (beta u_1 gamma) for gamma of positive degree, and Sq^(q-1) of a cochain of degree q is the sum over intervals modulo 2.", "quantifier": "all ordered complexes, simplices, cochains and degrees, all n other than 1", "why_tests_cant": "Every complex, cochain and degree, and the signs depend on all of them.", "anchors": ["comch/surjection/surjection.py:Surjection.may_steenrod_structure", "comch/surjection/surjection.py:Surjection.steenrod_operation", "comch/surjection/surjection.py:SurjectionElement.__call__"]}
{"id": "C131", "title": "Structure elements of arity 2 and the formula of Steenrod for the cup-i products", "statement": "For every d and every torsion n, Surjection.may_steenrod_structure(2, d, n, convention) is the single surjection (1,2,1,2,...) with d + 2 entries, with coefficient 1 in the Berger-Fresse convention and (-1)^(e(e-1)/2), e = floor((d+1)/2), in the McClure-Smith one. On every ordered complex and modulo every n other than 1 the value of alpha u_i beta at a simplex, computed by the package, is that sign times the sum over all ways of cutting the vertices into i + 2 consecutive overlapping pieces, the inner ones with at least two vertices, of alpha on the union of pieces 0, 2, 4, ... times beta on the union of pieces 1, 3, 5, ..., with the sign of sorting the pieces. Modulo 2 this is the original formula of Steenrod for Sq^(q-i).", "quantifier": "all degrees d and i, all torsions, both conventions; all complexes, simplices, cochains and degrees", "why_tests_cant": "Tests print the structure elements of a few degrees and evaluate a few products.", "anchors": ["comch/surjection/surjection.py:Surjection.may_steenrod_structure", "comch/surjection/surjection.py:Surjection.steenrod_operation", "comch/surjection/surjection.py:SurjectionElement.__call__"]}
{"id": "C132", "title": "Closed formula for the Barratt-Eccles structure elements", "statement": "For every arity r >= 2, degree d and torsion n, BarrattEccles.may_steenrod_structure(r, d, n) is the sum, with all coefficients 1, of the sequences of d + 1 rotations of 1, ..., r that begin with the identity and whose steps are alternately the generator i -> i+1 and an arbitrary non-trivial rotation, the last step being the generator. These sequences are pairwise different and non-degenerate, so that for n other than 1 the element has exactly (r-1)^floor(d/2) terms.", "quantifier": "all arities, degrees and torsions", "why_tests_cant": "Tests print the elements of a few arities and degrees; their number grows exponentially.", "anchors": ["comch/barratt_eccles/barratt_eccles.py:BarrattEccles.may_steenrod_structure"]}
{"id": "C133", "title": "Degree, range and extremal values of the cup-i products on simplicial cochains", "statement": "On every ordered complex and modulo every n other than 1, as computed by the package: the product alpha u_i beta of an a-cochain and a c-cochain vanishes on all simplices but those of dimension a + c - i, and everywhere if i exceeds a or c (this last also for the products of cubical cochains, in both conventions). If both have degree i then its value at an i-simplex is the product of the two values, with the sign (-1)^floor(i/2). Steenrod's formula has exactly (l over i+1) summands at a simplex with l vertices.", "quantifier": "all complexes, simplices, cochains, degrees and i, and all moduli", "why_tests_cant": "Tests evaluate a few products in low degrees; the vanishing and the sign must hold for all degrees.", "anchors": ["comch/surjection/surjection.py:Surjection.may_steenrod_structure", "comch/surjection/surjection.py:SurjectionElement.__call__"]}
{"id": "C134", "title": "The Steenrod operations as explicit elements of the operads", "statement": "Surjection.steenrod_operation(2, s, q) is for s >= q the single surjection (1,2,1,2,...) with s - q + 2 entries, in both conventions; BarrattEccles.steenrod_operation(2, s, q) is the single sequence of s - q + 1 permutations alternating between the identity and the transposition. At an odd prime p BarrattEccles.steenrod_operation(p, s, q, bockstein) in degree d >= 0 is the sum of the sequences of rotations of C132 with the common coefficient (-1)^s nu(q), which is never zero: it has exactly (p-1)^floor(d/2) terms (q even, or floor(q/2) + s >= 0, or p < 47, where the coefficient is exact).", "quantifier": "all s and q at the prime 2; all odd primes, s, q and Bocksteins within the stated range", "why_tests_cant": "Tests print the operations for a few s and q at p = 2 and 3; the number of terms grows exponentially.", "anchors": ["comch/surjection/surjection.py:Surjection.steenrod_operation", "comch/barratt_eccles/barratt_eccles.py:BarrattEccles.steenrod_operation"]}
{"id": "C135", "title": "Coefficients of the structure elements of the surjection operad in all arities", "statement": "For every arity r >= 2, degree d and torsion n, the coefficient of a non-degenerate surjection m in Surjection.may_steenrod_structure(r, d, n, 'Berger-Fresse') is, modulo n (over the integers: exactly), the number of those explicitly listed sequences of rotations (the terms of the Barratt-Eccles structure element, C132) from which m is read off by the table reduction; in particular all coefficients over the integers are natural numbers. In the McClure-Smith convention the coefficients are the same up to signs.", "quantifier": "all arities, degrees, torsions and surjections", "why_tests_cant": "Tests print the elements of arity 2 and 3 in a few degrees.", "anchors": ["comch/surjection/surjection.py:Surjection.may_steenrod_structure"]}
{"id": "C136", "title": "The structure elements of the surjection operad have coefficients 0 and 1", "statement": "For every arity r >= 2 and degree d a non-degenerate surjection can be read off at most one of the sequences of rotations of C132; hence the coefficient of every non-degenerate surjection in Surjection.may_steenrod_structure(r, d, n, 'Berger-Fresse') is 1 if it can be read off one of them and 0 if not (modulo n; exactly over the integers): no two summands ever coincide or cancel. In the McClure-Smith convention it is 1 or -1 for the same surjections and 0 for the others.", "quantifier": "all arities, degrees, torsions and surjections", "why_tests_cant": "Tests print the elements of arity 2 and 3 in a few degrees; the number of terms grows exponentially with the degree.", "anchors": ["comch/surjection/surjection.py:Surjection.may_steenrod_structure"]}
