import Verif.Model.BarrattEccles
import Verif.Props.FreeModule
import Verif.Props.Heap
import Verif.Props.Symmetric
import Verif.Props.SymmetricRing
import Verif.Props.Simplicial
import Verif.Props.Diagonal
import Verif.Props.CubicalBoundary
import Verif.Props.CubicalDiagonal
import Verif.Props.CartanSerre
import Verif.Props.Join
import Verif.Props.Action
import Verif.Props.BarrattEccles
import Verif.Props.BEMore
import Verif.Props.BEMay
import Verif.Props.Utils
import Verif.Props.Surjection
import Verif.Props.SurjAction
import Verif.Props.SurjComplexity
import Verif.Props.SurjMay
import Verif.Props.Steenrod
import Verif.Props.SteenrodChain
import Verif.Props.CubicalMore
import Verif.Props.SurjCompose
import Verif.Props.SurjAssoc
import Verif.Props.SurjSuspension
import Verif.Props.SurjCall
import Verif.Props.SurjCallMore
import Verif.Props.BECompose
import Verif.Props.TableReduction
import Verif.Props.CubCall
import Verif.Props.OperadEquiv
import Verif.Props.ComplexityCompose
import Verif.Props.OrbitBoundary
import Verif.Props.TableReductionComplexity
import Verif.Props.Printing
import Verif.Props.TableReductionOperad
import Verif.Props.TableReductionMay
import Verif.Props.CupI
import Verif.Props.Acyclic
import Verif.Props.Coinvariants
import Verif.Props.CallCoeff
import Verif.Props.ComposeCoeff
import Verif.Props.Locality
import Verif.Props.Extremal
import Verif.Props.Naturality
import Verif.Props.CubicalNaturality
import Verif.Props.Hopf
import Verif.Props.CubCartan
import Verif.Props.Standard
import Verif.Props.Operators
import Verif.Props.Construct
import Verif.Props.ChainAcyclic
import Verif.Props.Names
import Verif.Props.Copy
import Verif.Props.Cochains
import Verif.Props.CochainsPrimes
import Verif.Props.CochainsNat
import Verif.Props.CochainsBockstein
import Verif.Props.CochainsCartan
import Verif.Props.CochainsPZero
import Verif.Props.Counting
import Verif.Props.CubeCochains
import Verif.Props.CubePullback
import Verif.Props.Connecting
import Verif.Props.CochainsRing
import Verif.Props.CochainsAdem
import Verif.Conformance.Docstrings
import Verif.Conformance.UnitTests
import Verif.Props.SurjSuspensionMore
import Verif.Props.CochainsVanish
import Verif.Props.CochainsCartanOdd
import Verif.Props.CubeCartanFormula
import Verif.Props.CubeAdemRelations
import Verif.Props.CubeBockstein
import Verif.Props.PermCompose
import Verif.Props.MixedArity
import Verif.Props.CubeCochainsNat
import Verif.Props.CubTwistChain
import Verif.Props.CubEquiv
import Verif.Props.CubeCup
import Verif.Props.CubeCupNat
import Verif.Props.CubeCupPullback
import Verif.Props.CochainsHirsch
import Verif.Props.CochainsSteenrod
import Verif.Props.BEClosed
import Verif.Props.CochainsRange
import Verif.Props.CubeRange
import Verif.Props.SteenrodClosed
import Verif.Props.SurjMayCoeff
import Verif.Props.SurjMayUnique
