import Verif.Model.Cf
import Verif.Model.Poly
import Verif.Model.GDual
import Verif.Spec.Trunc
import Verif.Spec.Taylor
import Verif.Spec.Denote
import Verif.Proofs.Trunc
import Verif.Proofs.Taylor
import Verif.Proofs.Poly
import Verif.Proofs.PolyOps
import Verif.Proofs.GDual
import Verif.Proofs.GDualOps
import Verif.Proofs.Fact
import Verif.Props.Examples
import Verif.Props.C01_Invariant
import Verif.Props.C02_Ring
import Verif.Props.C05_Division
import Verif.Props.C06_Coefficients
import Verif.Props.C09_Calculus
import Verif.Spec.Order
import Verif.Props.C13_Terms
import Verif.Model.Functions
import Verif.Spec.Functions
import Verif.Proofs.Series
import Verif.Proofs.Analytic
import Verif.Proofs.Functions
import Verif.Proofs.FunctionsTrig
import Verif.Proofs.Lift
import Verif.Proofs.FunctionsInv
import Verif.Proofs.FunctionsPow
import Verif.Proofs.Compose
import Verif.Proofs.FunctionsD
import Verif.Props.C22_Functions
import Verif.Props.C30_Inverse
import Verif.Props.C59_Identities
import Verif.Spec.Expr
import Verif.Proofs.Expr
import Verif.Props.C21_AD
import Verif.Model.Vectorized
import Verif.Spec.Vectorized
import Verif.Proofs.Vectorized
import Verif.Proofs.Lanes
import Verif.Props.C34_Vectorized
import Verif.Model.InvertMap
import Verif.Spec.Map
import Verif.Proofs.Picard
import Verif.Proofs.MapCompose
import Verif.Proofs.InvertMap
import Verif.Props.C38_InvertMap
import Verif.Props.C60_Maps
import Verif.Model.Interval
import Verif.Model.Bounding
import Verif.Spec.Bernstein
import Verif.Proofs.Combinations
import Verif.Proofs.GetPoly
import Verif.Proofs.Binomial
import Verif.Proofs.Matrices
import Verif.Proofs.Cycle
import Verif.Proofs.AMatrix
import Verif.Proofs.BernsteinMatrices
import Verif.Proofs.Bernstein
import Verif.Proofs.BernsteinCorners
import Verif.Proofs.BernsteinOneDim
import Verif.Props.C41_Polynomials
import Verif.Props.C44_Bernstein
import Verif.Model.TaylorModel
import Verif.Spec.TaylorModel
import Verif.Proofs.GetBounds
import Verif.Proofs.TMBasic
import Verif.Proofs.Interval
import Verif.Proofs.TMSum
import Verif.Proofs.TMProduct
import Verif.Proofs.TMExtend
import Verif.Props.ExamplesTM
import Verif.Props.C46_TaylorModels
import Verif.Props.C48_TaylorSums
import Verif.Props.C50_TaylorProducts
import Verif.Proofs.BoundsExact
import Verif.Proofs.Syms
import Verif.Proofs.TMDivision
import Verif.Props.C52_TaylorDivision
import Verif.Props.C61_ExactBounds
import Verif.Model.TaylorModelFunctions
import Verif.Proofs.Lagrange
import Verif.Proofs.TMFunctions
import Verif.Proofs.TMRoots
import Verif.Proofs.TMPower
import Verif.Proofs.TMOrderZero
import Verif.Props.ExamplesReal
import Verif.Props.C53_TaylorFunctions
import Verif.Props.C54_TaylorPowers
import Verif.Proofs.BernsteinWidth
import Verif.Proofs.BoundsWidth
import Verif.Proofs.TMInverse
import Verif.Proofs.TMAtan
import Verif.Proofs.TMAsin
import Verif.Proofs.TMAsinOk
import Verif.Proofs.AbsVal
import Verif.Proofs.TMProductRem
import Verif.Proofs.BoundsCentre
import Verif.Props.C62_Tightness
import Verif.Proofs.TMAcos
import Verif.Proofs.TMDivisionRem
import Verif.Props.C55_TaylorInverse
import Verif.Props.C55_Counterexamples
import Verif.Proofs.TMRootsRem
import Verif.Props.LineModels
import Verif.Props.C63_Composed
import Verif.Proofs.TMCentre
import Verif.Spec.TMExpr
import Verif.Proofs.TMExpr
import Verif.Props.C64_TaylorExpressions
import Verif.Props.C66_ArithmeticEnclosure
import Verif.Model.Rounding
import Verif.Spec.Rounding
import Verif.Proofs.Rounding
import Verif.Proofs.RoundedExpr
import Verif.Proofs.Nearest
import Verif.Props.C67_Rounding
import Verif.Props.C69_RoundedTaylorModels
import Verif.Spec.Program
import Verif.Proofs.Program
import Verif.Props.C70_Programs
import Verif.Props.C70_Vectorized
import Verif.Props.C70_AllFunctions
import Verif.Props.C70_AllVectorized
import Verif.Model.MoreFunctions
import Verif.Props.C71_MoreFunctions
import Verif.Model.VectorizedMore
import Verif.Props.C73_VectorizedNumbers
import Verif.Spec.Complex
import Verif.Proofs.Complex
import Verif.Props.C75_Complex
import Verif.Proofs.Peano
import Verif.Proofs.SymsMore
import Verif.Spec.Vars
import Verif.Proofs.ExprSyms
import Verif.Props.C77_Approximation
import Verif.Props.C78_Symbols
import Verif.Props.C77_AllFunctions
import Verif.Spec.Ode
import Verif.Proofs.Ode
import Verif.Proofs.OdeExists
import Verif.Props.C79_Ode
import Verif.Props.C79_AllFunctions
import Verif.Spec.Deriv
import Verif.Proofs.Deriv
import Verif.Props.C80_Derivatives
import Verif.Spec.RoundedFn
import Verif.Proofs.RoundedFn
import Verif.Proofs.RoundedSeries
import Verif.Props.C81_RoundedFn
import Verif.Props.C82_Terms
import Verif.Spec.Newton
import Verif.Proofs.Substitution
import Verif.Proofs.Newton
import Verif.Props.C83_AllFunctions
import Verif.Props.C83_Newton
import Verif.Spec.InverseFunction
import Verif.Props.C84_AllFunctions
import Verif.Props.C84_InverseFunction
import Verif.Proofs.Smooth
import Verif.Spec.Consistency
import Verif.Proofs.Consistency
import Verif.Proofs.ConsistencyFn
import Verif.Props.C85_Consistency
import Verif.Spec.LibConsistency
import Verif.Proofs.ConsistencyLib
import Verif.Proofs.ConsistencyLibExpr
import Verif.Props.C85_AllFunctions
import Verif.Model.Access
import Verif.Proofs.Access
import Verif.Props.C86_Access
import Verif.Proofs.BernsteinShrink
import Verif.Proofs.BoundsShrink
import Verif.Props.C87_Refinement
import Verif.Proofs.ItvIsotone
import Verif.Proofs.TMIsotone
import Verif.Props.C88_Isotone
import Verif.Proofs.BoundsOrder
import Verif.Proofs.ItvSmall
import Verif.Proofs.TMOrder
import Verif.Props.C89_Convergence
import Verif.Model.RoundedBounds
import Verif.Proofs.RoundedBounds
import Verif.Proofs.RoundedGetBounds
import Verif.Proofs.NearestMono
import Verif.Props.C90_RoundedBounds
import Verif.Proofs.LineSeries
import Verif.Proofs.CauchyEstimate
import Verif.Proofs.ExprAnalytic
import Verif.Props.C91_Series
import Verif.Proofs.LibAnalytic
import Verif.Props.C91_AllFunctions
import Verif.Spec.LibDeriv
import Verif.Proofs.LibDeriv
import Verif.Props.C80_AllFunctions
import Verif.Proofs.LibNaturality
import Verif.Props.C92_AllFunctions
import Verif.Props.C82_AllFunctions
import Verif.Proofs.Naturality
import Verif.Props.C92_Naturality
import Verif.Model.Special
import Verif.Spec.Special
import Verif.Proofs.Special
import Verif.Proofs.SpecialDiv
import Verif.Proofs.Binary64
import Verif.Proofs.XF
import Verif.Proofs.CfHom
import Verif.Props.C95_Special
import Verif.Props.C96_SpecialDiv
import Verif.Props.C97_SpecialConst
import Verif.Props.C97_Arithmetic
import Verif.Props.C98_ExactSpecial
import Verif.Props.C98_Number
import Verif.Props.C98_Expr
import Verif.Proofs.CfAt
import Verif.Spec.SpecialFn
import Verif.Proofs.Cst
import Verif.Spec.NumProgram
import Verif.Proofs.Boundary
import Verif.Proofs.Binary64Mono
import Verif.Props.C99_Values
import Verif.Props.C100_Boundary
import Verif.Props.C100_Coefficients
import Verif.Props.C100_Examples
import Verif.Props.C99_FromD
import Verif.Props.C99_Powers
import Verif.Props.C99_Formulas
import Verif.Spec.Setters
import Verif.Model.Python
import Verif.Props.C101_Setters
import Verif.Props.C102_References
import Verif.Props.C103_Evaluate
import Verif.Props.C104_Double
import Verif.Props.C105_Archive
import Verif.Props.C106_Integers
import Verif.Props.C107_PythonFunctions
import Verif.Props.C108_MixedOrders
import Verif.Props.C108_AllFunctions
import Verif.Props.C109_AllFunctions
import Verif.Props.C110_PythonTaylor
import Verif.Props.C111_PythonPrograms
import Verif.Props.C112_PythonTaylorPrograms
import Verif.Props.C113_PythonVectorized
import Verif.Props.C113_Dispatch
import Verif.Props.C114_PythonVectorizedPrograms
import Verif.Props.C115_Output
import Verif.Props.C116_Helpers
import Verif.Props.C117_OutputTaylor
import Verif.Props.C118_Text
import Verif.Props.C118_Expression
