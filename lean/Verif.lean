import Verif.Model.Schoof
import Verif.Model.Output
import Verif.Model.Display
import Verif.Props.BigInt
import Verif.Props.Order
import Verif.Props.PolyRing
import Verif.Props.PolyMaps
import Verif.Props.PolyDiv
import Verif.Props.Terms
import Verif.Props.Reduction
import Verif.Props.DivPoly
import Verif.Props.Curve
import Verif.Props.Secp256k1
import Verif.Props.Display
import Verif.Props.QSeries
import Verif.Props.Solve
import Verif.Props.Modular
import Verif.Props.Schoof
import Verif.Props.Sea
import Verif.Props.Multiples
import Verif.Props.SchoofTrace
import Verif.Props.SchoofExact
import Verif.Props.SchoofSign
import Verif.Props.RingLaws
import Verif.Props.Hasse
import Verif.Props.SchoofUpToSign
import Verif.Props.TwoPower
import Verif.Props.SchoofModThree
import Verif.Props.SchoofReturns
import Verif.Props.SchoofModFive
import Verif.Props.ModularExists
import Verif.Props.ModularDomain
import Verif.Props.SeaTwo
import Verif.Props.CurveHistory
import Verif.Props.CurveTwist
import Verif.Props.Singular
import Verif.Props.Pipeline
import Verif.Props.SchoofDomain
import Verif.Props.SchoofCongruent
import Verif.Props.PolyDivAll
import Verif.Props.NormalForm
import Verif.Props.Domains
import Verif.Props.IsogenyExact
import Verif.Props.SeaThree
import Verif.Props.IsogenyCount
import Verif.Props.GroupStructure
import Verif.Props.SeaTrace
import Verif.Props.DivSeq
import Verif.Props.Crt
import Verif.Props.SubstDomain
import Verif.Props.TruncPower
import Verif.Props.QDomain
import Verif.Props.ModularTerms
import Verif.Props.OutputCallers
import Verif.Props.AnyModulus
import Verif.Props.AnyModulusPoints
import Verif.Props.PolyDivAny
import Verif.Props.SchoofTiny
import Verif.Props.CharTwo
import Verif.UnitTests
import Verif.Props.Output
import Verif.Model.Operators
import Verif.Props.Operators
import Verif.Witness.Out
import Verif.Witness.Ring
import Verif.Witness.Polynomials
import Verif.Witness.Curves
import Verif.Witness.Series
import Verif.Witness.Counting
import Verif.Props.BigIntAny
import Verif.Props.TermsAny
import Verif.Model.Depth
import Verif.Props.Depth
import Verif.Props.GcdDepth
import Verif.Props.ReleaseSeries
import Verif.Props.ReleaseConverter
import Verif.Props.Constants
import Verif.Model.Panic
import Verif.Props.PanicSafe
import Verif.Model.Release
import Verif.Lemmas.Release
import Verif.Props.Release
import Verif.Props.SchoofRelease
import Verif.Props.ReleasePsi
