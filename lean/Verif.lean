import Verif.Props.Construction
import Verif.Props.Elementwise
import Verif.Props.Blocks
import Verif.Props.Word
import Verif.Props.Norm
import Verif.Props.LU
import Verif.Props.Cholesky
import Verif.Props.QR
import Verif.Props.QRSolve
import Verif.Props.Text
import Verif.Props.History
import Verif.Props.SVD
import Verif.Props.Eigen
import Verif.Props.EigenGen
import Verif.Props.Direct
import Verif.Props.Total
import Verif.Props.Rounding
import Verif.Props.IEEE
import Verif.Props.Sizes
import Verif.Props.Accuracy
import Verif.Props.NaN
import Verif.Props.Approx
import Verif.Props.QRRounding
import Verif.Props.Power
import Verif.Props.WordIndex
import Verif.Props.Effects
import Verif.Props.Unwind
import Verif.Props.Integers
import Verif.Props.FloatLaws
import Verif.Props.Equality
import Verif.Props.FixedPoint
import Verif.Props.Triangular
import Verif.Props.Diagonal
import Verif.Props.Forward
import Verif.Props.RightHandSides
import Verif.Props.RowOrder
import Verif.Props.Signs
import Verif.Props.Echelon
import Verif.Props.QRSigns
import Verif.Props.SVDDiagonal
import Verif.Props.Leading
import Verif.Props.Transposed
import Verif.Props.SVDRounding
import Verif.Props.Spectrum
import Verif.Props.PinvRounding
import Verif.Props.CholeskyBounds
import Verif.Props.EigenRounding
import Verif.Props.EigenGenRounding
import Verif.Props.RankRounding
import Verif.Props.DirectRounding
import Verif.Props.Dominant
import Verif.Props.LUBounds
import Verif.Props.CholeskySolve
import Verif.Props.QRBounds
import Verif.Props.PinvBounds
import Verif.Props.PowerRounding
import Verif.Props.Band
import Verif.Props.TriBounds
import Verif.Props.TriBounds2
import Verif.Props.DomBounds
import Verif.Props.ZeroLines
import Verif.Props.Agree
import Verif.Props.Spectra
import Verif.Props.Units
import Verif.Props.EigenUnits
import Verif.Props.NormUnits
import Verif.Props.CholeskyBlocks
import Verif.Props.CholeskyBlocksSolve
import Verif.Props.ZeroRhs
