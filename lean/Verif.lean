import Verif.Check.Complex
import Verif.Check.Control
import Verif.Check.Expm
import Verif.Check.Tests
import Verif.Lemmas.Ackermann
import Verif.Lemmas.Construct
import Verif.Lemmas.Cpx
import Verif.Lemmas.Det
import Verif.Lemmas.DetMinor
import Verif.Lemmas.EigenPairs
import Verif.Lemmas.EigenVec
import Verif.Lemmas.ExpBound
import Verif.Lemmas.ExpmTab
import Verif.Lemmas.Finish
import Verif.Lemmas.Float
import Verif.Lemmas.FloatMat
import Verif.Lemmas.Givens
import Verif.Lemmas.Hess
import Verif.Lemmas.HessInv
import Verif.Lemmas.HessRun
import Verif.Lemmas.Ieee
import Verif.Lemmas.Io
import Verif.Lemmas.IoRead
import Verif.Lemmas.Linalg
import Verif.Lemmas.Loops
import Verif.Lemmas.Lu
import Verif.Lemmas.LuExec
import Verif.Lemmas.Mat
import Verif.Lemmas.MatHist
import Verif.Lemmas.MatLocal
import Verif.Lemmas.MatMem
import Verif.Lemmas.MatPtr
import Verif.Lemmas.MathOps
import Verif.Lemmas.Matrix
import Verif.Lemmas.Placed
import Verif.Lemmas.Pointers
import Verif.Lemmas.Poly
import Verif.Lemmas.PolyReads
import Verif.Lemmas.Qr
import Verif.Lemmas.QrIter
import Verif.Lemmas.Radix
import Verif.Lemmas.Reads
import Verif.Lemmas.Ref
import Verif.Lemmas.Reflect
import Verif.Lemmas.Spectral
import Verif.Lemmas.Utility
import Verif.Lemmas.VecMem
import Verif.Lemmas.View
import Verif.Lemmas.ViewMem
import Verif.Model.Basis
import Verif.Model.Cast
import Verif.Model.ComplexMath
import Verif.Model.Control
import Verif.Model.Core
import Verif.Model.Eigen
import Verif.Model.EigenQr
import Verif.Model.ElemFn
import Verif.Model.Examples
import Verif.Model.Feq
import Verif.Model.Field
import Verif.Model.Float
import Verif.Model.FloatIo
import Verif.Model.FloatWide
import Verif.Model.Ieee
import Verif.Model.IeeeSqrt
import Verif.Model.IntDiv
import Verif.Model.IntInv
import Verif.Model.Io
import Verif.Model.Linalg
import Verif.Model.Mat
import Verif.Model.MatHist
import Verif.Model.MatMem
import Verif.Model.MathOps
import Verif.Model.Mixed
import Verif.Model.Pointers
import Verif.Model.Qr
import Verif.Model.Quals
import Verif.Model.Repaired
import Verif.Model.SInt
import Verif.Model.Session
import Verif.Model.Sqrt
import Verif.Model.Types
import Verif.Model.Utility
import Verif.Model.VecMem
import Verif.Model.VecNested
import Verif.Model.View
import Verif.Model.ViewMem
import Verif.Props.Acker
import Verif.Props.Apart
import Verif.Props.Arith
import Verif.Props.Basis
import Verif.Props.Block
import Verif.Props.C2d
import Verif.Props.Compare
import Verif.Props.ComplexFloat
import Verif.Props.ComplexMath
import Verif.Props.Control
import Verif.Props.Coords
import Verif.Props.Det
import Verif.Props.DetMinor
import Verif.Props.Dissip
import Verif.Props.Dominant
import Verif.Props.DominantDet
import Verif.Props.Eigen
import Verif.Props.EigenPairs
import Verif.Props.EigenQr
import Verif.Props.ElemFn
import Verif.Props.ExampleLoop
import Verif.Props.Examples
import Verif.Props.Expm
import Verif.Props.ExpmBound
import Verif.Props.ExpmDouble
import Verif.Props.ExpmEnds
import Verif.Props.ExpmStop
import Verif.Props.FileTol
import Verif.Props.Fixed
import Verif.Props.FloatAcc
import Verif.Props.FloatAcker
import Verif.Props.FloatC2d
import Verif.Props.FloatChar
import Verif.Props.FloatDet
import Verif.Props.FloatDetErr
import Verif.Props.FloatElim
import Verif.Props.FloatExpm
import Verif.Props.FloatInv
import Verif.Props.FloatIo
import Verif.Props.FloatLaws
import Verif.Props.FloatLu
import Verif.Props.FloatNorm
import Verif.Props.FloatOrder
import Verif.Props.FloatPoly
import Verif.Props.FloatQuot
import Verif.Props.FloatSeq
import Verif.Props.FloatSim
import Verif.Props.IeeeAcc
import Verif.Props.IeeeAcker
import Verif.Props.IeeeC2d
import Verif.Props.IeeeChar
import Verif.Props.IeeeDom
import Verif.Props.IeeeExpm
import Verif.Props.IeeeInv
import Verif.Props.IeeeLu
import Verif.Props.IeeeNorm
import Verif.Props.IeeeSpace
import Verif.Props.Impulse
import Verif.Props.IntInv
import Verif.Props.Io
import Verif.Props.IoExact
import Verif.Props.Laws
import Verif.Props.Linalg
import Verif.Props.Lu
import Verif.Props.MatHist
import Verif.Props.MatMem
import Verif.Props.MatPtr
import Verif.Props.Matrix
import Verif.Props.Mixed
import Verif.Props.Norms
import Verif.Props.Observer
import Verif.Props.Oscillator
import Verif.Props.Overflow
import Verif.Props.Perm
import Verif.Props.Pointers
import Verif.Props.Poly
import Verif.Props.PolyInt
import Verif.Props.Positive
import Verif.Props.Predicates
import Verif.Props.Qr
import Verif.Props.Quals
import Verif.Props.Reach
import Verif.Props.Reduce
import Verif.Props.Rest
import Verif.Props.Rounding
import Verif.Props.SampleErr
import Verif.Props.Sampling
import Verif.Props.Scale
import Verif.Props.ScaleNum
import Verif.Props.Session
import Verif.Props.SignedInt
import Verif.Props.Solutions
import Verif.Props.Special
import Verif.Props.SpecialSim
import Verif.Props.Stable
import Verif.Props.StableC2d
import Verif.Props.StableEig
import Verif.Props.ToCpp
import Verif.Props.Twin
import Verif.Props.Types
import Verif.Props.Uncut
import Verif.Props.Unique
import Verif.Props.Utility
import Verif.Props.VecMem
import Verif.Props.VecNested
import Verif.Props.VecOps
import Verif.Props.View
import Verif.Props.ViewMem
import Verif.Props.Zeros
import Verif.Props.ZerosExpm
import Verif.Spec.Control
import Verif.Spec.CppText
import Verif.Spec.MatHist
import Verif.Spec.MatPtr
import Verif.Spec.Matrix
import Verif.Spec.Pointers
import Verif.Spec.Poly
import Verif.Spec.Ref
import Verif.Spec.Rep
import Verif.Spec.VecMem
import Verif.Spec.ViewMem
