import Verif.Api.AlmHist
import Verif.Api.AlmHistProof
import Verif.Api.AlmHistProps
import Verif.Api.AlmHistSpec
import Verif.Api.Arr
import Verif.Api.Arr2
import Verif.Api.ArrProps
import Verif.Api.ArrSteps
import Verif.Api.CApi
import Verif.Api.Conv
import Verif.Api.ConvFail
import Verif.Api.ConvMain
import Verif.Api.ConvProps
import Verif.Api.EndToEnd
import Verif.Api.HandleProof
import Verif.Api.HandleProps
import Verif.Api.HandleSafe
import Verif.Api.HandleSpec
import Verif.Api.Handles
import Verif.Api.Integral
import Verif.Api.Limit
import Verif.Api.ObjProps
import Verif.Api.Objects
import Verif.Api.Read
import Verif.Api.ReadLeaf
import Verif.Api.ReadProof
import Verif.Api.ReadProps
import Verif.Api.Refuted
import Verif.Api.ScaleL
import Verif.Api.Width
import Verif.Base.Res
import Verif.Fft.Blue
import Verif.Fft.BlueProof
import Verif.Fft.Factor
import Verif.Fft.General
import Verif.Fft.GoodSize
import Verif.Fft.Main
import Verif.Fft.Model
import Verif.Fft.PlanObj
import Verif.Fft.PrimeSum
import Verif.Fft.RBfly
import Verif.Fft.RBlue
import Verif.Fft.RFactor
import Verif.Fft.RGeneral
import Verif.Fft.RMain
import Verif.Fft.RModel
import Verif.Fft.RSame
import Verif.Fft.RStage
import Verif.Fft.Real
import Verif.Fft.RealMain
import Verif.Fft.RealPlan
import Verif.Fft.RealProps
import Verif.Fft.Stage
import Verif.Fft.Zeta
import Verif.Fits.AlmFile
import Verif.Fits.AlmOpen
import Verif.Fits.AlmWrite
import Verif.Fits.Handle
import Verif.Fits.HandleHist
import Verif.Fits.HandleMore
import Verif.Fits.HandleProps
import Verif.Fits.HandleSteps
import Verif.Fits.Types
import Verif.Index.Access32
import Verif.Index.Alm
import Verif.Index.AlmProps
import Verif.Index.Fits
import Verif.Index.FitsProps
import Verif.Index.Overflow
import Verif.Index.Share
import Verif.Index.ShareProps
import Verif.Mgr.Model
import Verif.Mgr.More
import Verif.Mgr.Props
import Verif.Num.Accuracy
import Verif.Num.Annulus
import Verif.Num.Bilinear
import Verif.Num.GridPoint
import Verif.Num.Integral
import Verif.Num.Kernel
import Verif.Num.KernelBad
import Verif.Num.KernelProof
import Verif.Num.KernelProps
import Verif.Num.KernelSpec
import Verif.Num.LagrangeErr
import Verif.Num.Near
import Verif.Num.RAnnulus
import Verif.Num.RKernel
import Verif.Num.RKernelErr
import Verif.Num.RKernelProof
import Verif.Num.RLib
import Verif.Num.RTotal
import Verif.Num.RingData
import Verif.Num.SphereField
import Verif.Num.SphereInt
import Verif.Num.SpinField
import Verif.Num.Total
import Verif.Num.Wigner
import Verif.Num.WignerCalc
import Verif.Num.WignerD
import Verif.Num.WignerDeriv
import Verif.Num.WignerGen
import Verif.Num.WignerGroup
import Verif.Num.WignerMain
import Verif.Num.WignerOrth
import Verif.Num.WignerPair
import Verif.Num.WignerPairProof
import Verif.Num.WignerPairProps
import Verif.Num.WignerProps
import Verif.Par.Ann
import Verif.Par.AnnRegion
import Verif.Par.Code
import Verif.Par.Examples
import Verif.Par.Generic
import Verif.Par.Kern
import Verif.Par.KernRegion
import Verif.Par.Loops
import Verif.Par.Model
import Verif.Par.Props
import Verif.Par.Region
import Verif.Par.RisRegion
import Verif.Par.RotRegion
import Verif.Par.Samples
import Verif.Par.Sim
import Verif.Py.Ctypes
import Verif.Py.Data
import Verif.Py.DataProps
import Verif.Py.Errors
import Verif.Py.Init
import Verif.Py.Life
import Verif.Py.Normal
import Verif.Tod.Arith
import Verif.Tod.Bounds
import Verif.Tod.Convolve
import Verif.Tod.Counts
import Verif.Tod.Cube
import Verif.Tod.Cuts
import Verif.Tod.Even
import Verif.Tod.Float
import Verif.Tod.Grid
import Verif.Tod.Interp
import Verif.Tod.KernFail
import Verif.Tod.Load
import Verif.Tod.Main
import Verif.Tod.Middle
import Verif.Tod.Nan
import Verif.Tod.Node
import Verif.Tod.Outcome
import Verif.Tod.Props
import Verif.Tod.Real
import Verif.Tod.Redist
import Verif.Tod.Refuted
import Verif.Tod.Round
import Verif.Tod.RoundDbl
import Verif.Tod.RoundGrid
import Verif.Tod.RoundMain
import Verif.Tod.RoundProps
import Verif.Tod.RoundSum
import Verif.Tod.RoundVal
import Verif.Tod.Sort
import Verif.Tod.Spmd
import Verif.Tod.Stuck
import Verif.Tod.Throws
import Verif.Tod.Verb
import Verif.Tod.Weights
import Verif.Tod.Witness
import Verif.Util.Cmdline
import Verif.Util.Double
import Verif.Util.HalfPi
import Verif.Util.HalfPiOmp
import Verif.Util.HalfPiProof
import Verif.Util.HalfPiProps
import Verif.Util.Math
import Verif.Util.Param
import Verif.Util.ParamMore
import Verif.Util.Period
import Verif.Util.PowSpec
import Verif.Util.Risbo
import Verif.Util.RisboProof
import Verif.Util.Rng
import Verif.Util.Rot
import Verif.Util.RotAlm
import Verif.Util.RotAlmMain
import Verif.Util.RotAxis
import Verif.Util.RotGroup
import Verif.Util.RotInvar
import Verif.Util.RotMem
import Verif.Util.RotPol
import Verif.Util.RotTeam
import Verif.Util.RotTeamProof
import Verif.Util.RotTeamProps
import Verif.Util.RotThree
import Verif.Util.SafeCast
import Verif.Util.Search
import Verif.Util.SkyGen
import Verif.Util.SkyGenProps
import Verif.Util.Str
import Verif.Util.StrMore
import Verif.Util.XComplex
