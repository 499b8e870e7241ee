import Verif.Options.AuxVar
import Verif.Options.LearnOpt
import Verif.Timer.Solver
import Verif.Prox.Props
import Verif.Linalg.SM
import Verif.Linalg.Solve
import Verif.Admm.BpdnConv2
import Verif.Pgm.Bpdn
import Verif.Pgm.ConvStep
import Verif.Pgm.BpdnCert
import Verif.Pgm.ConvCert
import Verif.Util.Attr
import Verif.Util.Net
import Verif.Util.Mpi
import Verif.Util.Tile
import Verif.Util.Heap
import Verif.Util.Alias
import Verif.Util.Display
import Verif.Util.DisplayCls
import Verif.Util.FftShape
import Verif.Signal.Grad
import Verif.Interp.Lp
import Verif.Metric.Basic
import Verif.Conv.CbpdnJoint
import Verif.Conv.TwoBlock
import Verif.Conv.CcmodMC
import Verif.Cnvrep.PcnProps
import Verif.Cnvrep.Shape
import Verif.Cnvrep.OnlineShape
import Verif.Array.Rearrange
import Verif.Linalg.Inner
import Verif.Linalg.Kron
import Verif.Tv.Denoise
import Verif.Admm.Uinit
import Verif.Signal.Lcn
import Verif.Signal.Noise
import Verif.Spline.L1
import Verif.Par.CnsMask
import Verif.Par.Globals
import Verif.Par.Groups
import Verif.Par.ParCbpdn
import Verif.Par.ParConv
import Verif.Par.ParExact
import Verif.Dictlrn.Online
import Verif.Dictlrn.OnlineGrad
import Verif.Dictlrn.DictLearn
import Verif.Dictlrn.Learn
import Verif.Dictlrn.LearnMat
import Verif.Dictlrn.LearnArr
import Verif.Dictlrn.LearnConv
import Verif.Dictlrn.LearnConvRef
import Verif.Dictlrn.LearnMask
import Verif.Dictlrn.LearnMaskRef
import Verif.Dictlrn.LearnW
import Verif.Dictlrn.LearnRefute
import Verif.Admm.MinL1
import Verif.Admm.Cmod
import Verif.Admm.Rpca
import Verif.Admm.Generic
import Verif.Conv.AddMaskModel
import Verif.Conv.AddMask
import Verif.Tv.DeconvModel
import Verif.Tv.DeconvLemmas
import Verif.Tv.Deconv
import Verif.Tv.DeconvConv
import Verif.Tv.DeconvL1
import Verif.Tv.DeconvWit
import Verif.Admm.PrjNonneg
import Verif.Conv.ProjL1
import Verif.Linalg.SMDiag
import Verif.Conv.GradModel
import Verif.Conv.Grad
import Verif.Admm.TwoBlockF
import Verif.Conv.L1L1Model
import Verif.Conv.L1L1
import Verif.Conv.MultiDict
import Verif.Conv.TvModel
import Verif.Conv.GroupNorm
import Verif.Conv.Tv
import Verif.Conv.TvThm
import Verif.Conv.TvRef
import Verif.Conv.RecTvModel
import Verif.Conv.RecTv
import Verif.Conv.RecTvThm
import Verif.Conv.RecTvRef
import Verif.Conv.ProdDictModel
import Verif.Conv.ProdDict
import Verif.Conv.ProdDictThm
import Verif.Conv.ProdDictRef
import Verif.Conv.ProdDictJoint
import Verif.Conv.L1L1Gen
import Verif.Conv.ProdDictL1Model
import Verif.Conv.ProdDictL1
import Verif.Conv.ProdDictL1Thm
import Verif.Conv.ProdDictL1Res
import Verif.Conv.ProdDictL1Ref
import Verif.Dictlrn.LearnConvD
import Verif.Dictlrn.LearnMaskD
import Verif.Dictlrn.LearnMatD
import Verif.Admm.Firm
import Verif.Admm.Ppp
import Verif.Pgm.Ppp
import Verif.Pgm.StopsMom
import Verif.Pgm.WBpdnCert
import Verif.Pgm.Share
import Verif.Pgm.Symm
import Verif.Pgm.ConvSymm
import Verif.Pgm.Batch
import Verif.Pgm.Dtype
import Verif.Pgm.Display
import Verif.Pgm.Special
import Verif.Conv.InhibModel
import Verif.Conv.Inhib
import Verif.Conv.InhibLim
import Verif.Conv.InhibWin
import Verif.Conv.Symm
import Verif.Conv.Batch
import Verif.Conv.LinCheckModel
import Verif.Conv.LinCheck
import Verif.Conv.Special
import Verif.Conv.Warm
import Verif.Conv.Scale
import Verif.Conv.Iterates
import Verif.Admm.ProxConv
import Verif.Admm.Symm
import Verif.Admm.BpdnSymm
import Verif.Admm.Batch
import Verif.Admm.Dtype
import Verif.Admm.Display
import Verif.Admm.AutoConv
import Verif.Admm.AutoBpdn
import Verif.Admm.LinCheck
import Verif.Admm.Special
import Verif.Admm.Warm
import Verif.Admm.Scale
import Verif.Admm.Iterates
import Verif.Admm.BpdnIter
import Verif.Admm.IterGen
import Verif.Admm.IterMore
import Verif.Admm.Settings
import Verif.Admm.Stable
import Verif.Admm.StableMore
import Verif.Admm.UinitCplx
import Verif.Spline.Iterates
import Verif.Tv.Iterates
import Verif.Conv.IterMore
import Verif.Conv.Settings
import Verif.Conv.SettingsMask
import Verif.Conv.Stable
import Verif.Conv.Equivar
import Verif.Conv.CplxType
import Verif.Tv.JacobiProx
import Verif.Tv.DenoiseModel
import Verif.Tv.DenoiseRun
import Verif.Tv.DenoiseConv
import Verif.Tv.DenoiseL1
import Verif.Tv.DenoiseLimit
import Verif.Tv.Stable
import Verif.Tv.EquivarDeconv
import Verif.Interp.LanczosModel
import Verif.Interp.Lanczos
import Verif.Interp.Demosaic
import Verif.Interp.DemosaicLib
import Verif.Par.Learn
import Verif.Par.LearnMask
import Verif.Par.Start
import Verif.Par.Record
import Verif.Par.Layout
import Verif.Par.LayoutMove
import Verif.Pgm.Scale
import Verif.Pgm.ConvScale
import Verif.Pgm.Stay
