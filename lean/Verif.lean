import Verif.Props.Shape
import Verif.Props.NdArray
import Verif.Props.Semi2k
import Verif.Props.Prg
import Verif.Props.Dealer
import Verif.Props.Masks
import Verif.Props.Trunc
import Verif.Props.Cache
import Verif.Props.CachedMul
import Verif.Props.Stream
import Verif.Props.NdCopy
import Verif.Props.NdUpdate
import Verif.Props.ViewHistory
import Verif.Props.Bits
import Verif.Props.Adder
import Verif.Props.Sklansky
import Verif.Props.Circuits
import Verif.Props.Semi2kGates
import Verif.Props.Semi2kProg
import Verif.Props.Semi2kSys
import Verif.Props.Semi2kConv
import Verif.Props.Aby3Sys
import Verif.Props.Aby3
import Verif.Props.Aby3Trunc
import Verif.Props.Aby3Bool
import Verif.Props.Aby3Conv
import Verif.Props.Aby3Prog
import Verif.Props.SortNet
import Verif.Props.Vectorize
import Verif.Props.Reduce
import Verif.Props.Perm
import Verif.Props.Shuffle
import Verif.Props.KeyGroups
import Verif.Props.RadixBits
import Verif.Props.Radix
import Verif.Props.RadixMixed
import Verif.Model.Executor
import Verif.Props.Executor
import Verif.Model.Mmul
import Verif.Props.Mmul
import Verif.Model.HalRing
import Verif.Props.HalRing
import Verif.Model.Gfmp
import Verif.Props.Gfmp
import Verif.Model.Types
import Verif.Props.Types
import Verif.Model.Config
import Verif.Props.Config
import Verif.Model.Value
import Verif.Spec.Chunks
import Verif.Props.Value
import Verif.Model.Encoding
import Verif.Props.Encoding
import Verif.Model.Tiling
import Verif.Props.Tiling
import Verif.Model.Waksman
import Verif.Spec.Waksman
import Verif.Lemmas.Waksman
import Verif.Props.Waksman
import Verif.Model.CheetahPerm
import Verif.Props.CheetahPerm
import Verif.Model.CheetahZip
import Verif.Props.CheetahZip
import Verif.Model.CheetahOt
import Verif.Spec.CheetahOt
import Verif.Lemmas.CheetahOt
import Verif.Props.CheetahOt
import Verif.Props.CheetahOtIdeal
import Verif.Model.CheetahCmp
import Verif.Lemmas.CheetahCmp
import Verif.Props.CheetahCmp
import Verif.Model.CheetahTrunc
import Verif.Props.CheetahTrunc
import Verif.Model.Ferret
import Verif.Spec.Ferret
import Verif.Props.Ferret
import Verif.Model.FerretCot
import Verif.Spec.FerretCot
import Verif.Props.FerretCot
import Verif.Model.BufferedIO
import Verif.Spec.BufferedIO
import Verif.Props.BufferedIO
import Verif.Model.ModSwitch
import Verif.Spec.ModSwitch
import Verif.Props.ModSwitch
import Verif.Model.CheetahMul
import Verif.Spec.CheetahMul
import Verif.Props.CheetahMul
import Verif.Model.CheetahArith
import Verif.Spec.CheetahArith
import Verif.Props.CheetahArith
import Verif.Model.Spdz2kMac
import Verif.Spec.Spdz2kMac
import Verif.Props.Spdz2kMac
import Verif.Model.Spdz2kArith
import Verif.Spec.Spdz2kArith
import Verif.Props.Spdz2kArith
import Verif.Model.Spdz2kBool
import Verif.Spec.Spdz2kBool
import Verif.Props.Spdz2kBool
import Verif.Model.Securenn
import Verif.Spec.Securenn
import Verif.Props.Securenn
import Verif.Model.SnnKernels
import Verif.Spec.SnnKernels
import Verif.Props.SnnKernels
import Verif.Model.Visibility
import Verif.Spec.Visibility
import Verif.Props.Visibility
import Verif.Model.Dealloc
import Verif.Spec.Dealloc
import Verif.Props.Dealloc
import Verif.Model.Rewrites
import Verif.Spec.Rewrites
import Verif.Props.Rewrites
import Verif.Model.SmallConst
import Verif.Spec.SmallConst
import Verif.Props.SmallConst
import Verif.Model.CaseLower
import Verif.Spec.CaseLower
import Verif.Props.CaseLower
import Verif.Model.IntPow
import Verif.Spec.IntPow
import Verif.Props.IntPow
import Verif.Model.Rounding
import Verif.Spec.Rounding
import Verif.Props.Rounding
import Verif.Model.FxpDiv
import Verif.Spec.FxpDiv
import Verif.Props.FxpDiv
import Verif.Model.Ten
import Verif.Model.ReduceWin
import Verif.Spec.Ten
import Verif.Lemmas.Ten
import Verif.Lemmas.Window
import Verif.Lemmas.ReduceAx
import Verif.Props.ReduceWin
import Verif.Props.ScatterWin
import Verif.Model.Contract
import Verif.Spec.Contract
import Verif.Lemmas.Contract
import Verif.Props.DotGeneral
import Verif.Props.Convolution
import Verif.Model.DynSlice
import Verif.Spec.DynSlice
import Verif.Lemmas.DynSlice
import Verif.Props.DynSlice
import Verif.Spec.Gather
import Verif.Model.Gather
import Verif.Lemmas.Gather
import Verif.Props.Gather
import Verif.Model.GatherExpand
import Verif.Lemmas.GatherExpand
import Verif.Props.GatherExpand
import Verif.Props.GatherBatch
import Verif.Props.GatherSimplify
import Verif.Props.GatherPipe
import Verif.Spec.CheetahDot
import Verif.Model.CheetahDot
import Verif.Model.CheetahDotOLE
import Verif.Lemmas.CheetahDot
import Verif.Lemmas.CheetahPack
import Verif.Lemmas.CheetahParse
import Verif.Props.CheetahDot
import Verif.Model.Aby3Oram
import Verif.Spec.Aby3Oram
import Verif.Lemmas.Aby3Oram
import Verif.Props.Aby3Oram
import Verif.Model.QuickSort
import Verif.Spec.QuickSort
import Verif.Lemmas.QuickSort
import Verif.Lemmas.QuickPart
import Verif.Lemmas.QuickRun
import Verif.Lemmas.QuickMerge
import Verif.Lemmas.QuickSelect
import Verif.Props.QuickSort
import Verif.Model.SortDim
import Verif.Spec.SortDim
import Verif.Lemmas.SortDim
import Verif.Props.SortDim
import Verif.Model.LowMC
import Verif.Spec.LowMC
import Verif.Lemmas.LowMC
import Verif.Lemmas.LowMCCipher
import Verif.Props.LowMC
import Verif.Props.LowMCShares
import Verif.Model.GroupBy
import Verif.Spec.GroupBy
import Verif.Lemmas.GroupBy
import Verif.Props.GroupPerm
import Verif.Props.GroupBy
import Verif.Props.GroupAvg
import Verif.Model.ExpPrime
import Verif.Spec.ExpPrime
import Verif.Props.ExpPrime
import Verif.Props.ExpPrimeMul
import Verif.Props.ExpPrimeEval
import Verif.Props.ExpPrimeReal
import Verif.Model.CheetahConv
import Verif.Spec.CheetahConv
import Verif.Lemmas.CheetahConv
import Verif.Lemmas.CheetahConvSteps
import Verif.Lemmas.CheetahConvParse
import Verif.Props.CheetahConv
import Verif.Model.Spdz2kConv
import Verif.Props.Spdz2kCircuits
import Verif.Props.Spdz2kConv
import Verif.Model.Swift
import Verif.Spec.Swift
import Verif.Lemmas.Swift
import Verif.Props.Swift
import Verif.Props.SwiftTrunc
import Verif.Model.SwiftBool
import Verif.Spec.SwiftBool
import Verif.Lemmas.SwiftBool
import Verif.Props.SwiftBool
import Verif.Model.ExpApprox
import Verif.Props.ExpTaylor
import Verif.Props.ExpPade
import Verif.Props.ExpPow
import Verif.Props.ExpMain
import Verif.Props.ExpSigmoid
import Verif.Model.PolyApprox
import Verif.Props.Poly
import Verif.Props.LogPoly
import Verif.Props.LogApprox
import Verif.Props.RsqrtPoly
import Verif.Props.RsqrtComp
import Verif.Props.Rsqrt
import Verif.Props.Sqrt
import Verif.Model.Atan2
import Verif.Props.AtanPoly
import Verif.Props.AtanPolyL
import Verif.Props.Atan2Arg
import Verif.Props.Atan2Poly
import Verif.Props.Atan2
import Verif.Model.Acos
import Verif.Props.AcosPoly
import Verif.Props.Acos
import Verif.Model.Trig
import Verif.Props.SinPoly
import Verif.Props.Trig
import Verif.Model.Tanh
import Verif.Props.TanhPoly
import Verif.Props.Tanh
import Verif.Model.Erf
import Verif.Props.Erf
import Verif.Model.Log2
import Verif.Props.Log2Poly
import Verif.Props.Log2
import Verif.Model.LogPade
import Verif.Props.LogPade
import Verif.Model.FxpPow
import Verif.Props.FxpPow
import Verif.Model.Remainder
import Verif.Props.Remainder
