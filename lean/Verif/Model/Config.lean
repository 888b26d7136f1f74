import Mathlib.Data.Nat.Notation
import Mathlib.Data.Int.Notation

set_option autoImplicit false

/-!
# Runtime configuration

`spu.h`, `core/config.cc`, and the conversion from and to the protobuf message in `spu.cc`.  Enumerations are integers (the
conversions cast them); machine integers are unbounded (no arithmetic is done on them).
-/

namespace Spu.Model.Config

/-- `ProtocolKind` (`spu.h:100-131`) -/
def protInvalid : ℤ := 0
def protCheetah : ℤ := 4
/-- `FieldType` (`spu.h:91-97`) -/
def ftInvalid : ℤ := 0
def fm32 : ℤ := 1
def fm64 : ℤ := 2
def fm128 : ℤ := 3
/-- `ExpMode`, `LogMode`, `SigmoidMode` (`spu.h:309-365`) -/
def expDefault : ℤ := 0
def expTaylor : ℤ := 2
def expPrime : ℤ := 3
def logDefault : ℤ := 0
def logMinmax : ℤ := 3
def sigmoidDefault : ℤ := 0
def sigmoidReal : ℤ := 3

/-- `ClientSSLConfig` (`spu.h:136-157`) -/
structure Ssl where
  certificate : String
  privateKey : String
  caFilePath : String
  verifyDepth : ℤ
deriving DecidableEq, Repr

/-- `TTPBeaverConfig` (`spu.h:159-192`) -/
structure Ttp where
  serverHost : String
  adjustRank : ℤ
  asymCryptoSchema : String
  serverPublicKey : String
  transportProtocol : String
  sslConfig : Option Ssl
deriving DecidableEq, Repr

/-- `CheetahConfig` (`spu.h:196-210`) -/
structure Cheetah where
  disableMatmulPack : Bool := false
  enableMulLsbError : Bool := false
  otKind : ℤ := 0
deriving DecidableEq, Repr

/-- `RuntimeConfig` (`spu.h:213-422`) with its default member initialisers -/
structure Conf where
  protocol : ℤ := 0
  field : ℤ := 0
  fxpFractionBits : ℤ := 0
  maxConcurrency : ℤ := 0
  enableActionTrace : Bool := false
  enableTypeChecker : Bool := false
  enablePphloTrace : Bool := false
  enableRuntimeSnapshot : Bool := false
  snapshotDumpDir : String := ""
  enablePphloProfile : Bool := false
  enableHalProfile : Bool := false
  publicRandomSeed : ℕ := 0
  shareMaxChunkSize : ℕ := 128 * 1024 * 1024
  sortMethod : ℤ := 0
  quickSortThreshold : ℤ := 32
  fxpDivGoldschmidtIters : ℤ := 2
  fxpExpMode : ℤ := 0
  fxpExpIters : ℤ := 8
  fxpLogMode : ℤ := 0
  fxpLogIters : ℤ := 3
  fxpLogOrders : ℤ := 8
  sigmoidMode : ℤ := 0
  enableLowerAccuracyRsqrt : Bool := false
  sineCosineIters : ℤ := 10
  beaverType : ℤ := 0
  truncAllowMsbError : Bool := false
  experimentalDisableMmulSplit : Bool := false
  experimentalEnableInterOpPar : Bool := false
  experimentalEnableIntraOpPar : Bool := false
  experimentalDisableVectorization : Bool := false
  experimentalInterOpConcurrency : ℕ := 8
  experimentalEnableColocatedOptimization : Bool := false
  experimentalEnableExpPrime : Bool := false
  experimentalExpPrimeOffset : ℕ := 0
  experimentalExpPrimeDisableLowerBound : Bool := false
  experimentalExpPrimeEnableUpperBound : Bool := false
  ttpBeaverConfig : Option Ttp := none
  cheetah2pcConfig : Cheetah := {}
deriving DecidableEq, Repr

/-- `pb::RuntimeConfig` (`spu.proto:170-376`); an absent scalar is zero, false or empty, an absent message is `none` -/
structure Pb where
  protocol : ℤ := 0
  field : ℤ := 0
  fxpFractionBits : ℤ := 0
  maxConcurrency : ℤ := 0
  enableActionTrace : Bool := false
  enableTypeChecker : Bool := false
  enablePphloTrace : Bool := false
  enableRuntimeSnapshot : Bool := false
  snapshotDumpDir : String := ""
  enablePphloProfile : Bool := false
  enableHalProfile : Bool := false
  publicRandomSeed : ℕ := 0
  shareMaxChunkSize : ℕ := 0
  sortMethod : ℤ := 0
  quickSortThreshold : ℤ := 0
  fxpDivGoldschmidtIters : ℤ := 0
  fxpExpMode : ℤ := 0
  fxpExpIters : ℤ := 0
  fxpLogMode : ℤ := 0
  fxpLogIters : ℤ := 0
  fxpLogOrders : ℤ := 0
  sigmoidMode : ℤ := 0
  enableLowerAccuracyRsqrt : Bool := false
  sineCosineIters : ℤ := 0
  beaverType : ℤ := 0
  truncAllowMsbError : Bool := false
  experimentalDisableMmulSplit : Bool := false
  experimentalEnableInterOpPar : Bool := false
  experimentalEnableIntraOpPar : Bool := false
  experimentalDisableVectorization : Bool := false
  experimentalInterOpConcurrency : ℕ := 0
  experimentalEnableColocatedOptimization : Bool := false
  experimentalEnableExpPrime : Bool := false
  experimentalExpPrimeOffset : ℕ := 0
  experimentalExpPrimeDisableLowerBound : Bool := false
  experimentalExpPrimeEnableUpperBound : Bool := false
  ttpBeaverConfig : Option Ttp := none
  cheetah2pcConfig : Option Cheetah := none
deriving DecidableEq, Repr

/-- `convertFromPB` (`spu.cc:81-145`): overwrites `dst`; sub-messages only when present -/
def fromPb (src : Pb) (dst : Conf) : Conf where
  protocol := src.protocol
  field := src.field
  fxpFractionBits := src.fxpFractionBits
  maxConcurrency := src.maxConcurrency
  enableActionTrace := src.enableActionTrace
  enableTypeChecker := src.enableTypeChecker
  enablePphloTrace := src.enablePphloTrace
  enableRuntimeSnapshot := src.enableRuntimeSnapshot
  snapshotDumpDir := src.snapshotDumpDir
  enablePphloProfile := src.enablePphloProfile
  enableHalProfile := src.enableHalProfile
  publicRandomSeed := src.publicRandomSeed
  shareMaxChunkSize := src.shareMaxChunkSize
  sortMethod := src.sortMethod
  quickSortThreshold := src.quickSortThreshold
  fxpDivGoldschmidtIters := src.fxpDivGoldschmidtIters
  fxpExpMode := src.fxpExpMode
  fxpExpIters := src.fxpExpIters
  fxpLogMode := src.fxpLogMode
  fxpLogIters := src.fxpLogIters
  fxpLogOrders := src.fxpLogOrders
  sigmoidMode := src.sigmoidMode
  enableLowerAccuracyRsqrt := src.enableLowerAccuracyRsqrt
  sineCosineIters := src.sineCosineIters
  beaverType := src.beaverType
  truncAllowMsbError := src.truncAllowMsbError
  experimentalDisableMmulSplit := src.experimentalDisableMmulSplit
  experimentalEnableInterOpPar := src.experimentalEnableInterOpPar
  experimentalEnableIntraOpPar := src.experimentalEnableIntraOpPar
  experimentalDisableVectorization := src.experimentalDisableVectorization
  experimentalInterOpConcurrency := src.experimentalInterOpConcurrency
  experimentalEnableColocatedOptimization := src.experimentalEnableColocatedOptimization
  experimentalEnableExpPrime := src.experimentalEnableExpPrime
  experimentalExpPrimeOffset := src.experimentalExpPrimeOffset
  experimentalExpPrimeDisableLowerBound := src.experimentalExpPrimeDisableLowerBound
  experimentalExpPrimeEnableUpperBound := src.experimentalExpPrimeEnableUpperBound
  ttpBeaverConfig := match src.ttpBeaverConfig with | some t => some t | none => dst.ttpBeaverConfig
  cheetah2pcConfig := match src.cheetah2pcConfig with | some t => t | none => dst.cheetah2pcConfig

/-- `convertToPB` into an empty message (`spu.cc:147-222`) -/
def toPb (src : Conf) : Pb where
  protocol := src.protocol
  field := src.field
  fxpFractionBits := src.fxpFractionBits
  maxConcurrency := src.maxConcurrency
  enableActionTrace := src.enableActionTrace
  enableTypeChecker := src.enableTypeChecker
  enablePphloTrace := src.enablePphloTrace
  enableRuntimeSnapshot := src.enableRuntimeSnapshot
  snapshotDumpDir := src.snapshotDumpDir
  enablePphloProfile := src.enablePphloProfile
  enableHalProfile := src.enableHalProfile
  publicRandomSeed := src.publicRandomSeed
  shareMaxChunkSize := src.shareMaxChunkSize
  sortMethod := src.sortMethod
  quickSortThreshold := src.quickSortThreshold
  fxpDivGoldschmidtIters := src.fxpDivGoldschmidtIters
  fxpExpMode := src.fxpExpMode
  fxpExpIters := src.fxpExpIters
  fxpLogMode := src.fxpLogMode
  fxpLogIters := src.fxpLogIters
  fxpLogOrders := src.fxpLogOrders
  sigmoidMode := src.sigmoidMode
  enableLowerAccuracyRsqrt := src.enableLowerAccuracyRsqrt
  sineCosineIters := src.sineCosineIters
  beaverType := src.beaverType
  truncAllowMsbError := src.truncAllowMsbError
  experimentalDisableMmulSplit := src.experimentalDisableMmulSplit
  experimentalEnableInterOpPar := src.experimentalEnableInterOpPar
  experimentalEnableIntraOpPar := src.experimentalEnableIntraOpPar
  experimentalDisableVectorization := src.experimentalDisableVectorization
  experimentalInterOpConcurrency := src.experimentalInterOpConcurrency
  experimentalEnableColocatedOptimization := src.experimentalEnableColocatedOptimization
  experimentalEnableExpPrime := src.experimentalEnableExpPrime
  experimentalExpPrimeOffset := src.experimentalExpPrimeOffset
  experimentalExpPrimeDisableLowerBound := src.experimentalExpPrimeDisableLowerBound
  experimentalExpPrimeEnableUpperBound := src.experimentalExpPrimeEnableUpperBound
  ttpBeaverConfig := src.ttpBeaverConfig
  cheetah2pcConfig := if src.protocol = protCheetah then some src.cheetah2pcConfig else none

/-- `defaultFxpBits` (`core/config.cc:23-39`) -/
def defaultFxpBits (field : ℤ) : Option ℤ :=
  if field = fm32 then some 8 else if field = fm64 then some 18 else if field = fm128 then some 26 else none

/-! The statements of `populateRuntimeConfig` -/

def setConcurrency (threads : ℤ) (cfg : Conf) : Conf :=
  if cfg.maxConcurrency = 0 then { cfg with maxConcurrency := threads } else cfg
def setFxpBits (cfg : Conf) : Option Conf :=
  if cfg.fxpFractionBits = 0 then (defaultFxpBits cfg.field).map (fun b => { cfg with fxpFractionBits := b }) else some cfg
def setDivIters (cfg : Conf) : Conf :=
  if cfg.fxpDivGoldschmidtIters = 0 then { cfg with fxpDivGoldschmidtIters := 2 } else cfg
def setSort (cfg : Conf) : Conf := if cfg.quickSortThreshold = 0 then { cfg with quickSortThreshold := 32 } else cfg
def setExpMode (cfg : Conf) : Conf := if cfg.fxpExpMode = expDefault then { cfg with fxpExpMode := expTaylor } else cfg
def setExpOffset (cfg : Conf) : Conf :=
  if cfg.fxpExpMode = expPrime then
    if cfg.experimentalExpPrimeOffset = 0 then
      if cfg.field = fm128 then { cfg with experimentalExpPrimeOffset := 13 } else cfg
    else cfg
  else cfg
def setExpIters (cfg : Conf) : Conf := if cfg.fxpExpIters = 0 then { cfg with fxpExpIters := 8 } else cfg
def setLogMode (cfg : Conf) : Conf := if cfg.fxpLogMode = logDefault then { cfg with fxpLogMode := logMinmax } else cfg
def setLogIters (cfg : Conf) : Conf := if cfg.fxpLogIters = 0 then { cfg with fxpLogIters := 3 } else cfg
def setLogOrders (cfg : Conf) : Conf := if cfg.fxpLogOrders = 0 then { cfg with fxpLogOrders := 8 } else cfg
def setSine (cfg : Conf) : Conf := if cfg.sineCosineIters = 0 then { cfg with sineCosineIters := 10 } else cfg
def setInterOp (cfg : Conf) : Conf :=
  if cfg.experimentalEnableInterOpPar then
    if cfg.experimentalInterOpConcurrency = 0 then { cfg with experimentalInterOpConcurrency := 8 } else cfg
  else cfg
def setSigmoid (cfg : Conf) : Conf := if cfg.sigmoidMode = sigmoidDefault then { cfg with sigmoidMode := sigmoidReal } else cfg

/-- `populateRuntimeConfig` (`core/config.cc:43-117`), in the order of the code; `threads` is `yacl::get_num_threads()` -/
def populate (threads : ℤ) (cfg : Conf) : Option Conf :=
  if cfg.protocol = protInvalid then none
  else if cfg.field = ftInvalid then none
  else (setFxpBits (setConcurrency threads cfg)).map fun cfg =>
    setSigmoid (setInterOp (setSine (setLogOrders (setLogIters (setLogMode (setExpIters (setExpOffset (setExpMode
      (setSort (setDivIters cfg))))))))))

end Spu.Model.Config
