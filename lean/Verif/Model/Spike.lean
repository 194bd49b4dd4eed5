import Mathlib.Analysis.Real.Sqrt
import Mathlib.Algebra.Order.Field.Basic

/-!
# Model of spike detection

Sources: `/repo/include/qlpeps/optimizer/spike_detection.h`,
`/repo/include/qlpeps/optimizer/optimizer_impl.h` (detection and decision),
`/repo/include/qlpeps/optimizer/optimizer_params.h` (`SpikeRecoveryParams`).
-/

namespace QLPeps.Spike

/-- `SpikeSignal` (spike_detection.h:29-35) -/
inductive Signal | none | s1 | s2 | s3 | s4
  deriving DecidableEq, Repr

/-- `SpikeAction` (spike_detection.h:40-45) -/
inductive Action | accept | resample | rollback | acceptWithWarning
  deriving DecidableEq, Repr

/-- `EMATracker` (spike_detection.h:80-118) without the constant `alpha_`. -/
structure Ema (K : Type*) where
  ema : K
  var : K
  initialized : Bool

/-- the freshly constructed tracker (spike_detection.h:82-84) -/
def Ema.new {K : Type*} [Zero K] : Ema K := ⟨0, 0, false⟩

/-- `alpha_ = 2 / (window + 1)` (spike_detection.h:83) -/
def alpha {K : Type*} [Field K] (window : ℕ) : K := 2 / ((window : K) + 1)

/-- `EMATracker::Update` (spike_detection.h:86-96) -/
def Ema.update {K : Type*} [One K] [Zero K] [Add K] [Sub K] [Mul K] (a : K) (t : Ema K) (x : K) : Ema K :=
  if t.initialized then
    let delta := x - t.ema
    ⟨t.ema + a * delta, (1 - a) * (t.var + a * delta * delta), true⟩
  else ⟨x, 0, true⟩

/-- the tracker after a sequence of observations -/
def Ema.run {K : Type*} [Field K] (window : ℕ) (xs : List K) : Ema K :=
  xs.foldl (Ema.update (alpha window)) Ema.new

/-- `SpikeRecoveryParams` (optimizer_params.h:299-313), the fields used by detection. -/
structure Params (K : Type*) where
  enableAutoRecover : Bool
  maxRetries : ℕ
  factorErr : K
  factorGrad : K
  factorNgrad : K
  srMinIters : ℕ
  enableRollback : Bool
  sigmaK : K

section Detect
variable {K : Type*} [Zero K] [LT K] [DecidableLT K] [Mul K] [Sub K]

/-- `DetectS1S2_` (optimizer_impl.h:1872-1887). Nothing is assumed of `<` and `*`, so the
comparisons with NaN (always false) are included. -/
def detectS1S2 (cfg : Params K) (emaErr emaGrad : Ema K) (error gradNorm : K) : Signal :=
  if (emaErr.initialized ∧ 0 < emaErr.ema) ∧ cfg.factorErr * emaErr.ema < error then .s1
  else if (emaGrad.initialized ∧ 0 < emaGrad.ema) ∧ cfg.factorGrad * emaGrad.ema < gradNorm then .s2
  else .none

/-- `DetectS3_` (optimizer_impl.h:1890-1905) -/
def detectS3 (cfg : Params K) (emaNgrad : Ema K) (ngradNorm : K) (srIters : ℕ) : Signal :=
  if (emaNgrad.initialized ∧ 0 < emaNgrad.ema) ∧ cfg.factorNgrad * emaNgrad.ema < ngradNorm then .s3
  else if srIters ≤ cfg.srMinIters then .s3
  else .none

/-- `DetectS4_` (optimizer_impl.h:1908-1919); `std` is `EMATracker::Std` (spike_detection.h:100). -/
def detectS4 (cfg : Params K) (std : Ema K → K) (emaE : Ema K) (energy : K) : Signal :=
  if emaE.initialized = false then .none
  else
    let delta := energy - emaE.ema
    if (0 < delta ∧ 0 < std emaE) ∧ cfg.sigmaK * std emaE < delta then .s4 else .none

/-- `DecideAction_` (optimizer_impl.h:1922-1944) -/
def decideAction (cfg : Params K) (hasPrev : Bool) (signal : Signal) (attempts step : ℕ) : Action :=
  if signal = .none then .accept
  else if signal = .s4 then .rollback
  else if attempts < cfg.maxRetries then .resample
  else if cfg.enableRollback = true ∧ hasPrev = true ∧ 0 < step then .rollback
  else .acceptWithWarning

end Detect

end QLPeps.Spike
