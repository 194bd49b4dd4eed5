import Mathlib.Analysis.SpecialFunctions.Pow.Real

/-!
# Model of `Execute` of the simple-update and loop-update executors

Sources (under `/repo/include/qlpeps/algorithm/`): `simple_update/simple_update_impl.h`,
`loop_update/loop_update_impl.h`. The two `Execute` functions and their helpers are the same code
with other names; line numbers are those of the simple update.

The sweeps are a parameter: `outs k` is what the k-th sweep reports and leaves in the weights of the
PEPS. Floating-point numbers are reals or NaN (`none`); infinities and rounding are not modelled,
and `RealT` is `double`.
-/

namespace QLPeps.UpdateLoop

noncomputable section

/-- a floating-point number: a real, or `none` for NaN -/
abbrev Fl := Option ℝ

/-- arithmetic propagates NaN -/
def lift2 (f : ℝ → ℝ → ℝ) (a b : Fl) : Fl := a.bind fun x => b.map (f x)

open Classical in
/-- `a < b`: false when either is NaN -/
def flt (a b : Fl) : Bool :=
  match a, b with
  | some x, some y => decide (x < y)
  | _, _ => false

open Classical in
/-- `a <= b`: false when either is NaN -/
def fle (a b : Fl) : Bool :=
  match a, b with
  | some x, some y => decide (x ≤ y)
  | _, _ => false

/-- `std::max(a, b)`: `(a < b) ? b : a` -/
def fmax (a b : Fl) : Fl := if flt a b then b else a

/-- `SimpleUpdatePara::AdvancedStopConfig` (simple_update.h:35-41); tolerances are not NaN -/
structure Config where
  energyAbs : ℝ
  energyRel : ℝ
  lambdaRel : ℝ
  patience : ℕ
  minSteps : ℕ

open Classical in
/-- `ValidateAdvancedStopConfig_` (simple_update_impl.h:26-42): false is the exception -/
def Config.valid (c : Config) : Bool :=
  decide (¬ c.energyAbs < 0) && decide (¬ c.energyRel < 0) && decide (¬ c.lambdaRel < 0) &&
    decide (c.patience ≠ 0) && decide (c.minSteps ≠ 0)

/-- `SweepResult` (simple_update.h:112-120) and the diagonals of the weights captured after the
sweep (`CaptureLambdaDiagonals_`, simple_update_impl.h:90-122) -/
structure Sweep where
  e0 : Fl
  en : Fl
  trunc : Option Fl
  elapsed : Fl
  dmin : ℕ
  dmax : ℕ
  lambdas : List (List Fl)

/-- `SimpleUpdateStepMetrics` (simple_update.h:23-32) -/
structure Metric where
  stepIndex : ℕ
  tau : ℝ
  e0 : Fl
  en : Fl
  trunc : Option Fl
  elapsed : Fl
  bondDimChanged : Bool

/-- `StopReason` (simple_update.h:96-100) -/
inductive Stop | notRun | maxSteps | converged
  deriving DecidableEq

/-- `RunSummary` (simple_update.h:102-109) -/
structure Summary where
  converged : Bool
  stop : Stop
  executed : ℕ
  finalEnergy : Option Fl
  finalE0 : Option Fl
  finalEn : Option Fl

/-- the part of the executor `Execute` writes, and the calls of the observer -/
structure Exec where
  summary : Summary
  metrics : List Metric
  observed : List Metric

/-- `SimpleUpdatePara` (simple_update.h:43-60), as far as `Execute` reads it -/
structure Para where
  steps : ℕ
  tau : ℝ
  stop : Option Config
  observer : Bool

/-- `ComputeHybridEnergyTolerance_` (simple_update_impl.h:44-51); `std::max` of a list keeps the
first of equal elements and replaces only by a larger one -/
def energyTol (c : Config) (prev cur : Fl) : Fl :=
  let scale := fmax (fmax (some 1) (prev.map abs)) (cur.map abs)
  fmax (some c.energyAbs) (lift2 (· * ·) (some c.energyRel) scale)

/-- `LambdaBondDimensionsStable_` (simple_update_impl.h:53-65) -/
def stable (prev cur : List (List Fl)) : Bool :=
  decide (prev.length = cur.length) &&
    (prev.zip cur).all fun pc => decide (pc.1.length = pc.2.length)

/-- `diff_norm2` (simple_update_impl.h:77-81) -/
def diffNorm2 (prev cur : List Fl) : Fl :=
  (prev.zip cur).foldl (fun s pc =>
    let d := lift2 (· - ·) pc.2 pc.1
    lift2 (· + ·) s (lift2 (· * ·) d d)) (some 0)

/-- `prev_norm2` (simple_update_impl.h:82) -/
def prevNorm2 (prev : List Fl) : Fl :=
  prev.foldl (fun s p => lift2 (· + ·) s (lift2 (· * ·) p p)) (some 0)

/-- one iteration over bonds of `ComputeMaxRelativeLambdaDrift_` (simple_update_impl.h:76-86) -/
def bondDrift (eps : ℝ) (prev cur : List Fl) : Fl :=
  let denom := fmax ((prevNorm2 prev).map Real.sqrt) (some eps)
  lift2 (· / ·) ((diffNorm2 prev cur).map Real.sqrt) denom

/-- `ComputeMaxRelativeLambdaDrift_` (simple_update_impl.h:67-88) for weights of stable dimensions -/
def maxDrift (eps : ℝ) (prev cur : List (List Fl)) : Fl :=
  (prev.zip cur).foldl (fun m pc => fmax m (bondDrift eps pc.1 pc.2)) (some 0)

/-- `gate_passed` (simple_update_impl.h:344-365) -/
def gate (c : Config) (eps : ℝ) (executed : ℕ) (prev : Option (Fl × List (List Fl)))
    (cur : Fl × List (List Fl)) : Bool :=
  match prev with
  | none => false
  | some p =>
    if stable p.2 cur.2 then
      decide (executed ≥ c.minSteps) &&
        fle ((lift2 (· - ·) cur.1 p.1).map abs) (energyTol c p.1 cur.1) &&
        fle (maxDrift eps p.2 cur.2) (some c.lambdaRel)
    else false

/-- local variables of the loop; `stopped` is the `break` -/
structure Loop where
  exec : Exec
  streak : ℕ
  prev : Option (Fl × List (List Fl))
  prevDims : ℕ × ℕ
  stopped : Bool

/-- one iteration of the loop of `Execute` (simple_update_impl.h:284-383) -/
def step (p : Para) (eps : ℝ) (outs : ℕ → Sweep) (s : Loop) (k : ℕ) : Loop :=
  if s.stopped then s
  else
    let r := outs k
    let changed := decide (0 < k) && (decide (r.dmin ≠ s.prevDims.1) || decide (r.dmax ≠ s.prevDims.2))
    let metric : Metric := ⟨k, p.tau, r.e0, r.en, r.trunc, r.elapsed, changed⟩
    let executed := s.exec.summary.executed + 1
    let exec : Exec :=
      ⟨⟨s.exec.summary.converged, s.exec.summary.stop, executed, some r.e0, some r.e0, some r.en⟩,
        s.exec.metrics ++ [metric],
        if p.observer then s.exec.observed ++ [metric] else s.exec.observed⟩
    match p.stop with
    | none => ⟨exec, s.streak, s.prev, (r.dmin, r.dmax), false⟩
    | some c =>
      let streak := if gate c eps executed s.prev (r.e0, r.lambdas) then s.streak + 1 else 0
      if streak ≥ c.patience then
        ⟨{ exec with summary := { exec.summary with converged := true, stop := .converged } },
          streak, s.prev, (r.dmin, r.dmax), true⟩
      else ⟨exec, streak, some (r.e0, r.lambdas), (r.dmin, r.dmax), false⟩

/-- `Execute` (simple_update_impl.h:261-386): whether it throws, and the executor afterwards. The
observer's calls are those of this run. -/
def execute (p : Para) (eps : ℝ) (outs : ℕ → Sweep) : Bool × Exec :=
  let start : Exec := ⟨⟨false, .maxSteps, 0, none, none, none⟩, [], []⟩
  match p.stop with
  | some c =>
    if c.valid then
      (false, ((List.range p.steps).foldl (step p eps outs) ⟨start, 0, none, (0, 0), false⟩).exec)
    else (true, start)
  | none =>
    (false, ((List.range p.steps).foldl (step p eps outs) ⟨start, 0, none, (0, 0), false⟩).exec)

end

end QLPeps.UpdateLoop
