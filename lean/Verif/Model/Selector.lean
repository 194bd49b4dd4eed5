import Mathlib.Algebra.Order.Field.Basic

/-!
# Automatic step-size selectors

Models the selector part of `Optimizer::IterativeOptimize`
(include/qlpeps/optimizer/optimizer_impl.h:143-176 validation, :300-302 learning rate, :320-541 selection).

Simplifications: exact arithmetic in an ordered field `K`; the trial state of a candidate step is a
function `trial` of the step (for SGD `SGDPreviewUpdate_`, for SR/MinSR a step along the precomputed
direction, `make_precomputed_trial` :425-435); the evaluator may be stateful with hidden state `X`; it
returns `none` when energy or error is not finite (the selector then throws, :376-408).
-/

namespace QLPeps.Selector

variable {W K X : Type*} [Field K] [LinearOrder K] [IsStrictOrderedRing K]

/-- optimizer_params.h:164-184 and the base parameters used -/
structure Cfg (K : Type*) where
  initialEnabled : Bool
  maxLineSearchSteps : ℕ
  initialDeterministic : Bool
  periodicEnabled : Bool
  everyN : ℕ
  phaseRatio : K
  periodicDeterministic : Bool
  learningRate : K
  maxIterations : ℕ
  hasScheduler : Bool
  /-- SGD, SR or MinSR -/
  supported : Bool

/-- :149-175: accepted configurations -/
def Cfg.valid (c : Cfg K) : Bool :=
  !((c.initialEnabled || c.periodicEnabled) && (!c.supported || c.hasScheduler)) &&
  !(c.initialEnabled && c.maxLineSearchSteps == 0) &&
  !(c.periodicEnabled && (c.everyN == 0 || decide (c.phaseRatio < 0) || decide (1 < c.phaseRatio))) &&
  !((c.initialEnabled || c.periodicEnabled) && decide (c.learningRate ≤ 0))

/-- a candidate and its evaluation -/
structure Cand (K : Type*) where
  eta : K
  energy : K
  error : K

/-- :320-326 -/
def Cfg.initialTriggered (c : Cfg K) (iter : ℕ) : Bool := c.initialEnabled && iter == 0

def Cfg.periodicTriggered (c : Cfg K) (iter : ℕ) : Bool :=
  c.periodicEnabled && decide (0 < iter) && iter % c.everyN == 0 && !c.initialTriggered iter

/-- :358-374 the candidates -/
def candidates (c : Cfg K) (iter : ℕ) (base : K) : List K :=
  if c.initialTriggered iter then (List.range c.maxLineSearchSteps).map fun i : ℕ => base * ((i : K) + 1)
  else [base, base * (1 / 2)]

/-- the candidate loop (:437-486): evaluate each candidate in order; `none` if one is not finite -/
def evalAll (eval : X → W → Option (K × K) × X) (trial : K → W) : List K → X → Option (List (Cand K) × X)
  | [], x => some ([], x)
  | eta :: rest, x =>
    match eval x (trial eta) with
    | (none, _) => none
    | (some (e, err), x') =>
      match evalAll eval trial rest x' with
      | none => none
      | some (cs, x'') => some (⟨eta, e, err⟩ :: cs, x'')

/-- :489-499 first strict minimum -/
def pickInitial (first : Cand K) (cs : List (Cand K)) : K :=
  (cs.foldl (fun acc c => if c.energy < acc.2 then (c.eta, c.energy) else acc) (first.eta, first.energy)).1

/-- :500-520 -/
def pickPeriodic (c : Cfg K) (iter : ℕ) (full half : Cand K) : K :=
  if (iter : K) < c.phaseRatio * (c.maxIterations : K) then
    if half.energy < full.energy then half.eta else full.eta
  else if 1 * max full.error half.error < full.energy - half.energy then half.eta else full.eta

/-- :332-541 one pass through the selector: the new base step and the hidden state, `none` =
exception. `error` is the error bar of the main evaluation. -/
def select (c : Cfg K) (eval : X → W → Option (K × K) × X) (trial : K → W) (iter : ℕ) (base error : K)
    (x : X) : Option (K × X) :=
  if c.initialTriggered iter then
    if c.initialDeterministic = false ∧ error ≤ 0 then none
    else match evalAll eval trial (candidates c iter base) x with
      | some (first :: cs, x') => some (pickInitial first (first :: cs), x')
      | _ => none
  else if c.periodicTriggered iter then
    if c.periodicDeterministic = false ∧ error ≤ 0 then none
    else if base * (1 / 2) ≤ 0 then none
    else match evalAll eval trial (candidates c iter base) x with
      | some ([full, half], x') => some (min base (pickPeriodic c iter full half), x')
      | _ => none
  else some (base, x)

/-- one attempt of the optimizer loop as seen by the selector: iteration number, error bar of the main
evaluation, trial-state map -/
structure Attempt (W K : Type*) where
  iter : ℕ
  error : K
  trial : K → W

/-- the base steps used by a sequence of attempts (`selector_base_lr` after each attempt) -/
def runSel (c : Cfg K) (eval : X → W → Option (K × K) × X) : List (Attempt W K) → K → X → Option (List K)
  | [], _, _ => some []
  | a :: rest, base, x =>
    match select c eval a.trial a.iter base a.error x with
    | none => none
    | some (b, x') => (runSel c eval rest b x').map (b :: ·)

end QLPeps.Selector
