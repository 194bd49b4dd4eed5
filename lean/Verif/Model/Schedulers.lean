import Mathlib.Analysis.SpecialFunctions.Pow.Real
import Mathlib.Analysis.SpecialFunctions.Trigonometric.Basic
import Mathlib.Data.List.Sort
import Mathlib.Order.WithBot

/-!
# Model of the learning-rate schedulers

Source: `/repo/include/qlpeps/optimizer/lr_schedulers.h`. `double` is `ℝ`.
-/

namespace QLPeps.Schedulers

/-- `ExponentialDecayLR::GetLearningRate` (lr_schedulers.h:66-68); meaningful for `steps ≥ 1`. -/
noncomputable def exponentialDecay (initial rate : ℝ) (steps iteration : ℕ) : ℝ :=
  initial * rate ^ ((iteration : ℝ) / (steps : ℝ))

/-- `StepLR::GetLearningRate` (lr_schedulers.h:91-93): `std::pow` with an integer exponent; integer
division by zero is undefined (`none`). -/
noncomputable def stepLR (initial gamma : ℝ) (size iteration : ℕ) : Option ℝ :=
  if size = 0 then none else some (initial * gamma ^ (iteration / size))

/-- `CosineAnnealingLR::GetLearningRate` (lr_schedulers.h:160-165). -/
noncomputable def cosine (etaMax etaMin : ℝ) (T iteration : ℕ) : ℝ :=
  if T = 0 then etaMin
  else
    let t : ℝ := (min iteration T : ℕ)
    etaMin + 0.5 * (etaMax - etaMin) * (1 + Real.cos (Real.pi * t / (T : ℝ)))

/-- `WarmupLR::GetLearningRate` (lr_schedulers.h:189-194). -/
noncomputable def warmup (base start : ℝ) (steps iteration : ℕ) : ℝ :=
  if steps = 0 then base
  else if steps ≤ iteration then base
  else
    let ratio : ℝ := ((iteration + 1 : ℕ) : ℝ) / (steps : ℝ)
    start + (base - start) * ratio

/-- `std::upper_bound(begin, end, x) - begin` on a sorted list: the length of the prefix of elements
that are not greater than `x`. -/
def upperBound (l : List ℕ) (x : ℕ) : ℕ := (l.takeWhile (fun a => decide (a ≤ x))).length

/-- `MultiStepLR`: the constructor sorts (lr_schedulers.h:215-218), `GetLearningRate` counts
(lr_schedulers.h:219-223). -/
noncomputable def multiStep (initial gamma : ℝ) (milestones : List ℕ) (iteration : ℕ) : ℝ :=
  let sorted := milestones.insertionSort (· ≤ ·)
  initial * gamma ^ ((upperBound sorted iteration : ℕ) : ℝ)

/-- State of `PlateauLR` (lr_schedulers.h:109-115). `best = ⊤` is the initial value
`numeric_limits<double>::max()`, which every finite energy improves. -/
structure Plateau where
  lr : ℝ
  counter : ℕ
  best : WithTop ℝ

/-- `PlateauLR` constructor (lr_schedulers.h:117-119). -/
noncomputable def plateauInit (initial : ℝ) : Plateau := ⟨initial, 0, ⊤⟩

/-- `current_energy < best_energy_ - threshold_` (lr_schedulers.h:121) -/
noncomputable def improves (e thr : ℝ) : WithTop ℝ → Bool
  | ⊤ => true
  | (b : ℝ) => decide (e < b - thr)

/-- `PlateauLR::GetLearningRate` (lr_schedulers.h:120-133): the state after one report. -/
noncomputable def plateauStep (factor : ℝ) (patience : ℕ) (thr : ℝ) (s : Plateau) (e : ℝ) : Plateau :=
  if improves e thr s.best then { s with best := e, counter := 0 }
  else
    let counter := s.counter + 1
    if patience ≤ counter then ⟨s.lr * factor, 0, e⟩
    else { s with counter := counter }

/-- the rate after a history of reported energies -/
noncomputable def plateauRun (factor : ℝ) (patience : ℕ) (thr initial : ℝ) (history : List ℝ) : Plateau :=
  history.foldl (plateauStep factor patience thr) (plateauInit initial)

end QLPeps.Schedulers
