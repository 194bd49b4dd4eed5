import Verif.Model.PsiConsistency

/-!
# Consistency warnings during the optimization

Source: `/repo/include/qlpeps/algorithm/vmc_update/model_energy_solver.h`,
`mc_energy_grad_evaluator.h:216-245, 374-375, 427-428`, `psi_consistency.h:43-49, 174-191`.

Simplifications: a sample is the list `psi_list` filled in by the concrete model; doubles are real numbers; a printed list is
the list of the printed elements and the number after `n=`, if printed.
-/

namespace QLPeps.EnergyWarn

open QLPeps.Psi

variable {𝕜 : Type*} [RCLike 𝕜]

/-- `FormatPsiListTruncated` (psi_consistency.h:174-191) -/
def format (l : List 𝕜) (maxElems : ℕ) : List 𝕜 × Option ℕ :=
  let n := l.length
  let m := min n maxElems
  ((List.range m).map fun i => l.getD i 0, if n > m then some n else none)

/-- the members of `ModelEnergySolver` (model_energy_solver.h:118-125) -/
structure Solver (𝕜 : Type*) where
  maxPrint : ℕ
  valid : Bool
  meanRe : ℝ
  meanIm : ℝ
  relErr : ℝ
  list : Option (List 𝕜 × Option ℕ)

/-- `ModelEnergySolver()` (model_energy_solver.h:35, 118-125); the empty string is `none` -/
def Solver.init : Solver 𝕜 := ⟨8, false, 0, 0, 0, none⟩

/-- `UpdatePsiConsistencyCache_` (model_energy_solver.h:103-116). For `double`, the imaginary part is 0. -/
noncomputable def Solver.update (s : Solver 𝕜) (l : List 𝕜) : Solver 𝕜 :=
  let q := summary l
  { s with meanRe := RCLike.re q.mean, meanIm := RCLike.im q.mean, relErr := q.relErr, list := some (format l s.maxPrint), valid := true }

/-- `GetLastPsiConsistencySummary` (model_energy_solver.h:43-58). For `double` the second term vanishes, since `RCLike.I` does. -/
noncomputable def Solver.last (s : Solver 𝕜) : Summary 𝕜 :=
  if !s.valid then ⟨0, 0⟩ else ⟨(s.meanRe : 𝕜) + (s.meanIm : 𝕜) * RCLike.I, s.relErr⟩

/-- `SetPsiConsistencyWarningParams` (model_energy_solver.h:37-41) -/
def Solver.setMaxPrint (s : Solver 𝕜) (k : ℕ) : Solver 𝕜 := { s with maxPrint := k }

/-- `PsiConsistencyWarningParams` (psi_consistency.h:43-49) but for `max_print_elems` -/
structure Params where
  enabled : Bool
  masterOnly : Bool
  threshold : ℝ
  maxWarnings : ℕ

/-- what is written to `std::cerr` (mc_energy_grad_evaluator.h:229-240) -/
inductive Msg (𝕜 : Type*) where
  | warn (relErr threshold : ℝ) (mean : 𝕜) (list : Option (List 𝕜 × Option ℕ))
  | suppressed (n : ℕ)

/-- the solver and the counter `psi_warn_count_` (mc_energy_grad_evaluator.h:428) of an evaluator, and what it has printed -/
structure Eval (𝕜 : Type*) where
  solver : Solver 𝕜
  count : ℕ
  log : List (Msg 𝕜)

/-- mc_energy_grad_evaluator.h:219-245 -/
noncomputable def warnStep (p : Params) (master : Bool) (e : Eval 𝕜) : Eval 𝕜 :=
  if p.enabled then
    if (!p.masterOnly || master) ∧ e.count < p.maxWarnings then
      let q := e.solver.last
      if q.relErr > p.threshold then
        let e1 : Eval 𝕜 := { e with count := e.count + 1, log := e.log ++ [.warn q.relErr p.threshold q.mean e.solver.list] }
        if e1.count = p.maxWarnings then { e1 with log := e1.log ++ [.suppressed p.maxWarnings] } else e1
      else e
    else e
  else e

/-- what happens to an evaluator and its solver, in the order of time -/
inductive Event (𝕜 : Type*) where
  /-- a sample of `Evaluate` (mc_energy_grad_evaluator.h:216-245) -/
  | sample (l : List 𝕜)
  /-- a sample of `EvaluateEnergyOnly` (mc_energy_grad_evaluator.h:374-376), or a call of the solver by somebody else -/
  | energyOnly (l : List 𝕜)
  /-- a sample during which the model throws (model_energy_solver.h:86-87): nothing after it is executed -/
  | fail
  /-- `SetPsiConsistencyWarningParams` of the solver -/
  | setMaxPrint (k : ℕ)

/-- one event -/
noncomputable def step (p : Params) (master : Bool) (e : Eval 𝕜) : Event 𝕜 → Eval 𝕜
  | .sample l => warnStep p master { e with solver := e.solver.update l }
  | .energyOnly l => { e with solver := e.solver.update l }
  | .fail => e
  | .setMaxPrint k => { e with solver := e.solver.setMaxPrint k }

/-- the evaluator after a history; the optimizer sets the parameter of the solver and makes the evaluator once
(vmc_peps_optimizer_impl.h:58, 65-68) -/
noncomputable def run (p : Params) (maxPrint : ℕ) (master : Bool) (evs : List (Event 𝕜)) : Eval 𝕜 :=
  evs.foldl (step p master) ⟨Solver.init.setMaxPrint maxPrint, 0, []⟩

end QLPeps.EnergyWarn
