import Verif.Model.SolverRun
import Verif.Model.Evaluator

/-!
# Model of the exact-summation evaluator running on the boundary-MPS contractor

The evaluator of `Model/Evaluator` with the samples it gets from the wave-function component and from
a solver of `Model/SolverRun`.
-/

namespace QLPeps.ExactRun

universe u

open QLPeps.Contractor
open QLPeps.SolverRun (Result)
open QLPeps.Evaluator (Sample Tps exactSum)
open QLPeps.Peps (Tn Lib)
open QLPeps.Bmps (tensorOps)

noncomputable section

variable {𝕜 : Type u} [RCLike 𝕜]

/-- `CalEnergyAndHoles<TenElemT, QNT, true>` on a wave-function component: the configuration and the
caches of its contractor go in -/
abbrev Solver (𝕜 : Type u) := Config → Ctr (List (Tn 𝕜)) (Tn 𝕜) (Tn 𝕜) → Except Fail (Result 𝕜)

/-- `holes_dag` after the writes of the solver (exact_summation_energy_evaluator.h:209-212): a site that
is not written keeps its default tensor, a later write replaces an earlier one -/
def holesDag (hs : List (Site × Tn 𝕜)) : Site → List ℕ → 𝕜 :=
  hs.foldl (fun f p => Function.update f p.1 p.2.elem) fun _ _ => 0

variable (lib : Lib 𝕜) (rows cols : ℕ) (sitps : Site → ℕ → Tn 𝕜) (solver : Solver 𝕜)

/-- One turn of the loop of `ExactSumEnergyEvaluatorMPI` up to the call of the solver
(exact_summation_energy_evaluator.h:204-213): the component is constructed from the state and the
configuration (wave_function_component.h:156-163: projection, `Init`, `EvaluateAmplitude`), then the
solver runs on it. -/
def sample (cfg : Config) : Except Fail (Sample Site (List ℕ) 𝕜) := do
  let a ← access (evaluateAmplitude (tensorOps lib rows cols) rows cols (project sitps cfg)
    (init (tensorOps lib rows cols) empty))
  let r ← solver cfg a.2
  pure ⟨cfg, a.1, r.energy, holesDag r.holes⟩

/-- `ExactSumEnergyEvaluatorMPI` (exact_summation_energy_evaluator.h:173-302), bosonic, on the master
rank. The configurations are evaluated independently of each other; a failure on any rank ends the
program, and which of several failures is reported is not modelled. -/
def exactRun (cfgs : List Config) (size : ℕ) :
    Except Fail (Option (𝕜 × Tps Site (List ℕ) 𝕜)) := do
  let ss ← cfgs.mapM (sample lib rows cols sitps solver)
  pure (exactSum (fun i => ss.getD i ⟨fun _ => 0, 0, 0, fun _ _ => 0⟩) cfgs.length size)

end

end QLPeps.ExactRun
