import Verif.Model.ExactRun
import Verif.Model.Updaters

/-!
# Model of the Monte Carlo evaluator running on the boundary-MPS contractor

`MCEnergyGradEvaluator` with its engine: sweeps of an updater, then a solver on the same wave-function
component, whose contractor keeps its caches from one to the next.
-/

namespace QLPeps.McRun

universe u

open QLPeps.Contractor QLPeps.Updaters QLPeps.Sweep
open QLPeps.SolverRun (Result)
open QLPeps.ExactRun (Solver)
open QLPeps.Evaluator (Sample Tps mcEnergy mcGradient mcOstarMean)
open QLPeps.Peps (Tn Lib)
open QLPeps.Bmps (tensorOps)

noncomputable section

variable {𝕜 : Type u} [RCLike 𝕜]

/-- why a run ends early: undefined behaviour, or a failure of the solver -/
inductive Stop
  | undefined
  | solver (e : Fail)

/-- `tps_sample_`: a wave-function component with a boundary-MPS contractor -/
abbrev Comp (𝕜 : Type u) := Walker (Option 𝕜) (Option (Ctr (List (Tn 𝕜)) (Tn 𝕜) (Tn 𝕜)))

/-- the sweep updater the engine is instantiated with: `MCUpdateSquareNNExchangeOBC`,
`MCUpdateSquareNNFullSpaceUpdateOBC` or `MCUpdateSquareTNN3SiteExchange` -/
inductive Updater
  | exchange
  | fullSpace
  | threeSite

/-- `mc_sweep_updater_(split_index_tps_, tps_sample_, accept_rates)` (monte_carlo_engine.h:186); `phys` is
`sitps.PhysicalDim()`, `ab` is `std::abs`, `ξ` the numbers the updater draws. The acceptance rates are
not modelled here. -/
def sweep {A Γ : Type*} (C : Updaters.Contractor A Γ) (u : Updater) (phys rows cols : ℕ) (ab : A → ℝ) (ξ : ℕ → ℝ)
    (x : Option (Walker A Γ)) : Option (Walker A Γ) :=
  match u with
  | .exchange => (obcSweep (envOpsOption C)
      (fun a b d => liftUpd fun w => some (nnExchange C ab ξ a b d w)) rows cols x).1
  | .fullSpace => (obcSweep (envOpsOption C)
      (fun a b d => liftUpd (fullSpace C ab ξ phys a b d)) rows cols x).1
  | .threeSite => (obcSweep3 (envOpsOption C) (fun a b e d => Option.map (refresh3 C a b e d))
      (fun a b e d => liftUpd (tnn3Exchange C ab ξ a b e d)) rows cols x).1

variable (lib : Lib 𝕜) (rows cols : ℕ) (sitps : Site → ℕ → Tn 𝕜)

/-- `RefreshWavefunctionComponent` (monte_carlo_engine.h:133-136): a new component for the old
configuration (wave_function_component.h:156-163: projection, `Init`, `EvaluateAmplitude`). The random
number engine belongs to the updater and goes on from where it was. -/
def refresh (cfg : Config) (draws : ℕ) : Except Stop (Comp 𝕜) :=
  match evaluateAmplitude (tensorOps lib rows cols) rows cols (project sitps cfg)
    (init (tensorOps lib rows cols) empty) with
  | none => .error .undefined
  | some (a, c) => .ok ⟨cfg, some a, some c, draws⟩

/-- The buffer `holes` (mc_energy_grad_evaluator.h:204) after the writes of the solver: a site that is not
written keeps what the previous sample left there. -/
def fillHoles (buf : Site → List ℕ → 𝕜) (hs : List (Site × Tn 𝕜)) : Site → List ℕ → 𝕜 :=
  hs.foldl (fun f p => Function.update f p.1 p.2.elem) buf

/-- One turn of the sampling loop (mc_energy_grad_evaluator.h:205-282): `StepSweep`
(monte_carlo_engine.h:180-193), then `CalEnergyAndHoles` on the component (216-218), then its amplitude is
read (246). `writes`: the solver overwrites the amplitude of the component with every trace it takes
(spin_onehalf_triangle_heisenbergJ1J2_sqrpeps.h:325, 404). The state of the loop is the component and the
buffer `holes`. -/
def nextSample (step : Option (Comp 𝕜) → Option (Comp 𝕜)) (between : ℕ) (solver : Solver 𝕜)
    (writes : Bool) (w : Comp 𝕜) (buf : Site → List ℕ → 𝕜) :
    Except Stop (Sample Site (List ℕ) 𝕜 × Comp 𝕜) :=
  match step^[between] (some w) with
  | none => .error .undefined
  | some w =>
    match w.env with
    | none => .error .undefined
    | some c =>
      match solver w.config c with
      | .error e => .error (.solver e)
      | .ok r =>
        match if writes then r.psi.getLast? else w.amp with
        | none => .error .undefined
        | some a => .ok (⟨w.config, a, r.energy, fillHoles buf r.holes⟩,
            { w with amp := some a, env := some r.caches })

/-- the sampling loop of one rank, `n` turns -/
def samples (next : Comp 𝕜 → (Site → List ℕ → 𝕜) → Except Stop (Sample Site (List ℕ) 𝕜 × Comp 𝕜)) :
    ℕ → Comp 𝕜 → (Site → List ℕ → 𝕜) → Except Stop (List (Sample Site (List ℕ) 𝕜))
  | 0, _, _ => .ok []
  | n + 1, w, buf => do
    let p ← next w buf
    let rest ← samples next n p.2 p.1.holes
    pure (p.1 :: rest)

/-- the part of `Evaluate` one rank does alone (mc_energy_grad_evaluator.h:164-282): its configuration and
the numbers its updater is going to draw go in -/
def rankRun (u : Updater) (phys : ℕ) (ab : Option 𝕜 → ℝ) (solver : Solver 𝕜) (writes : Bool)
    (between n : ℕ) (ξ : ℕ → ℝ) (cfg : Config) : Except Stop (List (Sample Site (List ℕ) 𝕜)) := do
  let w ← refresh lib rows cols sitps cfg 0
  samples (nextSample (sweep (bmpsContractor (tensorOps lib rows cols) rows cols sitps) u phys rows cols
    ab ξ) between solver writes) n w fun _ _ => 0

/-- what `Evaluate` returns (mc_energy_grad_evaluator.h:152-330) on the master, bosonic -/
structure Outcome (𝕜 : Type u) where
  energy : 𝕜
  gradient : Tps Site (List ℕ) 𝕜
  ostarMean : Tps Site (List ℕ) 𝕜

/-- `MCEnergyGradEvaluator::Evaluate` (mc_energy_grad_evaluator.h:152-330), bosonic, on the master, for all
ranks together. A failure on any rank ends the program; which of several is reported is not modelled. -/
def evaluate (u : Updater) (phys : ℕ) (ab : Option 𝕜 → ℝ) (solver : Solver 𝕜) (writes : Bool)
    (between n : ℕ) (ranks : List ((ℕ → ℝ) × Config)) : Except Stop (Outcome 𝕜) := do
  let ss ← ranks.mapM fun p => rankRun lib rows cols sitps u phys ab solver writes between n p.1 p.2
  pure ⟨mcEnergy ss, mcGradient n ss, mcOstarMean n ss⟩

end

end QLPeps.McRun
