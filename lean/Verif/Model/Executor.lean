import Verif.Model.Optimizer

/-!
# Model of the optimization executor

Source: `/repo/include/qlpeps/algorithm/vmc_update/vmc_peps_optimizer_impl.h`, `VMCPEPSOptimizer`
(constructor, `Execute`, `WriteEnergyTrajectoryCsv_`, `DumpData`), `vmc_peps_optimizer.h` (accessors) and
`/repo/include/qlpeps/api/vmc_api.h`, `VmcOptimize`, on the master rank.

The loop is `Optimizer.optimize`; the executor's callbacks are run on its trace of events. The Monte-Carlo
engine is abstract: `warm` is what `WarmUp` does to the state, `tail` what `RefreshWavefunctionComponent`
and `NormalizeStateOrder1` do to it, and the state the engine holds when the `k`-th event of the loop
happens (it changes with every evaluation, also with those of the step selectors) is `eng k`, which is
arbitrary. Directories, the configuration dump and the JSONL log are not modelled, nor are failures of
the file system; the energy is its real part, as in `Model/Optimizer`.
-/

namespace QLPeps.Executor

open QLPeps.Optimizer

/-- one line of the CSV file (vmc_peps_optimizer_impl.h:492) -/
abbrev Row (K : Type*) := ℕ × K × K × K

/-- the members of the executor (vmc_peps_optimizer.h:190-207) and the files it has written:
`csvs` are the successive contents of `energy_trajectory.csv`, `dumps` the pairs (`…final`, `…lowest`) -/
structure Exec (W K : Type*) where
  state : W
  lowest : W
  minEnergy : K
  energies : List K
  errors : List K
  grads : List K
  csvs : List (List (Row K))
  dumps : List (W × W)

section
variable {W G K X : Type*} [Zero K] [One K] [Add K] [Sub K] [Mul K] [LT K] [DecidableLT K]

/-- constructor (vmc_peps_optimizer_impl.h:42-50): `w` is the engine's state after its own
initialization -/
def create (c : Config K) (w : W) : Exec W K where
  state := w
  lowest := w
  minEnergy := c.big
  energies := []
  errors := []
  grads := []
  csvs := []
  dumps := []

/-- the lines of the CSV file (vmc_peps_optimizer_impl.h:487-493) -/
def rows (es errs gs : List K) : List (Row K) :=
  (List.range es.length).map fun i => (i, es.getD i 0, errs.getD i 0, gs.getD i 0)

/-- `WriteEnergyTrajectoryCsv_` (vmc_peps_optimizer_impl.h:475-501) -/
def writeCsv (x : Exec W K) : Exec W K :=
  { x with csvs := x.csvs ++ [rows x.energies x.errors x.grads] }

/-- the three `push_back` of `on_iteration` (vmc_peps_optimizer_impl.h:114-116) -/
def push (x : Exec W K) (e err g : K) : Exec W K :=
  { x with energies := x.energies ++ [e], errors := x.errors ++ [err], grads := x.grads ++ [g] }

/-- the comparison of `on_iteration` (vmc_peps_optimizer_impl.h:118-121); `eng` is the engine's state -/
def compare (x : Exec W K) (eng : W) (e : K) : Exec W K :=
  if e < x.minEnergy then { x with minEnergy := e, lowest := eng } else x

/-- the lambda `on_iteration` (vmc_peps_optimizer_impl.h:111-128) -/
def onIteration (c : Config K) (eng : W) (x : Exec W K) (i : ℕ) (e err g : K) : Exec W K :=
  let x := compare (push x e err g) eng e
  if checkpointDue c i then writeCsv x else x

/-- what the executor does at an event of the loop: `on_iteration`
(vmc_peps_optimizer_impl.h:111-128) and `on_lowest_state_found` (130-135) -/
def callback (c : Config K) (eng : W) (x : Exec W K) : Event W K → Exec W K
  | .iteration i e err g => onIteration c eng x i e err g
  | .lowest w e => { x with lowest := w, minEnergy := e }
  | _ => x

/-- the callbacks of the events `t`, the first of which has number `k` -/
def observe (c : Config K) (eng : ℕ → W) : ℕ → List (Event W K) → Exec W K → Exec W K
  | _, [], x => x
  | k, ev :: t, x => observe c eng (k + 1) t (callback c (eng k) x ev)

/-- `DumpData` (vmc_peps_optimizer_impl.h:514-542); `base` says whether `tps_dump_base_name` is not
empty -/
def dumpData (base : Bool) (x : Exec W K) : Exec W K :=
  writeCsv { x with dumps := if base then x.dumps ++ [(x.state, x.lowest)] else x.dumps }

/-- what `Execute` uses besides the loop's parameters -/
structure Env (W : Type*) where
  warm : W → W
  tail : W → W
  eng : ℕ → W
  /-- `ValidateState_` does not throw (vmc_peps_optimizer_impl.h:566-593) -/
  valid : W → Bool
  base : Bool

/-- how `Execute` ends; the loop may not be over after the given number of passes -/
inductive Ended (W K X : Type*)
  | returned (x : Exec W K) (s : St W K X)
  | threw
  | running

/-- the end of `Execute` (vmc_peps_optimizer_impl.h:187-207) -/
def conclude (c : Config K) (en : Env W) (x : Exec W K) (s : St W K X) : Ended W K X :=
  let r := result s
  if en.valid r.optimizedState then
    .returned (dumpData en.base { observe c en.eng 0 s.trace x with state := en.tail r.optimizedState }) s
  else .threw

/-- `Execute` (vmc_peps_optimizer_impl.h:106-207). The optimizer object is fresh: `ClearUp`
(optimizer_impl.h:1807-1866) at the end of every run puts it back into its first state; `x₀` is what the
loop does not inspect. -/
def execute (c : Config K) (P : Prog W G K X) (en : Env W) (fuel : ℕ) (x₀ : X) (x : Exec W K) :
    Ended W K X :=
  match optimize c P fuel (en.warm x.state) x₀ with
  | .done s => conclude c en { x with state := en.warm x.state } s
  | .threw _ => .threw
  | .running _ => .running

/-- `VmcOptimizeResult` (vmc_api.h:37-45), without the spike statistics -/
structure Out (W K : Type*) where
  state : W
  lowestState : W
  minEnergy : K
  energies : List K
  errors : List K
  grads : List K

/-- the accessors copied by `VmcOptimize` (vmc_api.h:98-106, 115-123;
vmc_peps_optimizer.h:117-127) -/
def Exec.out (x : Exec W K) : Out W K where
  state := x.state
  lowestState := x.lowest
  minEnergy := x.minEnergy
  energies := x.energies
  errors := x.errors
  grads := x.grads

end

end QLPeps.Executor
