import Verif.Model.Observables
import Verif.Model.PsiConsistency
import Mathlib.Data.Fintype.Basic

/-!
# Model of the Monte Carlo measurer on several processes

Source: `/repo/include/qlpeps/algorithm/vmc_update/monte_carlo_peps_measurer_impl.h` (`MCPEPSMeasurer`:
`Execute`, `Measure_`, `MeasureSample_`, `GatherStatistic_`, `DumpData`, `DumpMetadata_`),
`monte_carlo_peps_measurer.h` (`SampleData`, `DumpPsiSamples_`), `model_measurement_solver.h`
(`EvaluatePsiSummary`), `/repo/include/qlpeps/base/mpi_signal_guard.h` (`MPISignalGuard`).

`n + 1` processes run the same program; the state of the Monte Carlo engine of a process (walker, random
numbers, contractor) is an arbitrary type `Ω`, its sweep and the measurement solver are arbitrary
functions. Between two collective MPI operations a process runs on its own; it then *posts* its
operation and waits. A collective completes when all processes have posted one of the same kind; if they
posted different kinds nobody can go on. A signal may arrive at any process at any time. The content of
files, the progress bar and errors of the file system are not modelled; the particle-number histogram is
part of the observables (`Model/Observables`).
-/

namespace QLPeps.Measurer

open QLPeps.Observables

/-- Where a process is: about to make check number `k` of the sampling loop
(monte_carlo_peps_measurer_impl.h:500-502), to gather the statistics of the listed keys (:249-256), to
pass the barriers of the directories made before the metadata (:271-278), to count the samples (:384),
to pass the barriers of the directories made after it (:354-355), finished. -/
inductive Phase where
  | loop (k : ℕ)
  | gather (keys : List String)
  | dirs (left : ℕ)
  | count
  | files (left : ℕ)
  | fin
  deriving DecidableEq

/-- What the program is run with. `samples` is `SamplesPerRank()`; `sweep` is `StepSweep`, with its
acceptance rates; `observe` is `EvaluateObservables`, with the summary the solver stores by
`SetLastPsiSummary` if it does; `order` is the iteration order of the registry, a function of the keys in
order of insertion; `dirs` and `files` are the numbers of directories made before and after the
metadata (the configuration directory is optional, monte_carlo_peps_measurer_impl.h:269, so is the
particle-number file, :362). -/
structure Env (Ω 𝕜 : Type*) where
  samples : ℕ
  sweep : Ω → Ω × List ℝ
  observe : Ω → Ω × ObsMap 𝕜 × Option (Psi.Summary 𝕜)
  order : List String → List String
  dirs : ℕ
  files : ℕ
  warnEnabled : Bool
  warnMasterOnly : Bool
  warnThreshold : ℝ
  warnMax : ℕ

/-- The members of one process (monte_carlo_peps_measurer.h:350-401, `registry_stats_`; `cache` is the
solver's `last_psi_*`, model_measurement_solver.h:172-175; `warned` the function-local static
`warn_count`, monte_carlo_peps_measurer_impl.h:211; `printed` the warnings on its standard error;
`total` the `samples_collected_total` of its metadata). -/
structure Rank (Ω 𝕜 : Type*) where
  eng : Ω
  samples : List (ObsMap 𝕜)
  psi : List (Psi.Summary 𝕜)
  cache : Option (Psi.Summary 𝕜)
  accum : List ℝ
  warned : ℕ
  printed : List (Psi.Summary 𝕜)
  reg : List (String × Option (List 𝕜))
  total : Option ℕ
  phase : Phase

variable {Ω 𝕜 : Type*} [RCLike 𝕜]

/-- `EvaluatePsiSummary` (model_measurement_solver.h:103-121): the stored summary, consumed; otherwise
that of `BuildPsiList`, which no solver overrides, so that it is empty (:124-128). -/
noncomputable def psiSummary (cache : Option (Psi.Summary 𝕜)) : Psi.Summary 𝕜 :=
  match cache with
  | some s => s
  | none => Psi.summary []

/-- What a solver stores for the amplitudes of a sample: the summary, if it calls `SetLastPsiSummary`
(square_nnn_model_measurement_solver.h:200-201, heisenberg_square_pbc.h:206-207,
square_spin_onehalf_j1j2_xxz_pbc.h:213-214, transverse_field_ising_square_pbc.h:214-215; false for
transverse_field_ising_square_obc.h:67-134 and spin_onehalf_triangle_heisenbergJ1J2_sqrpeps.h:73-262, which
collect the amplitudes and drop them). -/
noncomputable def storedSummary (stores : Bool) (amplitudes : List 𝕜) : Option (Psi.Summary 𝕜) :=
  if stores then some (Psi.summary amplitudes) else none

/-- accept-rate accumulation (monte_carlo_peps_measurer_impl.h:511-517) -/
noncomputable def accumulate (k : ℕ) (accum rates : List ℝ) : List ℝ :=
  if k = 0 then rates else List.zipWith (· + ·) accum rates

/-- whether a summary is reported on standard error (monte_carlo_peps_measurer_impl.h:216-220) -/
def warns (E : Env Ω 𝕜) (master : Bool) (warned : ℕ) (s : Psi.Summary 𝕜) : Prop :=
  E.warnEnabled = true ∧ (E.warnMasterOnly = false ∨ master = true) ∧ E.warnThreshold < s.relErr ∧
    warned < E.warnMax

open Classical in
/-- the tail of `MeasureSample_` (monte_carlo_peps_measurer_impl.h:209-234) -/
noncomputable def record (E : Env Ω 𝕜) (master : Bool) (s : Rank Ω 𝕜) : Rank Ω 𝕜 :=
  let p := psiSummary s.cache
  let s := { s with cache := none, psi := s.psi ++ [p] }
  if warns E master s.warned p then
    { s with warned := s.warned + 1, printed := s.printed ++ [p] }
  else s

/-- one pass of the sampling loop after the check (monte_carlo_peps_measurer_impl.h:509-522): sweep,
accept rates, `MeasureSample_` (:191-238, `PushBackRegistry`) -/
noncomputable def body (E : Env Ω 𝕜) (master : Bool) (k : ℕ) (s : Rank Ω 𝕜) : Rank Ω 𝕜 :=
  let w := E.sweep s.eng
  let o := E.observe w.1
  record E master
    { s with
      eng := o.1
      accum := accumulate k s.accum w.2
      samples := s.samples ++ [o.2.1]
      cache := o.2.2.orElse (fun _ => s.cache) }

/-- the keys of a registry in order of insertion (`PushBackRegistry`, monte_carlo_peps_measurer.h:361-366) -/
def keysOf (samples : List (ObsMap 𝕜)) : List String :=
  (samples.map (fun o => o.map Prod.fst)).flatten.reverse.dedup.reverse

/-- the next barrier before the metadata, or the metadata -/
def toDirs (left : ℕ) : Phase := if left = 0 then .count else .dirs left
/-- the next barrier after the metadata, or the end -/
def toFiles (left : ℕ) : Phase := if left = 0 then .fin else .files left
/-- the next key of the registry, or the dump -/
def toGather (keys : List String) (dirs : ℕ) : Phase := if keys = [] then toDirs dirs else .gather keys

/-- after the loop: `GatherStatistic_` computes the local registry and starts with its first key
(monte_carlo_peps_measurer_impl.h:534, 247-249) -/
def leave (E : Env Ω 𝕜) (s : Rank Ω 𝕜) : Rank Ω 𝕜 :=
  { s with phase := toGather (E.order (keysOf s.samples)) E.dirs }

/-- the loop condition (monte_carlo_peps_measurer_impl.h:500) -/
def enter (E : Env Ω 𝕜) (k : ℕ) (s : Rank Ω 𝕜) : Rank Ω 𝕜 :=
  if k < E.samples then { s with phase := .loop k } else leave E s

/-- `Measure_` is called (monte_carlo_peps_measurer_impl.h:165, 495-500): nothing of an earlier run is
cleared except the local accumulator -/
def begin (E : Env Ω 𝕜) (s : Rank Ω 𝕜) : Rank Ω 𝕜 := enter E 0 { s with accum := [], total := none }

/-- A collective operation, with what the process contributes: `EmergencyStopRequested`
(mpi_signal_guard.h:22-27), `GatherStatisticListOfData`, `EnsureDirectoryExists`
(monte_carlo_engine.h:265), `MPI_Reduce` of the metadata, and none any more. -/
inductive Req (𝕜 : Type*) where
  | stop (flag : Bool)
  | gather (key : String) (mean : Option (List 𝕜))
  | barrier
  | reduce (count : ℕ)
  | exit

/-- Which operations match: MPI sees the operation, not the key it is made for. -/
def Req.kind : Req 𝕜 → ℕ
  | .stop _ => 0
  | .gather _ _ => 1
  | .barrier => 2
  | .reduce _ => 3
  | .exit => 4

/-- the operation a process posts next; `flag` is its signal flag at that time (an empty list of keys never
waits, see `toGather`) -/
noncomputable def request (flag : Bool) (s : Rank Ω 𝕜) : Req 𝕜 :=
  match s.phase with
  | .loop _ => .stop flag
  | .gather (k :: _) => .gather k (rankMean s.samples k)
  | .gather [] => .barrier
  | .dirs _ => .barrier
  | .count => .reduce s.psi.length
  | .files _ => .barrier
  | .fin => .exit

/-- `GatherStatistic_` for one key: `registry_stats_[key] = …`; the other processes get empty lists
(monte_carlo_peps_measurer_impl.h:250-255) -/
noncomputable def stored (master : Bool) (means : List (Option (List 𝕜))) : Option (List 𝕜) :=
  if master then ((means.mapM id).bind Statistics.gatherList).map Prod.fst else some []

/-- the flag one process contributed -/
def Req.flag : Req 𝕜 → Bool
  | .stop b => b
  | _ => false
/-- the mean one process contributed -/
def Req.mean : Req 𝕜 → Option (List 𝕜)
  | .gather _ m => m
  | _ => none
/-- the count one process contributed -/
def Req.count : Req 𝕜 → ℕ
  | .reduce c => c
  | _ => 0

/-- what a process does when the collective completes; `qs` are the contributions by rank -/
noncomputable def resume (E : Env Ω 𝕜) (master : Bool) (qs : List (Req 𝕜)) (s : Rank Ω 𝕜) : Rank Ω 𝕜 :=
  match s.phase with
  | .loop k =>
    if qs.any Req.flag then leave E s else enter E (k + 1) (body E master k s)
  | .gather (k :: ks) =>
    { s with reg := put s.reg k (stored master (qs.map Req.mean)), phase := toGather ks E.dirs }
  | .gather [] => s
  | .dirs j => { s with phase := toDirs (j - 1) }
  | .count =>
    { s with total := if master then some (qs.map Req.count).sum else none, phase := toFiles E.files }
  | .files j => { s with phase := toFiles (j - 1) }
  | .fin => s

/-! ## All processes -/

/-- All processes: their members, their signal flags (`g_emergency_stop_flag_`, mpi_signal_guard.h:58)
and the operation each has posted, if it waits. -/
structure Sys (Ω 𝕜 : Type*) (n : ℕ) where
  ranks : Fin (n + 1) → Rank Ω 𝕜
  flags : Fin (n + 1) → Bool
  posted : Fin (n + 1) → Option (Req 𝕜)

variable {n : ℕ}

/-- Rank 0 is the master. -/
def isMaster (i : Fin (n + 1)) : Bool := i = 0

/-- A move of the program: process `i` runs to its next collective operation and posts it, reading its
signal flag there; or all have posted operations of one kind and all go on. -/
inductive Move (E : Env Ω 𝕜) : Sys Ω 𝕜 n → Sys Ω 𝕜 n → Prop
  | arrive (s : Sys Ω 𝕜 n) (i : Fin (n + 1)) (h : s.posted i = none) (hf : (s.ranks i).phase ≠ .fin) :
    Move E s { s with posted := Function.update s.posted i (some (request (s.flags i) (s.ranks i))) }
  | complete (s : Sys Ω 𝕜 n) (q : Fin (n + 1) → Req 𝕜) (hq : ∀ i, s.posted i = some (q i))
      (hk : ∀ i, (q i).kind = (q 0).kind) :
    Move E s { s with
      ranks := fun i => resume E (isMaster i) (List.ofFn q) (s.ranks i)
      posted := fun _ => none }

/-- SIGINT or SIGTERM reaches process `i` (`SignalHandler`, mpi_signal_guard.h:47-54). -/
inductive Signal : Sys Ω 𝕜 n → Sys Ω 𝕜 n → Prop
  | signal (s : Sys Ω 𝕜 n) (i : Fin (n + 1)) (h : s.flags i = false) :
    Signal s { s with flags := Function.update s.flags i true }

/-- The program moves or a signal arrives. -/
def Step (E : Env Ω 𝕜) (s t : Sys Ω 𝕜 n) : Prop := Move E s t ∨ Signal s t

/-- `Measure_` is called on all processes (after `WarmUp`), with the members and signal flags they
have. -/
def start (E : Env Ω 𝕜) (ranks : Fin (n + 1) → Rank Ω 𝕜) (flags : Fin (n + 1) → Bool) : Sys Ω 𝕜 n where
  ranks := fun i => begin E (ranks i)
  flags := flags
  posted := fun _ => none

/-- All processes have returned from `Execute`. -/
def Sys.done (s : Sys Ω 𝕜 n) : Prop := ∀ i, (s.ranks i).phase = .fin

/-- The acceptance rates a process prints (monte_carlo_peps_measurer_impl.h:525-533). -/
noncomputable def printedRates (E : Env Ω 𝕜) (s : Rank Ω 𝕜) : List ℝ :=
  s.accum.map (fun r => r / (E.samples : ℝ))

end QLPeps.Measurer
