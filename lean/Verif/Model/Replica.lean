import Verif.Model.Configuration
import Verif.Model.Measurer

/-!
# Model of the replica test

Source: `/repo/include/qlpeps/algorithm/vmc_update/monte_carlo_peps_measurer_impl.h:106-170`
(`ReplicaTest`), `:470-485` (`SynchronizeConfiguration_`),
`/repo/include/qlpeps/vmc_basic/configuration.h:513-569` (`MPI_Sendrecv`, `MPI_BCast`).

`n + 1` processes run the same program. The state of the Monte Carlo engine of a process (walker, random
numbers, contractor) is an arbitrary type `Ω` and its sweep an arbitrary function. Messages between two
processes keep their order; a receive takes the first message of its source with its tag. `MPI_Sendrecv`
starts its send and its receive together and returns when both have completed; whether MPI buffers a
message, so that the send completes before the receive, is arbitrary. The barrier of
`EnsureDirectoryExists` is one step. File system errors, the text of the progress bar and the MPI error
codes, which the code ignores, are not modelled.
-/

namespace QLPeps.Replica

open QLPeps.Configuration

/-- What the program is run with: `samples` is `SamplesPerRank()`, `sweep` is `StepSweep` with its
acceptance rates, `conf` is `WavefuncComp().config`, `rebuild` makes a new component for a configuration
(monte_carlo_peps_measurer_impl.h:479-483), `dump` says whether `config_dump_path` is not empty. -/
structure Env (Ω : Type*) where
  samples : ℕ
  rows : ℕ
  cols : ℕ
  sweep : Ω → Ω × List ℝ
  conf : Ω → Conf
  rebuild : Ω → Conf → Ω
  overlap : Conf → Conf → ℝ
  dump : Bool

/-- Where a process is: about to make sweep `k`; inside `MPI_Sendrecv` after it, with what it received; at
the barrier; returned; ended by a division by zero or by an access out of range. -/
inductive Stage where
  | sweep (k : ℕ)
  | wait (k : ℕ) (got : Option (List ℕ))
  | dirs
  | fin
  | crashed (k : ℕ)

/-- The variables of one process. `bars` are the progress reports it printed (number of sweeps, average
rates), `file` is the file of overlaps and `dumped` the configuration file it wrote. -/
structure Rank (Ω : Type*) where
  eng : Ω
  overlaps : List ℝ
  accum : List ℝ
  bars : List (ℕ × List ℝ)
  file : Option (List ℝ)
  dumped : Option Conf
  stage : Stage

variable {Ω : Type*} {n : ℕ}

/-- `dest` (monte_carlo_peps_measurer_impl.h:128) -/
def dest (i : Fin (n + 1)) : Fin (n + 1) := ⟨(i.val + 1) % (n + 1), Nat.mod_lt _ (Nat.succ_pos n)⟩

/-- `source` (monte_carlo_peps_measurer_impl.h:129) -/
def source (i : Fin (n + 1)) : Fin (n + 1) :=
  ⟨(i.val + (n + 1) - 1) % (n + 1), Nat.mod_lt _ (Nat.succ_pos n)⟩

/-- All processes, and the messages (tag, data) on their way from one process to another. -/
structure Sys (Ω : Type*) (n : ℕ) where
  ranks : Fin (n + 1) → Rank Ω
  mail : Fin (n + 1) → Fin (n + 1) → List (ℕ × List ℕ)

/-- the loop condition (monte_carlo_peps_measurer_impl.h:117) -/
def enter (E : Env Ω) (k : ℕ) (r : Rank Ω) : Rank Ω :=
  { r with stage := if k < E.samples then .sweep k else .dirs }

/-- the sweep and the accumulation of the rates (monte_carlo_peps_measurer_impl.h:118-125) -/
noncomputable def swept (E : Env Ω) (k : ℕ) (r : Rank Ω) : Rank Ω :=
  let w := E.sweep r.eng
  { r with eng := w.1, accum := Measurer.accumulate k r.accum w.2 }

/-- the report of the master (monte_carlo_peps_measurer_impl.h:142-155); without the division by zero -/
noncomputable def report (E : Env Ω) (master : Bool) (k : ℕ) (r : Rank Ω) : Rank Ω :=
  if master = true ∧ (k + 1) % (E.samples / 10) = 0 then
    { r with bars := r.bars ++ [(k + 1, r.accum.map fun x => x / ((k + 1 : ℕ) : ℝ))] }
  else r

/-- what follows `MPI_Sendrecv` (configuration.h:534-538, monte_carlo_peps_measurer_impl.h:141-156) -/
noncomputable def conclude (E : Env Ω) (master : Bool) (k : ℕ) (msg : List ℕ) (r : Rank Ω) : Rank Ω :=
  match unflatten msg (empty E.rows E.cols) with
  | none => { r with stage := .crashed k }
  | some c =>
    let r := { r with overlaps := r.overlaps ++ [E.overlap (E.conf r.eng) c] }
    if master = true ∧ E.samples / 10 = 0 then { r with stage := .crashed k }
    else enter E (k + 1) (report E master k r)

/-- after the barrier (monte_carlo_peps_measurer_impl.h:164-168) -/
def write (E : Env Ω) (r : Rank Ω) : Rank Ω :=
  { r with
    file := some r.overlaps
    dumped := if E.dump then some (E.conf r.eng) else r.dumped
    stage := .fin }

/-- the first message with a tag, and the others -/
def takeTag (tag : ℕ) : List (ℕ × List ℕ) → Option (List ℕ × List (ℕ × List ℕ))
  | [] => none
  | m :: l => if m.1 = tag then some (m.2, l) else (takeTag tag l).map fun r => (r.1, m :: r.2)

/-- Rank 0 is the master. -/
def isMaster (i : Fin (n + 1)) : Bool := i = 0

/-- process `i` makes its sweep and starts `MPI_Sendrecv` (monte_carlo_peps_measurer_impl.h:118-138,
configuration.h:521-532): the tag of its message is the rank of the receiver -/
noncomputable def post (E : Env Ω) (s : Sys Ω n) (i : Fin (n + 1)) (k : ℕ) : Sys Ω n :=
  let r := swept E k (s.ranks i)
  match flatten (E.conf r.eng) with
  | none => { s with ranks := Function.update s.ranks i { r with stage := .crashed k } }
  | some msg =>
    { ranks := Function.update s.ranks i { r with stage := .wait k none }
      mail := Function.update s.mail i
        (Function.update (s.mail i) (dest i) (s.mail i (dest i) ++ [((dest i).val, msg)])) }

/-- process `i` receives: the tag it waits for is its own rank -/
def receive (s : Sys Ω n) (i : Fin (n + 1)) (k : ℕ) (msg : List ℕ) (rest : List (ℕ × List ℕ)) :
    Sys Ω n where
  ranks := Function.update s.ranks i { s.ranks i with stage := .wait k (some msg) }
  mail := Function.update s.mail (source i) (Function.update (s.mail (source i)) i rest)

/-- A move of the program. `buf i k` says whether MPI buffers the message of process `i` after sweep `k`;
otherwise its send completes only when nothing it sent is on its way any more. -/
inductive Move (E : Env Ω) (buf : Fin (n + 1) → ℕ → Bool) : Sys Ω n → Sys Ω n → Prop
  | post (s : Sys Ω n) (i : Fin (n + 1)) (k : ℕ) (h : (s.ranks i).stage = .sweep k) :
    Move E buf s (post E s i k)
  | receive (s : Sys Ω n) (i : Fin (n + 1)) (k : ℕ) (msg : List ℕ) (rest : List (ℕ × List ℕ))
      (h : (s.ranks i).stage = .wait k none)
      (hm : takeTag i.val (s.mail (source i) i) = some (msg, rest)) :
    Move E buf s (receive s i k msg rest)
  | conclude (s : Sys Ω n) (i : Fin (n + 1)) (k : ℕ) (msg : List ℕ)
      (h : (s.ranks i).stage = .wait k (some msg))
      (hd : buf i k = true ∨ s.mail i (dest i) = []) :
    Move E buf s { s with ranks := Function.update s.ranks i (conclude E (isMaster i) k msg (s.ranks i)) }
  | barrier (s : Sys Ω n) (h : ∀ i, (s.ranks i).stage = .dirs) :
    Move E buf s { s with ranks := fun i => write E (s.ranks i) }

/-- `SynchronizeConfiguration_` (monte_carlo_peps_measurer_impl.h:470-485, configuration.h:542-569):
the engine of each process after it; `none` is an access out of range -/
def synchronize (E : Env Ω) (engs : Fin (n + 1) → Ω) (i : Fin (n + 1)) : Option Ω :=
  (flatten (E.conf (engs 0))).bind fun msg =>
    if i = 0 then some (engs 0)
    else (unflatten msg (E.conf (engs i))).map (E.rebuild (engs i))

/-- the loop is entered on all processes, with the engines they have after `SynchronizeConfiguration_`
(monte_carlo_peps_measurer_impl.h:113-117) -/
def start (E : Env Ω) (w : Fin (n + 1) → Ω) : Sys Ω n where
  ranks := fun i => enter E 0 ⟨w i, [], [], [], none, none, .dirs⟩
  mail := fun _ _ => []

/-- All processes have returned. -/
def Sys.done (s : Sys Ω n) : Prop := ∀ i, (s.ranks i).stage = .fin

end QLPeps.Replica
