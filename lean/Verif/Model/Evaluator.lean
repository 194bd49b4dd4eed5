import Mathlib.Analysis.RCLike.Basic
import Verif.Model.Statistics

/-!
# Model of the energy / gradient evaluators and of the exact-summation measurement

Sources (under `/repo/include/qlpeps/`): `algorithm/vmc_update/exact_summation_energy_evaluator.h`,
`algorithm/vmc_update/exact_summation_measurer.h`, `algorithm/vmc_update/mc_energy_grad_evaluator.h`,
`vmc_basic/statistics_tensor.h`.

`ι` are the lattice sites, `X` the element positions of one site tensor (one type for all sites).
`𝕜` is `ℝ` or `ℂ`. Only the bosonic branch is modelled (the fermionic branch calls the tensor
library for the parity-dressed product). What the contractor and the model solver return for a
configuration (`Sample`) is an input of the model.
-/

namespace QLPeps.Evaluator

open QLPeps.Statistics

variable {ι X Key : Type*} {𝕜 : Type*} [RCLike 𝕜] [DecidableEq ι]

/-- A `SplitIndexTPS`: site, physical component, element. A default-constructed component is zero. -/
abbrev Tps (ι X 𝕜 : Type*) := ι → ℕ → X → 𝕜

/-- What one evaluated configuration delivers: the configuration, `tps_sample.amplitude`, the result
of `CalEnergyAndHoles` and `holes_dag`. -/
structure Sample (ι X 𝕜 : Type*) where
  config : ι → ℕ
  amplitude : 𝕜
  eloc : 𝕜
  holes : ι → X → 𝕜

/-- `for (size_t i = rank; i < n; i += mpi_size)` (exact_summation_energy_evaluator.h:203,
exact_summation_measurer.h:121) -/
def strided (n step : ℕ) (i : ℕ) : List ℕ :=
  if h : i < n ∧ 0 < step then i :: strided n step (i + step) else []
termination_by n - i
decreasing_by omega

/-- `Ostar_weighted_increment` (exact_summation_energy_evaluator.h:217-235, bosonic branch) -/
def increment (s : Sample ι X 𝕜) : Tps ι X 𝕜 := fun r b x =>
  if b = s.config r then s.amplitude * s.holes r x else 0

/-- Accumulators of one rank: `S_O`, `S_EO`, `e_loc_rank`, `weight_rank`. -/
structure Acc (ι X 𝕜 : Type*) where
  so : Tps ι X 𝕜
  seo : Tps ι X 𝕜
  eloc : 𝕜
  weight : ℝ

/-- The zero accumulators (exact_summation_energy_evaluator.h:199-200, 243-244). -/
def Acc.zero : Acc ι X 𝕜 := ⟨fun _ _ _ => 0, fun _ _ _ => 0, 0, 0⟩

/-- One turn of the loop (exact_summation_energy_evaluator.h:203-240) together with its turn of the
loop over the collected weights and energies (245-248), which runs in the same order. -/
noncomputable def Acc.step (a : Acc ι X 𝕜) (s : Sample ι X 𝕜) : Acc ι X 𝕜 :=
  { so := fun r b x => a.so r b x + increment s r b x
    seo := fun r b x => a.seo r b x + star s.eloc * increment s r b x
    eloc := a.eloc + s.eloc * ((‖s.amplitude‖ ^ 2 : ℝ) : 𝕜)
    weight := a.weight + ‖s.amplitude‖ ^ 2 }

/-- What rank `rank` of `size` accumulates over its share of `n` configurations. -/
noncomputable def rankAcc (eval : ℕ → Sample ι X 𝕜) (n size rank : ℕ) : Acc ι X 𝕜 :=
  (strided n size rank).foldl (fun a i => a.step (eval i)) Acc.zero

/-- The two messages rank `rank` sends to the master, in program order, with their tags
(exact_summation_energy_evaluator.h:265-267). -/
def sent (size rank : ℕ) (a : Acc ι X 𝕜) : List (ℕ × Tps ι X 𝕜) :=
  [(rank, a.so), (size + rank, a.seo)]

/-- A blocking receive with a tag: without buffering it completes only if the sender's next message
carries that tag; `none` is a deadlock. -/
def recv (tag : ℕ) : List (ℕ × Tps ι X 𝕜) → Option (Tps ι X 𝕜 × List (ℕ × Tps ι X 𝕜))
  | [] => none
  | (t, p) :: rest => if t = tag then some (p, rest) else none

/-- One turn of the master's receive loop (exact_summation_energy_evaluator.h:256-263) -/
def receiveFrom (size : ℕ) (accs : ℕ → Acc ι X 𝕜) (o : Option (Tps ι X 𝕜 × Tps ι X 𝕜)) (source : ℕ) :
    Option (Tps ι X 𝕜 × Tps ι X 𝕜) :=
  match o with
  | none => none
  | some (so, seo) =>
    match recv source (sent size source (accs source)) with
    | none => none
    | some (a, q) =>
      match recv (size + source) q with
      | none => none
      | some (b, _) => some (fun r k x => so r k x + a r k x, fun r k x => seo r k x + b r k x)

/-- `ExactSumEnergyEvaluatorMPI` (exact_summation_energy_evaluator.h:173-302) on the master rank:
energy and gradient; `none` is a deadlock. `MPI_Reduce` with `MPI_SUM` is the sum over the ranks in
rank order. With one process the receive loop is empty and the reduction is the identity, which is
the `else` branch of lines 286-289. -/
noncomputable def exactSum (eval : ℕ → Sample ι X 𝕜) (n size : ℕ) : Option (𝕜 × Tps ι X 𝕜) :=
  let accs := rankAcc eval n size
  match (List.range' 1 (size - 1)).foldl (receiveFrom size accs) (some ((accs 0).so, (accs 0).seo)) with
  | none => none
  | some (so, seo) =>
    let weightSum := (List.range size).foldl (fun s r => s + (accs r).weight) 0
    let elocSum := (List.range size).foldl (fun s r => s + (accs r).eloc) 0
    let energy := elocSum / ((weightSum : ℝ) : 𝕜)
    some (energy, fun r b x => (seo r b x - star energy * so r b x) * ((1 / weightSum : ℝ) : 𝕜))

/-! ## The Monte-Carlo evaluator -/

/-- `Ostar_tensor` scattered into the component selected by the configuration
(mc_energy_grad_evaluator.h:246, 261-274, bosonic branch) -/
noncomputable def ostar (s : Sample ι X 𝕜) : Tps ι X 𝕜 := fun r b x =>
  if b = s.config r then star (1 / s.amplitude) * s.holes r x else 0

/-- one sample's contribution to `Ostar_sum` and `ELocConj_Ostar_sum`
(mc_energy_grad_evaluator.h:257-284) -/
noncomputable def mcStep (acc : Tps ι X 𝕜 × Tps ι X 𝕜) (s : Sample ι X 𝕜) : Tps ι X 𝕜 × Tps ι X 𝕜 :=
  (fun r b x => acc.1 r b x + ostar s r b x,
   fun r b x => acc.2 r b x + star s.eloc * ostar s r b x)

/-- `Ostar_sum` and `ELocConj_Ostar_sum` of one rank (mc_energy_grad_evaluator.h:178-284) -/
noncomputable def mcSums (samples : List (Sample ι X 𝕜)) : Tps ι X 𝕜 × Tps ι X 𝕜 :=
  samples.foldl mcStep (fun _ _ _ => 0, fun _ _ _ => 0)

/-- the energy: binned mean of the per-rank samples, broadcast to every rank
(mc_energy_grad_evaluator.h:293-294) -/
noncomputable def mcEnergy (ranks : List (List (Sample ι X 𝕜))) : 𝕜 :=
  (meanAndBinnedError (ranks.map (fun l => l.map (·.eloc)))).1

/-- the gradient of one rank before averaging (mc_energy_grad_evaluator.h:297-299) -/
noncomputable def mcRankGrad (energy : 𝕜) (sampleNum : ℕ) (samples : List (Sample ι X 𝕜)) : Tps ι X 𝕜 :=
  fun r b x =>
    (mcSums samples).2 r b x * ((1 / (sampleNum : ℝ) : ℝ) : 𝕜)
      + star (-energy) * ((mcSums samples).1 r b x * ((1 / (sampleNum : ℝ) : ℝ) : 𝕜))

/-- `MPIMeanTensor` on the master (statistics_tensor.h:24-31, 36-78): the sum of the ranks' tensors
times one over the number of ranks. -/
noncomputable def mpiMean (ranks : List (Tps ι X 𝕜)) : Tps ι X 𝕜 := fun r b x =>
  ranks.foldl (fun s t => s + t r b x) 0 * ((1 / (ranks.length : ℝ) : ℝ) : 𝕜)

/-- the gradient `Evaluate` returns on the master (mc_energy_grad_evaluator.h:293-310);
`sampleNum` is `engine_.SamplesPerRank()`. -/
noncomputable def mcGradient (sampleNum : ℕ) (ranks : List (List (Sample ι X 𝕜))) : Tps ι X 𝕜 :=
  mpiMean (ranks.map (mcRankGrad (mcEnergy ranks) sampleNum))

/-- `Ostar_mean` returned for stochastic reconfiguration (mc_energy_grad_evaluator.h:297-298, 306) -/
noncomputable def mcOstarMean (sampleNum : ℕ) (ranks : List (List (Sample ι X 𝕜))) : Tps ι X 𝕜 :=
  mpiMean (ranks.map (fun samples r b x =>
    (mcSums samples).1 r b x * ((1 / (sampleNum : ℝ) : ℝ) : 𝕜)))

/-! ## The exact-summation measurement -/

/-- An `ObservableMap`: the iteration order of the unordered map is the order of the list. -/
abbrev Obs (Key 𝕜 : Type*) := List (Key × List 𝕜)

/-- `accum[j] += weight * values[j]` for all `j` (exact_summation_measurer.h:137-142), `none` when
`accum` is shorter than `values`. -/
noncomputable def addWeighted (w : ℝ) (accum values : List 𝕜) : Option (List 𝕜) :=
  let accum := if accum = [] then List.replicate values.length 0 else accum
  if accum.length < values.length then none
  else some (List.ofFn (fun j : Fin accum.length =>
    accum.get j + (w : 𝕜) * values.getD j 0))

/-- `weighted_obs_rank`: the accumulated values of every key seen so far; `none`: key absent. -/
abbrev Table (Key 𝕜 : Type*) := Key → Option (List 𝕜)

variable [DecidableEq Key]

/-- one key of the accumulation loop (exact_summation_measurer.h:134-143) -/
noncomputable def accKey (w : ℝ) (o : Option (Table Key 𝕜)) (kv : Key × List 𝕜) : Option (Table Key 𝕜) :=
  match o with
  | none => none
  | some t =>
    match addWeighted w ((t kv.1).getD []) kv.2 with
    | none => none
    | some l => some (fun k => if k = kv.1 then some l else t k)

/-- State of one rank: `weight_rank` and `weighted_obs_rank` (`none`: out-of-range access). -/
abbrev MState (Key 𝕜 : Type*) := ℝ × Option (Table Key 𝕜)

/-- one turn of the loop over configurations (exact_summation_measurer.h:121-144); an evaluated
configuration is its amplitude and the observables of the solver -/
noncomputable def measureStep (st : MState Key 𝕜) (s : 𝕜 × Obs Key 𝕜) : MState Key 𝕜 :=
  (st.1 + ‖s.1‖ ^ 2, s.2.foldl (accKey (‖s.1‖ ^ 2)) st.2)

/-- what rank `rank` of `size` accumulates -/
noncomputable def measureRank (eval : ℕ → 𝕜 × Obs Key 𝕜) (n size rank : ℕ) : MState Key 𝕜 :=
  (strided n size rank).foldl (fun st i => measureStep st (eval i)) (0, some (fun _ => none))

/-- Outcomes of the measurement. -/
inductive MOut (Key 𝕜 : Type*) where
  | emptyConfigs
  | nonPositiveWeight
  | undefined
  | ok (result : Table Key 𝕜)

/-- The local buffer of a rank for a key of size `m` (exact_summation_measurer.h:216-221): its
values if it has the key, else zeros. -/
noncomputable def localBuf (t : Table Key 𝕜) (m : ℕ) (k : Key) : List 𝕜 :=
  match t k with
  | some l => l
  | none => List.replicate m 0

/-- `MPI_Reduce` with `MPI_SUM` of `m` elements; `none` when a buffer is shorter than `m`
(exact_summation_measurer.h:223-228). -/
noncomputable def reduceSum (m : ℕ) (bufs : List (List 𝕜)) : Option (List 𝕜) :=
  if bufs.any (fun b => b.length < m) then none
  else some (List.ofFn (fun j : Fin m => bufs.foldl (fun s b => s + b.getD j 0) 0))

/-- the tables of all ranks, `none` if one of them ran out of range -/
def allTables : List (MState Key 𝕜) → Option (List (Table Key 𝕜))
  | [] => some []
  | st :: rest =>
    match st.2, allTables rest with
    | some t, some ts => some (t :: ts)
    | _, _ => none

/-- The reduction of one key of rank 0 (exact_summation_measurer.h:212-238): `some none` is a key rank 0
does not have, `none` an out-of-range access. -/
noncomputable def reducedKey (size : ℕ) (t0 : Table Key 𝕜) (tables : List (Table Key 𝕜)) (k : Key) :
    Option (Option (List 𝕜)) :=
  match t0 k with
  | none => some none
  | some l0 =>
    (if size > 1 then reduceSum l0.length (tables.map (fun t => localBuf t l0.length k))
     else some l0).map some

/-- `ExactSumMeasurerMPI` (exact_summation_measurer.h:93-258) on the master. The keys reduced are
those of rank 0 (lines 160-203); the broadcast of the key list is the identity on the master. -/
noncomputable def exactMeasure (eval : ℕ → 𝕜 × Obs Key 𝕜) (n size : ℕ) : MOut Key 𝕜 :=
  if n = 0 then .emptyConfigs
  else
    let ranks := (List.range size).map (measureRank eval n size)
    match allTables ranks with
    | none => .undefined
    | some [] => .undefined
    | some (t0 :: ts) =>
      let weightSum := ranks.foldl (fun s st => s + st.1) 0
      -- a failed reduction of any key of rank 0 is undefined behaviour of the whole call
      open Classical in
      if ∃ k, reducedKey size t0 (t0 :: ts) k = none then .undefined
      else if ¬ (0 < weightSum) then .nonPositiveWeight
      else .ok (fun k => ((reducedKey size t0 (t0 :: ts) k).getD none).map (fun l => l.map (fun v => v / ((weightSum : ℝ) : 𝕜))))

end QLPeps.Evaluator
