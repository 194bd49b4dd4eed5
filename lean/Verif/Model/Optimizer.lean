import Verif.Model.Spike

/-!
# Model of the optimization loop

Source: `/repo/include/qlpeps/optimizer/optimizer_impl.h`, `Optimizer::IterativeOptimize`
(lines 103-923) and `ShouldStop` (1764-1804), on the master rank.

What is abstract:
* `W` is the wave function, `G` the gradient, `K` the type `double` (only `<`, `+`, `-`, `*` are used,
  with no laws, so NaN and infinities are allowed unless a theorem asks for more); the energy is its
  real part, the only part the loop looks at;
* `X` is everything the loop does not inspect: the random numbers of the evaluator, the momentum,
  AdaGrad, Adam and L-BFGS memories, the scheduler and step-selector states;
* `Prog` collects the user's evaluator and callbacks and the algorithm dispatch (551-679). An
  exception raised there is `none`. Extra evaluator calls of the step selectors and of the line search
  happen inside `update`.

Console and JSONL output, timers and the other MPI ranks are not modelled.
-/

namespace QLPeps.Optimizer

open QLPeps.Spike

/-- What an observer sees, in order. -/
inductive Event (W K : Type*)
  /-- main-path call of the energy evaluator (optimizer_impl.h:236) -/
  | eval (iter : ℕ) (state : W) (energy error : K)
  /-- `LogSpikeEvent_` (optimizer_impl.h:1956-1974) -/
  | spike (iter attempt : ℕ) (signal : Signal) (action : Action)
  /-- the evaluation enters the trajectories (optimizer_impl.h:777-785) -/
  | accept (iter : ℕ) (state : W) (energy : K)
  /-- `on_lowest_state_found` (optimizer_impl.h:795-797) -/
  | lowest (state : W) (energy : K)
  /-- `current_state = updated_state` (optimizer_impl.h:858) -/
  | advance (next : W)
  /-- `on_iteration` (optimizer_impl.h:884-886) -/
  | iteration (iter : ℕ) (energy error gradNorm : K)
  /-- `SaveCheckpoint_` (optimizer_impl.h:895-897) -/
  | checkpoint (iter : ℕ) (state : W)

/-- result of the evaluator (optimizer_impl.h:236) -/
structure Eval (G K : Type*) where
  energy : K
  grad : G
  error : K

/-- result of the algorithm dispatch (optimizer_impl.h:545-679) -/
structure Upd (W K X : Type*) where
  state : W
  lr : K
  srIters : ℕ
  ngradNorm : K
  x : X

/-- The parts of the parameters that the loop reads (optimizer_params.h). `big` is
`numeric_limits<double>::max()`, `fabs` is `std::abs`, `std` is `EMATracker::Std`, `alpha` the
trackers' common `alpha_`. -/
structure Config (K : Type*) where
  spike : Params K
  isSR : Bool
  isMinSR : Bool
  maxIter : ℕ
  gradTol : K
  energyTol : K
  patience : ℕ
  ckptEvery : ℕ
  ckptPath : Bool
  alpha : K
  big : K
  fabs : K → K
  std : Ema K → K

/-- The callables the loop uses. -/
structure Prog (W G K X : Type*) where
  /-- evaluator, followed by the L-BFGS history update (optimizer_impl.h:236-249) -/
  eval : X → W → Eval G K × X
  /-- `sqrt(NormSquare())` (optimizer_impl.h:240-242) -/
  gnorm : G → K
  /-- learning rate, clipping, step selector and algorithm dispatch (optimizer_impl.h:300-679);
  the third argument is the energy handed to the learning-rate scheduler -/
  update : X → ℕ → K → W → Eval G K → Option (Upd W K X)
  /-- start of an iteration (optimizer_impl.h:210-217) -/
  onIterStart : X → X
  /-- `restore_lbfgs_iter_start_snapshot` (optimizer_impl.h:219-230) -/
  onResample : X → X
  /-- `RestoreLBFGSSnapshot_` (optimizer_impl.h:278-281) -/
  onRollback : X → X
  /-- L-BFGS snapshot and anchor (optimizer_impl.h:842-852) -/
  onAccept : X → X
  /-- `callback.should_stop` (optimizer_impl.h:888-892) -/
  stopCb : X → ℕ → K → K → Bool

/-- The loop's variables (optimizer_impl.h:112-138, 203-214) and the rollback members. -/
structure St (W K X : Type*) where
  iter : ℕ
  attempts : ℕ
  current : W
  x : X
  emaE : Ema K
  emaErr : Ema K
  emaG : Ema K
  emaN : Ema K
  hasPrev : Bool
  prev : W
  lowestState : W
  lowestEnergy : K
  lastAccepted : K
  previousEnergy : K
  noImprove : ℕ
  energies : List K
  errors : List K
  grads : List K
  lrs : List K
  total : ℕ
  converged : Bool
  trace : List (Event W K)

/-- how one pass through the body of `while (!step_accepted)` ends -/
inductive Pass (S : Type*)
  | retry (s : S)
  | next (s : S)
  | stop (s : S)
  | throw (s : S)

section
variable {W G K X : Type*} [Zero K] [One K] [Add K] [Sub K] [Mul K] [LT K] [DecidableLT K]

/-- variables on entry to the loop (optimizer_impl.h:112-138, 203-214), fresh optimizer object -/
def init (c : Config K) (P : Prog W G K X) (w₀ : W) (x₀ : X) : St W K X where
  iter := 0
  attempts := 0
  current := w₀
  x := P.onIterStart x₀
  emaE := Ema.new
  emaErr := Ema.new
  emaG := Ema.new
  emaN := Ema.new
  hasPrev := false
  prev := w₀
  lowestState := w₀
  lowestEnergy := c.big
  lastAccepted := c.big
  previousEnergy := c.big
  noImprove := 0
  energies := []
  errors := []
  grads := []
  lrs := []
  total := 0
  converged := false
  trace := []

/-- reaction to a spike action: `Sum.inl` is `continue` (optimizer_impl.h:262-296, 706-728, 742-762) -/
def react (P : Prog W G K X) (s : St W K X) (sig : Signal) : Action → St W K X ⊕ St W K X
  | .resample => .inl { s with
      x := P.onResample s.x
      attempts := s.attempts + 1
      trace := s.trace ++ [.spike s.iter s.attempts sig .resample] }
  | .rollback => .inl { s with
      current := if s.hasPrev then s.prev else s.current
      hasPrev := false
      x := if s.hasPrev then P.onRollback s.x else s.x
      attempts := 0
      trace := s.trace ++ [.spike s.iter s.attempts sig .rollback] }
  | .acceptWithWarning => .inr { s with
      trace := s.trace ++ [.spike s.iter s.attempts sig .acceptWithWarning] }
  | .accept => .inr s

/-- block B (optimizer_impl.h:253-297) -/
def stageB (c : Config K) (P : Prog W G K X) (s : St W K X) (error gn : K) : St W K X ⊕ St W K X :=
  if c.spike.enableAutoRecover = true ∧ 0 < s.iter then
    let sig := detectS1S2 c.spike s.emaErr s.emaG error gn
    react P s sig (decideAction c.spike s.hasPrev sig s.attempts s.iter)
  else .inr s

/-- the iteration count handed to `DetectS3_` (optimizer_impl.h:697) -/
def s3Iters (c : Config K) (srIters : ℕ) : ℕ := if c.isMinSR then 2 ^ 64 - 1 else srIters

/-- block D (optimizer_impl.h:691-729) -/
def stageD (c : Config K) (P : Prog W G K X) (s : St W K X) (u : Upd W K X) : St W K X ⊕ St W K X :=
  if (c.isSR = true ∨ c.isMinSR = true) ∧ c.spike.enableAutoRecover = true ∧ 0 < s.iter then
    let sig := detectS3 c.spike s.emaN u.ngradNorm (s3Iters c u.srIters)
    react P s sig (decideAction c.spike s.hasPrev sig s.attempts s.iter)
  else .inr s

/-- block D2 (optimizer_impl.h:733-763) -/
def stageD2 (c : Config K) (P : Prog W G K X) (s : St W K X) (energy : K) : St W K X ⊕ St W K X :=
  if c.spike.enableRollback = true ∧ 0 < s.iter then
    let sig := detectS4 c.spike c.std s.emaE energy
    react P s sig (if sig = .none then .accept else .rollback)
  else .inr s

/-- `ShouldStop` (optimizer_impl.h:1764-1795) -/
def shouldStop (c : Config K) (current previous gradNorm : K) (noImprove : ℕ) : Bool :=
  decide (gradNorm < c.gradTol ∨ c.fabs (current - previous) < c.energyTol ∨ c.patience ≤ noImprove)

/-- blocks E and the bookkeeping of F (optimizer_impl.h:766-801): trackers, trajectories, lowest state -/
def record (c : Config K) (s : St W K X) (ev : Eval G K) (gn : K) (u : Upd W K X) : St W K X :=
  let improved : Bool := decide (ev.energy < s.lowestEnergy)
  { s with
    x := u.x
    emaE := s.emaE.update c.alpha ev.energy
    emaErr := s.emaErr.update c.alpha ev.error
    emaG := s.emaG.update c.alpha gn
    emaN := if c.isSR || c.isMinSR then s.emaN.update c.alpha u.ngradNorm else s.emaN
    energies := s.energies ++ [ev.energy]
    lrs := s.lrs ++ [u.lr]
    errors := s.errors ++ [ev.error]
    grads := s.grads ++ [gn]
    lastAccepted := ev.energy
    total := s.iter + 1
    lowestEnergy := if improved then ev.energy else s.lowestEnergy
    lowestState := if improved then s.current else s.lowestState
    noImprove := if improved then 0 else s.noImprove + 1
    trace := s.trace ++ [.accept s.iter s.current ev.energy] ++
      (if improved then [.lowest s.current ev.energy] else []) }

/-- `CheckpointParams::IsEnabled` and the schedule (optimizer_params.h:282, optimizer_impl.h:895) -/
def checkpointDue (c : Config K) (iter : ℕ) : Bool :=
  decide ((0 < c.ckptEvery ∧ c.ckptPath = true) ∧ 0 < iter ∧ iter % c.ckptEvery = 0)

/-- the rest of F and G (optimizer_impl.h:803-899) -/
def finish (c : Config K) (P : Prog W G K X) (s : St W K X) (ev : Eval G K) (gn : K)
    (u : Upd W K X) : Pass (St W K X) :=
  let s := record c s ev gn u
  if 0 < s.iter ∧ shouldStop c ev.energy s.previousEnergy gn s.noImprove = true then
    .stop { s with converged := true }
  else
    let s := { s with
      previousEnergy := ev.energy
      prev := if c.spike.enableRollback then s.current else s.prev
      hasPrev := if c.spike.enableRollback then true else s.hasPrev
      x := P.onAccept s.x
      current := u.state
      trace := s.trace ++ [.advance u.state, .iteration s.iter ev.energy ev.error gn] }
    if P.stopCb s.x s.iter ev.energy ev.error then .stop s
    else if checkpointDue c s.iter then
      .next { s with trace := s.trace ++ [.checkpoint s.iter s.current] }
    else .next s

/-- block A (optimizer_impl.h:234-249) -/
def evaluated (P : Prog W G K X) (s : St W K X) : St W K X :=
  let r := P.eval s.x s.current
  { s with x := r.2, trace := s.trace ++ [.eval s.iter s.current r.1.energy r.1.error] }

/-- blocks D, D2, E-G (optimizer_impl.h:691-899) -/
def afterUpdate (c : Config K) (P : Prog W G K X) (s : St W K X) (ev : Eval G K) (u : Upd W K X) :
    Pass (St W K X) :=
  match stageD c P s u with
  | .inl s' => .retry s'
  | .inr s₁ =>
    match stageD2 c P s₁ ev.energy with
    | .inl s' => .retry s'
    | .inr s₂ => finish c P s₂ ev (P.gnorm ev.grad) u

/-- the energy handed to the scheduler (optimizer_impl.h:302) -/
def schedulerEnergy (s : St W K X) (ev : Eval G K) : K :=
  if s.iter = 0 then ev.energy else s.previousEnergy

/-- one pass through `while (!step_accepted)` (optimizer_impl.h:233-900) -/
def pass (c : Config K) (P : Prog W G K X) (s : St W K X) : Pass (St W K X) :=
  let ev := (P.eval s.x s.current).1
  match stageB c P (evaluated P s) ev.error (P.gnorm ev.grad) with
  | .inl s' => .retry s'
  | .inr s₁ =>
    match P.update s₁.x s₁.iter (schedulerEnergy s₁ ev) s₁.current ev with
    | none => .throw s₁
    | some u => afterUpdate c P { s₁ with x := u.x } ev u

/-- next iteration of the `for` loop (optimizer_impl.h:203-217) -/
def startIter (P : Prog W G K X) (s : St W K X) : St W K X :=
  { s with iter := s.iter + 1, attempts := 0, x := P.onIterStart s.x }

/-- how the optimization ends; `running` means that the given number of passes was not enough -/
inductive Outcome (S : Type*)
  | done (s : S)
  | threw (s : S)
  | running (s : S)

/-- the two nested loops (optimizer_impl.h:205-901), at most `fuel` passes -/
def run (c : Config K) (P : Prog W G K X) : ℕ → St W K X → Outcome (St W K X)
  | 0, s => if s.iter < c.maxIter then .running s else .done s
  | fuel + 1, s =>
    if s.iter < c.maxIter then
      match pass c P s with
      | .retry s' => run c P fuel s'
      | .next s' => run c P fuel (startIter P s')
      | .stop s' => .done s'
      | .throw s' => .threw s'
    else .done s

/-- `OptimizationResult` (optimizer_impl.h:903-908) -/
structure Result (W K : Type*) where
  optimizedState : W
  lowestState : W
  finalEnergy : K
  minEnergy : K
  converged : Bool
  totalIterations : ℕ
  energies : List K
  errors : List K
  gradNorms : List K
  lrs : List K

/-- the assignments after the loop (optimizer_impl.h:903-908) -/
def result (s : St W K X) : Result W K where
  optimizedState := s.current
  lowestState := s.lowestState
  finalEnergy := s.lastAccepted
  minEnergy := s.lowestEnergy
  converged := s.converged
  totalIterations := s.total
  energies := s.energies
  errors := s.errors
  gradNorms := s.grads
  lrs := s.lrs

/-- `IterativeOptimize` on a fresh optimizer, with at most `fuel` main-path evaluations -/
def optimize (c : Config K) (P : Prog W G K X) (fuel : ℕ) (w₀ : W) (x₀ : X) : Outcome (St W K X) :=
  run c P fuel (init c P w₀ x₀)

end

end QLPeps.Optimizer
