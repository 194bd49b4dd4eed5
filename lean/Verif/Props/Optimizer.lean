import Verif.Lemmas.OptimizerTerm
import Mathlib.Analysis.Real.Sqrt

/-!
# Properties C27-C30, C66: the optimization loop

The theorems are about `optimize c P fuel w₀ x₀`, the loop of `IterativeOptimize` started on a fresh
optimizer with initial state `w₀`. `P` is arbitrary: every evaluator, every update rule, every callback.
`fuel` bounds the number of passes the model looks at; nothing bounds it.
-/

set_option linter.unusedSectionVars false

namespace QLPeps.Optimizer

open QLPeps.Spike Spec

section
variable {W G K X : Type*} [Zero K] [One K] [Add K] [Sub K] [Mul K] [LT K] [DecidableLT K]

/-! ## C27 -/

/-- **C27.** When the optimization returns, the recorded energies are the energies of the accepted
evaluations, one for each of the iterations `0, 1, …, n-1` in order; there are as many errors,
gradient norms and learning rates, `n` is the reported number of iterations and at most
`max_iterations`; no recorded energy is below the reported minimum; the reported minimum and lowest
state belong to one accepted evaluation (or nothing was below `DBL_MAX` and they are still the initial
values); the final energy is the last recorded one (`DBL_MAX` if none). Only transitivity and
irreflexivity of `<` are used, so NaN energies are covered. -/
theorem C27_result [Std.Irrefl (α := K) (· < ·)] [IsTrans K (· < ·)] (c : Config K)
    (P : Prog W G K X) (fuel : ℕ) (w₀ : W) (x₀ : X) (s : St W K X)
    (h : optimize c P fuel w₀ x₀ = .done s) :
    let r := result s
    r.energies = (accepted s.trace).map Prod.snd ∧
    acceptedIters s.trace = List.range r.totalIterations ∧
    r.energies.length = r.totalIterations ∧ r.errors.length = r.totalIterations ∧
    r.gradNorms.length = r.totalIterations ∧ r.lrs.length = r.totalIterations ∧
    r.totalIterations ≤ c.maxIter ∧
    (∀ e ∈ r.energies, ¬ e < r.minEnergy) ∧
    ((r.lowestState, r.minEnergy) ∈ accepted s.trace ∨
      (r.minEnergy = c.big ∧ r.lowestState = w₀)) ∧
    r.finalEnergy = r.energies.getLastD c.big := by
  obtain ⟨n, hn, hb⟩ := book_done c P fuel w₀ x₀ s h
  have ht : (result s).totalIterations = n := hb.tot
  dsimp only
  rw [ht]
  exact ⟨hb.hE, hb.hIt, hb.lenE, hb.lenErr, hb.lenG, hb.lenLr, hn, hb.min, hb.low, hb.last⟩

/-- **C27.** Every accepted step records the state and energy of the evaluation made just before it, in
the same iteration. -/
theorem C27_accepted_is_evaluated (c : Config K) (P : Prog W G K X) (fuel : ℕ) (w₀ : W) (x₀ : X)
    (s : St W K X)
    (h : optimize c P fuel w₀ x₀ = .done s ∨ optimize c P fuel w₀ x₀ = .running s)
    (pre post : List (Event W K)) (i : ℕ) (w : W) (e : K)
    (ht : s.trace = pre ++ .accept i w e :: post) : lastEval pre = some (i, w, e) :=
  ((traced_run c P fuel w₀ x₀ s h).1 pre _ post ht).1

/-- **C27.** Every call of `on_lowest_state_found` reports the state and energy of the step just
accepted. -/
theorem C27_lowest_callback (c : Config K) (P : Prog W G K X) (fuel : ℕ) (w₀ : W) (x₀ : X)
    (s : St W K X)
    (h : optimize c P fuel w₀ x₀ = .done s ∨ optimize c P fuel w₀ x₀ = .running s)
    (pre post : List (Event W K)) (w : W) (e : K)
    (ht : s.trace = pre ++ .lowest w e :: post) : (accepted pre).getLast? = some (w, e) :=
  (traced_run c P fuel w₀ x₀ s h).1 pre _ post ht

end

/-- **C27.** With ordered energies and at least one energy below `DBL_MAX`, the reported minimum is the
minimum of the recorded energies and the lowest state is an accepted state with that energy. -/
theorem C27_min_is_minimum {W G K X : Type*} [Zero K] [One K] [Add K] [Sub K] [Mul K] [LinearOrder K]
    (c : Config K) (P : Prog W G K X) (fuel : ℕ) (w₀ : W) (x₀ : X) (s : St W K X)
    (h : optimize c P fuel w₀ x₀ = .done s) (hb : ∃ e ∈ (result s).energies, e < c.big) :
    (result s).minEnergy ∈ (result s).energies ∧
    (∀ e ∈ (result s).energies, (result s).minEnergy ≤ e) ∧
    ((result s).lowestState, (result s).minEnergy) ∈ accepted s.trace := by
  obtain ⟨h1, _, _, _, _, _, _, h8, h9, _⟩ := C27_result c P fuel w₀ x₀ s h
  have hm : ((result s).lowestState, (result s).minEnergy) ∈ accepted s.trace := by
    rcases h9 with h9 | h9
    · exact h9
    · obtain ⟨e, he, hlt⟩ := hb
      exact absurd (h9.1 ▸ hlt) (h8 e he)
  refine ⟨?_, fun e he => not_lt.1 (h8 e he), hm⟩
  rw [h1]
  exact List.mem_map.2 ⟨_, hm, rfl⟩

/-! A concrete run: energies 9, 7, 8 from states 0, 1, 2. -/

/-- toy parameters -/
def toyCfg (m : ℕ) : Config ℤ where
  spike := ⟨true, 2, 100, 100, 10, 1, true, 10⟩
  isSR := false
  isMinSR := false
  maxIter := m
  gradTol := 0
  energyTol := 0
  patience := 5
  ckptEvery := 1
  ckptPath := true
  alpha := 1
  big := 1000
  fabs := abs
  std := fun t => t.var

/-- toy program: state `n` has energy `E[n]`, the update goes to `n + 1` -/
def toyProg (E : List ℤ) : Prog ℕ ℤ ℤ Unit where
  eval _ w := (⟨E.getD w 0, 1, 1⟩, ())
  gnorm g := g
  update _ _ _ w _ := some ⟨w + 1, 1, 5, 1, ()⟩
  onIterStart x := x
  onResample x := x
  onRollback x := x
  onAccept x := x
  stopCb _ _ _ _ := false

example : ∃ s, optimize (toyCfg 3) (toyProg [9, 7, 8]) 10 0 () = .done s ∧
    (result s).energies = [9, 7, 8] ∧ (result s).minEnergy = 7 ∧ (result s).lowestState = 1 ∧
    (result s).finalEnergy = 8 ∧ (result s).totalIterations = 3 ∧ (result s).optimizedState = 3 ∧
    checkpoints s.trace = [(1, 2), (2, 3)] := by
  refine ⟨_, rfl, ?_⟩
  decide +kernel

/-! ## C29 -/

section
variable {W G K X : Type*} [Zero K] [One K] [Add K] [Sub K] [Mul K] [LT K] [DecidableLT K]

/-- **C29.** In every execution, finished or not, every evaluation receives exactly the state that
the events before it prescribe: the initial state first, the updated state after an accepted step, the
same state after a resample, the state before the last accepted update after a rollback (the same state
if that update has already been undone). The returned state is the one these rules give at the end. -/
theorem C29_states (c : Config K) (P : Prog W G K X) (fuel : ℕ) (w₀ : W) (x₀ : X) (s : St W K X)
    (h : optimize c P fuel w₀ x₀ = .done s ∨ optimize c P fuel w₀ x₀ = .running s) :
    (∀ pre i w e err post, s.trace = pre ++ .eval i w e err :: post → w = (replay w₀ pre).1) ∧
    s.current = (replay w₀ s.trace).1 := by
  obtain ⟨h1, h2⟩ := traced_run c P fuel w₀ x₀ s h
  exact ⟨fun pre i w e err post ht => h1 pre _ post ht, h2.symm⟩

/-- **C29.** A resample leaves the state untouched. -/
theorem C29_resample (c : Config K) (P : Prog W G K X) (fuel : ℕ) (w₀ : W) (x₀ : X) (s : St W K X)
    (h : optimize c P fuel w₀ x₀ = .done s ∨ optimize c P fuel w₀ x₀ = .running s)
    (pre post : List (Event W K)) (i j a : ℕ) (w w' : W) (e e' err err' : K) (sig : Signal)
    (ht : s.trace = pre ++ [.eval i w e err, .spike i a sig .resample, .eval j w' e' err'] ++ post) :
    w' = w := by
  obtain ⟨h1, _⟩ := C29_states c P fuel w₀ x₀ s h
  have e1 := h1 pre i w e err (.spike i a sig .resample :: .eval j w' e' err' :: post)
    (by rw [ht]; simp)
  have e2 := h1 (pre ++ [.eval i w e err, .spike i a sig .resample]) j w' e' err' post
    (by rw [ht]; simp)
  rw [e1, e2]
  simp [replay, replayStep]

/-- **C29.** A rollback directly after an accepted update (no other rollback in between) evaluates
again the state that update was applied to; `low` is the notification of a new lowest energy, if any. -/
theorem C29_rollback (c : Config K) (P : Prog W G K X) (fuel : ℕ) (w₀ : W) (x₀ : X) (s : St W K X)
    (h : optimize c P fuel w₀ x₀ = .done s ∨ optimize c P fuel w₀ x₀ = .running s)
    (pre low mid post : List (Event W K)) (i j k a : ℕ) (w w' : W) (next : W) (e e' err' : K) (sig : Signal)
    (hlow : low = [] ∨ low = [.lowest w e])
    (hmid : ∀ ev ∈ mid, (∀ n, ev ≠ .advance n) ∧ ∀ i a sig, ev ≠ .spike i a sig .rollback)
    (ht : s.trace = pre ++ [.accept i w e] ++ low ++ [.advance next] ++ mid ++
      [.spike j a sig .rollback, .eval k w' e' err'] ++ post) : w' = w := by
  obtain ⟨h1, _⟩ := C29_states c P fuel w₀ x₀ s h
  have hcur : w = (replay w₀ pre).1 :=
    ((traced_run c P fuel w₀ x₀ s h).1 pre (.accept i w e)
      (low ++ [.advance next] ++ mid ++ [.spike j a sig .rollback, .eval k w' e' err'] ++ post)
      (by rw [ht]; simp)).2
  have e2 := h1 (pre ++ [.accept i w e] ++ low ++ [.advance next] ++ mid ++ [.spike j a sig .rollback])
    k w' e' err' post (by rw [ht]; simp)
  have hback : (replay w₀ (pre ++ [.accept i w e] ++ low ++ [.advance next] ++ mid)).2 = some w := by
    clear e2 ht h1
    induction mid using List.reverseRecOn with
    | nil =>
      rw [List.append_nil, hcur]
      rcases hlow with rfl | rfl
      · rw [List.append_nil, replay_append, replay_append]; rfl
      · rw [replay_append, replay_append, replay_append]; rfl
    | append_singleton mid ev ih =>
      rw [← List.append_assoc, replay_append]
      have hev := hmid ev (by simp)
      have ih' := ih (fun ev' h' => hmid ev' (by simp [h']))
      cases ev with
      | eval => exact ih'
      | spike i' a' sig' act =>
        cases act with
        | rollback => exact absurd rfl (hev.2 i' a' sig')
        | accept => exact ih'
        | resample => exact ih'
        | acceptWithWarning => exact ih'
      | accept => exact ih'
      | lowest => exact ih'
      | iteration => exact ih'
      | advance n => exact absurd rfl (hev.1 n)
      | checkpoint => exact ih'
  rw [e2, replay_append]
  show (replay w₀ (pre ++ [.accept i w e] ++ low ++ [.advance next] ++ mid)).2.getD _ = w
  rw [hback]
  rfl

/-- **C29.** Only a configuration with rollback enabled rolls back, and never in the first iteration. -/
theorem C29_rollback_only_if_enabled (c : Config K) (P : Prog W G K X) (fuel : ℕ) (w₀ : W) (x₀ : X)
    (s : St W K X)
    (h : optimize c P fuel w₀ x₀ = .done s ∨ optimize c P fuel w₀ x₀ = .running s)
    (i a : ℕ) (sig : Signal) (ht : .spike i a sig .rollback ∈ s.trace) :
    c.spike.enableRollback = true ∧ 0 < i := by
  obtain ⟨pre, post, hp⟩ := List.append_of_mem ht
  exact (traced_run c P fuel w₀ x₀ s h).1 pre _ post hp

/-- **C29.** Never more than the configured number of resamples in a row: a resample is only logged
below the retry limit. -/
theorem C29_resample_below_limit (c : Config K) (P : Prog W G K X) (fuel : ℕ) (w₀ : W) (x₀ : X)
    (s : St W K X)
    (h : optimize c P fuel w₀ x₀ = .done s ∨ optimize c P fuel w₀ x₀ = .running s)
    (i a : ℕ) (sig : Signal) (ht : .spike i a sig .resample ∈ s.trace) : a < c.spike.maxRetries := by
  obtain ⟨pre, post, hp⟩ := List.append_of_mem ht
  exact (traced_run c P fuel w₀ x₀ s h).1 pre _ post hp

end

/-- a program whose second-to-last energy spikes: rollback to the previous state -/
def spikyProg : Prog ℕ ℤ ℤ ℕ where
  eval x _ := (⟨[5, 1, 3, 100, 2].getD x 0, 1, [1, 1, 1, 1, 1, 1].getD x 0⟩, x + 1)
  gnorm g := g
  update x _ _ w _ := some ⟨w + 1, 1, 5, 1, x⟩
  onIterStart x := x
  onResample x := x
  onRollback x := x
  onAccept x := x
  stopCb _ _ _ _ := false

/-- parameters with a crude but positive spread, for the example below -/
def spikyCfg : Config ℤ := { toyCfg 4 with alpha := 1, std := fun _ => 1 }

example : ∃ s, optimize spikyCfg spikyProg 10 0 0 = .done s ∧
    (s.trace.filterMap fun | .eval _ w e _ => some (w, e) | _ => none) =
      [(0, 5), (1, 1), (2, 3), (3, 100), (2, 2)] ∧
    (result s).optimizedState = 3 := by
  refine ⟨_, rfl, ?_⟩
  decide +kernel

/-! ## C30 -/

section
variable {W G K X : Type*} [Zero K] [One K] [Add K] [Sub K] [Mul K] [LinearOrder K]

/-- **C30.** The loop stops by a criterion exactly when one of the three documented criteria holds:
none holds after any earlier iteration; `converged` is reported iff one holds after the last
iteration; otherwise the iteration limit was reached or the user's callback asked to stop. The first
iteration never stops (`StopAt` asks for `0 < j`); the plateau criterion is that none of the last
`plateau_patience` iterations brought a new strict minimum. -/
theorem C30_stops_exactly (c : Config K) (P : Prog W G K X) (fuel : ℕ) (w₀ : W) (x₀ : X)
    (s : St W K X) (h : optimize c P fuel w₀ x₀ = .done s) :
    let r := result s
    (∀ j, j + 1 < r.totalIterations → ¬ StopAt c r.energies r.gradNorms j) ∧
    (r.converged = true ↔
      0 < r.totalIterations ∧ StopAt c r.energies r.gradNorms (r.totalIterations - 1)) ∧
    (r.converged = false → r.totalIterations = c.maxIter ∨
      ∃ x e err, r.energies.getLast? = some e ∧ r.errors.getLast? = some err ∧
        P.stopCb x (r.totalIterations - 1) e err = true) := by
  have hh := halted_done c P fuel w₀ x₀ s h
  refine ⟨hh.before, hh.conv, ?_⟩
  intro hc
  rcases hh.ended with h1 | h1 | ⟨x, err, e, h2, h3, h4⟩
  · exact absurd h1 (by rw [show s.converged = false from hc]; simp)
  · exact .inl h1
  · exact .inr ⟨x, e, err, h2, h3, h4⟩

end

example : ∃ s, optimize { toyCfg 10 with patience := 2, energyTol := 0 } (toyProg [9, 7, 8, 9, 5]) 20 0 ()
      = .done s ∧ (result s).converged = true ∧ (result s).totalIterations = 4 := by
  refine ⟨_, rfl, ?_⟩
  decide +kernel

/-! ## C66: checkpoints -/

section
variable {W G K X : Type*} [Zero K] [One K] [Add K] [Sub K] [Mul K] [LT K] [DecidableLT K]

/-- the checkpoints written before iteration `n` are those of the due iterations -/
def Ckpt (c : Config K) (n : ℕ) (s : St W K X) : Prop :=
  (checkpoints s.trace).map Prod.fst = (List.range n).filter (checkpointDue c)

theorem Ckpt.retry {c : Config K} {s s' : St W K X} (P : Prog W G K X) (h : Ckpt c s.iter s)
    (hp : pass c P s = .retry s') : Ckpt c s'.iter s' := by
  obtain ⟨ws, x, sig, hws, ⟨_, rfl⟩ | ⟨_, _, rfl⟩⟩ := pass_retry c P s s' hp
  · show (checkpoints (passTrace P s ws ++ _)).map Prod.fst = _
    rw [checkpoints_append, checkpoints_passTrace P s hws]
    have h' : (checkpoints s.trace).map Prod.fst = (List.range s.iter).filter (checkpointDue c) := h
    rw [show checkpoints [_] = ([] : List (ℕ × W)) from rfl, List.append_nil]
    exact h'
  · show (checkpoints (passTrace P s ws ++ _)).map Prod.fst = _
    rw [checkpoints_append, checkpoints_passTrace P s hws]
    have h' : (checkpoints s.trace).map Prod.fst = (List.range s.iter).filter (checkpointDue c) := h
    rw [show checkpoints [_] = ([] : List (ℕ × W)) from rfl, List.append_nil]
    exact h'

theorem Ckpt.next {c : Config K} {s s' : St W K X} (P : Prog W G K X) (h : Ckpt c s.iter s)
    (hp : pass c P s = .next s') : Ckpt c (s.iter + 1) s' := by
  obtain ⟨ws, x, u, hws, _, hf⟩ := pass_accept c P s _ hp (.inl ⟨_, rfl⟩)
  obtain ⟨_, _, h3, _⟩ := record_trace c (entering P s x ws) (P.eval s.x s.current).1
    (P.gnorm (P.eval s.x s.current).1.grad) u
  rcases finish_cases c P (Optimizer.entering P s x ws) (P.eval s.x s.current).1
    (P.gnorm (P.eval s.x s.current).1.grad) u with ⟨_, h2'⟩ | ⟨_, _, h2'⟩ | ⟨_, _, h2'⟩
  · rw [h2'] at hf; simp at hf
  · rw [h2'] at hf; simp at hf
  · rw [h2'] at hf
    simp only [Pass.next.injEq] at hf
    subst hf
    unfold Ckpt
    dsimp only
    rw [checkpoints_append]
    have e1 : checkpoints (advanced c P (entering P s x ws) (P.eval s.x s.current).1
        (P.gnorm (P.eval s.x s.current).1.grad) u).trace = checkpoints s.trace := by
      show checkpoints (_ ++ [_, _]) = _
      rw [checkpoints_append, h3]
      show checkpoints (passTrace P s ws) ++ _ = _
      rw [checkpoints_passTrace P s hws]
      simp [checkpoints]
    rw [e1, List.map_append, show (checkpoints s.trace).map Prod.fst = _ from h, List.range_succ,
      List.filter_append]
    congr 1
    show _ = List.filter (checkpointDue c) [s.iter]
    have : (entering P s x ws).iter = s.iter := rfl
    rw [this]
    by_cases hd : checkpointDue c s.iter = true
    · simp [hd, checkpoints]
    · simp [hd, checkpoints]

theorem Ckpt.stop {c : Config K} {s s' : St W K X} (P : Prog W G K X) (h : Ckpt c s.iter s)
    (hp : pass c P s = .stop s') : Ckpt c s.iter s' ∧ s'.total = s.iter + 1 := by
  obtain ⟨ws, x, u, hws, _, hf⟩ := pass_accept c P s _ hp (.inr ⟨_, rfl⟩)
  obtain ⟨_, _, h3, _⟩ := record_trace c (entering P s x ws) (P.eval s.x s.current).1
    (P.gnorm (P.eval s.x s.current).1.grad) u
  have e0 : checkpoints (entering P s x ws).trace = checkpoints s.trace :=
    checkpoints_passTrace P s hws
  rcases finish_cases c P (Optimizer.entering P s x ws) (P.eval s.x s.current).1
    (P.gnorm (P.eval s.x s.current).1.grad) u with ⟨_, h2'⟩ | ⟨_, _, h2'⟩ | ⟨_, _, h2'⟩
  · rw [h2'] at hf
    simp only [Pass.stop.injEq] at hf
    subst hf
    refine ⟨?_, rfl⟩
    unfold Ckpt
    dsimp only
    rw [h3, e0]; exact h
  · rw [h2'] at hf
    simp only [Pass.stop.injEq] at hf
    subst hf
    refine ⟨?_, rfl⟩
    unfold Ckpt
    show (checkpoints (_ ++ [_, _])).map Prod.fst = _
    rw [checkpoints_append, h3, e0]
    have h' : (checkpoints s.trace).map Prod.fst = (List.range s.iter).filter (checkpointDue c) := h
    rw [show checkpoints [_, _] = ([] : List (ℕ × W)) from rfl, List.append_nil]
    exact h'
  · rw [h2'] at hf; simp at hf

/-- **C66.** A checkpoint is written after iteration `i` exactly when `i > 0`, checkpointing is enabled
and `every_n_steps` divides `i`, in order; if the loop ends early (criterion or callback) the last
iteration writes none. -/
theorem C66_schedule [Std.Irrefl (α := K) (· < ·)] [IsTrans K (· < ·)] (c : Config K)
    (P : Prog W G K X) (fuel : ℕ) (w₀ : W) (x₀ : X) (s : St W K X)
    (h : optimize c P fuel w₀ x₀ = .done s) :
    ∃ m, (m = (result s).totalIterations ∧ m = c.maxIter ∨ m + 1 = (result s).totalIterations) ∧
      (checkpoints s.trace).map Prod.fst = (List.range m).filter (fun i =>
        decide ((0 < c.ckptEvery ∧ c.ckptPath = true) ∧ 0 < i ∧ c.ckptEvery ∣ i)) := by
  have key := (run_induct c P (fun s => Ckpt c s.iter s ∧ Book c w₀ s.iter s ∧ s.iter ≤ c.maxIter)
    (fun s => ∃ m, (m = s.total ∧ m = c.maxIter ∨ m + 1 = s.total) ∧ Ckpt c m s) ?_ ?_ ?_ ?_ fuel _
    ⟨(rfl : Ckpt c 0 (init c P w₀ x₀)), Book.init c P w₀ x₀, Nat.zero_le _⟩).1 s h
  · obtain ⟨m, hm, hc⟩ := key
    refine ⟨m, hm, ?_⟩
    rw [show (checkpoints s.trace).map Prod.fst = _ from hc]
    congr 1
    funext i
    unfold checkpointDue
    simp [Nat.dvd_iff_mod_eq_zero]
  · rintro s s' ⟨h1, h2, h3⟩ hlt hp
    refine ⟨h1.retry P hp, h2.retry P hp, ?_⟩
    obtain ⟨ws, x, sig, hws, ⟨_, rfl⟩ | ⟨_, _, rfl⟩⟩ := pass_retry c P s s' hp <;> exact h3
  · rintro s s' ⟨h1, h2, h3⟩ hlt hp
    obtain ⟨hi, hb⟩ := h2.next P hp
    have e : (startIter P s').iter = s.iter + 1 := by show s'.iter + 1 = _; rw [hi]
    refine ⟨?_, ?_, by omega⟩
    · rw [e]; exact show Ckpt c (s.iter + 1) s' from h1.next P hp
    · rw [e]; exact hb.congr rfl rfl rfl rfl rfl rfl rfl rfl rfl rfl
  · rintro s s' ⟨h1, h2, h3⟩ hlt hp
    obtain ⟨h4, h5⟩ := h1.stop P hp
    exact ⟨s.iter, .inr h5.symm, h4⟩
  · rintro s ⟨h1, h2, h3⟩ hle
    exact ⟨s.iter, .inl ⟨h2.tot.symm, by omega⟩, h1⟩

/-- **C66.** The saved state is the updated state, i.e. the state the next iteration evaluates: resuming
from a checkpoint continues where the run went on. -/
theorem C66_saved_state_is_next_evaluated (c : Config K) (P : Prog W G K X) (fuel : ℕ) (w₀ : W)
    (x₀ : X) (s : St W K X)
    (h : optimize c P fuel w₀ x₀ = .done s ∨ optimize c P fuel w₀ x₀ = .running s)
    (pre post : List (Event W K)) (i j : ℕ) (w w' : W) (e err : K)
    (ht : s.trace = pre ++ .checkpoint i w :: .eval j w' e err :: post) : w' = w := by
  obtain ⟨h1, _⟩ := traced_run c P fuel w₀ x₀ s h
  have e1 := (h1 pre _ _ ht).1
  have e2 := h1 (pre ++ [.checkpoint i w]) (.eval j w' e err) post (by rw [ht]; simp)
  rw [e1]
  have : w' = (replay w₀ (pre ++ [.checkpoint i w])).1 := e2
  rw [this, replay_append]
  rfl

end
end QLPeps.Optimizer
