import Verif.Lemmas.Optimizer

/-! # Invariants of the optimization loop -/

set_option linter.unusedSectionVars false

namespace QLPeps.Optimizer

open QLPeps.Spike Spec

section
variable {W G K X : Type*} [Zero K] [One K] [Add K] [Sub K] [Mul K] [LT K] [DecidableLT K]

theorem accepted_append (a b : List (Event W K)) : accepted (a ++ b) = accepted a ++ accepted b := by
  simp [accepted]

theorem acceptedIters_append (a b : List (Event W K)) :
    acceptedIters (a ++ b) = acceptedIters a ++ acceptedIters b := by
  simp [acceptedIters]

theorem checkpoints_append (a b : List (Event W K)) :
    checkpoints (a ++ b) = checkpoints a ++ checkpoints b := by
  simp [checkpoints]

theorem evals_append (a b : List (Event W K)) : evals (a ++ b) = evals a + evals b := by
  simp [evals]

theorem accepted_warns {ws : List (Event W K)} {i : ℕ} (h : Warns i ws) : accepted ws = [] :=
  filterMap_warns _ (fun _ _ _ => rfl) h

theorem acceptedIters_warns {ws : List (Event W K)} {i : ℕ} (h : Warns i ws) :
    acceptedIters ws = [] := filterMap_warns _ (fun _ _ _ => rfl) h

theorem checkpoints_warns {ws : List (Event W K)} {i : ℕ} (h : Warns i ws) :
    checkpoints ws = [] := filterMap_warns _ (fun _ _ _ => rfl) h

theorem evals_warns {ws : List (Event W K)} {i : ℕ} (h : Warns i ws) : evals ws = 0 := by
  unfold evals
  rw [List.countP_eq_zero]
  intro e he
  obtain ⟨a, sig, rfl⟩ := h e he
  simp

theorem accepted_passTrace (P : Prog W G K X) (s : St W K X) {ws : List (Event W K)}
    (h : Warns s.iter ws) : accepted (passTrace P s ws) = accepted s.trace := by
  have : passTrace P s ws = s.trace ++ ([.eval s.iter s.current (P.eval s.x s.current).1.energy
    (P.eval s.x s.current).1.error] ++ ws) := by simp [passTrace]
  rw [this, accepted_append, accepted_append, accepted_warns h]
  simp [accepted]

theorem acceptedIters_passTrace (P : Prog W G K X) (s : St W K X) {ws : List (Event W K)}
    (h : Warns s.iter ws) : acceptedIters (passTrace P s ws) = acceptedIters s.trace := by
  have : passTrace P s ws = s.trace ++ ([.eval s.iter s.current (P.eval s.x s.current).1.energy
    (P.eval s.x s.current).1.error] ++ ws) := by simp [passTrace]
  rw [this, acceptedIters_append, acceptedIters_append, acceptedIters_warns h]
  simp [acceptedIters]

theorem checkpoints_passTrace (P : Prog W G K X) (s : St W K X) {ws : List (Event W K)}
    (h : Warns s.iter ws) : checkpoints (passTrace P s ws) = checkpoints s.trace := by
  have : passTrace P s ws = s.trace ++ ([.eval s.iter s.current (P.eval s.x s.current).1.energy
    (P.eval s.x s.current).1.error] ++ ws) := by simp [passTrace]
  rw [this, checkpoints_append, checkpoints_append, checkpoints_warns h]
  simp [checkpoints]

theorem evals_passTrace (P : Prog W G K X) (s : St W K X) {ws : List (Event W K)}
    (h : Warns s.iter ws) : evals (passTrace P s ws) = evals s.trace + 1 := by
  have : passTrace P s ws = s.trace ++ ([.eval s.iter s.current (P.eval s.x s.current).1.energy
    (P.eval s.x s.current).1.error] ++ ws) := by simp [passTrace]
  rw [this, evals_append, evals_append, evals_warns h]
  simp [evals]

/-- the events added by `record` -/
theorem record_trace (c : Config K) (s : St W K X) (ev : Eval G K) (gn : K) (u : Upd W K X) :
    accepted (record c s ev gn u).trace = accepted s.trace ++ [(s.current, ev.energy)] ∧
    acceptedIters (record c s ev gn u).trace = acceptedIters s.trace ++ [s.iter] ∧
    checkpoints (record c s ev gn u).trace = checkpoints s.trace ∧
    evals (record c s ev gn u).trace = evals s.trace := by
  unfold record
  dsimp only
  simp only [accepted_append, acceptedIters_append, checkpoints_append, evals_append]
  by_cases h : ev.energy < s.lowestEnergy
  · simp [h, accepted, acceptedIters, checkpoints, evals]
  · simp [h, accepted, acceptedIters, checkpoints, evals]

/-! ## Trajectory bookkeeping -/

/-- trajectory invariant at the start of a pass (`n` steps accepted) -/
structure Book (c : Config K) (w₀ : W) (n : ℕ) (s : St W K X) : Prop where
  hE : s.energies = (accepted s.trace).map Prod.snd
  hIt : acceptedIters s.trace = List.range n
  lenE : s.energies.length = n
  lenErr : s.errors.length = n
  lenG : s.grads.length = n
  lenLr : s.lrs.length = n
  tot : s.total = n
  low : (s.lowestState, s.lowestEnergy) ∈ accepted s.trace ∨
    (s.lowestEnergy = c.big ∧ s.lowestState = w₀)
  big : s.lowestEnergy < c.big ∨ s.lowestEnergy = c.big
  min : ∀ e ∈ s.energies, ¬ e < s.lowestEnergy
  last : s.lastAccepted = s.energies.getLastD c.big

variable [Std.Irrefl (α := K) (· < ·)] [IsTrans K (· < ·)]

theorem Book.record {c : Config K} {w₀ : W} {s : St W K X} (h : Book c w₀ s.iter s) (ev : Eval G K)
    (gn : K) (u : Upd W K X) : Book c w₀ (s.iter + 1) (record c s ev gn u) := by
  obtain ⟨ht1, ht2, _, _⟩ := record_trace c s ev gn u
  refine ⟨?_, ?_, ?_, ?_, ?_, ?_, ?_, ?_, ?_, ?_, ?_⟩
  · rw [ht1, List.map_append, ← h.hE]; rfl
  · rw [ht2, h.hIt, List.range_succ]
  · show (s.energies ++ [ev.energy]).length = _; simp [h.lenE]
  · show (s.errors ++ [ev.error]).length = _; simp [h.lenErr]
  · show (s.grads ++ [gn]).length = _; simp [h.lenG]
  · show (s.lrs ++ [u.lr]).length = _; simp [h.lenLr]
  · rfl
  · rw [ht1]
    unfold Optimizer.record
    dsimp only
    by_cases hi : ev.energy < s.lowestEnergy
    · left; simp [hi]
    · rcases h.low with hl | hl
      · left; simp only [hi]; simp [hl]
      · right; simp only [hi, decide_false, Bool.false_eq_true, if_false]; exact hl
  · unfold Optimizer.record
    dsimp only
    by_cases hi : ev.energy < s.lowestEnergy
    · simp only [hi, decide_true, if_true]
      rcases h.big with hb | hb
      · exact .inl (_root_.trans hi hb)
      · exact .inl (hb ▸ hi)
    · simpa [hi] using h.big
  · unfold Optimizer.record
    dsimp only
    intro e he
    by_cases hi : ev.energy < s.lowestEnergy
    · simp only [hi, decide_true, if_true]
      rcases List.mem_append.1 he with he | he
      · intro hlt
        exact h.min e he (_root_.trans hlt hi)
      · simp only [List.mem_singleton] at he
        subst he
        exact Std.Irrefl.irrefl (r := (· < ·)) _
    · simp only [hi, decide_false]
      rcases List.mem_append.1 he with he | he
      · exact h.min e he
      · simp only [List.mem_singleton] at he
        subst he; exact hi
  · show ev.energy = (s.energies ++ [ev.energy]).getLastD c.big
    simp

/-- changes that do not touch the books -/
theorem Book.congr {c : Config K} {w₀ : W} {n : ℕ} {s s' : St W K X} (h : Book c w₀ n s)
    (h1 : s'.energies = s.energies) (h2 : s'.errors = s.errors) (h3 : s'.grads = s.grads)
    (h4 : s'.lrs = s.lrs) (h5 : s'.total = s.total) (h6 : s'.lowestState = s.lowestState)
    (h7 : s'.lowestEnergy = s.lowestEnergy) (h8 : s'.lastAccepted = s.lastAccepted)
    (h9 : accepted s'.trace = accepted s.trace)
    (h10 : acceptedIters s'.trace = acceptedIters s.trace) : Book c w₀ n s' where
  hE := by rw [h1, h9]; exact h.hE
  hIt := by rw [h10]; exact h.hIt
  lenE := by rw [h1]; exact h.lenE
  lenErr := by rw [h2]; exact h.lenErr
  lenG := by rw [h3]; exact h.lenG
  lenLr := by rw [h4]; exact h.lenLr
  tot := by rw [h5]; exact h.tot
  low := by rw [h6, h7, h9]; exact h.low
  big := by rw [h7]; exact h.big
  min := by rw [h1, h7]; exact h.min
  last := by rw [h1, h8]; exact h.last

theorem Book.init (c : Config K) (P : Prog W G K X) (w₀ : W) (x₀ : X) :
    Book c w₀ 0 (init c P w₀ x₀) where
  hE := rfl
  hIt := rfl
  lenE := rfl
  lenErr := rfl
  lenG := rfl
  lenLr := rfl
  tot := rfl
  low := .inr ⟨rfl, rfl⟩
  big := .inr rfl
  min := by intro e he; simp [Optimizer.init] at he
  last := rfl

theorem Book.entering {c : Config K} {w₀ : W} {s : St W K X} (h : Book c w₀ s.iter s)
    (P : Prog W G K X) (x : X) {ws : List (Event W K)} (hws : Warns s.iter ws) :
    Book c w₀ (entering P s x ws).iter (entering P s x ws) :=
  h.congr rfl rfl rfl rfl rfl rfl rfl rfl (accepted_passTrace P s hws) (acceptedIters_passTrace P s hws)

theorem Book.retry {c : Config K} {w₀ : W} {s s' : St W K X} (h : Book c w₀ s.iter s)
    (P : Prog W G K X) (hp : pass c P s = .retry s') : Book c w₀ s'.iter s' := by
  obtain ⟨ws, x, sig, hws, ⟨_, rfl⟩ | ⟨_, _, rfl⟩⟩ := pass_retry c P s s' hp
  · refine h.congr rfl rfl rfl rfl rfl rfl rfl rfl ?_ ?_
    · show accepted (passTrace P s ws ++ _) = _
      rw [accepted_append, accepted_passTrace P s hws]; simp [accepted]
    · show acceptedIters (passTrace P s ws ++ _) = _
      rw [acceptedIters_append, acceptedIters_passTrace P s hws]; simp [acceptedIters]
  · refine h.congr rfl rfl rfl rfl rfl rfl rfl rfl ?_ ?_
    · show accepted (passTrace P s ws ++ _) = _
      rw [accepted_append, accepted_passTrace P s hws]; simp [accepted]
    · show acceptedIters (passTrace P s ws ++ _) = _
      rw [acceptedIters_append, acceptedIters_passTrace P s hws]; simp [acceptedIters]

theorem Book.advanced {c : Config K} {w₀ : W} {s : St W K X} (h : Book c w₀ s.iter s)
    (P : Prog W G K X) (ev : Eval G K) (gn : K) (u : Upd W K X) :
    Book c w₀ (s.iter + 1) (advanced c P s ev gn u) := by
  refine (h.record ev gn u).congr rfl rfl rfl rfl rfl rfl rfl rfl ?_ ?_
  · show accepted ((Optimizer.record c s ev gn u).trace ++
      [.advance u.state, .iteration s.iter ev.energy ev.error gn]) = _
    rw [accepted_append]; simp [accepted]
  · show acceptedIters ((Optimizer.record c s ev gn u).trace ++
      [.advance u.state, .iteration s.iter ev.energy ev.error gn]) = _
    rw [acceptedIters_append]; simp [acceptedIters]

theorem Book.next {c : Config K} {w₀ : W} {s s' : St W K X} (h : Book c w₀ s.iter s)
    (P : Prog W G K X) (hp : pass c P s = .next s') :
    s'.iter = s.iter ∧ Book c w₀ (s.iter + 1) s' := by
  obtain ⟨ws, x, u, hws, _, hf⟩ := pass_accept c P s _ hp (.inl ⟨_, rfl⟩)
  have he := h.entering P x hws
  rcases finish_cases c P (Optimizer.entering P s x ws) (P.eval s.x s.current).1
    (P.gnorm (P.eval s.x s.current).1.grad) u with ⟨_, h2⟩ | ⟨_, _, h2⟩ | ⟨_, _, h2⟩
  · rw [h2] at hf; simp at hf
  · rw [h2] at hf; simp at hf
  · rw [h2] at hf
    simp only [Pass.next.injEq] at hf
    subst hf
    refine ⟨rfl, ?_⟩
    refine (he.advanced P _ _ u).congr rfl rfl rfl rfl rfl rfl rfl rfl ?_ ?_
    · dsimp only
      rw [accepted_append]; split_ifs <;> simp [accepted]
    · dsimp only
      rw [acceptedIters_append]; split_ifs <;> simp [acceptedIters]

theorem Book.stop {c : Config K} {w₀ : W} {s s' : St W K X} (h : Book c w₀ s.iter s)
    (P : Prog W G K X) (hp : pass c P s = .stop s') : Book c w₀ (s.iter + 1) s' := by
  obtain ⟨ws, x, u, hws, _, hf⟩ := pass_accept c P s _ hp (.inr ⟨_, rfl⟩)
  have he := h.entering P x hws
  rcases finish_cases c P (Optimizer.entering P s x ws) (P.eval s.x s.current).1
    (P.gnorm (P.eval s.x s.current).1.grad) u with ⟨_, h2⟩ | ⟨_, _, h2⟩ | ⟨_, _, h2⟩
  · rw [h2] at hf
    simp only [Pass.stop.injEq] at hf
    subst hf
    exact (he.record _ _ u).congr rfl rfl rfl rfl rfl rfl rfl rfl rfl rfl
  · rw [h2] at hf
    simp only [Pass.stop.injEq] at hf
    subst hf
    exact he.advanced P _ _ u
  · rw [h2] at hf; simp at hf

/-- the books of a finished run -/
theorem book_done (c : Config K) (P : Prog W G K X) (fuel : ℕ) (w₀ : W) (x₀ : X) (s : St W K X)
    (h : optimize c P fuel w₀ x₀ = .done s) : ∃ n ≤ c.maxIter, Book c w₀ n s := by
  refine (run_induct c P (fun s => Book c w₀ s.iter s ∧ s.iter ≤ c.maxIter)
    (fun s => ∃ n ≤ c.maxIter, Book c w₀ n s) ?_ ?_ ?_ ?_ fuel _
    ⟨Book.init c P w₀ x₀, Nat.zero_le _⟩).1 s h
  · rintro s s' ⟨hs, hi⟩ hlt hp
    refine ⟨hs.retry P hp, ?_⟩
    obtain ⟨ws, x, sig, hws, ⟨_, rfl⟩ | ⟨_, _, rfl⟩⟩ := pass_retry c P s s' hp <;> exact hi
  · rintro s s' ⟨hs, hi⟩ hlt hp
    obtain ⟨h1, h2⟩ := hs.next P hp
    refine ⟨?_, ?_⟩
    · have : (startIter P s').iter = s.iter + 1 := by show s'.iter + 1 = _; rw [h1]
      rw [this]
      exact h2.congr rfl rfl rfl rfl rfl rfl rfl rfl rfl rfl
    · show s'.iter + 1 ≤ _; omega
  · rintro s s' ⟨hs, hi⟩ hlt hp
    exact ⟨s.iter + 1, hlt, hs.stop P hp⟩
  · rintro s ⟨hs, hi⟩ hle
    exact ⟨s.iter, hi, hs⟩

/-! ## Legality of the trace -/

omit [Std.Irrefl (α := K) (· < ·)] [IsTrans K (· < ·)]

/-- what an event must satisfy, given the events before it -/
def Legal (c : Config K) (w₀ : W) (pre : List (Event W K)) : Event W K → Prop
  | .eval _ w _ _ => w = (replay w₀ pre).1
  | .spike i _ _ .rollback => c.spike.enableRollback = true ∧ 0 < i
  | .spike i a _ .resample => a < c.spike.maxRetries
  | .spike .. => True
  | .accept i w e => lastEval pre = some (i, w, e) ∧ w = (replay w₀ pre).1
  | .lowest w e => (accepted pre).getLast? = some (w, e)
  | .advance _ => True
  | .iteration i e _ _ => (accepted pre).getLast?.map Prod.snd = some e ∧
      (acceptedIters pre).getLast? = some i
  | .checkpoint i w => w = (replay w₀ pre).1 ∧ 0 < i ∧ 0 < c.ckptEvery ∧ c.ckptEvery ∣ i

/-- trace invariant at the start of a pass -/
structure Traced (c : Config K) (w₀ : W) (s : St W K X) : Prop where
  legal : AllSplits (Legal c w₀) s.trace
  cur : (replay w₀ s.trace).1 = s.current
  back : c.spike.enableRollback = true →
    (replay w₀ s.trace).2 = if s.hasPrev then some s.prev else none
  prevIter : s.hasPrev = true → 0 < s.iter

theorem lastEval_passTrace (P : Prog W G K X) (s : St W K X) {ws : List (Event W K)}
    (h : Warns s.iter ws) :
    lastEval (passTrace P s ws) = some (s.iter, s.current, (P.eval s.x s.current).1.energy) := by
  have : passTrace P s ws = s.trace ++ ([.eval s.iter s.current (P.eval s.x s.current).1.energy
    (P.eval s.x s.current).1.error] ++ ws) := by simp [passTrace]
  unfold lastEval
  rw [this, List.filterMap_append, List.filterMap_append, filterMap_warns _ (fun _ _ _ => rfl) h]
  simp

theorem replay_passTrace (w₀ : W) (P : Prog W G K X) (s : St W K X) {ws : List (Event W K)}
    (h : Warns s.iter ws) : replay w₀ (passTrace P s ws) = replay w₀ s.trace := by
  have : passTrace P s ws = (s.trace ++ [.eval s.iter s.current (P.eval s.x s.current).1.energy
    (P.eval s.x s.current).1.error]) ++ ws := by simp [passTrace]
  rw [this, replay_warns _ _ _ h, replay_append]
  rfl

theorem Traced.pass {c : Config K} {w₀ : W} {s : St W K X} (h : Traced c w₀ s) (P : Prog W G K X)
    {ws : List (Event W K)} (hws : Warns s.iter ws) : AllSplits (Legal c w₀) (passTrace P s ws) := by
  have : passTrace P s ws = (s.trace ++ [.eval s.iter s.current (P.eval s.x s.current).1.energy
    (P.eval s.x s.current).1.error]) ++ ws := by simp [passTrace]
  rw [this]
  exact (h.legal.snoc (e := .eval s.iter s.current _ _) h.cur.symm).warns hws (fun _ _ _ => trivial)

theorem Traced.init (c : Config K) (P : Prog W G K X) (w₀ : W) (x₀ : X) :
    Traced c w₀ (init c P w₀ x₀) where
  legal := allSplits_nil _
  cur := rfl
  back := fun _ => rfl
  prevIter := by intro h; simp [Optimizer.init] at h

theorem Traced.retry {c : Config K} {w₀ : W} {s s' : St W K X} (h : Traced c w₀ s)
    (P : Prog W G K X) (hp : Optimizer.pass c P s = .retry s') : Traced c w₀ s' := by
  obtain ⟨ws, x, sig, hws, ⟨ha, rfl⟩ | ⟨hr, ha, rfl⟩⟩ := pass_retry c P s s' hp
  · refine ⟨(h.pass P hws).snoc ha, ?_, ?_, h.prevIter⟩
    · show (replay w₀ (passTrace P s ws ++ _)).1 = _
      rw [replay_append, replay_passTrace w₀ P s hws]; exact h.cur
    · intro hr
      show (replay w₀ (passTrace P s ws ++ _)).2 = _
      rw [replay_append, replay_passTrace w₀ P s hws]; exact h.back hr
  · have hb := h.back hr
    refine ⟨(h.pass P hws).snoc ⟨hr, ?_⟩, ?_, ?_, ?_⟩
    · rcases ha with ha | ha
      · exact h.prevIter ha
      · exact ha.1
    · show (replay w₀ (passTrace P s ws ++ _)).1 = (if s.hasPrev then s.prev else s.current)
      rw [replay_append, replay_passTrace w₀ P s hws]
      show (replay w₀ s.trace).2.getD (replay w₀ s.trace).1 = _
      rw [hb, h.cur]
      split_ifs <;> rfl
    · intro _
      show (replay w₀ (passTrace P s ws ++ _)).2 = _
      rw [replay_append, replay_passTrace w₀ P s hws]
      rfl
    · intro hf
      simp [rolledBack] at hf

/-- the trace after `record`, and what it means for the replay -/
theorem Traced.record {c : Config K} {w₀ : W} {s : St W K X} (h : Traced c w₀ s) (P : Prog W G K X)
    (x : X) {ws : List (Event W K)} (hws : Warns s.iter ws) (gn : K) (u : Upd W K X) :
    AllSplits (Legal c w₀) (record c (entering P s x ws) (P.eval s.x s.current).1 gn u).trace ∧
    replay w₀ (record c (entering P s x ws) (P.eval s.x s.current).1 gn u).trace =
      replay w₀ s.trace := by
  have hl : AllSplits (Legal c w₀) (passTrace P s ws ++ [.accept s.iter s.current
      (P.eval s.x s.current).1.energy]) := (h.pass P hws).snoc
      ⟨lastEval_passTrace P s hws, by rw [replay_passTrace w₀ P s hws]; exact h.cur.symm⟩
  have hr : replay w₀ (passTrace P s ws ++ [.accept s.iter s.current
      (P.eval s.x s.current).1.energy]) = replay w₀ s.trace := by
    rw [replay_append, replay_passTrace w₀ P s hws]; rfl
  unfold Optimizer.record
  dsimp only
  by_cases hi : (P.eval s.x s.current).1.energy < (entering P s x ws).lowestEnergy
  · simp only [hi, decide_true, if_true]
    constructor
    · refine AllSplits.snoc (t := passTrace P s ws ++ [.accept s.iter s.current
        (P.eval s.x s.current).1.energy]) hl ?_
      show (accepted (passTrace P s ws ++ [.accept s.iter s.current
        (P.eval s.x s.current).1.energy])).getLast? = some (s.current, _)
      rw [accepted_append]
      simp [accepted]
    · show replay w₀ ((passTrace P s ws ++ [.accept s.iter s.current
        (P.eval s.x s.current).1.energy]) ++ [_]) = _
      rw [replay_append, hr]; rfl
  · simp only [hi, decide_false, Bool.false_eq_true, if_false, List.append_nil]
    exact ⟨hl, hr⟩

theorem Traced.advanced {c : Config K} {w₀ : W} {s : St W K X} (h : Traced c w₀ s)
    (P : Prog W G K X) (x : X) {ws : List (Event W K)} (hws : Warns s.iter ws) (gn : K)
    (u : Upd W K X) :
    let s' := advanced c P (entering P s x ws) (P.eval s.x s.current).1 gn u
    AllSplits (Legal c w₀) s'.trace ∧ (replay w₀ s'.trace).1 = s'.current ∧
      (c.spike.enableRollback = true →
        (replay w₀ s'.trace).2 = if s'.hasPrev then some s'.prev else none) ∧
      s'.current = u.state := by
  intro s'
  obtain ⟨h1, h2⟩ := h.record P x hws gn u
  have e : s'.trace = (Optimizer.record c (entering P s x ws) (P.eval s.x s.current).1 gn u).trace
    ++ [.advance u.state] ++
      [.iteration s.iter (P.eval s.x s.current).1.energy (P.eval s.x s.current).1.error gn] := by
    rw [List.append_assoc]; rfl
  refine ⟨?_, ?_, ?_, rfl⟩
  · rw [e]
    refine AllSplits.snoc (AllSplits.snoc h1 (e := .advance u.state) trivial) ?_
    obtain ⟨a1, a2, _, _⟩ := record_trace c (entering P s x ws) (P.eval s.x s.current).1 gn u
    refine ⟨?_, ?_⟩
    · rw [accepted_append, a1]
      simp [accepted]
    · rw [acceptedIters_append, a2]
      simp [acceptedIters]
      rfl
  · rw [e, replay_append, replay_append, h2]; rfl
  · intro hr
    rw [e, replay_append, replay_append, h2]
    show some (replay w₀ s.trace).1 = if (if c.spike.enableRollback then true else _) then
      some (if c.spike.enableRollback then s.current else _) else none
    rw [h.cur]
    simp [hr]

/-- every accepting pass keeps the trace legal -/
theorem Traced.next {c : Config K} {w₀ : W} {s s' : St W K X} (h : Traced c w₀ s)
    (P : Prog W G K X) (hp : Optimizer.pass c P s = .next s') : Traced c w₀ (startIter P s') := by
  obtain ⟨ws, x, u, hws, _, hf⟩ := pass_accept c P s _ hp (.inl ⟨_, rfl⟩)
  obtain ⟨h1, h2, h3, h4⟩ := h.advanced P x hws (P.gnorm (P.eval s.x s.current).1.grad) u
  rcases finish_cases c P (Optimizer.entering P s x ws) (P.eval s.x s.current).1
    (P.gnorm (P.eval s.x s.current).1.grad) u with ⟨_, h2'⟩ | ⟨_, _, h2'⟩ | ⟨_, _, h2'⟩
  · rw [h2'] at hf; simp at hf
  · rw [h2'] at hf; simp at hf
  · rw [h2'] at hf
    simp only [Pass.next.injEq] at hf
    subst hf
    by_cases hc : checkpointDue c (entering P s x ws).iter = true
    · have hc' : (0 < c.ckptEvery ∧ c.ckptPath = true) ∧ 0 < s.iter ∧ s.iter % c.ckptEvery = 0 := by
        exact of_decide_eq_true hc
      simp only [hc, if_true]
      refine ⟨?_, ?_, ?_, ?_⟩
      · refine AllSplits.snoc h1 ?_
        exact ⟨h4.symm.trans h2.symm, hc'.2.1, hc'.1.1, Nat.dvd_of_mod_eq_zero hc'.2.2⟩
      · show (replay w₀ (_ ++ [_])).1 = _
        rw [replay_append]; exact h2
      · intro hr
        show (replay w₀ (_ ++ [_])).2 = _
        rw [replay_append]; exact h3 hr
      · intro _; exact Nat.succ_pos _
    · simp only [hc, Bool.false_eq_true, if_false, List.append_nil]
      exact ⟨h1, h2, h3, fun _ => Nat.succ_pos _⟩

theorem Traced.stop {c : Config K} {w₀ : W} {s s' : St W K X} (h : Traced c w₀ s)
    (P : Prog W G K X) (hp : Optimizer.pass c P s = .stop s') :
    AllSplits (Legal c w₀) s'.trace ∧ (replay w₀ s'.trace).1 = s'.current := by
  obtain ⟨ws, x, u, hws, _, hf⟩ := pass_accept c P s _ hp (.inr ⟨_, rfl⟩)
  rcases finish_cases c P (Optimizer.entering P s x ws) (P.eval s.x s.current).1
    (P.gnorm (P.eval s.x s.current).1.grad) u with ⟨_, h2'⟩ | ⟨_, _, h2'⟩ | ⟨_, _, h2'⟩
  · rw [h2'] at hf
    simp only [Pass.stop.injEq] at hf
    subst hf
    obtain ⟨h1, h2⟩ := h.record P x hws (P.gnorm (P.eval s.x s.current).1.grad) u
    exact ⟨h1, by dsimp only; rw [h2]; exact h.cur⟩
  · rw [h2'] at hf
    simp only [Pass.stop.injEq] at hf
    subst hf
    obtain ⟨h1, h2, h3, h4⟩ := h.advanced P x hws (P.gnorm (P.eval s.x s.current).1.grad) u
    exact ⟨h1, h2⟩
  · rw [h2'] at hf; simp at hf

/-- every trace, of a finished or of an unfinished run, is legal and explains the current state -/
theorem traced_run (c : Config K) (P : Prog W G K X) (fuel : ℕ) (w₀ : W) (x₀ : X) (s : St W K X)
    (h : optimize c P fuel w₀ x₀ = .done s ∨ optimize c P fuel w₀ x₀ = .running s) :
    AllSplits (Legal c w₀) s.trace ∧ (replay w₀ s.trace).1 = s.current := by
  have key := run_induct c P (Traced c w₀)
    (fun s => AllSplits (Legal c w₀) s.trace ∧ (replay w₀ s.trace).1 = s.current)
    (fun s s' hs _ hp => hs.retry P hp) (fun s s' hs _ hp => hs.next P hp)
    (fun s s' hs _ hp => hs.stop P hp) (fun s hs _ => ⟨hs.legal, hs.cur⟩) fuel _
    (Traced.init c P w₀ x₀)
  rcases h with h | h
  · exact key.1 s h
  · exact ⟨(key.2 s h).legal, (key.2 s h).cur⟩

end
end QLPeps.Optimizer
