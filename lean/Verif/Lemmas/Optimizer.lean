import Verif.Spec.Optimizer
import Mathlib.Tactic

/-! # Helper lemmas for the optimizer properties -/

set_option linter.unusedSectionVars false

namespace QLPeps.Optimizer

open QLPeps.Spike Spec

section
variable {W G K X : Type*} [Zero K] [One K] [Add K] [Sub K] [Mul K] [LT K] [DecidableLT K]

/-- a list of logged warnings of iteration `i` -/
def Warns (i : ℕ) (ws : List (Event W K)) : Prop :=
  ∀ e ∈ ws, ∃ a sig, e = .spike i a sig .acceptWithWarning

theorem Warns.append {i : ℕ} {a b : List (Event W K)} (ha : Warns i a) (hb : Warns i b) :
    Warns i (a ++ b) := by
  intro e he
  rcases List.mem_append.1 he with h | h
  · exact ha e h
  · exact hb e h

/-- the state after a resample -/
def resampled (s : St W K X) (x : X) (t : List (Event W K)) (sig : Signal) : St W K X :=
  { s with x := x, attempts := s.attempts + 1
           trace := t ++ [.spike s.iter s.attempts sig .resample] }

/-- the state after a rollback -/
def rolledBack (s : St W K X) (x : X) (t : List (Event W K)) (sig : Signal) : St W K X :=
  { s with current := if s.hasPrev then s.prev else s.current
           hasPrev := false, x := x, attempts := 0
           trace := t ++ [.spike s.iter s.attempts sig .rollback] }

theorem react_inl (P : Prog W G K X) (s : St W K X) (sig : Signal) (act : Action) (s' : St W K X)
    (h : react P s sig act = .inl s') :
    (act = .resample ∧ ∃ x, s' = resampled s x s.trace sig) ∨
    (act = .rollback ∧ ∃ x, s' = rolledBack s x s.trace sig) := by
  cases act with
  | accept => simp [react] at h
  | resample => simp only [react, Sum.inl.injEq] at h; subst h; exact .inl ⟨rfl, _, rfl⟩
  | rollback => simp only [react, Sum.inl.injEq] at h; subst h; exact .inr ⟨rfl, _, rfl⟩
  | acceptWithWarning => simp [react] at h

theorem react_inr (P : Prog W G K X) (s : St W K X) (sig : Signal) (act : Action) (s' : St W K X)
    (h : react P s sig act = .inr s') :
    ∃ ws, Warns s.iter ws ∧ s' = { s with trace := s.trace ++ ws } := by
  cases act with
  | accept =>
    simp only [react, Sum.inr.injEq] at h; subst h
    exact ⟨[], by intro e he; simp at he, by simp⟩
  | resample => simp [react] at h
  | rollback => simp [react] at h
  | acceptWithWarning =>
    simp only [react, Sum.inr.injEq] at h; subst h
    exact ⟨_, by intro e he; simp only [List.mem_singleton] at he; exact ⟨_, _, he⟩, rfl⟩

theorem decide_resample {c : Params K} {hp : Bool} {sig : Signal} {a i : ℕ}
    (hs : sig ≠ .s4) (h : decideAction c hp sig a i = .resample) : a < c.maxRetries := by
  unfold decideAction at h
  by_contra hlt
  rw [if_neg hlt] at h
  split_ifs at h

theorem decide_rollback {c : Params K} {hp : Bool} {sig : Signal} {a i : ℕ}
    (hs : sig ≠ .s4) (h : decideAction c hp sig a i = .rollback) :
    c.enableRollback = true ∧ hp = true ∧ c.maxRetries ≤ a := by
  unfold decideAction at h
  rw [if_neg hs] at h
  split_ifs at h with h1 h3 h4
  exact ⟨h4.1, h4.2.1, not_lt.1 h3⟩

theorem s1s2_ne_s4 (c : Params K) (a b : Ema K) (e g : K) : detectS1S2 c a b e g ≠ .s4 := by
  unfold detectS1S2; split_ifs <;> simp

theorem s3_ne_s4 (c : Params K) (a : Ema K) (g : K) (n : ℕ) : detectS3 c a g n ≠ .s4 := by
  unfold detectS3; split_ifs <;> simp

/-- the events of a pass that logs no retry -/
def passTrace (P : Prog W G K X) (s : St W K X) (ws : List (Event W K)) : List (Event W K) :=
  s.trace ++ .eval s.iter s.current (P.eval s.x s.current).1.energy
    (P.eval s.x s.current).1.error :: ws

/-- the conditions under which a pass ends in a retry -/
def RetryOf (c : Config K) (P : Prog W G K X) (s s' : St W K X) : Prop :=
  ∃ ws x sig, Warns s.iter ws ∧
    ((s.attempts < c.spike.maxRetries ∧ s' = resampled s x (passTrace P s ws) sig) ∨
     (c.spike.enableRollback = true ∧
       (s.hasPrev = true ∨
        (0 < s.iter ∧ detectS4 c.spike c.std s.emaE (P.eval s.x s.current).1.energy ≠ .none)) ∧
       s' = rolledBack s x (passTrace P s ws) sig))

theorem stageB_inl (c : Config K) (P : Prog W G K X) (s s' : St W K X)
    (h : stageB c P (evaluated P s) (P.eval s.x s.current).1.error
      (P.gnorm (P.eval s.x s.current).1.grad) = .inl s') : RetryOf c P s s' := by
  unfold stageB at h
  split_ifs at h with h0
  dsimp only at h
  rcases react_inl P _ _ _ _ h with ⟨ha, x, hx⟩ | ⟨ha, x, hx⟩
  · refine ⟨[], x, _, by intro e he; simp at he, .inl ⟨?_, hx⟩⟩
    exact decide_resample (s1s2_ne_s4 _ _ _ _ _) ha
  · have := decide_rollback (s1s2_ne_s4 _ _ _ _ _) ha
    exact ⟨[], x, _, by intro e he; simp at he, .inr ⟨this.1, .inl this.2.1, hx⟩⟩

theorem stageB_inr (c : Config K) (P : Prog W G K X) (s s' : St W K X) (a b : K)
    (h : stageB c P s a b = .inr s') :
    ∃ ws, Warns s.iter ws ∧ s' = { s with trace := s.trace ++ ws } := by
  unfold stageB at h
  split_ifs at h with h0
  · exact react_inr P _ _ _ _ h
  · simp only [Sum.inr.injEq] at h; subst h
    exact ⟨[], by intro e he; simp at he, by simp⟩

theorem stageD_inr (c : Config K) (P : Prog W G K X) (s s' : St W K X) (u : Upd W K X)
    (h : stageD c P s u = .inr s') :
    ∃ ws, Warns s.iter ws ∧ s' = { s with trace := s.trace ++ ws } := by
  unfold stageD at h
  split_ifs at h with h0
  · exact react_inr P _ _ _ _ h
  · simp only [Sum.inr.injEq] at h; subst h
    exact ⟨[], by intro e he; simp at he, by simp⟩

theorem stageD2_inr (c : Config K) (P : Prog W G K X) (s s' : St W K X) (e : K)
    (h : stageD2 c P s e = .inr s') :
    (∃ ws, Warns s.iter ws ∧ s' = { s with trace := s.trace ++ ws }) ∧
    (c.spike.enableRollback = true → 0 < s.iter → detectS4 c.spike c.std s.emaE e = .none) := by
  unfold stageD2 at h
  split_ifs at h with h0
  · refine ⟨react_inr P _ _ _ _ h, ?_⟩
    intro _ _
    by_contra hne
    dsimp only at h
    rw [if_neg hne] at h
    simp [react] at h
  · simp only [Sum.inr.injEq] at h; subst h
    exact ⟨⟨[], by intro e he; simp at he, by simp⟩, fun a b => absurd ⟨a, b⟩ h0⟩

/-- **Shape of a retrying pass.** -/
theorem pass_retry (c : Config K) (P : Prog W G K X) (s s' : St W K X)
    (h : pass c P s = .retry s') : RetryOf c P s s' := by
  unfold pass at h
  dsimp only at h
  split at h
  · rename_i s₀ hB
    simp only [Pass.retry.injEq] at h; subst h
    exact stageB_inl c P s _ hB
  · rename_i s₁ hB
    obtain ⟨ws, hws, rfl⟩ := stageB_inr c P _ _ _ _ hB
    split at h
    · simp at h
    · rename_i u hu
      unfold afterUpdate at h
      split at h
      · rename_i s₂ hD
        simp only [Pass.retry.injEq] at h; subst h
        unfold stageD at hD
        split_ifs at hD with h0
        dsimp only at hD
        rcases react_inl P _ _ _ _ hD with ⟨ha, x, hx⟩ | ⟨ha, x, hx⟩
        · refine ⟨ws, x, detectS3 c.spike s.emaN u.ngradNorm (s3Iters c u.srIters), hws, .inl ⟨decide_resample (s3_ne_s4 _ _ _ _) ha, ?_⟩⟩
          rw [hx]; simp [resampled, passTrace, evaluated]
        · have := decide_rollback (s3_ne_s4 _ _ _ _) ha
          refine ⟨ws, x, detectS3 c.spike s.emaN u.ngradNorm (s3Iters c u.srIters), hws, .inr ⟨this.1, .inl this.2.1, ?_⟩⟩
          rw [hx]; simp only [rolledBack, passTrace, evaluated, List.append_assoc, List.cons_append, List.nil_append]; rfl
      · rename_i s₂ hD
        obtain ⟨ws₂, hws₂, rfl⟩ := stageD_inr c P _ _ _ hD
        split at h
        · rename_i s₃ hD2
          simp only [Pass.retry.injEq] at h; subst h
          unfold stageD2 at hD2
          split_ifs at hD2 with h0
          dsimp only at hD2
          rcases react_inl P _ _ _ _ hD2 with ⟨ha, x, hx⟩ | ⟨ha, x, hx⟩
          · split_ifs at ha
          · refine ⟨ws ++ ws₂, x, detectS4 c.spike c.std s.emaE (P.eval s.x s.current).1.energy, hws.append hws₂, .inr ⟨h0.1, .inr ⟨h0.2, ?_⟩, ?_⟩⟩
            · intro hn
              have hn' : detectS4 c.spike c.std (evaluated P s).emaE (P.eval s.x s.current).1.energy = .none := hn
              rw [hn'] at ha; simp at ha
            · rw [hx]; simp only [rolledBack, passTrace, evaluated, List.append_assoc, List.cons_append, List.nil_append]; rfl
        · unfold finish at h
          dsimp only at h
          split_ifs at h

/-- the state on entry to `finish` -/
def entering (P : Prog W G K X) (s : St W K X) (x : X) (ws : List (Event W K)) : St W K X :=
  { s with x := x, trace := passTrace P s ws }

/-- **Shape of an accepting pass.** -/
theorem pass_accept (c : Config K) (P : Prog W G K X) (s : St W K X) (r : Pass (St W K X))
    (h : pass c P s = r) (hr : (∃ s', r = .next s') ∨ (∃ s', r = .stop s')) :
    ∃ ws x u, Warns s.iter ws ∧
      (c.spike.enableRollback = true → 0 < s.iter →
        detectS4 c.spike c.std s.emaE (P.eval s.x s.current).1.energy = .none) ∧
      r = finish c P (entering P s x ws) (P.eval s.x s.current).1
        (P.gnorm (P.eval s.x s.current).1.grad) u := by
  unfold pass at h
  dsimp only at h
  split at h
  · subst h; simp at hr
  · rename_i s₁ hB
    obtain ⟨ws, hws, rfl⟩ := stageB_inr c P _ _ _ _ hB
    split at h
    · subst h; simp at hr
    · rename_i u hu
      unfold afterUpdate at h
      split at h
      · subst h; simp at hr
      · rename_i s₂ hD
        obtain ⟨ws₂, hws₂, rfl⟩ := stageD_inr c P _ _ _ hD
        split at h
        · subst h; simp at hr
        · rename_i s₃ hD2
          obtain ⟨⟨ws₃, hws₃, rfl⟩, h4⟩ := stageD2_inr c P _ _ _ hD2
          refine ⟨ws ++ ws₂ ++ ws₃, u.x, u, (hws.append hws₂).append hws₃, h4, ?_⟩
          rw [← h]
          congr 1
          simp [entering, passTrace, evaluated]

/-- The state after an accepted step that does not stop at a criterion, before callback and
checkpoint. -/
def advanced (c : Config K) (P : Prog W G K X) (s : St W K X) (ev : Eval G K) (gn : K)
    (u : Upd W K X) : St W K X :=
  { record c s ev gn u with
      previousEnergy := ev.energy
      prev := if c.spike.enableRollback then s.current else s.prev
      hasPrev := if c.spike.enableRollback then true else s.hasPrev
      x := P.onAccept u.x
      current := u.state
      trace := (record c s ev gn u).trace ++
        [.advance u.state, .iteration s.iter ev.energy ev.error gn] }

/-- the three ways in which `finish` ends -/
theorem finish_cases (c : Config K) (P : Prog W G K X) (s : St W K X) (ev : Eval G K) (gn : K)
    (u : Upd W K X) :
    let stop := shouldStop c ev.energy s.previousEnergy gn (record c s ev gn u).noImprove
    let cb := P.stopCb (P.onAccept u.x) s.iter ev.energy ev.error
    ((0 < s.iter ∧ stop = true) ∧
      finish c P s ev gn u = .stop { record c s ev gn u with converged := true }) ∨
    (¬(0 < s.iter ∧ stop = true) ∧ cb = true ∧
      finish c P s ev gn u = .stop (advanced c P s ev gn u)) ∨
    (¬(0 < s.iter ∧ stop = true) ∧ cb = false ∧
      finish c P s ev gn u = .next { advanced c P s ev gn u with
        trace := (advanced c P s ev gn u).trace ++
          if checkpointDue c s.iter then [.checkpoint s.iter u.state] else [] }) := by
  intro stop cb
  have e1 : (0 < (record c s ev gn u).iter ∧ shouldStop c ev.energy
      (record c s ev gn u).previousEnergy gn (record c s ev gn u).noImprove = true) ↔
      (0 < s.iter ∧ stop = true) := Iff.rfl
  by_cases h1 : 0 < s.iter ∧ stop = true
  · left
    refine ⟨h1, ?_⟩
    unfold finish
    dsimp only
    rw [if_pos (e1.2 h1)]
  · right
    unfold finish
    dsimp only
    rw [if_neg (fun h => h1 (e1.1 h))]
    have e2 : P.stopCb (P.onAccept (record c s ev gn u).x) (record c s ev gn u).iter ev.energy
      ev.error = cb := rfl
    rw [e2]
    by_cases h2 : cb = true
    · left
      refine ⟨h1, h2, ?_⟩
      rw [if_pos h2]; rfl
    · right
      refine ⟨h1, by simpa using h2, ?_⟩
      rw [if_neg h2]
      by_cases h3 : checkpointDue c s.iter
      · have h3' : checkpointDue c (record c s ev gn u).iter = true := h3
        rw [if_pos h3', if_pos h3]; rfl
      · have h3' : ¬ checkpointDue c (record c s ev gn u).iter = true := h3
        rw [if_neg h3', if_neg h3]
        simp [advanced, record]

/-- **Induction principle for the loop.** -/
theorem run_induct (c : Config K) (P : Prog W G K X) (I F : St W K X → Prop)
    (hretry : ∀ s s', I s → s.iter < c.maxIter → pass c P s = .retry s' → I s')
    (hnext : ∀ s s', I s → s.iter < c.maxIter → pass c P s = .next s' → I (startIter P s'))
    (hstop : ∀ s s', I s → s.iter < c.maxIter → pass c P s = .stop s' → F s')
    (hend : ∀ s, I s → c.maxIter ≤ s.iter → F s) :
    ∀ fuel s, I s → (∀ s', run c P fuel s = .done s' → F s') ∧
      (∀ s', run c P fuel s = .running s' → I s') := by
  intro fuel
  induction fuel with
  | zero =>
    intro s hs
    unfold run
    split_ifs with h
    · exact ⟨by simp, by intro s' h'; simp at h'; exact h' ▸ hs⟩
    · refine ⟨?_, by simp⟩
      intro s' h'
      simp only [Outcome.done.injEq] at h'
      exact h' ▸ hend s hs (not_lt.1 h)
  | succ fuel ih =>
    intro s hs
    unfold run
    split_ifs with h
    · cases hp : pass c P s with
      | retry s₁ => exact ih _ (hretry s s₁ hs h hp)
      | next s₁ => exact ih _ (hnext s s₁ hs h hp)
      | stop s₁ =>
        refine ⟨?_, by simp⟩
        intro s' h'
        simp only [Outcome.done.injEq] at h'
        exact h' ▸ hstop s s₁ hs h hp
      | throw s₁ => exact ⟨by simp, by simp⟩
    · refine ⟨?_, by simp⟩
      intro s' h'
      simp only [Outcome.done.injEq] at h'
      exact h' ▸ hend s hs (not_lt.1 h)

/-! ## Properties of traces -/

/-- every event of the trace is related by `p` to the events before it -/
def AllSplits {E : Type*} (p : List E → E → Prop) (t : List E) : Prop :=
  ∀ pre e post, t = pre ++ e :: post → p pre e

theorem allSplits_nil {E : Type*} (p : List E → E → Prop) : AllSplits p [] := by
  intro pre e post h; simp at h

theorem AllSplits.snoc {E : Type*} {p : List E → E → Prop} {t : List E} (h : AllSplits p t) {e : E}
    (he : p t e) : AllSplits p (t ++ [e]) := by
  intro pre e' post heq
  rcases List.eq_nil_or_concat post with hp | ⟨q, b, hp⟩
  · subst hp
    have h2 : t ++ [e] = pre ++ [e'] := heq
    obtain ⟨h3, h4⟩ := List.append_inj' h2 rfl
    simp only [List.cons.injEq, and_true] at h4
    subst h3; subst h4; exact he
  · subst hp
    have h2 : t ++ [e] = (pre ++ e' :: q) ++ [b] := by
      rw [heq]; simp [List.concat_eq_append]
    obtain ⟨h3, _⟩ := List.append_inj' h2 rfl
    exact h pre e' q h3

theorem AllSplits.warns {p : List (Event W K) → Event W K → Prop} {t ws : List (Event W K)} {i : ℕ}
    (h : AllSplits p t) (hws : Warns i ws)
    (hp : ∀ pre a sig, p pre (.spike i a sig .acceptWithWarning)) : AllSplits p (t ++ ws) := by
  induction ws using List.reverseRecOn with
  | nil => simpa using h
  | append_singleton ws e ih =>
    rw [← List.append_assoc]
    refine (ih (fun e he => hws e (by simp [he]))).snoc ?_
    obtain ⟨a, sig, rfl⟩ := hws e (by simp)
    exact hp _ _ _

theorem replay_append (w₀ : W) (t : List (Event W K)) (e : Event W K) :
    replay w₀ (t ++ [e]) = replayStep (replay w₀ t) e := by
  simp [replay, List.foldl_append]

theorem replay_warns (w₀ : W) (t ws : List (Event W K)) {i : ℕ} (hws : Warns i ws) :
    replay w₀ (t ++ ws) = replay w₀ t := by
  induction ws using List.reverseRecOn with
  | nil => simp
  | append_singleton ws e ih =>
    rw [← List.append_assoc, replay_append, ih (fun e he => hws e (by simp [he]))]
    obtain ⟨a, sig, rfl⟩ := hws e (by simp)
    rfl

theorem filterMap_warns {β : Type*} (f : Event W K → Option β)
    (hf : ∀ i a sig, f (.spike i a sig .acceptWithWarning) = none) {ws : List (Event W K)} {i : ℕ}
    (hws : Warns i ws) : ws.filterMap f = [] := by
  rw [List.filterMap_eq_nil_iff]
  intro e he
  obtain ⟨a, sig, rfl⟩ := hws e he
  exact hf _ _ _

end
end QLPeps.Optimizer
