import Verif.Lemmas.OptimizerInv

/-! # Termination and stopping of the optimization loop -/

set_option linter.unusedSectionVars false

namespace QLPeps.Optimizer

open QLPeps.Spike Spec

section
variable {W G K X : Type*} [Zero K] [One K] [Add K] [Sub K] [Mul K] [LT K] [DecidableLT K]

/-- the outcome says that the passes were used up -/
def Outcome.isRunning {S : Type*} : Outcome S → Prop
  | .running _ => True
  | _ => False

/-- the state carried by an outcome -/
def Outcome.st {S : Type*} : Outcome S → S
  | .running s => s
  | .done s => s
  | .threw s => s

/-- main-path evaluations allowed per iteration -/
def budget (c : Config K) : ℕ :=
  (if c.spike.enableRollback then 2 else 1) * (c.spike.maxRetries + 1)

/-- evaluations left in the current iteration -/
def left (c : Config K) (s : St W K X) : ℕ :=
  (if s.hasPrev then c.spike.maxRetries + 1 else 0) + (c.spike.maxRetries + 1 - s.attempts)

/-- evaluations left -/
def measure (c : Config K) (s : St W K X) : ℕ :=
  if s.iter < c.maxIter then (c.maxIter - s.iter - 1) * budget c + left c s else 0

/-- `finish` leaves these alone -/
theorem pass_next_fields (c : Config K) (P : Prog W G K X) (s s' : St W K X)
    (hp : pass c P s = .next s') :
    s'.iter = s.iter ∧
      s'.hasPrev = (if c.spike.enableRollback then true else s.hasPrev) ∧
      s'.prev = (if c.spike.enableRollback then s.current else s.prev) ∧
      s'.emaE = s.emaE.update c.alpha (P.eval s.x s.current).1.energy := by
  obtain ⟨ws, x, u, hws, _, hf⟩ := pass_accept c P s _ hp (.inl ⟨_, rfl⟩)
  rcases finish_cases c P (Optimizer.entering P s x ws) (P.eval s.x s.current).1
    (P.gnorm (P.eval s.x s.current).1.grad) u with ⟨_, h2'⟩ | ⟨_, _, h2'⟩ | ⟨_, _, h2'⟩
  · rw [h2'] at hf; simp at hf
  · rw [h2'] at hf; simp at hf
  · rw [h2'] at hf
    simp only [Pass.next.injEq] at hf
    subst hf
    exact ⟨rfl, rfl, rfl, rfl⟩

/-- **Termination.** If an invariant excludes energy spikes when there is nothing to roll back to, the
loop needs at most `measure` passes. -/
theorem run_terminates (c : Config K) (P : Prog W G K X) (I : St W K X → Prop)
    (hretry : ∀ s s', I s → pass c P s = .retry s' → I s')
    (hnext : ∀ s s', I s → pass c P s = .next s' → I (startIter P s'))
    (hS4 : ∀ s, I s → s.hasPrev = false → c.spike.enableRollback = true → 0 < s.iter →
      detectS4 c.spike c.std s.emaE (P.eval s.x s.current).1.energy = .none) :
    ∀ fuel s, I s → s.attempts ≤ c.spike.maxRetries →
      (s.hasPrev = true → c.spike.enableRollback = true) → measure c s ≤ fuel →
      ¬ (run c P fuel s).isRunning := by
  intro fuel
  induction fuel with
  | zero =>
    intro s _ ha _ hm
    unfold run
    split_ifs with h
    · exfalso
      unfold measure left at hm
      rw [if_pos h] at hm
      omega
    · simp [Outcome.isRunning]
  | succ fuel ih =>
    intro s hs ha hp hm
    unfold run
    split_ifs with h
    · unfold measure at hm
      rw [if_pos h] at hm
      cases hpass : pass c P s with
      | stop s₁ => simp [Outcome.isRunning]
      | throw s₁ => simp [Outcome.isRunning]
      | retry s₁ =>
        have hI := hretry s s₁ hs hpass
        dsimp only
        obtain ⟨ws, x, sig, hws, ⟨hlt, e⟩ | ⟨hr, hor, e⟩⟩ := pass_retry c P s s₁ hpass
        · refine ih s₁ hI ?_ ?_ ?_
          · rw [e]; exact hlt
          · rw [e]; exact hp
          · have h1 : s₁.iter = s.iter := by rw [e]; rfl
            have h2 : s₁.hasPrev = s.hasPrev := by rw [e]; rfl
            have h3 : s₁.attempts = s.attempts + 1 := by rw [e]; rfl
            unfold measure left
            unfold left at hm
            rw [h1, h2, h3, if_pos h]
            omega
        · have hprev : s.hasPrev = true := by
            rcases hor with hor | ⟨hpos, hor⟩
            · exact hor
            · by_contra hf
              exact hor (hS4 s hs (by simpa using hf) hr hpos)
          refine ih s₁ hI ?_ ?_ ?_
          · rw [e]; exact Nat.zero_le _
          · rw [e]; intro hf; simp [rolledBack] at hf
          · have h1 : s₁.iter = s.iter := by rw [e]; rfl
            have h2 : s₁.hasPrev = false := by rw [e]; rfl
            have h3 : s₁.attempts = 0 := by rw [e]; rfl
            unfold measure left
            unfold left at hm
            rw [h1, h2, h3, if_pos h]
            rw [hprev] at hm
            simp only [if_true, Bool.false_eq_true, if_false] at *
            omega
      | next s₁ =>
        obtain ⟨h1, h2, _, _⟩ := pass_next_fields c P s s₁ hpass
        have hI := hnext s s₁ hs hpass
        dsimp only
        have hp' : (startIter P s₁).hasPrev = true → c.spike.enableRollback = true := by
          intro hf
          have : s₁.hasPrev = true := hf
          rw [h2] at this
          by_contra hr
          rw [if_neg hr] at this
          exact hr (hp this)
        refine ih _ hI (Nat.zero_le _) hp' ?_
        have h3 : (startIter P s₁).iter = s.iter + 1 := by show s₁.iter + 1 = _; rw [h1]
        have h4 : (startIter P s₁).attempts = 0 := rfl
        have hl : left c (startIter P s₁) ≤ budget c := by
          unfold left budget
          rw [h4]
          by_cases hr : c.spike.enableRollback = true
          · rw [if_pos hr]; split_ifs <;> omega
          · have : ¬ (startIter P s₁).hasPrev = true := fun hf => hr (hp' hf)
            rw [if_neg hr, if_neg this]; omega
        have hpos : 1 ≤ left c s := by unfold left; omega
        unfold measure
        rw [h3]
        split_ifs with hlt
        · have e : c.maxIter - s.iter - 1 = (c.maxIter - (s.iter + 1) - 1) + 1 := by omega
          rw [e, Nat.add_mul] at hm
          omega
        · exact Nat.zero_le _
    · simp [Outcome.isRunning]

/-- more passes do not change a finished run -/
theorem run_mono (c : Config K) (P : Prog W G K X) : ∀ fuel k s, ¬ (run c P fuel s).isRunning →
    run c P (fuel + k) s = run c P fuel s := by
  intro fuel
  induction fuel with
  | zero =>
    intro k s h
    have hz : ¬ s.iter < c.maxIter := by
      intro hlt
      apply h
      unfold run
      rw [if_pos hlt]; trivial
    cases k with
    | zero => rfl
    | succ k =>
      show run c P (0 + k + 1) s = _
      unfold run
      rw [if_neg hz, if_neg hz]
  | succ fuel ih =>
    intro k s h
    have e : fuel + 1 + k = (fuel + k) + 1 := by omega
    rw [e]
    unfold run at h ⊢
    split_ifs at h ⊢ with hlt
    · cases hp : pass c P s with
      | retry s₁ => rw [hp] at h; exact ih k s₁ h
      | next s₁ => rw [hp] at h; exact ih k _ h
      | stop s₁ => rfl
      | throw s₁ => rfl
    · rfl

theorem pass_throw (c : Config K) (P : Prog W G K X) (s s' : St W K X)
    (h : pass c P s = .throw s') : ∃ ws, Warns s.iter ws ∧ s'.trace = passTrace P s ws := by
  unfold pass at h
  dsimp only at h
  split at h
  · simp at h
  · rename_i s₁ hB
    obtain ⟨ws, hws, rfl⟩ := stageB_inr c P _ _ _ _ hB
    split at h
    · simp only [Pass.throw.injEq] at h
      subst h
      exact ⟨ws, hws, by simp [passTrace, evaluated]⟩
    · unfold afterUpdate at h
      split at h
      · simp at h
      · split at h
        · simp at h
        · unfold finish at h
          dsimp only at h
          split_ifs at h

/-- number of main-path evaluations of one pass -/
theorem pass_evals (c : Config K) (P : Prog W G K X) (s : St W K X) :
    match pass c P s with
    | .retry s' => evals s'.trace = evals s.trace + 1
    | .next s' => evals s'.trace = evals s.trace + 1
    | .stop s' => evals s'.trace = evals s.trace + 1
    | .throw s' => evals s'.trace = evals s.trace + 1 := by
  cases hp : pass c P s with
  | retry s' =>
    obtain ⟨ws, x, sig, hws, ⟨_, rfl⟩ | ⟨_, _, rfl⟩⟩ := pass_retry c P s s' hp
    · show evals (passTrace P s ws ++ _) = _
      rw [evals_append, evals_passTrace P s hws]; simp [evals]
    · show evals (passTrace P s ws ++ _) = _
      rw [evals_append, evals_passTrace P s hws]; simp [evals]
  | throw s' =>
    obtain ⟨ws, hws, e⟩ := pass_throw c P s s' hp
    show evals s'.trace = _
    rw [e, evals_passTrace P s hws]
  | next s' =>
    obtain ⟨ws, x, u, hws, _, hf⟩ := pass_accept c P s _ hp (.inl ⟨_, rfl⟩)
    obtain ⟨_, _, _, h4⟩ := record_trace c (entering P s x ws) (P.eval s.x s.current).1
      (P.gnorm (P.eval s.x s.current).1.grad) u
    rcases finish_cases c P (Optimizer.entering P s x ws) (P.eval s.x s.current).1
      (P.gnorm (P.eval s.x s.current).1.grad) u with ⟨_, h2'⟩ | ⟨_, _, h2'⟩ | ⟨_, _, h2'⟩
    · rw [h2'] at hf; simp at hf
    · rw [h2'] at hf; simp at hf
    · rw [h2'] at hf
      simp only [Pass.next.injEq] at hf
      subst hf
      show evals ((_ ++ [_, _]) ++ _) = _
      rw [evals_append, evals_append, h4]
      show evals (passTrace P s ws) + _ + _ = _
      rw [evals_passTrace P s hws]
      split_ifs <;> simp [evals]
  | stop s' =>
    obtain ⟨ws, x, u, hws, _, hf⟩ := pass_accept c P s _ hp (.inr ⟨_, rfl⟩)
    obtain ⟨_, _, _, h4⟩ := record_trace c (entering P s x ws) (P.eval s.x s.current).1
      (P.gnorm (P.eval s.x s.current).1.grad) u
    rcases finish_cases c P (Optimizer.entering P s x ws) (P.eval s.x s.current).1
      (P.gnorm (P.eval s.x s.current).1.grad) u with ⟨_, h2'⟩ | ⟨_, _, h2'⟩ | ⟨_, _, h2'⟩
    · rw [h2'] at hf
      simp only [Pass.stop.injEq] at hf
      subst hf
      dsimp only
      rw [h4]
      exact evals_passTrace P s hws
    · rw [h2'] at hf
      simp only [Pass.stop.injEq] at hf
      subst hf
      show evals (_ ++ [_, _]) = _
      rw [evals_append, h4]
      show evals (passTrace P s ws) + _ = _
      rw [evals_passTrace P s hws]
      simp [evals]
    · rw [h2'] at hf; simp at hf

theorem run_evals (c : Config K) (P : Prog W G K X) : ∀ fuel s,
    evals (run c P fuel s).st.trace ≤ evals s.trace + fuel := by
  intro fuel
  induction fuel with
  | zero =>
    intro s
    unfold run
    split_ifs <;> simp [Outcome.st]
  | succ fuel ih =>
    intro s
    unfold run
    have he := pass_evals c P s
    split_ifs with hlt
    · cases hp : pass c P s with
      | retry s₁ => rw [hp] at he; have := ih s₁; dsimp only at *; omega
      | next s₁ =>
        rw [hp] at he
        have := ih (startIter P s₁)
        have e : (startIter P s₁).trace = s₁.trace := rfl
        rw [e] at this
        dsimp only at *; omega
      | stop s₁ => rw [hp] at he; simp only [Outcome.st] at *; omega
      | throw s₁ => rw [hp] at he; simp only [Outcome.st] at *; omega
    · simp [Outcome.st]

/-- **Non-termination.** -/
theorem run_livelock (c : Config K) (P : Prog W G K X) (I : St W K X → Prop)
    (h : ∀ s, I s → s.iter < c.maxIter ∧ ∃ s', pass c P s = .retry s' ∧ I s') :
    ∀ fuel s, I s → (run c P fuel s).isRunning := by
  intro fuel
  induction fuel with
  | zero =>
    intro s hs
    unfold run
    rw [if_pos (h s hs).1]; trivial
  | succ fuel ih =>
    intro s hs
    obtain ⟨h1, s', h2, h3⟩ := h s hs
    unfold run
    rw [if_pos h1, h2]
    exact ih s' h3

end

/-! ## Stopping criteria -/

section
variable {W G K X : Type*} [Zero K] [One K] [Add K] [Sub K] [Mul K] [LinearOrder K]

theorem getElem?_append_singleton_lt {α : Type*} (es : List α) (e : α) {j : ℕ} (h : j < es.length) :
    (es ++ [e])[j]? = es[j]? := List.getElem?_append_left h

theorem isRecord_append (big : K) (es : List K) (e : K) {j : ℕ} (h : j < es.length) :
    IsRecord big (es ++ [e]) j ↔ IsRecord big es j := by
  unfold IsRecord
  rw [getElem?_append_singleton_lt es e h]
  constructor
  · rintro ⟨x, h1, h2, h3⟩
    exact ⟨x, h1, h2, fun i hi e' he' => h3 i hi e'
      (by rw [getElem?_append_singleton_lt es e (by omega)]; exact he')⟩
  · rintro ⟨x, h1, h2, h3⟩
    exact ⟨x, h1, h2, fun i hi e' he' => h3 i hi e'
      (by rw [getElem?_append_singleton_lt es e (by omega)] at he'; exact he')⟩

theorem stopAt_append (c : Config K) (es gs : List K) (e g : K) (hl : gs.length = es.length) {j : ℕ}
    (h : j < es.length) : StopAt c (es ++ [e]) (gs ++ [g]) j ↔ StopAt c es gs j := by
  unfold StopAt
  rw [getElem?_append_singleton_lt es e h, getElem?_append_singleton_lt gs g (by omega),
    getElem?_append_singleton_lt es e (by omega : j - 1 < es.length)]
  refine and_congr Iff.rfl (or_congr Iff.rfl (or_congr Iff.rfl (and_congr Iff.rfl ?_)))
  refine forall_congr' fun i => ?_
  refine imp_congr Iff.rfl ⟨fun hh hi => ?_, fun hh hi => ?_⟩
  · rw [← isRecord_append c.big es e (by omega : i < es.length)]; exact hh hi
  · rw [isRecord_append c.big es e (by omega : i < es.length)]; exact hh hi

/-- invariant for the stopping criteria -/
structure Halting (c : Config K) (w₀ : W) (s : St W K X) : Prop where
  book : Book c w₀ s.iter s
  prev : s.previousEnergy = s.energies.getLastD c.big
  noStop : ∀ j < s.iter, ¬ StopAt c s.energies s.grads j
  conv : s.converged = false
  niLe : s.noImprove ≤ s.iter
  niNot : ∀ j < s.iter, s.iter ≤ j + s.noImprove → ¬ IsRecord c.big s.energies j
  niRec : s.noImprove < s.iter → IsRecord c.big s.energies (s.iter - s.noImprove - 1)

/-- the newest energy is a record iff it beats the lowest energy -/
theorem isRecord_new {c : Config K} {w₀ : W} {n : ℕ} {s : St W K X} (h : Book c w₀ n s) (e : K) :
    IsRecord c.big (s.energies ++ [e]) n ↔ e < s.lowestEnergy := by
  have hn : (s.energies ++ [e])[n]? = some e := by
    rw [← h.lenE]; simp
  constructor
  · rintro ⟨x, h1, h2, h3⟩
    rw [hn] at h1
    simp only [Option.some.injEq] at h1
    subst h1
    rcases h.low with hl | hl
    · have hm : s.lowestEnergy ∈ s.energies := by
        rw [h.hE]; exact List.mem_map.2 ⟨_, hl, rfl⟩
      obtain ⟨i, hi, he⟩ := List.getElem_of_mem hm
      refine h3 i (by rw [← h.lenE]; exact hi) _ ?_
      rw [getElem?_append_singleton_lt _ _ hi, List.getElem?_eq_getElem hi, he]
    · rw [hl.1]; exact h2
  · intro hlt
    refine ⟨e, hn, ?_, ?_⟩
    · rcases h.big with hb | hb
      · exact hlt.trans hb
      · rw [← hb]; exact hlt
    · intro i hi e' he'
      rw [getElem?_append_singleton_lt _ _ (by rw [h.lenE]; exact hi)] at he'
      have hm : e' ∈ s.energies := List.mem_of_getElem? he'
      exact lt_of_lt_of_le hlt (not_lt.1 (h.min e' hm))

/-- the counter after `record` -/
theorem noImprove_record {c : Config K} {w₀ : W} {s : St W K X} (h : Halting c w₀ s) (ev : Eval G K)
    (gn : K) (u : Upd W K X) :
    let r := record c s ev gn u
    r.noImprove ≤ s.iter + 1 ∧
    (∀ j < s.iter + 1, s.iter + 1 ≤ j + r.noImprove → ¬ IsRecord c.big r.energies j) ∧
    (r.noImprove < s.iter + 1 → IsRecord c.big r.energies (s.iter + 1 - r.noImprove - 1)) := by
  intro r
  have hE : r.energies = s.energies ++ [ev.energy] := rfl
  have hrec := isRecord_new h.book ev.energy
  by_cases hi : ev.energy < s.lowestEnergy
  · have hn : r.noImprove = 0 := by
      show (if decide (ev.energy < s.lowestEnergy) then 0 else s.noImprove + 1) = 0
      simp [hi]
    rw [hn, hE]
    refine ⟨Nat.zero_le _, fun j hj hj' => by omega, fun _ => ?_⟩
    simpa using hrec.2 hi
  · have hn : r.noImprove = s.noImprove + 1 := by
      show (if decide (ev.energy < s.lowestEnergy) then 0 else s.noImprove + 1) = _
      simp [hi]
    rw [hn, hE]
    refine ⟨by have := h.niLe; omega, ?_, ?_⟩
    · intro j hj hj'
      by_cases hjn : j = s.iter
      · subst hjn; exact fun hr => hi (hrec.1 hr)
      · rw [isRecord_append c.big _ _ (by rw [h.book.lenE]; omega)]
        exact h.niNot j (by omega) (by omega)
    · intro hlt
      have e : s.iter + 1 - (s.noImprove + 1) - 1 = s.iter - s.noImprove - 1 := by omega
      rw [e, isRecord_append c.big _ _ (by rw [h.book.lenE]; omega)]
      exact h.niRec (by omega)

/-- the code's test is the specification's -/
theorem shouldStop_iff {c : Config K} {w₀ : W} {s : St W K X} (h : Halting c w₀ s) (ev : Eval G K)
    (gn : K) (u : Upd W K X) :
    (0 < s.iter ∧ shouldStop c ev.energy s.previousEnergy gn (record c s ev gn u).noImprove = true) ↔
      StopAt c (record c s ev gn u).energies (record c s ev gn u).grads s.iter := by
  obtain ⟨h1, h2, h3⟩ := noImprove_record h ev gn u
  set r := record c s ev gn u
  have hE : r.energies = s.energies ++ [ev.energy] := rfl
  have hG : r.grads = s.grads ++ [gn] := rfl
  have eE : (s.energies ++ [ev.energy])[s.iter]? = some ev.energy := by
    rw [show s.iter = s.energies.length from h.book.lenE.symm]; simp
  have eG : (s.grads ++ [gn])[s.iter]? = some gn := by
    rw [show s.iter = s.grads.length from h.book.lenG.symm]; simp
  unfold StopAt shouldStop
  rw [decide_eq_true_iff]
  refine and_congr_right fun hpos => ?_
  have eP : (s.energies ++ [ev.energy])[s.iter - 1]? = some s.previousEnergy := by
    have hlen := h.book.lenE
    rw [getElem?_append_singleton_lt _ _ (by omega), h.prev]
    rw [List.getLastD_eq_getLast?, List.getLast?_eq_getElem?, hlen]
    rw [List.getElem?_eq_getElem (by omega)]
    rfl
  refine or_congr ?_ (or_congr ?_ ?_)
  · rw [hG, eG]; simp
  · rw [hE, eE, eP]; simp
  · constructor
    · intro hp
      refine ⟨by omega, fun i hi hi' => h2 i (by omega) (by omega)⟩
    · rintro ⟨hp, hall⟩
      by_contra hlt
      push Not at hlt
      exact hall _ (by omega) (by omega) (h3 (by omega))

/-- what is known when the loop has ended -/
structure Halted (c : Config K) (P : Prog W G K X) (s : St W K X) : Prop where
  before : ∀ j, j + 1 < s.total → ¬ StopAt c s.energies s.grads j
  conv : s.converged = true ↔ 0 < s.total ∧ StopAt c s.energies s.grads (s.total - 1)
  ended : s.converged = true ∨ s.total = c.maxIter ∨
    ∃ x err e, s.energies.getLast? = some e ∧ s.errors.getLast? = some err ∧
      P.stopCb x (s.total - 1) e err = true

theorem Halting.entering {c : Config K} {w₀ : W} {s : St W K X} (h : Halting c w₀ s)
    (P : Prog W G K X) (x : X) {ws : List (Event W K)} (hws : Warns s.iter ws) :
    Halting c w₀ (entering P s x ws) :=
  ⟨h.book.entering P x hws, h.prev, h.noStop, h.conv, h.niLe, h.niNot, h.niRec⟩

theorem Halting.retry {c : Config K} {w₀ : W} {s s' : St W K X} (h : Halting c w₀ s)
    (P : Prog W G K X) (hp : pass c P s = .retry s') : Halting c w₀ s' := by
  have hb := h.book.retry P hp
  obtain ⟨ws, x, sig, hws, ⟨_, rfl⟩ | ⟨_, _, rfl⟩⟩ := pass_retry c P s s' hp
  · exact ⟨hb, h.prev, h.noStop, h.conv, h.niLe, h.niNot, h.niRec⟩
  · exact ⟨hb, h.prev, h.noStop, h.conv, h.niLe, h.niNot, h.niRec⟩

/-- no criterion holds before the newest iteration -/
theorem noStop_record {c : Config K} {w₀ : W} {s : St W K X} (h : Halting c w₀ s) (ev : Eval G K)
    (gn : K) (u : Upd W K X) :
    ∀ j < s.iter, ¬ StopAt c (record c s ev gn u).energies (record c s ev gn u).grads j := by
  intro j hj
  show ¬ StopAt c (s.energies ++ [ev.energy]) (s.grads ++ [gn]) j
  rw [stopAt_append c _ _ _ _ (by rw [h.book.lenG, h.book.lenE]) (by rw [h.book.lenE]; exact hj)]
  exact h.noStop j hj

theorem Halting.next {c : Config K} {w₀ : W} {s s' : St W K X} (h : Halting c w₀ s)
    (P : Prog W G K X) (hp : pass c P s = .next s') : Halting c w₀ (startIter P s') := by
  obtain ⟨hbi, hb⟩ := h.book.next P hp
  obtain ⟨ws, x, u, hws, _, hf⟩ := pass_accept c P s _ hp (.inl ⟨_, rfl⟩)
  have he := h.entering P x hws
  rcases finish_cases c P (Optimizer.entering P s x ws) (P.eval s.x s.current).1
    (P.gnorm (P.eval s.x s.current).1.grad) u with ⟨_, h2'⟩ | ⟨_, _, h2'⟩ | ⟨h1', _, h2'⟩
  · rw [h2'] at hf; simp at hf
  · rw [h2'] at hf; simp at hf
  · rw [h2'] at hf
    simp only [Pass.next.injEq] at hf
    obtain ⟨n1, n2, n3⟩ := noImprove_record he (P.eval s.x s.current).1
      (P.gnorm (P.eval s.x s.current).1.grad) u
    have hns := noStop_record he (P.eval s.x s.current).1
      (P.gnorm (P.eval s.x s.current).1.grad) u
    have hsi := shouldStop_iff he (P.eval s.x s.current).1
      (P.gnorm (P.eval s.x s.current).1.grad) u
    refine ⟨?_, ?_, ?_, ?_, ?_, ?_, ?_⟩
    · have : (startIter P s').iter = s.iter + 1 := by show s'.iter + 1 = _; rw [hbi]
      rw [this]
      exact hb.congr rfl rfl rfl rfl rfl rfl rfl rfl rfl rfl
    · rw [hf]
      show (P.eval s.x s.current).1.energy = (s.energies ++ [_]).getLastD c.big
      simp
    · rw [hf]
      intro j hj
      have hj' : j < s.iter + 1 := hj
      by_cases hjn : j = s.iter
      · subst hjn
        exact fun hst => h1' (hsi.2 hst)
      · exact hns j (show j < s.iter by omega)
    · rw [hf]; exact h.conv
    · rw [hf]; exact n1
    · rw [hf]; exact n2
    · rw [hf]; exact n3

theorem Halting.stop {c : Config K} {w₀ : W} {s s' : St W K X} (h : Halting c w₀ s)
    (P : Prog W G K X) (hp : pass c P s = .stop s') : Halted c P s' := by
  obtain ⟨ws, x, u, hws, _, hf⟩ := pass_accept c P s _ hp (.inr ⟨_, rfl⟩)
  have he := h.entering P x hws
  have hns := noStop_record he (P.eval s.x s.current).1
      (P.gnorm (P.eval s.x s.current).1.grad) u
  have hsi := shouldStop_iff he (P.eval s.x s.current).1
      (P.gnorm (P.eval s.x s.current).1.grad) u
  rcases finish_cases c P (Optimizer.entering P s x ws) (P.eval s.x s.current).1
    (P.gnorm (P.eval s.x s.current).1.grad) u with ⟨h1', h2'⟩ | ⟨h1', hcb, h2'⟩ | ⟨h1', _, h2'⟩
  · rw [h2'] at hf
    simp only [Pass.stop.injEq] at hf
    subst hf
    refine ⟨?_, ?_, .inl rfl⟩
    · intro j hj
      exact hns j (show j < s.iter by have : j + 1 < s.iter + 1 := hj; omega)
    · refine ⟨fun _ => ⟨Nat.succ_pos _, ?_⟩, fun _ => rfl⟩
      exact hsi.1 h1'
  · rw [h2'] at hf
    simp only [Pass.stop.injEq] at hf
    subst hf
    refine ⟨?_, ?_, .inr (.inr ⟨_, (P.eval s.x s.current).1.error, (P.eval s.x s.current).1.energy,
      ?_, ?_, hcb⟩)⟩
    · intro j hj
      exact hns j (show j < s.iter by have : j + 1 < s.iter + 1 := hj; omega)
    · constructor
      · intro hc
        have : s.converged = true := hc
        rw [h.conv] at this; simp at this
      · rintro ⟨_, hst⟩
        exact absurd (hsi.2 hst) h1'
    · show (s.energies ++ [_]).getLast? = _; simp
    · show (s.errors ++ [_]).getLast? = _; simp
  · rw [h2'] at hf; simp at hf

theorem Halting.init (c : Config K) (P : Prog W G K X) (w₀ : W) (x₀ : X) :
    Halting c w₀ (init c P w₀ x₀) where
  book := Book.init c P w₀ x₀
  prev := rfl
  noStop := by intro j hj; exact absurd hj (Nat.not_lt_zero _)
  conv := rfl
  niLe := Nat.zero_le _
  niNot := by intro j hj; exact absurd hj (Nat.not_lt_zero _)
  niRec := by intro h; exact absurd h (Nat.not_lt_zero _)

theorem halted_done (c : Config K) (P : Prog W G K X) (fuel : ℕ) (w₀ : W) (x₀ : X) (s : St W K X)
    (h : optimize c P fuel w₀ x₀ = .done s) : Halted c P s := by
  refine (run_induct c P (fun s => Halting c w₀ s ∧ s.iter ≤ c.maxIter) (Halted c P) ?_ ?_ ?_ ?_ fuel
    _ ⟨Halting.init c P w₀ x₀, Nat.zero_le _⟩).1 s h
  · rintro s s' ⟨hs, hi⟩ hlt hp
    refine ⟨hs.retry P hp, ?_⟩
    obtain ⟨ws, x, sig, hws, ⟨_, rfl⟩ | ⟨_, _, rfl⟩⟩ := pass_retry c P s s' hp <;> exact hi
  · rintro s s' ⟨hs, hi⟩ hlt hp
    refine ⟨hs.next P hp, ?_⟩
    have := (hs.book.next P hp).1
    show s'.iter + 1 ≤ _; omega
  · rintro s s' ⟨hs, hi⟩ hlt hp
    exact hs.stop P hp
  · rintro s ⟨hs, hi⟩ hle
    have ht := hs.book.tot
    refine ⟨fun j hj => hs.noStop j (by omega), ?_, .inr (.inl (by omega))⟩
    rw [hs.conv]
    simp only [Bool.false_eq_true, false_iff, not_and]
    intro hpos
    exact hs.noStop _ (by omega)

end
end QLPeps.Optimizer
