import Verif.Lemmas.OptimizerTerm
import Verif.Props.Spike
import Mathlib.Analysis.Real.Sqrt

/-!
# Properties C28 and C67: does the optimization loop terminate?

With rollback disabled (the default) yes, with an explicit bound on the number of evaluations. With
rollback enabled not in general: a step whose energy is above the tracked mean by more than
`sigma_k` standard deviations is rolled back; if the state it went back to spikes as well there is
nothing left to roll back to, but the step is still not accepted, and the same state is evaluated again
without limit. The last theorems say exactly for which `sigma_k` and window this can happen with an
evaluator that returns the same energy for the same state.
-/

set_option linter.unusedSectionVars false

namespace QLPeps.Optimizer

open QLPeps.Spike Spec

section
variable {W G K X : Type*} [Zero K] [One K] [Add K] [Sub K] [Mul K] [LT K] [DecidableLT K]

/-- **C67.** With rollback disabled the loop ends after at most
`max_iterations · (redo_mc_max_retries + 1)` main-path evaluations, for every evaluator, update rule and
callback and whatever the numbers returned: there is one outcome, the same for all larger numbers of
passes, and it is not "still running". (C28, the same with
rollback enabled, fails: `C28_livelock_every_sigma`.) -/
theorem C67_terminates_without_rollback (c : Config K) (P : Prog W G K X) (w₀ : W) (x₀ : X)
    (hr : c.spike.enableRollback = false) :
    ∃ o, ¬ o.isRunning ∧
      evals o.st.trace ≤ c.maxIter * (c.spike.maxRetries + 1) ∧
      ∀ fuel, c.maxIter * (c.spike.maxRetries + 1) ≤ fuel → optimize c P fuel w₀ x₀ = o := by
  have hm : measure c (init c P w₀ x₀) ≤ c.maxIter * (c.spike.maxRetries + 1) := by
    unfold measure left budget
    rw [hr]
    show (if 0 < c.maxIter then (c.maxIter - 0 - 1) * _ + (0 + (c.spike.maxRetries + 1 - 0)) else 0) ≤ _
    rw [if_neg (by simp : ¬ (false = true))]
    split_ifs with h
    · obtain ⟨n, hn⟩ : ∃ n, c.maxIter = n + 1 := ⟨c.maxIter - 1, by omega⟩
      rw [hn, Nat.add_mul]; simp
    · exact Nat.zero_le _
  have ht : ¬ (run c P (c.maxIter * (c.spike.maxRetries + 1)) (init c P w₀ x₀)).isRunning :=
    run_terminates c P (fun _ => True) (fun _ _ _ _ => trivial) (fun _ _ _ _ => trivial)
      (fun s _ _ h => absurd h (by rw [hr]; simp)) _ _ trivial (Nat.zero_le _)
      (fun h => by simp [init] at h) hm
  refine ⟨_, ht, ?_, fun fuel hf => ?_⟩
  · have := run_evals c P (c.maxIter * (c.spike.maxRetries + 1)) (init c P w₀ x₀)
    simpa [init, evals] using this
  · obtain ⟨k, rfl⟩ := Nat.exists_eq_add_of_le hf
    exact run_mono c P _ k _ ht

/-- **C28 (partial: no repeated energy spike).** With rollback enabled, if no state of an iteration whose
rollback has been used up raises an energy spike, at most `2 · (redo_mc_max_retries + 1)`
evaluations per iteration are made. -/
theorem C28_terminates_with_rollback_partial (c : Config K) (P : Prog W G K X) (w₀ : W) (x₀ : X)
    (I : St W K X → Prop) (hinit : I (init c P w₀ x₀))
    (hretry : ∀ s s', I s → pass c P s = .retry s' → I s')
    (hnext : ∀ s s', I s → pass c P s = .next s' → I (startIter P s'))
    (hS4 : ∀ s, I s → s.hasPrev = false → 0 < s.iter →
      detectS4 c.spike c.std s.emaE (P.eval s.x s.current).1.energy = .none) :
    ∃ o, ¬ o.isRunning ∧
      evals o.st.trace ≤ c.maxIter * (2 * (c.spike.maxRetries + 1)) ∧
      ∀ fuel, c.maxIter * (2 * (c.spike.maxRetries + 1)) ≤ fuel → optimize c P fuel w₀ x₀ = o := by
  have hm : measure c (init c P w₀ x₀) ≤ c.maxIter * (2 * (c.spike.maxRetries + 1)) := by
    unfold measure left budget
    show (if 0 < c.maxIter then (c.maxIter - 0 - 1) *
      ((if c.spike.enableRollback then 2 else 1) * (c.spike.maxRetries + 1)) +
      (0 + (c.spike.maxRetries + 1 - 0)) else 0) ≤ _
    split_ifs with h hr
    · obtain ⟨n, hn⟩ : ∃ n, c.maxIter = n + 1 := ⟨c.maxIter - 1, by omega⟩
      rw [hn, Nat.add_mul]; simp
    · obtain ⟨n, hn⟩ : ∃ n, c.maxIter = n + 1 := ⟨c.maxIter - 1, by omega⟩
      rw [hn]; simp only [Nat.sub_zero, Nat.add_sub_cancel]
      nlinarith
    · exact Nat.zero_le _
  have ht : ¬ (run c P (c.maxIter * (2 * (c.spike.maxRetries + 1))) (init c P w₀ x₀)).isRunning :=
    run_terminates c P I hretry hnext (fun s h1 h2 _ h3 => hS4 s h1 h2 h3) _ _ hinit (Nat.zero_le _)
      (fun h => by simp [init] at h) hm
  refine ⟨_, ht, ?_, fun fuel hf => ?_⟩
  · have := run_evals c P (c.maxIter * (2 * (c.spike.maxRetries + 1))) (init c P w₀ x₀)
    simpa [init, evals] using this
  · obtain ⟨k, rfl⟩ := Nat.exists_eq_add_of_le hf
    exact run_mono c P _ k _ ht

end

/-! ## Deterministic evaluators, real arithmetic -/

section
variable {W G X : Type*}

/-- after an observation `e`, the same energy again is no spike if `(1-a) ≤ σ² a` -/
theorem no_spike_again (σ a e : ℝ) (hσ : 0 ≤ σ) (ha0 : 0 < a) (ha1 : a ≤ 1)
    (hsig : 1 - a ≤ σ ^ 2 * a) (cfg : Params ℝ) (hc : cfg.sigmaK = σ) (t : Ema ℝ) (hv : 0 ≤ t.var) :
    detectS4 cfg (fun t => Real.sqrt t.var) (t.update a e) e = .none := by
  unfold detectS4 Ema.update
  by_cases hi : t.initialized = true
  · rw [if_pos hi]
    dsimp only
    rw [if_neg (by simp), if_neg]
    rintro ⟨⟨hd, hs⟩, hlt⟩
    rw [hc] at hlt
    have h1 : 0 ≤ (1 - a) * (t.var + a * (e - t.ema) * (e - t.ema)) := by
      apply mul_nonneg (by linarith)
      have : 0 ≤ a * (e - t.ema) * (e - t.ema) := by nlinarith [sq_nonneg (e - t.ema)]
      linarith
    have h2 : e - (t.ema + a * (e - t.ema)) ≤
        σ * Real.sqrt ((1 - a) * (t.var + a * (e - t.ema) * (e - t.ema))) := by
      apply le_of_sq_le_sq _ (mul_nonneg hσ (Real.sqrt_nonneg _))
      rw [mul_pow, Real.sq_sqrt h1]
      have h3 : (e - (t.ema + a * (e - t.ema))) ^ 2 = (1 - a) * ((1 - a) * (e - t.ema) ^ 2) := by ring
      have h4 : σ ^ 2 * ((1 - a) * (t.var + a * (e - t.ema) * (e - t.ema))) =
          (1 - a) * (σ ^ 2 * t.var + (σ ^ 2 * a) * (e - t.ema) ^ 2) := by ring
      rw [h3, h4]
      apply mul_le_mul_of_nonneg_left _ (by linarith)
      have h5 : (1 - a) * (e - t.ema) ^ 2 ≤ σ ^ 2 * a * (e - t.ema) ^ 2 :=
        mul_le_mul_of_nonneg_right hsig (sq_nonneg _)
      have h6 : 0 ≤ σ ^ 2 * t.var := mul_nonneg (sq_nonneg _) hv
      linarith
    linarith
  · rw [if_neg hi]
    dsimp only
    rw [if_neg (by simp), if_neg]
    rintro ⟨⟨hd, _⟩, _⟩
    simp at hd

theorem update_var_nonneg (a e : ℝ) (ha0 : 0 ≤ a) (ha1 : a ≤ 1) (t : Ema ℝ) (hv : 0 ≤ t.var) :
    0 ≤ (t.update a e).var := by
  unfold Ema.update
  split_ifs
  · dsimp only
    apply mul_nonneg (by linarith)
    have : 0 ≤ a * (e - t.ema) * (e - t.ema) := by nlinarith [sq_nonneg (e - t.ema)]
    linarith
  · exact le_refl _

/-- **C28 (partial: deterministic evaluators).** Rollback enabled, any window `n ≥ 1`, and
`(n - 1) / 2 ≤ sigma_k²` (the default 50 and 10 satisfy it): if the energy is a function of the state
alone, the loop ends after at most `max_iterations · 2 · (redo_mc_max_retries + 1)` main-path
evaluations, for every update rule and callback. -/
theorem C28_terminates_deterministic_partial (c : Config ℝ) (P : Prog W G ℝ X) (w₀ : W) (x₀ : X)
    (n : ℕ) (hn : 1 ≤ n) (ha : c.alpha = alpha n) (hstd : c.std = fun t => Real.sqrt t.var)
    (hσ : 0 ≤ c.spike.sigmaK) (hsig : ((n : ℝ) - 1) / 2 ≤ c.spike.sigmaK ^ 2)
    (en : W → ℝ) (hdet : ∀ x w, (P.eval x w).1.energy = en w)
    (hr : c.spike.enableRollback = true) :
    ∃ o, ¬ o.isRunning ∧
      evals o.st.trace ≤ c.maxIter * (2 * (c.spike.maxRetries + 1)) ∧
      ∀ fuel, c.maxIter * (2 * (c.spike.maxRetries + 1)) ≤ fuel → optimize c P fuel w₀ x₀ = o := by
  obtain ⟨ha0, ha1⟩ := alpha_mem n hn
  rw [← ha] at ha0 ha1
  have hsig' : 1 - c.alpha ≤ c.spike.sigmaK ^ 2 * c.alpha := by
    have hn' : (0 : ℝ) < (n : ℝ) + 1 := by positivity
    rw [ha]; unfold alpha
    rw [mul_div_assoc', le_div_iff₀ hn', sub_mul, div_mul_cancel₀ _ hn'.ne']
    linarith
  refine C28_terminates_with_rollback_partial c P w₀ x₀ (fun s => 0 ≤ s.emaE.var ∧
    (0 < s.iter → (∃ t : Ema ℝ, 0 ≤ t.var ∧ s.emaE = t.update c.alpha (en s.prev)) ∧
      (s.hasPrev = false → s.current = s.prev))) ?_ ?_ ?_ ?_
  · exact ⟨le_refl _, fun h => absurd h (Nat.lt_irrefl _)⟩
  · rintro s s' ⟨h1, h2⟩ hp
    obtain ⟨ws, x, sig, hws, ⟨_, rfl⟩ | ⟨_, _, rfl⟩⟩ := pass_retry c P s s' hp
    · exact ⟨h1, h2⟩
    · refine ⟨h1, fun h => ⟨(h2 h).1, fun _ => ?_⟩⟩
      show (if s.hasPrev then s.prev else s.current) = s.prev
      split_ifs with h3
      · rfl
      · exact (h2 h).2 (by simpa using h3)
  · rintro s s' ⟨h1, h2⟩ hp
    obtain ⟨f1, f2, f3, f4⟩ := pass_next_fields c P s s' hp
    rw [if_pos hr] at f2 f3
    refine ⟨?_, fun _ => ⟨⟨s.emaE, h1, ?_⟩, fun hf => ?_⟩⟩
    · show 0 ≤ s'.emaE.var
      rw [f4]; exact update_var_nonneg _ _ ha0.le ha1 _ h1
    · show s'.emaE = _
      rw [f4, hdet]
      show _ = s.emaE.update c.alpha (en s'.prev)
      rw [f3]
    · have : s'.hasPrev = false := hf
      rw [f2] at this; simp at this
  · rintro s ⟨h1, h2⟩ hp hi
    obtain ⟨⟨t, ht, e⟩, hcur⟩ := h2 hi
    rw [hstd, hdet, hcur hp, e]
    exact no_spike_again _ _ _ hσ ha0 ha1 hsig' _ rfl t ht

end

/-! ## Counterexamples -/

/-- the evaluator of the counterexamples: energy `en calls state`, zero gradient and error; each update
goes to the next state -/
noncomputable def badProg (k : ℕ) (en : ℕ → ℕ → ℝ) : Prog ℕ Unit ℝ ℕ where
  eval x w := (⟨en x w, (), 0⟩, x + 1)
  gnorm _ := 0
  update x _ _ w _ := some ⟨w + 1, 0, k + 1, 0, x⟩
  onIterStart x := x
  onResample x := x
  onRollback x := x
  onAccept x := x
  stopCb _ _ _ _ := false

section
variable {k : ℕ} {en : ℕ → ℕ → ℝ} {c : Config ℝ}

/-- the trackers of errors and norms never leave zero -/
def Quiet (s : St ℕ ℝ ℕ) : Prop := s.emaErr.ema = 0 ∧ s.emaG.ema = 0 ∧ s.emaN.ema = 0

theorem update_zero (a : ℝ) (t : Ema ℝ) (h : t.ema = 0) : (t.update a 0).ema = 0 := by
  unfold Ema.update
  split_ifs <;> simp [h]

theorem stageB_quiet (s : St ℕ ℝ ℕ) (h : Quiet s) : stageB c (badProg k en) s 0 0 = .inr s := by
  unfold stageB
  split_ifs
  · have : detectS1S2 c.spike s.emaErr s.emaG 0 0 = .none := by
      unfold detectS1S2
      rw [h.1, h.2.1]; simp
    dsimp only
    rw [this]
    simp [decideAction, react]
  · rfl

theorem stageD_quiet (hm : c.isMinSR = false) (hk : c.spike.srMinIters = k) (s : St ℕ ℝ ℕ)
    (h : Quiet s) (w x : ℕ) :
    stageD c (badProg k en) s ⟨w, 0, k + 1, 0, x⟩ = .inr s := by
  unfold stageD
  split_ifs
  · have : detectS3 c.spike s.emaN 0 (s3Iters c (k + 1)) = .none := by
      unfold detectS3 s3Iters
      rw [h.2.2, hm, hk]; simp
    dsimp only
    rw [this]
    simp [decideAction, react]
  · rfl

/-- a pass of the bad program -/
theorem pass_quiet (hm : c.isMinSR = false) (hk : c.spike.srMinIters = k) (s : St ℕ ℝ ℕ)
    (h : Quiet s) :
    pass c (badProg k en) s =
      match stageD2 c (badProg k en) (evaluated (badProg k en) s) (en s.x s.current) with
      | .inl s' => .retry s'
      | .inr s₂ => finish c (badProg k en) s₂ ⟨en s.x s.current, (), 0⟩ 0
          ⟨s.current + 1, 0, k + 1, 0, s.x + 1⟩ := by
  have hq : Quiet (evaluated (badProg k en) s) := h
  unfold pass
  dsimp only
  have hB : stageB c (badProg k en) (evaluated (badProg k en) s)
      ((badProg k en).eval s.x s.current).1.error
      ((badProg k en).gnorm ((badProg k en).eval s.x s.current).1.grad) =
      .inr (evaluated (badProg k en) s) := stageB_quiet _ hq
  rw [hB]
  show afterUpdate c (badProg k en) (evaluated (badProg k en) s) ⟨en s.x s.current, (), 0⟩
    ⟨s.current + 1, 0, k + 1, 0, s.x + 1⟩ = _
  unfold afterUpdate
  rw [stageD_quiet hm hk _ hq]
  dsimp only
  cases stageD2 c (badProg k en) (evaluated (badProg k en) s) (en s.x s.current) <;> rfl

/-- the first iterations and the loop that is never left -/
def Phase (c : Config ℝ) (D : ℝ) (s : St ℕ ℝ ℕ) : Prop :=
  Quiet s ∧
  ((s.iter = 0 ∧ s.x = 0 ∧ s.current = 0 ∧ s.emaE = ⟨0, 0, false⟩ ∧ s.lowestEnergy = c.big ∧
      s.noImprove = 0) ∨
   (s.iter = 1 ∧ s.x = 1 ∧ s.current = 1 ∧ s.emaE = ⟨0, 0, true⟩ ∧ s.previousEnergy = 0 ∧
      s.noImprove = 0) ∨
   (s.iter = 2 ∧ 2 ≤ s.x ∧ 1 ≤ s.current ∧ 1 ≤ s.prev ∧
      s.emaE = ⟨c.alpha * D, (1 - c.alpha) * (c.alpha * D * D), true⟩))

theorem livelock (D : ℝ) (hD : 0 < D)
    (hm : c.isMinSR = false) (hk : c.spike.srMinIters = k) (hr : c.spike.enableRollback = true)
    (hmax : 3 ≤ c.maxIter) (hg : c.gradTol ≤ 0) (hfabs : c.fabs = abs) (he : c.energyTol ≤ D)
    (hpat : 2 ≤ c.patience) (hbig : 0 < c.big) (hstd : c.std = fun t => Real.sqrt t.var)
    (en0 : en 0 0 = 0) (en1 : en 1 1 = D)
    (en2 : ∀ x w, 2 ≤ x → 1 ≤ w → detectS4 c.spike c.std
      ⟨c.alpha * D, (1 - c.alpha) * (c.alpha * D * D), true⟩ (en x w) = .s4) :
    ∀ fuel, (optimize c (badProg k en) fuel 0 0).isRunning := by
  have step : ∀ s, Phase c D s → s.iter < c.maxIter ∧
      ((∃ s', pass c (badProg k en) s = .retry s' ∧ Phase c D s') ∨
       (∃ s', pass c (badProg k en) s = .next s' ∧ Phase c D (startIter (badProg k en) s'))) := by
    rintro s ⟨hq, h | h | h⟩
    · obtain ⟨hi, hx, hcur, hE, hlow, hni⟩ := h
      refine ⟨by omega, .inr ?_⟩
      rw [pass_quiet hm hk s hq]
      have hd2 : stageD2 c (badProg k en) (evaluated (badProg k en) s) (en s.x s.current) =
          .inr (evaluated (badProg k en) s) := by
        unfold stageD2
        rw [if_neg]
        rintro ⟨_, hpos⟩
        have : 0 < s.iter := hpos
        omega
      rw [hd2]
      dsimp only
      rcases finish_cases c (badProg k en) (evaluated (badProg k en) s) ⟨en s.x s.current, (), 0⟩ 0
        ⟨s.current + 1, 0, k + 1, 0, s.x + 1⟩ with ⟨h1, _⟩ | ⟨_, h1, _⟩ | ⟨_, _, h2⟩
      · have : 0 < s.iter := h1.1
        omega
      · simp [badProg] at h1
      · refine ⟨_, h2, ⟨update_zero _ _ hq.1, update_zero _ _ hq.2.1, ?_⟩, .inr (.inl ⟨?_, ?_, ?_, ?_, ?_, ?_⟩)⟩
        · show (if c.isSR || c.isMinSR then s.emaN.update c.alpha 0 else s.emaN).ema = 0
          split_ifs
          · exact update_zero _ _ hq.2.2
          · exact hq.2.2
        · show s.iter + 1 = 1; omega
        · show s.x + 1 = 1; omega
        · show s.current + 1 = 1; omega
        · show s.emaE.update c.alpha (en s.x s.current) = _
          rw [hE, hx, hcur, en0]; simp [Ema.update]
        · show en s.x s.current = 0
          rw [hx, hcur, en0]
        · show (if decide (en s.x s.current < s.lowestEnergy) then 0 else s.noImprove + 1) = 0
          rw [hx, hcur, en0, hlow]; simp [hbig]
    · obtain ⟨hi, hx, hcur, hE, hpe, hni⟩ := h
      refine ⟨by omega, .inr ?_⟩
      rw [pass_quiet hm hk s hq]
      have hd2 : stageD2 c (badProg k en) (evaluated (badProg k en) s) (en s.x s.current) =
          .inr (evaluated (badProg k en) s) := by
        unfold stageD2
        split_ifs
        · have : detectS4 c.spike c.std (evaluated (badProg k en) s).emaE (en s.x s.current) = .none := by
            show detectS4 c.spike c.std s.emaE (en s.x s.current) = .none
            unfold detectS4
            rw [hE, hstd]; simp
          dsimp only
          rw [this]
          simp [react]
        · rfl
      rw [hd2]
      dsimp only
      rcases finish_cases c (badProg k en) (evaluated (badProg k en) s) ⟨en s.x s.current, (), 0⟩ 0
        ⟨s.current + 1, 0, k + 1, 0, s.x + 1⟩ with ⟨h1, _⟩ | ⟨_, h1, _⟩ | ⟨_, _, h2⟩
      · exfalso
        have h3 := h1.2
        unfold shouldStop at h3
        rw [decide_eq_true_iff] at h3
        rcases h3 with h3 | h3 | h3
        · linarith
        · have h4 : c.fabs (en s.x s.current - s.previousEnergy) < c.energyTol := h3
          rw [hfabs, hx, hcur, en1, hpe, sub_zero, abs_of_pos hD] at h4
          linarith
        · have h4 : c.patience ≤ if decide (en s.x s.current < s.lowestEnergy) then 0 else s.noImprove + 1 := h3
          rw [hni] at h4
          split_ifs at h4 <;> omega
      · simp [badProg] at h1
      · refine ⟨_, h2, ⟨update_zero _ _ hq.1, update_zero _ _ hq.2.1, ?_⟩, .inr (.inr ⟨?_, ?_, ?_, ?_, ?_⟩)⟩
        · show (if c.isSR || c.isMinSR then s.emaN.update c.alpha 0 else s.emaN).ema = 0
          split_ifs
          · exact update_zero _ _ hq.2.2
          · exact hq.2.2
        · show s.iter + 1 = 2; omega
        · show 2 ≤ s.x + 1; omega
        · show 1 ≤ s.current + 1; omega
        · show 1 ≤ (if c.spike.enableRollback then s.current else s.prev)
          rw [if_pos hr]; omega
        · show s.emaE.update c.alpha (en s.x s.current) = _
          rw [hE, hx, hcur, en1]; simp [Ema.update]
    · obtain ⟨hi, hx, hcur, hprev, hE⟩ := h
      refine ⟨by omega, .inl ?_⟩
      rw [pass_quiet hm hk s hq]
      have hd2 : stageD2 c (badProg k en) (evaluated (badProg k en) s) (en s.x s.current) =
          react (badProg k en) (evaluated (badProg k en) s) .s4 .rollback := by
        unfold stageD2
        rw [if_pos ⟨hr, by show 0 < s.iter; omega⟩]
        have : detectS4 c.spike c.std (evaluated (badProg k en) s).emaE (en s.x s.current) = .s4 := by
          show detectS4 c.spike c.std s.emaE (en s.x s.current) = .s4
          rw [hE]; exact en2 _ _ hx hcur
        dsimp only
        rw [this]
        simp
      rw [hd2]
      refine ⟨_, rfl, hq, .inr (.inr ⟨hi, ?_, ?_, hprev, hE⟩)⟩
      · show 2 ≤ if s.hasPrev then s.x + 1 else s.x + 1
        split_ifs <;> omega
      · show 1 ≤ if s.hasPrev then s.prev else s.current
        split_ifs <;> assumption
  have key : ∀ fuel s, Phase c D s → (run c (badProg k en) fuel s).isRunning := by
    intro fuel
    induction fuel with
    | zero =>
      intro s hs
      unfold run
      rw [if_pos (step s hs).1]; trivial
    | succ fuel ih =>
      intro s hs
      obtain ⟨h1, ⟨s', h2, h3⟩ | ⟨s', h2, h3⟩⟩ := step s hs
      · unfold run; rw [if_pos h1, h2]; exact ih s' h3
      · unfold run; rw [if_pos h1, h2]; exact ih _ h3
  intro fuel
  exact key fuel _ ⟨⟨rfl, rfl, rfl⟩, .inl ⟨rfl, rfl, rfl, rfl, rfl, rfl⟩⟩

end

/-- **C28 is false with rollback enabled.** For *every* setting of `sigma_k`, of the retry limit, of the
factors and of the window (`0 < alpha < 1`, i.e. window ≥ 2), with harmless tolerances, there is an
evaluator on which the loop never ends. -/
theorem C28_livelock_every_sigma (c : Config ℝ) (hm : c.isMinSR = false)
    (hr : c.spike.enableRollback = true) (hmax : 3 ≤ c.maxIter) (hg : c.gradTol ≤ 0)
    (hfabs : c.fabs = abs) (hpat : 2 ≤ c.patience) (hbig : 0 < c.big)
    (hstd : c.std = fun t => Real.sqrt t.var) (ha0 : 0 < c.alpha) (ha1 : c.alpha < 1) :
    ∃ P : Prog ℕ Unit ℝ ℕ, ∀ fuel, (optimize c P fuel 0 0).isRunning := by
  set D : ℝ := max 1 c.energyTol with hDdef
  have hD : 0 < D := lt_of_lt_of_le one_pos (le_max_left _ _)
  set v : ℝ := (1 - c.alpha) * (c.alpha * D * D) with hv
  have hvpos : 0 < v := by
    apply mul_pos (by linarith)
    positivity
  set B : ℝ := c.alpha * D + max c.spike.sigmaK 0 * Real.sqrt v + 1 with hB
  refine ⟨badProg c.spike.srMinIters (fun x _ => if x = 0 then 0 else if x = 1 then D else B), ?_⟩
  refine livelock D hD hm rfl hr hmax hg hfabs (le_max_right _ _) hpat hbig hstd ?_ ?_ ?_
  · simp
  · simp
  · intro x w hx hw
    have h0 : x ≠ 0 := by omega
    have h1 : x ≠ 1 := by omega
    simp only [h0, h1, if_false]
    have hs : 0 < Real.sqrt v := Real.sqrt_pos.2 hvpos
    have h2 : c.spike.sigmaK * Real.sqrt v ≤ max c.spike.sigmaK 0 * Real.sqrt v :=
      mul_le_mul_of_nonneg_right (le_max_left _ _) hs.le
    have h3 : 0 ≤ max c.spike.sigmaK 0 * Real.sqrt v := mul_nonneg (le_max_right _ _) hs.le
    unfold detectS4
    rw [hstd]
    dsimp only
    rw [if_neg (by simp), if_pos]
    refine ⟨⟨?_, hs⟩, ?_⟩
    · rw [hB]; linarith
    · rw [hB]; linarith

/-- **C28 is false with rollback enabled, even for deterministic evaluators**, as soon as
`sigma_k² < (window - 1) / 2` (for instance the default window 50 with `sigma_k = 3` or 4): if the energy
is 0 in the initial state and `D > 0` in every other state, the loop never ends. Together with
`C28_terminates_deterministic_partial` this is exactly the range of `sigma_k`. -/
theorem C28_livelock_deterministic (c : Config ℝ) (n : ℕ) (hn : 1 ≤ n) (ha : c.alpha = alpha n)
    (hσ : 0 ≤ c.spike.sigmaK) (hsig : c.spike.sigmaK ^ 2 < ((n : ℝ) - 1) / 2)
    (hm : c.isMinSR = false)
    (hr : c.spike.enableRollback = true) (hmax : 3 ≤ c.maxIter) (hg : c.gradTol ≤ 0)
    (hfabs : c.fabs = abs) (hpat : 2 ≤ c.patience) (hbig : 0 < c.big)
    (hstd : c.std = fun t => Real.sqrt t.var) (D : ℝ) (hD : 0 < D) (he : c.energyTol ≤ D) :
    ∃ P : Prog ℕ Unit ℝ ℕ, (∀ x w, (P.eval x w).1.energy = if w = 0 then 0 else D) ∧
      ∀ fuel, (optimize c P fuel 0 0).isRunning := by
  refine ⟨badProg c.spike.srMinIters (fun _ w => if w = 0 then 0 else D), fun _ _ => rfl, ?_⟩
  obtain ⟨ha0, ha1⟩ := alpha_mem n hn
  rw [← ha] at ha0 ha1
  have hn1 : 0 ≤ c.spike.sigmaK ^ 2 := sq_nonneg _
  have hn2 : (1 : ℝ) < n := by linarith
  have ha1' : c.alpha < 1 := by
    rw [ha]; unfold alpha
    rw [div_lt_one (by linarith)]; linarith
  have hs1 : c.spike.sigmaK ^ 2 * c.alpha < 1 - c.alpha := by
    have hn' : (0 : ℝ) < (n : ℝ) + 1 := by positivity
    rw [ha]; unfold alpha
    rw [mul_div_assoc', div_lt_iff₀ hn', sub_mul, div_mul_cancel₀ _ hn'.ne']
    linarith
  refine livelock D hD hm rfl hr hmax hg hfabs he hpat hbig hstd (by simp) (by simp) ?_
  intro x w _ hw
  have h0 : w ≠ 0 := by omega
  simp only [h0, if_false]
  have hv : 0 < (1 - c.alpha) * (c.alpha * D * D) := by
    apply mul_pos (by linarith); positivity
  have hs : 0 < Real.sqrt ((1 - c.alpha) * (c.alpha * D * D)) := Real.sqrt_pos.2 hv
  unfold detectS4
  rw [hstd]
  dsimp only
  rw [if_neg (by simp), if_pos]
  have hd : 0 < D - c.alpha * D := by nlinarith
  refine ⟨⟨hd, hs⟩, ?_⟩
  apply lt_of_pow_lt_pow_left₀ 2 hd.le
  rw [mul_pow, Real.sq_sqrt hv.le]
  have e1 : (D - c.alpha * D) ^ 2 = ((1 - c.alpha) * D ^ 2) * (1 - c.alpha) := by ring
  have e2 : c.spike.sigmaK ^ 2 * ((1 - c.alpha) * (c.alpha * D * D)) =
      ((1 - c.alpha) * D ^ 2) * (c.spike.sigmaK ^ 2 * c.alpha) := by ring
  rw [e1, e2]
  apply mul_lt_mul_of_pos_left hs1
  apply mul_pos (by linarith); positivity

/-- parameters that meet the hypotheses of the theorems above: window 50, given `sigma_k` -/
noncomputable def rollbackCfg (σ : ℝ) : Config ℝ where
  spike := ⟨true, 2, 100, 1e10, 10, 1, true, σ⟩
  isSR := true
  isMinSR := false
  maxIter := 100
  gradTol := 0
  energyTol := 0
  patience := 20
  ckptEvery := 0
  ckptPath := false
  alpha := alpha 50
  big := 1e308
  fabs := abs
  std := fun t => Real.sqrt t.var

/-- the hypotheses of `C28_livelock_deterministic` hold for window 50 and `sigma_k = 3` -/
example : ∃ P : Prog ℕ Unit ℝ ℕ, (∀ x w, (P.eval x w).1.energy = if w = 0 then 0 else 1) ∧
    ∀ fuel, (optimize (rollbackCfg 3) P fuel 0 0).isRunning :=
  C28_livelock_deterministic (rollbackCfg 3) 50 (by norm_num) rfl
    (by norm_num [rollbackCfg]) (by norm_num [rollbackCfg]) rfl rfl
    (by norm_num [rollbackCfg]) (le_refl _) rfl (by norm_num [rollbackCfg])
    (by norm_num [rollbackCfg]) rfl 1 one_pos (by norm_num [rollbackCfg])

/-- and those of `C28_terminates_deterministic_partial` for window 50 and the default `sigma_k = 10` -/
example (P : Prog ℕ Unit ℝ ℕ) (en : ℕ → ℝ) (h : ∀ x w, (P.eval x w).1.energy = en w) :
    ∃ o, ¬ o.isRunning ∧ ∀ fuel, 600 ≤ fuel → optimize (rollbackCfg 10) P fuel 0 0 = o := by
  obtain ⟨o, h1, _, h2⟩ := C28_terminates_deterministic_partial (rollbackCfg 10) P 0 0 50 (by norm_num)
    rfl rfl (by norm_num [rollbackCfg]) (by norm_num [rollbackCfg]) en h rfl
  exact ⟨o, h1, fun fuel hf => h2 fuel (by simpa [rollbackCfg] using hf)⟩

end QLPeps.Optimizer
