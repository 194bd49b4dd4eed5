import Verif.Model.Spike
import Mathlib.Tactic

/-! # Properties C25, C26: moving averages and spike decisions -/

namespace QLPeps.Spike

/-! ## C25 -/

theorem run_append (w : ℕ) (xs : List ℝ) (x : ℝ) :
    Ema.run w (xs ++ [x]) = Ema.update (alpha w) (Ema.run w xs) x := by
  unfold Ema.run; rw [List.foldl_append]; rfl

theorem alpha_mem (w : ℕ) (hw : 1 ≤ w) : 0 < (alpha w : ℝ) ∧ (alpha w : ℝ) ≤ 1 := by
  have h : (1 : ℝ) ≤ w := by exact_mod_cast hw
  unfold alpha
  constructor
  · positivity
  · rw [div_le_one (by linarith)]; linarith

/-- **C25.** For every window of at least 1 and every non-empty sequence of observations lying in
`[lo, hi]`, the tracked mean lies in `[lo, hi]`, the variance is nonnegative and at most
`(hi - lo)²`. -/
theorem C25_mean_in_range (w : ℕ) (hw : 1 ≤ w) (lo hi : ℝ) (xs : List ℝ) (hne : xs ≠ [])
    (hx : ∀ x ∈ xs, lo ≤ x ∧ x ≤ hi) :
    lo ≤ (Ema.run w xs).ema ∧ (Ema.run w xs).ema ≤ hi ∧ 0 ≤ (Ema.run w xs).var ∧
      (Ema.run w xs).var ≤ (hi - lo) ^ 2 ∧ (Ema.run w xs).initialized = true := by
  obtain ⟨ha0, ha1⟩ := alpha_mem w hw
  induction xs using List.reverseRecOn with
  | nil => exact absurd rfl hne
  | append_singleton xs x ih =>
    rw [run_append]
    have hxx := hx x (by simp)
    rcases List.eq_nil_or_concat xs with h | ⟨l, b, h⟩
    · subst h
      have : Ema.update (alpha w) (Ema.run w []) x = (⟨x, 0, true⟩ : Ema ℝ) := rfl
      rw [this]
      exact ⟨hxx.1, hxx.2, le_refl _, sq_nonneg _, rfl⟩
    · have hne' : xs ≠ [] := by rw [h]; simp
      obtain ⟨h1, h2, h3, h4, h5⟩ := ih hne' (fun y hy => hx y (by simp [hy]))
      set t := Ema.run w xs
      set a : ℝ := alpha w
      unfold Ema.update
      rw [if_pos h5]
      dsimp only
      have hd : (x - t.ema) ^ 2 ≤ (hi - lo) ^ 2 := by
        apply sq_le_sq'
        · linarith
        · linarith
      refine ⟨by nlinarith, by nlinarith, ?_, ?_, rfl⟩
      · apply mul_nonneg (by linarith)
        have : 0 ≤ a * (x - t.ema) * (x - t.ema) := by nlinarith [sq_nonneg (x - t.ema)]
        linarith
      · have e : (1 - a) * (t.var + a * (x - t.ema) * (x - t.ema))
            = (1 - a) * (t.var + a * (x - t.ema) ^ 2) := by ring
        rw [e]
        have h6 : t.var + a * (x - t.ema) ^ 2 ≤ (1 + a) * (hi - lo) ^ 2 := by nlinarith
        have h7 : 0 ≤ (hi - lo) ^ 2 := sq_nonneg _
        calc (1 - a) * (t.var + a * (x - t.ema) ^ 2)
            ≤ (1 - a) * ((1 + a) * (hi - lo) ^ 2) := mul_le_mul_of_nonneg_left h6 (by linarith)
          _ = (hi - lo) ^ 2 - a ^ 2 * (hi - lo) ^ 2 := by ring
          _ ≤ (hi - lo) ^ 2 := by nlinarith [mul_nonneg (sq_nonneg a) h7]

/-- **C25.** Constant input gives that constant and zero variance (every window, including 0). -/
theorem C25_constant (w : ℕ) (c : ℝ) (n : ℕ) :
    Ema.run w (List.replicate (n + 1) c) = ⟨c, 0, true⟩ := by
  induction n with
  | zero => rfl
  | succ n ih =>
    rw [List.replicate_succ' (n := n + 1), run_append, ih]
    simp [Ema.update]

/-- **C25.** A window of 0 is not excluded by the class, and there the claim fails: the smoothing
constant is 2, two observations 0, 1 give mean 2 and variance -2. -/
theorem C25_window_zero_out_of_range :
    (Ema.run 0 [0, (1 : ℝ)]).ema = 2 ∧ (Ema.run 0 [0, (1 : ℝ)]).var = -2 := by
  constructor <;> norm_num [Ema.run, Ema.update, Ema.new, alpha]

/-- **C25.** A window of 1 makes the tracker follow the last observation with zero variance, so an
energy spike is never signalled. -/
theorem C25_window_one (xs : List ℝ) (x : ℝ) : Ema.run 1 (xs ++ [x]) = ⟨x, 0, true⟩ := by
  rw [run_append]
  have : (alpha 1 : ℝ) = 1 := by norm_num [alpha]
  rw [this]
  unfold Ema.update
  split_ifs
  · simp
  · rfl

example : (Ema.run 3 [0, 4, (4 : ℝ)]).ema = 3 := by norm_num [Ema.run, Ema.update, Ema.new, alpha]

/-! ## C26 -/

section
variable {K : Type*} [Zero K] [LT K] [DecidableLT K] [Mul K] [Sub K]

/-- **C26.** The decision, as a table. -/
theorem C26_decision (cfg : Params K) (hasPrev : Bool) (signal : Signal) (attempts step : ℕ) :
    (decideAction cfg hasPrev signal attempts step = .accept ↔ signal = .none) ∧
    (decideAction cfg hasPrev signal attempts step = .resample ↔
      (signal = .s1 ∨ signal = .s2 ∨ signal = .s3) ∧ attempts < cfg.maxRetries) ∧
    (decideAction cfg hasPrev signal attempts step = .rollback ↔
      signal = .s4 ∨ ((signal = .s1 ∨ signal = .s2 ∨ signal = .s3) ∧ cfg.maxRetries ≤ attempts ∧
        cfg.enableRollback = true ∧ hasPrev = true ∧ 0 < step)) ∧
    (decideAction cfg hasPrev signal attempts step = .acceptWithWarning ↔
      (signal = .s1 ∨ signal = .s2 ∨ signal = .s3) ∧ cfg.maxRetries ≤ attempts ∧
        ¬ (cfg.enableRollback = true ∧ hasPrev = true ∧ 0 < step)) := by
  by_cases h : attempts < cfg.maxRetries <;>
    by_cases h2 : (cfg.enableRollback = true ∧ hasPrev = true ∧ 0 < step) <;>
    cases signal <;> simp [decideAction, h, h2] <;> omega

/-- **C26.** Detection before any observation: with fresh trackers no error-bar, gradient or energy
spike is signalled, whatever the values. -/
theorem C26_inactive_before_first_observation (cfg : Params K) (std : Ema K → K) (e1 e2 : Ema K)
    (h1 : e1.initialized = false) (h2 : e2.initialized = false) (error gradNorm energy : K) :
    detectS1S2 cfg e1 e2 error gradNorm = .none ∧ detectS4 cfg std e1 energy = .none := by
  simp [detectS1S2, detectS4, h1, h2]

/-- **C26.** When and only when a signal is raised. Comparisons are arbitrary, so a value for which
every comparison is false (NaN) never raises S1, S2 or S4. -/
theorem C26_signals (cfg : Params K) (std : Ema K → K) (eErr eGrad eN eE : Ema K)
    (error gradNorm ngradNorm energy : K) (srIters : ℕ) :
    (detectS1S2 cfg eErr eGrad error gradNorm = .s1 ↔
      eErr.initialized = true ∧ 0 < eErr.ema ∧ cfg.factorErr * eErr.ema < error) ∧
    (detectS1S2 cfg eErr eGrad error gradNorm = .s2 →
      eGrad.initialized = true ∧ 0 < eGrad.ema ∧ cfg.factorGrad * eGrad.ema < gradNorm) ∧
    (detectS3 cfg eN ngradNorm srIters = .s3 ↔ srIters ≤ cfg.srMinIters ∨
      (eN.initialized = true ∧ 0 < eN.ema ∧ cfg.factorNgrad * eN.ema < ngradNorm)) ∧
    (detectS4 cfg std eE energy = .s4 ↔ eE.initialized = true ∧ 0 < energy - eE.ema ∧ 0 < std eE ∧
      cfg.sigmaK * std eE < energy - eE.ema) := by
  refine ⟨?_, ?_, ?_, ?_⟩
  · unfold detectS1S2
    split_ifs with h1 h2
    · simp [h1.1.1, h1.1.2, h1.2]
    · simp only [reduceCtorEq, false_iff]; tauto
    · simp only [reduceCtorEq, false_iff]; tauto
  · unfold detectS1S2
    split_ifs with h1 h2
    · simp
    · intro _; exact ⟨h2.1.1, h2.1.2, h2.2⟩
    · simp
  · unfold detectS3
    split_ifs with h1 h2
    · simp only [true_iff]; tauto
    · simp [h2]
    · simp only [reduceCtorEq, false_iff]; tauto
  · unfold detectS4
    dsimp only
    split_ifs with h1 h2
    · simp [h1]
    · simp only [true_iff]
      have : eE.initialized = true := by simpa using h1
      tauto
    · simp only [reduceCtorEq, false_iff]; tauto

end

/-- **C26.** The energy spike needs an energy strictly above the moving mean: an energy at or below
every energy seen so far is never signalled as an S4 spike (window at least 1). -/
theorem C26_lower_energy_never_spikes (cfg : Params ℝ) (std : Ema ℝ → ℝ) (w : ℕ) (hw : 1 ≤ w)
    (hist : List ℝ) (hne : hist ≠ []) (e : ℝ) (he : ∀ x ∈ hist, e ≤ x) :
    detectS4 cfg std (Ema.run w hist) e = .none := by
  -- take `hi` large enough
  have hhi : ∃ hi, ∀ x ∈ hist, x ≤ hi := by
    refine ⟨hist.foldl max (hist.headD 0), fun x hx => ?_⟩
    have : ∀ (l : List ℝ) (a : ℝ), a ≤ l.foldl max a ∧ ∀ y ∈ l, y ≤ l.foldl max a := by
      intro l
      induction l with
      | nil => intro a; exact ⟨le_refl _, by simp⟩
      | cons b l ih =>
        intro a
        have := ih (max a b)
        refine ⟨(le_max_left a b).trans this.1, ?_⟩
        intro y hy
        rcases List.mem_cons.1 hy with h | h
        · subst h; exact (le_max_right a y).trans this.1
        · exact this.2 y h
    exact (this hist _).2 x hx
  obtain ⟨hi, hhi⟩ := hhi
  have h := C25_mean_in_range w hw e hi hist hne (fun x hx => ⟨he x hx, hhi x hx⟩)
  by_contra hc
  have hs4 : detectS4 cfg std (Ema.run w hist) e = .s4 := by
    revert hc
    unfold detectS4
    dsimp only
    split_ifs <;> simp
  have := ((C26_signals cfg std (Ema.run w hist) (Ema.run w hist) (Ema.run w hist) (Ema.run w hist)
    0 0 0 e 0).2.2.2.1 hs4).2.1
  linarith

/-- an energy spike that is signalled: energies 0, 1, then 100 -/
example : detectS4 (⟨true, 2, 100, 100, 10, 1, true, 10⟩ : Params ℝ) (fun t => Real.sqrt t.var)
    (Ema.run 3 [0, 1]) 100 = .s4 := by
  rw [(C26_signals _ _ ⟨0, 0, true⟩ ⟨0, 0, true⟩ ⟨0, 0, true⟩ _ 0 0 0 100 0).2.2.2]
  have hv : (Ema.run 3 [0, (1 : ℝ)]) = ⟨1 / 2, 1 / 4, true⟩ := by
    norm_num [Ema.run, Ema.update, Ema.new, alpha]
  have hs : Real.sqrt (1 / 4) = 1 / 2 := by
    rw [show (1 / 4 : ℝ) = (1 / 2) ^ 2 by norm_num]; exact Real.sqrt_sq (by norm_num)
  rw [hv]
  simp only [hs]
  norm_num

end QLPeps.Spike
