import Verif.Model.Schedulers
import Mathlib.Tactic

/-! # Properties C23, C24: learning-rate schedules -/

namespace QLPeps.Schedulers

/-! ## C23 -/

/-- **C23, exponential decay.** Between 0 and the initial rate, never increasing, and multiplied by
the decay rate exactly every `steps` iterations. -/
theorem C23_exponential (initial rate : ℝ) (steps : ℕ) (hi : 0 ≤ initial) (h0 : 0 < rate)
    (h1 : rate ≤ 1) (hs : 0 < steps) :
    (∀ t, 0 ≤ exponentialDecay initial rate steps t ∧ exponentialDecay initial rate steps t ≤ initial) ∧
    (∀ t t', t ≤ t' → exponentialDecay initial rate steps t' ≤ exponentialDecay initial rate steps t) ∧
    exponentialDecay initial rate steps 0 = initial ∧
    (∀ t, exponentialDecay initial rate steps (t + steps)
      = rate * exponentialDecay initial rate steps t) := by
  have hs' : (0 : ℝ) < steps := by exact_mod_cast hs
  have mono : ∀ t t', t ≤ t' →
      exponentialDecay initial rate steps t' ≤ exponentialDecay initial rate steps t := by
    intro t t' h
    unfold exponentialDecay
    apply mul_le_mul_of_nonneg_left _ hi
    apply Real.rpow_le_rpow_of_exponent_ge h0 h1
    apply div_le_div_of_nonneg_right _ hs'.le
    exact_mod_cast h
  have z : exponentialDecay initial rate steps 0 = initial := by simp [exponentialDecay]
  refine ⟨fun t => ⟨?_, ?_⟩, mono, z, fun t => ?_⟩
  · unfold exponentialDecay; exact mul_nonneg hi (Real.rpow_nonneg h0.le _)
  · rw [← z]
    have := mono 0 t (Nat.zero_le t)
    simpa [z] using this
  · unfold exponentialDecay
    have : ((t + steps : ℕ) : ℝ) / (steps : ℝ) = (t : ℝ) / (steps : ℝ) + 1 := by
      push_cast; field_simp
    rw [this, Real.rpow_add h0, Real.rpow_one]
    ring

example : exponentialDecay 2 (1/2) 10 20 = 1/2 := by
  have := (C23_exponential 2 (1/2) 10 (by norm_num) (by norm_num) (by norm_num) (by norm_num)).2.2
  have a := this.2 10
  have b := this.2 0
  rw [this.1] at b
  norm_num at a b
  rw [a, b]; norm_num

/-- **C23, step decay.** Defined for a positive step size; between 0 and the initial rate, never
increasing, constant inside each window of `size` iterations and multiplied by `gamma` from one
window to the next. -/
theorem C23_step (initial gamma : ℝ) (size : ℕ) (hi : 0 ≤ initial) (h0 : 0 ≤ gamma)
    (h1 : gamma ≤ 1) (hs : 0 < size) :
    ∃ lr : ℕ → ℝ, (∀ t, stepLR initial gamma size t = some (lr t)) ∧
      (∀ t, 0 ≤ lr t ∧ lr t ≤ initial) ∧ (∀ t t', t ≤ t' → lr t' ≤ lr t) ∧
      (∀ w r, r < size → lr (w * size + r) = lr (w * size)) ∧
      lr 0 = initial ∧ (∀ t, lr (t + size) = gamma * lr t) := by
  refine ⟨fun t => initial * gamma ^ (t / size), ?_, ?_, ?_, ?_, ?_, ?_⟩
  · intro t; unfold stepLR; rw [if_neg (by omega)]
  · intro t
    exact ⟨mul_nonneg hi (pow_nonneg h0 _), mul_le_of_le_one_right hi (pow_le_one₀ h0 h1)⟩
  · intro t t' h
    exact mul_le_mul_of_nonneg_left (pow_le_pow_of_le_one h0 h1 (Nat.div_le_div_right h)) hi
  · intro w r hr
    have e1 : (w * size + r) / size = w := by
      rw [Nat.add_comm, Nat.add_mul_div_right _ _ hs, Nat.div_eq_of_lt hr, Nat.zero_add]
    have e2 : w * size / size = w := Nat.mul_div_cancel _ hs
    simp only [e1, e2]
  · simp
  · intro t
    simp only [Nat.add_div_right _ hs, pow_succ]
    ring

/-- **C23, step decay.** A step size of zero is undefined behaviour (integer division by zero). -/
theorem C23_step_zero_undefined (initial gamma : ℝ) (t : ℕ) : stepLR initial gamma 0 t = none := rfl

/-- **C23, cosine annealing.** Between the minimum and the maximum, never increasing, starts at the
maximum and equals the minimum from iteration `T` on. -/
theorem C23_cosine (etaMax etaMin : ℝ) (T : ℕ) (h : etaMin ≤ etaMax) (hT : 0 < T) :
    (∀ t, etaMin ≤ cosine etaMax etaMin T t ∧ cosine etaMax etaMin T t ≤ etaMax) ∧
    (∀ t t', t ≤ t' → cosine etaMax etaMin T t' ≤ cosine etaMax etaMin T t) ∧
    cosine etaMax etaMin T 0 = etaMax ∧ (∀ t, T ≤ t → cosine etaMax etaMin T t = etaMin) := by
  have hT' : (0 : ℝ) < T := by exact_mod_cast hT
  have e : ∀ t, cosine etaMax etaMin T t = etaMin + 0.5 * (etaMax - etaMin)
      * (1 + Real.cos (Real.pi * ((min t T : ℕ) : ℝ) / (T : ℝ))) := by
    intro t; unfold cosine; rw [if_neg (by omega)]
  refine ⟨fun t => ?_, fun t t' htt => ?_, ?_, fun t ht => ?_⟩
  · rw [e]
    have := Real.neg_one_le_cos (Real.pi * ((min t T : ℕ) : ℝ) / (T : ℝ))
    have := Real.cos_le_one (Real.pi * ((min t T : ℕ) : ℝ) / (T : ℝ))
    constructor <;> nlinarith
  · rw [e, e]
    have hle : Real.cos (Real.pi * ((min t' T : ℕ) : ℝ) / (T : ℝ))
        ≤ Real.cos (Real.pi * ((min t T : ℕ) : ℝ) / (T : ℝ)) := by
      apply Real.cos_le_cos_of_nonneg_of_le_pi
      · have := Real.pi_pos; positivity
      · rw [div_le_iff₀ hT']
        apply mul_le_mul_of_nonneg_left _ Real.pi_pos.le
        exact_mod_cast min_le_right t' T
      · apply div_le_div_of_nonneg_right _ hT'.le
        apply mul_le_mul_of_nonneg_left _ Real.pi_pos.le
        exact_mod_cast min_le_min_right T htt
    nlinarith
  · rw [e]; simp; ring
  · rw [e, min_eq_right ht, mul_div_assoc, div_self hT'.ne', mul_one, Real.cos_pi]; ring

/-- **C23, warm-up.** Rises in `steps` equal increments from the start rate, reaches the base rate at
iteration `steps - 1` and stays there; never outside `[start, base]`, never decreasing. -/
theorem C23_warmup (base start : ℝ) (steps : ℕ) (h : start ≤ base) (hs : 0 < steps) :
    (∀ t, t < steps → warmup base start steps t = start + (base - start) * ((t + 1 : ℕ) / (steps : ℝ))) ∧
    (∀ t, steps ≤ t + 1 → warmup base start steps t = base) ∧
    (∀ t, start ≤ warmup base start steps t ∧ warmup base start steps t ≤ base) ∧
    (∀ t t', t ≤ t' → warmup base start steps t ≤ warmup base start steps t') := by
  have hs' : (0 : ℝ) < steps := by exact_mod_cast hs
  have low : ∀ t, t < steps →
      warmup base start steps t = start + (base - start) * ((t + 1 : ℕ) / (steps : ℝ)) := by
    intro t ht; unfold warmup; rw [if_neg (by omega), if_neg (by omega)]
  have high : ∀ t, steps ≤ t → warmup base start steps t = base := by
    intro t ht; unfold warmup; rw [if_neg (by omega), if_pos ht]
  have rng : ∀ t, start ≤ warmup base start steps t ∧ warmup base start steps t ≤ base := by
    intro t
    by_cases ht : t < steps
    · rw [low t ht]
      have a : (0 : ℝ) ≤ (t + 1 : ℕ) / (steps : ℝ) := by positivity
      have b : ((t + 1 : ℕ) : ℝ) / (steps : ℝ) ≤ 1 := by
        rw [div_le_one hs']; exact_mod_cast ht
      constructor <;> nlinarith
    · rw [high t (by omega)]; exact ⟨h, le_refl _⟩
  refine ⟨low, fun t ht => ?_, rng, fun t t' htt => ?_⟩
  · by_cases hlt : t < steps
    · have : t + 1 = steps := by omega
      rw [low t hlt, this, div_self hs'.ne']; ring
    · exact high t (by omega)
  · by_cases ht' : t' < steps
    · rw [low t (by omega), low t' ht']
      have : ((t + 1 : ℕ) : ℝ) / (steps : ℝ) ≤ (t' + 1 : ℕ) / (steps : ℝ) := by
        apply div_le_div_of_nonneg_right _ hs'.le
        exact_mod_cast Nat.succ_le_succ htt
      nlinarith
    · rw [high t' (by omega)]; exact (rng t).2

theorem upperBound_sorted (l : List ℕ) (h : l.Pairwise (· ≤ ·)) (x : ℕ) :
    upperBound l x = l.countP (fun a => decide (a ≤ x)) := by
  unfold upperBound
  induction l with
  | nil => rfl
  | cons a l ih =>
    rw [List.pairwise_cons] at h
    by_cases ha : a ≤ x
    · simp [ha, ih h.2]
    · have : l.countP (fun a => decide (a ≤ x)) = 0 := by
        rw [List.countP_eq_zero]
        intro b hb
        have := h.1 b hb
        simp; omega
      simp [ha, this]

/-- **C23, multi-step decay.** For milestones in any order, the rate is the initial rate times one
factor `gamma` per milestone that has been reached; it is between 0 and the initial rate and never
increases. -/
theorem C23_multi_step (initial gamma : ℝ) (ms : List ℕ) (hi : 0 ≤ initial) (h0 : 0 ≤ gamma)
    (h1 : gamma ≤ 1) :
    (∀ t, multiStep initial gamma ms t
      = initial * gamma ^ (ms.filter (fun m => decide (m ≤ t))).length) ∧
    (∀ t, 0 ≤ multiStep initial gamma ms t ∧ multiStep initial gamma ms t ≤ initial) ∧
    (∀ t t', t ≤ t' → multiStep initial gamma ms t' ≤ multiStep initial gamma ms t) := by
  have e : ∀ t, multiStep initial gamma ms t
      = initial * gamma ^ (ms.filter (fun m => decide (m ≤ t))).length := by
    intro t
    unfold multiStep
    dsimp only
    rw [upperBound_sorted _ (List.pairwise_insertionSort (· ≤ ·) ms), Real.rpow_natCast,
      (List.perm_insertionSort (· ≤ ·) ms).countP_eq, List.countP_eq_length_filter]
  refine ⟨e, fun t => ?_, fun t t' htt => ?_⟩
  · rw [e]
    exact ⟨mul_nonneg hi (pow_nonneg h0 _), mul_le_of_le_one_right hi (pow_le_one₀ h0 h1)⟩
  · rw [e, e]
    apply mul_le_mul_of_nonneg_left _ hi
    apply pow_le_pow_of_le_one h0 h1
    rw [← List.countP_eq_length_filter, ← List.countP_eq_length_filter]
    apply List.countP_mono_left
    intro m _ hm
    simp only [decide_eq_true_eq] at hm ⊢
    omega

/-- unsorted milestones; both reached at iteration 7 -/
example : multiStep 4 (1/2) [7, 3] 7 = 1 := by
  rw [(C23_multi_step 4 (1/2) [7, 3] (by norm_num) (by norm_num) (by norm_num)).1]; norm_num

/-! ## C24 -/

/-- invariant: the counter stays below the patience, the stored reference is one of the reports, and
at least `patience` reports were used up per reduction -/
theorem plateau_invariant (factor : ℝ) (p : ℕ) (thr initial : ℝ) (hist : List ℝ) :
    ∃ k, (plateauRun factor p thr initial hist).lr = initial * factor ^ k ∧
      k * max 1 p + (plateauRun factor p thr initial hist).counter ≤ hist.length ∧
      (plateauRun factor p thr initial hist).counter < max 1 p ∧
      ((plateauRun factor p thr initial hist).best = ⊤ ∧ hist = [] ∨
        ∃ e ∈ hist, (plateauRun factor p thr initial hist).best = (e : WithTop ℝ)) := by
  induction hist using List.reverseRecOn with
  | nil => exact ⟨0, by simp [plateauRun, plateauInit], by simp [plateauRun, plateauInit],
      by simp [plateauRun, plateauInit], Or.inl ⟨rfl, rfl⟩⟩
  | append_singleton hist e ih =>
    obtain ⟨k, h1, h2, h3, h4⟩ := ih
    have estep : plateauRun factor p thr initial (hist ++ [e])
        = plateauStep factor p thr (plateauRun factor p thr initial hist) e := by
      unfold plateauRun; rw [List.foldl_append]; rfl
    rw [estep]
    set s := plateauRun factor p thr initial hist
    unfold plateauStep
    dsimp only
    split_ifs with ha hb
    · refine ⟨k, h1, ?_, ?_, Or.inr ⟨e, by simp, rfl⟩⟩
      · simp only [List.length_append, List.length_singleton]; omega
      · simp
    · refine ⟨k + 1, ?_, ?_, ?_, Or.inr ⟨e, by simp, rfl⟩⟩
      · simp only [h1, pow_succ]; ring
      · simp only [List.length_append, List.length_singleton]
        have : max 1 p = s.counter + 1 := by omega
        rw [Nat.succ_mul]; omega
      · simp
    · refine ⟨k, h1, ?_, ?_, ?_⟩
      · simp only [List.length_append, List.length_singleton]; omega
      · simp only; omega
      · rcases h4 with ⟨h4, _⟩ | ⟨e', he', h4⟩
        · rw [h4] at ha; simp [improves] at ha
        · exact Or.inr ⟨e', by simp [he'], h4⟩

/-- **C24.** After every history of reported energies, the rate is `initial · factor^k` for a `k` with
`k · max(1, patience)` at most the number of reports: at least `patience` reports are needed per
reduction. -/
theorem C24_at_most_one_reduction_per_patience (factor : ℝ) (p : ℕ) (thr initial : ℝ)
    (hist : List ℝ) :
    ∃ k, (plateauRun factor p thr initial hist).lr = initial * factor ^ k ∧
      k * max 1 p ≤ hist.length := by
  obtain ⟨k, h1, h2, _, _⟩ := plateau_invariant factor p thr initial hist
  exact ⟨k, h1, by omega⟩

/-- **C24.** For a factor in `[0,1]` and a nonnegative initial rate, one more report never increases
the rate and never makes it negative. -/
theorem C24_never_increases (factor : ℝ) (p : ℕ) (thr initial : ℝ) (h0 : 0 ≤ factor) (h1 : factor ≤ 1)
    (hi : 0 ≤ initial) (hist more : List ℝ) :
    (plateauRun factor p thr initial (hist ++ more)).lr ≤ (plateauRun factor p thr initial hist).lr ∧
      0 ≤ (plateauRun factor p thr initial (hist ++ more)).lr := by
  have nonneg : ∀ h, 0 ≤ (plateauRun factor p thr initial h).lr := by
    intro h
    obtain ⟨k, e, _⟩ := plateau_invariant factor p thr initial h
    rw [e]; exact mul_nonneg hi (pow_nonneg h0 k)
  refine ⟨?_, nonneg _⟩
  induction more using List.reverseRecOn with
  | nil => simp
  | append_singleton more e ih =>
    refine le_trans ?_ ih
    have estep : plateauRun factor p thr initial (hist ++ (more ++ [e]))
        = plateauStep factor p thr (plateauRun factor p thr initial (hist ++ more)) e := by
      unfold plateauRun; rw [← List.append_assoc, List.foldl_append]; rfl
    rw [estep]
    have hn := nonneg (hist ++ more)
    unfold plateauStep
    dsimp only
    split_ifs
    · exact le_refl _
    · exact mul_le_of_le_one_right hn h1
    · exact le_refl _

/-- **C24.** After any history, let an energy `e` arrive that undercuts every earlier report by more
than the threshold, followed by `m` reports none of which undercuts `e` by more than the threshold.
While `m` is below the patience the rate is unchanged; when `m` reaches it the rate has been reduced
exactly once. -/
theorem C24_reduces_exactly_at_patience (factor : ℝ) (p : ℕ) (hp : 0 < p) (thr initial : ℝ)
    (hist : List ℝ) (e : ℝ) (he : ∀ x ∈ hist, e < x - thr) (bad : List ℝ)
    (hbad : ∀ b ∈ bad, ¬ b < e - thr) :
    (bad.length < p → (plateauRun factor p thr initial (hist ++ e :: bad)).lr
      = (plateauRun factor p thr initial hist).lr) ∧
    (bad.length = p → (plateauRun factor p thr initial (hist ++ e :: bad)).lr
      = (plateauRun factor p thr initial hist).lr * factor) := by
  set s := plateauRun factor p thr initial hist with hs
  have h1 : plateauStep factor p thr s e = ⟨s.lr, 0, e⟩ := by
    have : improves e thr s.best = true := by
      obtain ⟨_, _, _, _, h4⟩ := plateau_invariant factor p thr initial hist
      rcases h4 with ⟨h4, _⟩ | ⟨x, hx, h4⟩
      · rw [h4]; rfl
      · rw [h4]; simp only [improves, decide_eq_true_eq]; exact he x hx
    unfold plateauStep; rw [this]; rfl
  have run : ∀ l, plateauRun factor p thr initial (hist ++ e :: l)
      = l.foldl (plateauStep factor p thr) ⟨s.lr, 0, e⟩ := by
    intro l
    unfold plateauRun
    rw [List.foldl_append, List.foldl_cons]
    show l.foldl (plateauStep factor p thr) (plateauStep factor p thr s e) = _
    rw [h1]
  have count : ∀ l : List ℝ, (∀ b ∈ l, ¬ b < e - thr) → l.length < p →
      l.foldl (plateauStep factor p thr) ⟨s.lr, 0, e⟩ = ⟨s.lr, l.length, e⟩ := by
    intro l
    induction l using List.reverseRecOn with
    | nil => intro _ _; rfl
    | append_singleton l b ih =>
      intro hb hl
      rw [List.length_append, List.length_singleton] at hl
      rw [List.foldl_append, ih (fun x hx => hb x (by simp [hx])) (by omega)]
      have : improves b thr (e : WithTop ℝ) = false := by
        simp only [improves, decide_eq_false_iff_not]; exact hb b (by simp)
      simp only [List.foldl_cons, List.foldl_nil, plateauStep, this]
      rw [if_neg (by simp), if_neg (by omega)]
      simp
  constructor
  · intro hl; rw [run, count bad hbad hl]
  · intro hl
    rw [run]
    rcases List.eq_nil_or_concat bad with h | ⟨l, b, h⟩
    · rw [h] at hl; simp at hl; omega
    · rw [List.concat_eq_append] at h
      subst h
      rw [List.length_append, List.length_singleton] at hl
      rw [List.foldl_append, count l (fun x hx => hbad x (by simp [hx])) (by omega)]
      have : improves b thr (e : WithTop ℝ) = false := by
        simp only [improves, decide_eq_false_iff_not]; exact hbad b (by simp)
      simp only [List.foldl_cons, List.foldl_nil, plateauStep, this]
      rw [if_neg (by simp), if_pos (by omega)]

/-- **C24.** Reporting the same energy forever (nonnegative threshold) reduces the rate once every
`patience` reports after the first. -/
theorem C24_constant_energy (factor : ℝ) (p : ℕ) (hp : 0 < p) (thr initial : ℝ) (ht : 0 ≤ thr)
    (e : ℝ) (m : ℕ) :
    (plateauRun factor p thr initial (List.replicate (m + 1) e)).lr = initial * factor ^ (m / p) := by
  have key : ∀ m, plateauRun factor p thr initial (List.replicate (m + 1) e)
      = ⟨initial * factor ^ (m / p), m % p, e⟩ := by
    intro m
    induction m with
    | zero => simp [plateauRun, plateauInit, plateauStep, improves]
    | succ m ih =>
      have : plateauRun factor p thr initial (List.replicate (m + 1 + 1) e)
          = plateauStep factor p thr (plateauRun factor p thr initial (List.replicate (m + 1) e)) e := by
        unfold plateauRun
        rw [List.replicate_succ' (n := m + 1), List.foldl_append]; rfl
      rw [this, ih]
      have hi : improves e thr (e : WithTop ℝ) = false := by
        simp only [improves, decide_eq_false_iff_not]; linarith
      simp only [plateauStep, hi]
      rw [if_neg (by simp)]
      have hm := Nat.mod_lt m hp
      by_cases h : p ≤ m % p + 1
      · have hdm := Nat.div_add_mod m p
        have e1 : m + 1 = p * (m / p + 1) := by rw [Nat.mul_add, Nat.mul_one]; omega
        have e2 : (m + 1) / p = m / p + 1 := by rw [e1, Nat.mul_div_cancel_left _ hp]
        have e3 : (m + 1) % p = 0 := by rw [e1, Nat.mul_mod_right]
        rw [if_pos h, e2, e3, pow_succ, mul_assoc]
      · have hdm := Nat.div_add_mod m p
        have e1 : m + 1 = m % p + 1 + p * (m / p) := by omega
        have e2 : (m + 1) / p = m / p := by
          rw [e1, Nat.add_mul_div_left _ _ hp, Nat.div_eq_of_lt (by omega)]; omega
        have e3 : (m + 1) % p = m % p + 1 := by
          rw [e1, Nat.add_mul_mod_self_left, Nat.mod_eq_of_lt (by omega)]
        rw [if_neg h, e2, e3]
  rw [key]

example : (plateauRun (1/2) 2 0 1 (List.replicate 6 (-3))).lr = 1 / 4 := by
  rw [C24_constant_energy (1/2) 2 (by norm_num) 0 1 (by norm_num) (-3) 5]; norm_num

end QLPeps.Schedulers
