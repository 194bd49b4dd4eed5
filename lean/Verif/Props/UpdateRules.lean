import Verif.Model.UpdateRules
import Verif.Spec.UpdateRules
import Mathlib.Tactic

/-!
# Properties C31–C34: gradient clipping, SGD, AdaGrad, Adam
-/

namespace QLPeps.UpdateRules

open Spec

variable {ι 𝕜 : Type*} [Fintype ι] [RCLike 𝕜]

/-! ## C31 -/

theorem normSquare_eq (g : Wf ι 𝕜) : normSquare g = ‖g‖ ^ 2 := by
  rw [EuclideanSpace.norm_sq_eq]
  unfold normSquare
  refine Finset.sum_congr rfl fun i _ => ?_
  rw [RCLike.conj_mul]
  norm_cast

theorem sqrt_normSquare (g : Wf ι 𝕜) : Real.sqrt (normSquare g) = ‖g‖ := by
  rw [normSquare_eq, Real.sqrt_sq (norm_nonneg _)]

/-- **C31.** Norm clipping: a gradient within the limit is untouched; a longer one is replaced by its
multiple by `c / ‖g‖`, whose norm is exactly the limit. -/
theorem C31_clip_norm (c : ℝ) (hc : 0 < c) (g : Wf ι 𝕜) :
    (‖g‖ ≤ c → preprocess true none (some c) g = g) ∧
    (c < ‖g‖ → preprocess true none (some c) g = ((c / ‖g‖ : ℝ) : 𝕜) • g ∧
      ‖preprocess true none (some c) g‖ = c) := by
  have h : preprocess true none (some c) g = clipByGlobalNorm c g := by
    simp [preprocess, hc]
  rw [h]
  unfold clipByGlobalNorm
  dsimp only
  rw [sqrt_normSquare]
  refine ⟨fun h => if_neg (fun h' => absurd h'.2 (not_lt.2 h)), fun h => ?_⟩
  have hg : 0 < ‖g‖ := hc.trans h
  rw [if_pos ⟨hg, h⟩]
  refine ⟨rfl, ?_⟩
  rw [norm_smul, RCLike.norm_ofReal, abs_of_pos (div_pos hc hg), div_mul_cancel₀ _ hg.ne']

theorem clipElem_spec (c : ℝ) (hc : 0 < c) (z : 𝕜) :
    ‖clipElem c z‖ = min ‖z‖ c ∧ (∃ t : ℝ, 0 < t ∧ t ≤ 1 ∧ clipElem c z = (t : 𝕜) * z) ∧
      (‖z‖ ≤ c → clipElem c z = z) := by
  unfold clipElem
  split_ifs with h
  · have hz : 0 < ‖z‖ := hc.trans h
    refine ⟨?_, ⟨c / ‖z‖, div_pos hc hz, (div_le_one hz).2 h.le, rfl⟩, fun h' => absurd h (not_lt.2 h')⟩
    rw [norm_mul, RCLike.norm_ofReal, abs_of_pos (div_pos hc hz), div_mul_cancel₀ _ hz.ne',
      min_eq_right h.le]
  · refine ⟨(min_eq_left (not_lt.1 h)).symm, ⟨1, one_pos, le_refl _, by simp⟩, fun _ => rfl⟩

/-- **C31.** Value clipping: each element keeps its phase (it is multiplied by some `0 < t ≤ 1`), its
magnitude becomes `min |g_i| c`, and elements within the limit are untouched. -/
theorem C31_clip_value (c : ℝ) (hc : 0 < c) (g : Wf ι 𝕜) (i : ι) :
    ‖preprocess true (some c) none g i‖ = min ‖g i‖ c ∧
    (∃ t : ℝ, 0 < t ∧ t ≤ 1 ∧ preprocess true (some c) none g i = (t : 𝕜) * g i) ∧
    (‖g i‖ ≤ c → preprocess true (some c) none g i = g i) := by
  have h : preprocess true (some c) none g i = clipElem c (g i) := by
    simp [preprocess, hc, elementWiseClipTo]
  rw [h]
  exact clipElem_spec c hc (g i)

/-- **C31.** Both limits together: the result respects both. -/
theorem C31_both (cv cn : ℝ) (hv : 0 < cv) (hn : 0 < cn) (g : Wf ι 𝕜) :
    ‖preprocess true (some cv) (some cn) g‖ ≤ cn ∧
    (∀ i, ‖preprocess true (some cv) (some cn) g i‖ ≤ cv) ∧
    ∀ i, ∃ t : ℝ, 0 < t ∧ t ≤ 1 ∧ preprocess true (some cv) (some cn) g i = (t : 𝕜) * g i := by
  set g₁ : Wf ι 𝕜 := preprocess true (some cv) none g with hg₁
  have h : preprocess true (some cv) (some cn) g = preprocess true none (some cn) g₁ := by
    simp [preprocess, hv, hn, hg₁]
  rw [h]
  have h1 := C31_clip_norm cn hn g₁
  have h2 := C31_clip_value cv hv g
  rcases le_or_gt ‖g₁‖ cn with hle | hlt
  · rw [h1.1 hle]
    refine ⟨hle, fun i => (h2 i).1.le.trans (min_le_right _ _), fun i => (h2 i).2.1⟩
  · obtain ⟨e, en⟩ := h1.2 hlt
    have hg : 0 < ‖g₁‖ := hn.trans hlt
    have hs : 0 < cn / ‖g₁‖ := div_pos hn hg
    have hs1 : cn / ‖g₁‖ ≤ 1 := (div_le_one hg).2 hlt.le
    have ei : ∀ i, preprocess true none (some cn) g₁ i = ((cn / ‖g₁‖ : ℝ) : 𝕜) * g₁ i := by
      intro i; rw [e]; rfl
    refine ⟨en.le, fun i => ?_, fun i => ?_⟩
    · rw [ei i, norm_mul, RCLike.norm_ofReal, abs_of_pos hs]
      calc cn / ‖g₁‖ * ‖g₁ i‖ ≤ 1 * ‖g₁ i‖ := mul_le_mul_of_nonneg_right hs1 (norm_nonneg _)
        _ ≤ cv := by rw [one_mul]; exact (h2 i).1.le.trans (min_le_right _ _)
    · obtain ⟨t, t0, t1, te⟩ := (h2 i).2.1
      refine ⟨cn / ‖g₁‖ * t, mul_pos hs t0, mul_le_one₀ hs1 t0.le t1, ?_⟩
      rw [ei i, te]; push_cast; ring

/-- **C31.** Nothing is clipped for SR, MinSR and L-BFGS, nor by absent or nonpositive limits. -/
theorem C31_off (cv cn : Option ℝ) (g : Wf ι 𝕜) :
    preprocess false cv cn g = g ∧
    ((∀ c ∈ cv, c ≤ 0) → (∀ c ∈ cn, c ≤ 0) → preprocess true cv cn g = g) := by
  refine ⟨rfl, fun h1 h2 => ?_⟩
  unfold preprocess
  rw [if_pos rfl]
  cases cv with
  | none => cases cn with
    | none => rfl
    | some c => have := h2 c rfl; simp [not_lt.2 this]
  | some d => cases cn with
    | none => have := h1 d rfl; simp [not_lt.2 this]
    | some c => have := h2 c rfl; have := h1 d rfl; simp [not_lt.2, *]

/-- the gradient `(3, 4)` clipped to norm 1 becomes `(3/5, 4/5)` -/
example : preprocess true none (some 1) (!₂[3, 4] : Wf (Fin 2) ℝ) = !₂[3/5, 4/5] := by
  have hn : ‖(!₂[3, 4] : Wf (Fin 2) ℝ)‖ = 5 := by
    rw [EuclideanSpace.norm_eq, Fin.sum_univ_two]
    have : (‖(!₂[3, 4] : Wf (Fin 2) ℝ) 0‖ ^ 2 + ‖(!₂[3, 4] : Wf (Fin 2) ℝ) 1‖ ^ 2 : ℝ) = 5 ^ 2 := by
      norm_num
    rw [this, Real.sqrt_sq (by norm_num)]
  rw [((C31_clip_norm 1 one_pos _).2 (by rw [hn]; norm_num)).1, hn]
  ext i; fin_cases i <;> norm_num

/-! ## C32 -/

/-- **C32.** The preview is the state the update would produce with the same velocity (initialized or
not). The preview returns no velocity: it cannot change it. -/
theorem C32_preview_agrees (p : SGDParams) (vel : Velocity ι 𝕜) (θ g : Wf ι 𝕜) (lr : ℝ) :
    sgdPreview p vel θ g lr = (sgdUpdate p vel θ g lr).1 := by
  unfold sgdPreview sgdUpdate
  cases vel <;> (dsimp only [Option.getD]; split_ifs <;> rfl)

theorem history_succ {E : Type*} (lr : ℕ → ℝ) (g : ℕ → E) (n : ℕ) :
    history lr g (n + 1) = history lr g n ++ [(lr n, g n)] := by
  simp [history, List.range_succ]

theorem velocity_succ {E : Type*} [AddCommMonoid E] [Module ℝ E] (μ : ℝ) (g : ℕ → E) (n : ℕ) :
    velocity μ g (n + 1) = μ • velocity μ g n + g n := by
  unfold velocity
  rw [Finset.sum_range_succ, Finset.smul_sum]
  congr 1
  · refine Finset.sum_congr rfl fun j hj => ?_
    rw [smul_smul, ← pow_succ']
    congr 2
    have := Finset.mem_range.1 hj
    omega
  · simp

theorem velocity_zero_mom {E : Type*} [AddCommMonoid E] [Module ℝ E] (g : ℕ → E) (n : ℕ) :
    velocity 0 g (n + 1) = g n := by rw [velocity_succ]; simp

theorem sgdRun_succ (p : SGDParams) (θ : Wf ι 𝕜) (lr : ℕ → ℝ) (g : ℕ → Wf ι 𝕜) (n : ℕ) :
    sgdRun p θ (history lr g (n + 1)) =
      sgdUpdate p (sgdRun p θ (history lr g n)).2 (sgdRun p θ (history lr g n)).1 (g n) (lr n) := by
  rw [history_succ]; unfold sgdRun; rw [List.foldl_append]; rfl

theorem sgd_velocity (p : SGDParams) (hm : 0 < p.momentum) (θ : Wf ι 𝕜) (lr : ℕ → ℝ)
    (g : ℕ → Wf ι 𝕜) (n : ℕ) :
    (sgdRun p θ (history lr g n)).2.getD 0 = velocity p.momentum g n := by
  induction n with
  | zero => simp [history, sgdRun, velocity]
  | succ n ih =>
    rw [sgdRun_succ, velocity_succ, ← ih]
    unfold sgdUpdate
    dsimp only
    rw [if_pos hm]
    rw [RCLike.real_smul_eq_coe_smul (K := 𝕜)]
    split_ifs <;> rfl

/-- **C32.** The state after any history of gradients and learning rates: with `μ` and `λ` the momentum
and weight decay (0 if nonpositive), and `v = ∑ μ^(n-j) g_j` over the gradients so far,
`θ_(n+1) = (1 - lr λ) θ_n - lr v`, or with Nesterov `- lr (μ v + g_n)`. -/
theorem C32_update_rule (p : SGDParams) (θ : Wf ι 𝕜) (lr : ℕ → ℝ) (g : ℕ → Wf ι 𝕜) (n : ℕ) :
    (sgdRun p θ (history lr g (n + 1))).1 =
      (1 - lr n * max 0 p.weightDecay) • (sgdRun p θ (history lr g n)).1 -
      lr n • (if p.nesterov then
          max 0 p.momentum • velocity (max 0 p.momentum) g (n + 1) + g n
        else velocity (max 0 p.momentum) g (n + 1)) := by
  rw [sgdRun_succ]
  have hw : (if 0 < p.weightDecay then
      ((1 - lr n * p.weightDecay : ℝ) : 𝕜) • (sgdRun p θ (history lr g n)).1
      else (sgdRun p θ (history lr g n)).1) =
      (1 - lr n * max 0 p.weightDecay) • (sgdRun p θ (history lr g n)).1 := by
    split_ifs with h
    · rw [max_eq_right h.le, RCLike.real_smul_eq_coe_smul (K := 𝕜)]
    · rw [max_eq_left (not_lt.1 h)]; simp
  unfold sgdUpdate
  dsimp only
  rw [hw]
  by_cases hm : 0 < p.momentum
  · rw [if_pos hm, max_eq_right hm.le, sgd_velocity p hm, velocity_succ]
    split_ifs <;>
    simp only [← RCLike.real_smul_eq_coe_smul (K := 𝕜), neg_smul, sub_eq_add_neg]
  · rw [if_neg hm, max_eq_left (not_lt.1 hm), velocity_zero_mom]
    simp only [zero_smul, zero_add, ite_self, ← RCLike.real_smul_eq_coe_smul (K := 𝕜), neg_smul,
      sub_eq_add_neg]

/-- **C32.** Without momentum and weight decay: `θ_n = θ_0 - ∑ lr_j g_j`. -/
theorem C32_plain_sgd (p : SGDParams) (hm : p.momentum ≤ 0) (hw : p.weightDecay ≤ 0) (θ : Wf ι 𝕜)
    (lr : ℕ → ℝ) (g : ℕ → Wf ι 𝕜) (n : ℕ) :
    (sgdRun p θ (history lr g n)).1 = θ - ∑ j ∈ Finset.range n, lr j • g j := by
  induction n with
  | zero => simp [history, sgdRun]
  | succ n ih =>
    rw [C32_update_rule, max_eq_left hm, max_eq_left hw, velocity_zero_mom, ih,
      Finset.sum_range_succ]
    simp only [mul_zero, sub_zero, one_smul, zero_smul, zero_add, ite_self]
    abel

/-- two steps with momentum 1/2 and gradient 1: `0 → -1 → -5/2` -/
example : (sgdRun ⟨1/2, false, 0⟩ (!₂[0] : Wf (Fin 1) ℝ)
    (history (fun _ => 1) (fun _ => !₂[1]) 2)).1 = !₂[-5/2] := by
  rw [C32_update_rule, C32_update_rule]
  ext i; fin_cases i
  simp [history, sgdRun, velocity, Finset.sum_range_succ]; norm_num

/-! ## C33 -/

theorem adaGradRun_succ (init : ℝ) (inv : ℝ → ℝ) (θ : Wf ι 𝕜) (lr : ℕ → ℝ) (g : ℕ → Wf ι 𝕜) (n : ℕ) :
    adaGradRun init inv θ (history lr g (n + 1)) =
      adaGradUpdate init inv (adaGradRun init inv θ (history lr g n)).2
        (adaGradRun init inv θ (history lr g n)).1 (g n) (lr n) := by
  rw [history_succ]; unfold adaGradRun; rw [List.foldl_append]; rfl

/-- **C33.** The accumulator after any history is the initial value plus the sum of the squared
magnitudes. -/
theorem C33_accumulator (init : ℝ) (inv : ℝ → ℝ) (θ : Wf ι 𝕜) (lr : ℕ → ℝ) (g : ℕ → Wf ι 𝕜)
    (n : ℕ) (i : ι) :
    ((adaGradRun init inv θ (history lr g n)).2.getD fun _ => init) i =
      init + ∑ j ∈ Finset.range n, ‖g j i‖ ^ 2 := by
  induction n with
  | zero => simp [history, adaGradRun]
  | succ n ih =>
    rw [adaGradRun_succ, Finset.sum_range_succ, ← add_assoc, ← ih]
    rfl

/-- **C33.** The step: `θ_i ← θ_i - lr · inv(√(init + ∑_{j ≤ n} |g_j,i|²)) · g_i`. -/
theorem C33_step (init : ℝ) (inv : ℝ → ℝ) (θ : Wf ι 𝕜) (lr : ℕ → ℝ) (g : ℕ → Wf ι 𝕜) (n : ℕ) (i : ι) :
    (adaGradRun init inv θ (history lr g (n + 1))).1 i =
      (adaGradRun init inv θ (history lr g n)).1 i -
        (lr n * inv (Real.sqrt (init + ∑ j ∈ Finset.range (n + 1), ‖g j i‖ ^ 2))) • g n i := by
  have h := C33_accumulator init inv θ lr g n i
  rw [adaGradRun_succ, Finset.sum_range_succ, ← add_assoc, ← h]
  unfold adaGradUpdate
  simp only [RCLike.real_smul_eq_coe_mul]
  push_cast
  ring

theorem guarded_step {inv : ℝ → ℝ} (hinv : GuardedInverse inv) (a x : ℝ) (hx : 0 ≤ x)
    (hxa : x ^ 2 ≤ a) : |inv (Real.sqrt a)| * x ≤ 1 := by
  obtain ⟨h0, h1⟩ := hinv (Real.sqrt a) (Real.sqrt_nonneg _)
  rw [abs_of_nonneg h0]
  exact (mul_le_mul_of_nonneg_left (Real.le_sqrt_of_sq_le hxa) h0).trans h1

/-- **C33.** No element ever moves by more than the learning rate in one step. -/
theorem C33_step_bounded (init : ℝ) (hi : 0 ≤ init) (inv : ℝ → ℝ) (hinv : GuardedInverse inv)
    (θ : Wf ι 𝕜) (lr : ℕ → ℝ) (g : ℕ → Wf ι 𝕜) (n : ℕ) (i : ι) :
    ‖(adaGradRun init inv θ (history lr g (n + 1))).1 i -
      (adaGradRun init inv θ (history lr g n)).1 i‖ ≤ |lr n| := by
  rw [C33_step, sub_sub_cancel_left, norm_neg, norm_smul, Real.norm_eq_abs, abs_mul, mul_assoc]
  refine mul_le_of_le_one_right (abs_nonneg _) (guarded_step hinv _ _ (norm_nonneg _) ?_)
  rw [Finset.sum_range_succ]
  have : 0 ≤ ∑ j ∈ Finset.range n, ‖g j i‖ ^ 2 := Finset.sum_nonneg fun _ _ => by positivity
  linarith

/-- both readings of the guard satisfy the assumption: cut-off and shifted denominator -/
theorem guarded_cutoff (ε : ℝ) : GuardedInverse fun x => if ε < |x| then 1 / x else 0 := by
  intro x hx
  dsimp only
  split_ifs with h
  · rcases hx.eq_or_lt with rfl | hx
    · simp
    · exact ⟨by positivity, by rw [one_div, inv_mul_cancel₀ hx.ne']⟩
  · simp

theorem guarded_shifted (ε : ℝ) (hε : 0 < ε) : GuardedInverse fun x => 1 / (x + ε) := by
  intro x hx
  refine ⟨by positivity, ?_⟩
  rw [div_mul_eq_mul_div, one_mul, div_le_one (by positivity)]
  linarith

example : ‖(adaGradRun 0 (fun x => if 1e-8 < |x| then 1 / x else 0) (!₂[0] : Wf (Fin 1) ℝ)
    (history (fun _ => 1) (fun _ => !₂[3]) 1)).1 0 -
    (adaGradRun 0 (fun x => if 1e-8 < |x| then 1 / x else 0) (!₂[0] : Wf (Fin 1) ℝ)
    (history (fun _ => 1) (fun _ => !₂[3]) 0)).1 0‖ ≤ |1| :=
  C33_step_bounded 0 (le_refl _) _ (guarded_cutoff _) _ _ _ 0 0

/-! ## C34 -/

theorem adamRun_succ (p : AdamParams) (inv : ℝ → ℝ) (θ : Wf ι 𝕜) (lr : ℕ → ℝ) (g : ℕ → Wf ι 𝕜) (n : ℕ) :
    adamRun p inv θ (history lr g (n + 1)) =
      adamUpdate p inv (adamRun p inv θ (history lr g n)).2
        (adamRun p inv θ (history lr g n)).1 (g n) (lr n) := by
  rw [history_succ]; unfold adamRun; rw [List.foldl_append]; rfl

/-- the moments after a history -/
theorem adam_moments (p : AdamParams) (inv : ℝ → ℝ) (θ : Wf ι 𝕜) (lr : ℕ → ℝ) (g : ℕ → Wf ι 𝕜)
    (n : ℕ) :
    let s := (adamRun p inv θ (history lr g n)).2.getD .fresh
    s.t = n ∧ s.m = (1 - p.beta1) • velocity p.beta1 g n ∧
      ∀ i, s.v i = (1 - p.beta2) * velocity p.beta2 (fun j => ‖g j i‖ ^ 2) n := by
  induction n with
  | zero => simp [history, adamRun, AdamSt.fresh, velocity]
  | succ n ih =>
    obtain ⟨h1, h2, h3⟩ := ih
    rw [adamRun_succ]
    show (moments p _ _).t = _ ∧ (moments p _ _).m = _ ∧ ∀ i, (moments p _ _).v i = _
    unfold moments
    dsimp only
    refine ⟨by rw [h1], ?_, fun i => ?_⟩
    · rw [h2, velocity_succ, ← RCLike.real_smul_eq_coe_smul (K := 𝕜),
        ← RCLike.real_smul_eq_coe_smul (K := 𝕜), smul_add, smul_smul, smul_smul, mul_comm p.beta1]
    · rw [h3, velocity_succ]; simp only [smul_eq_mul]; ring

theorem average_eq {E : Type*} [AddCommMonoid E] [Module ℝ E] (β : ℝ) (g : ℕ → E) (n : ℕ) :
    average β g n = (1 / (1 - β ^ n)) • ((1 - β) • velocity β g n) := by
  unfold average velocity
  rw [Finset.smul_sum, Finset.smul_sum]
  refine Finset.sum_congr rfl fun j _ => ?_
  rw [smul_smul, smul_smul]
  congr 1; ring

/-- **C34.** The Adam step after any history of gradients and learning rates:
`θ ← (1 - lr λ) θ - lr · inv(√v̂) m̂` where `m̂` and `v̂` are the normalized exponentially weighted averages
of the gradients and of their squared magnitudes. -/
theorem C34_step (p : AdamParams) (inv : ℝ → ℝ) (θ : Wf ι 𝕜) (lr : ℕ → ℝ) (g : ℕ → Wf ι 𝕜) (n : ℕ)
    (i : ι) :
    (adamRun p inv θ (history lr g (n + 1))).1 i =
      (1 - lr n * max 0 p.weightDecay) • (adamRun p inv θ (history lr g n)).1 i -
        (lr n * inv (Real.sqrt (average p.beta2 (fun j => ‖g j i‖ ^ 2) (n + 1)))) •
          average p.beta1 g (n + 1) i := by
  obtain ⟨ht, hm, hv⟩ := adam_moments p inv θ lr g (n + 1)
  set s := (adamRun p inv θ (history lr g (n + 1))).2.getD .fresh with hs
  have e1 : mHat p s = average p.beta1 g (n + 1) := by
    unfold mHat
    rw [ht, hm, average_eq, ← RCLike.real_smul_eq_coe_smul (K := 𝕜)]
  have e2 : vHat p s i = average p.beta2 (fun j => ‖g j i‖ ^ 2) (n + 1) := by
    unfold vHat
    rw [ht, hv, average_eq]; simp only [smul_eq_mul]
  rw [← e1, ← e2]
  have hs' : s = moments p ((adamRun p inv θ (history lr g n)).2.getD .fresh) (g n) := by
    rw [hs, adamRun_succ]; rfl
  rw [hs', adamRun_succ]
  unfold adamUpdate
  dsimp only
  have hw : (if 0 < p.weightDecay then
      ((1 - lr n * p.weightDecay : ℝ) : 𝕜) • (adamRun p inv θ (history lr g n)).1
      else (adamRun p inv θ (history lr g n)).1) i =
      (1 - lr n * max 0 p.weightDecay) • (adamRun p inv θ (history lr g n)).1 i := by
    split_ifs with h
    · rw [max_eq_right h.le, RCLike.real_smul_eq_coe_mul]; rfl
    · rw [max_eq_left (not_lt.1 h)]; simp
  rw [hw]
  simp only [RCLike.real_smul_eq_coe_mul]
  push_cast
  ring

theorem weights_sum (β : ℝ) (n : ℕ) : (1 - β) * velocity β (fun _ => (1 : ℝ)) n = 1 - β ^ n := by
  induction n with
  | zero => simp [velocity]
  | succ n ih =>
    rw [velocity_succ, mul_add, smul_eq_mul, mul_left_comm, ih]; ring

/-- **C34.** The averages are averages: with `0 ≤ β < 1` the weights are nonnegative and add up to 1
after every number of steps `n ≥ 1`. -/
theorem C34_weights (β : ℝ) (h0 : 0 ≤ β) (h1 : β < 1) (n : ℕ) (hn : 1 ≤ n) :
    (∀ j, 0 ≤ (1 - β) * β ^ (n - 1 - j) / (1 - β ^ n)) ∧
    ∑ j ∈ Finset.range n, (1 - β) * β ^ (n - 1 - j) / (1 - β ^ n) = 1 := by
  have hp : 0 < 1 - β ^ n := by
    have := pow_lt_one₀ h0 h1 (by omega : n ≠ 0)
    linarith
  refine ⟨fun j => by have := pow_nonneg h0 (n - 1 - j); have : 0 ≤ 1 - β := by linarith
                      positivity, ?_⟩
  have := weights_sum β n
  rw [← Finset.sum_div, ← Finset.mul_sum, div_eq_one_iff_eq hp.ne', ← this]
  unfold velocity; simp

/-- **C34.** Exact bias correction: for a constant gradient both corrected moments are, after every
number of steps, the gradient and its squared magnitude, so each step is the same. -/
theorem C34_constant {E : Type*} [AddCommMonoid E] [Module ℝ E] (β : ℝ) (h0 : 0 ≤ β) (h1 : β < 1)
    (c : E) (n : ℕ) (hn : 1 ≤ n) : average β (fun _ => c) n = c := by
  unfold average
  rw [← Finset.sum_smul, (C34_weights β h0 h1 n hn).2, one_smul]

/-- **C34.** Bounds: if every gradient element so far has magnitude at most `G`, the stored first moment
has magnitude at most `G` and the stored second moment lies in `[0, G²]`. -/
theorem C34_bounded (p : AdamParams) (inv : ℝ → ℝ) (h10 : 0 ≤ p.beta1) (h11 : p.beta1 ≤ 1)
    (h20 : 0 ≤ p.beta2) (h21 : p.beta2 ≤ 1) (θ : Wf ι 𝕜) (lr : ℕ → ℝ) (g : ℕ → Wf ι 𝕜) (i : ι)
    (G : ℝ) (hG : 0 ≤ G) (n : ℕ) (hg : ∀ j < n, ‖g j i‖ ≤ G) :
    let s := (adamRun p inv θ (history lr g n)).2.getD .fresh
    ‖s.m i‖ ≤ G ∧ 0 ≤ s.v i ∧ s.v i ≤ G ^ 2 := by
  induction n with
  | zero => simpa [history, adamRun, AdamSt.fresh] using ⟨hG, by positivity⟩
  | succ n ih =>
    obtain ⟨i1, i2, i3⟩ := ih fun j hj => hg j (by omega)
    have hgn := hg n (by omega)
    rw [adamRun_succ]
    show ‖(moments p _ _).m i‖ ≤ _ ∧ 0 ≤ (moments p _ _).v i ∧ (moments p _ _).v i ≤ _
    unfold moments
    dsimp only
    have hg2 : ‖g n i‖ ^ 2 ≤ G ^ 2 := by gcongr
    refine ⟨?_, ?_, ?_⟩
    · show ‖(p.beta1 : 𝕜) * ((adamRun p inv θ (history lr g n)).2.getD AdamSt.fresh).m i +
        ((1 - p.beta1 : ℝ) : 𝕜) * g n i‖ ≤ G
      refine (norm_add_le _ _).trans ?_
      rw [norm_mul, norm_mul, RCLike.norm_ofReal, RCLike.norm_ofReal, abs_of_nonneg h10,
        abs_of_nonneg (by linarith : 0 ≤ 1 - p.beta1)]
      nlinarith
    · have := mul_nonneg h20 i2
      have := mul_nonneg (by linarith : 0 ≤ 1 - p.beta2) (sq_nonneg ‖g n i‖)
      linarith
    · nlinarith

/-- three steps with the constant gradient 2: the default `beta1` gives exactly 2 -/
example : average 0.9 (fun _ => (2 : ℝ)) 3 = 2 := C34_constant 0.9 (by norm_num) (by norm_num) 2 3 (by norm_num)

example : average 0.5 (fun j => (j : ℝ)) 2 = 2 / 3 := by
  unfold average; norm_num [Finset.sum_range_succ]

end QLPeps.UpdateRules
