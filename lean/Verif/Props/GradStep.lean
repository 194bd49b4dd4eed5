import Verif.Spec.GradStep

/-!
# Property C159: gradients that do not rescale a site never shrink it
-/

namespace QLPeps.GradStep

open QLPeps.UpdateRules Spec Finset

noncomputable section

variable {ι 𝕜 : Type*} [Fintype ι] [RCLike 𝕜]

/-- real part of the inner product over a site -/
def sip (I : Finset ι) (a b : Wf ι 𝕜) : ℝ := ∑ i ∈ I, RCLike.re ((starRingEnd 𝕜) (a i) * b i)

theorem sip_self (I : Finset ι) (a : Wf ι 𝕜) : sip I a a = siteNormSq I a := by
  refine sum_congr rfl fun i _ => ?_
  rw [RCLike.conj_mul, ← RCLike.ofReal_pow, RCLike.ofReal_re]

theorem sip_add_right (I : Finset ι) (a b c : Wf ι 𝕜) : sip I a (b + c) = sip I a b + sip I a c := by
  simp only [sip, PiLp.add_apply, mul_add, map_add, sum_add_distrib]

theorem sip_smul_right (I : Finset ι) (r : ℝ) (a b : Wf ι 𝕜) : sip I a ((r : 𝕜) • b) = r * sip I a b := by
  simp only [sip, PiLp.smul_apply, smul_eq_mul, mul_sum]
  refine sum_congr rfl fun i _ => ?_
  rw [mul_left_comm, RCLike.re_ofReal_mul]

theorem sip_comm (I : Finset ι) (a b : Wf ι 𝕜) : sip I a b = sip I b a := by
  refine sum_congr rfl fun i _ => ?_
  rw [← RCLike.conj_re, map_mul, RCLike.conj_conj, mul_comm]

theorem sip_add_left (I : Finset ι) (a b c : Wf ι 𝕜) : sip I (a + b) c = sip I a c + sip I b c := by
  rw [sip_comm, sip_add_right, sip_comm I c a, sip_comm I c b]

theorem sip_smul_left (I : Finset ι) (r : ℝ) (a b : Wf ι 𝕜) : sip I ((r : 𝕜) • a) b = r * sip I a b := by
  rw [sip_comm, sip_smul_right, sip_comm]

theorem sip_zero_right (I : Finset ι) (a : Wf ι 𝕜) : sip I a 0 = 0 := by simp [sip]

theorem sip_of_orth {I : Finset ι} {a b : Wf ι 𝕜} (h : SiteOrth I a b) : sip I a b = 0 := by
  have := congrArg RCLike.re h
  rwa [map_sum, map_zero] at this

theorem siteNormSq_nonneg (I : Finset ι) (a : Wf ι 𝕜) : 0 ≤ siteNormSq I a := sum_nonneg fun _ _ => by positivity

theorem norm_step (I : Finset ι) (θ d : Wf ι 𝕜) (lr : ℝ) :
    siteNormSq I (θ + ((-lr : ℝ) : 𝕜) • d) = siteNormSq I θ - 2 * lr * sip I θ d + lr ^ 2 * siteNormSq I d := by
  rw [← sip_self, ← sip_self, ← sip_self, sip_add_left, sip_add_right, sip_add_right, sip_smul_left, sip_smul_left,
    sip_smul_right, sip_smul_right, sip_comm I d θ]
  ring

/-- **C159.** One plain step, which is also the step of stochastic reconfiguration along the natural
gradient: weight decay multiplies the squared norm of a site, the step adds the squared length of its
part at the site. -/
theorem sgd_step_norm (p : SGDParams) (hm : p.momentum ≤ 0) (I : Finset ι) (vel : Velocity ι 𝕜) (θ g : Wf ι 𝕜)
    (lr : ℝ) (h : SiteOrth I θ g) :
    siteNormSq I (sgdUpdate p vel θ g lr).1 =
      (1 - lr * max p.weightDecay 0) ^ 2 * siteNormSq I θ + lr ^ 2 * siteNormSq I g := by
  unfold sgdUpdate
  rw [if_neg hm.not_gt]
  dsimp only
  rw [norm_step]
  by_cases hw : 0 < p.weightDecay
  · rw [if_pos hw, sip_smul_left, sip_of_orth h, max_eq_left hw.le, ← sip_self I ((_ : 𝕜) • θ), sip_smul_left,
      sip_smul_right, sip_self]
    ring
  · rw [if_neg hw, sip_of_orth h, max_eq_right (not_lt.1 hw)]
    ring

/-- **C159.** A history of plain steps without weight decay: the squared norm of a site is that at the
start plus the squared lengths of all steps at the site. -/
theorem sgd_run_norm (p : SGDParams) (hm : p.momentum ≤ 0) (hw : p.weightDecay ≤ 0) (I : Finset ι)
    (θ : Wf ι 𝕜) (h : List (ℝ × Wf ι 𝕜)) (ho : OrthHistory p I θ h) :
    siteNormSq I (sgdRun p θ h).1 = siteNormSq I θ + (h.map fun a => a.1 ^ 2 * siteNormSq I a.2).sum := by
  induction h using List.reverseRecOn with
  | nil => simp [sgdRun]
  | append_singleton h a ih =>
    have h1 : SiteOrth I (sgdRun p θ h).1 a.2 := by
      have := ho h.length a (by simp)
      rwa [List.take_left] at this
    have h2 : OrthHistory p I θ h := by
      intro k b hk
      have hlt : k < h.length := (List.getElem?_eq_some_iff.1 hk).1
      have := ho k b (by rw [List.getElem?_append_left hlt]; exact hk)
      rwa [List.take_append_of_le_length hlt.le] at this
    have e : sgdRun p θ (h ++ [a]) = sgdStep p (sgdRun p θ h) a := by
      unfold sgdRun
      rw [List.foldl_append]; rfl
    rw [e]
    unfold sgdStep
    rw [sgd_step_norm p hm I _ _ _ _ h1, max_eq_right hw, ih h2, List.map_append, List.sum_append]
    simp
    ring

/-- **C159.** With momentum (not Nesterov's) and learning rates that are not negative, no iteration of a
history makes a site smaller. -/
theorem sgd_momentum_grows (p : SGDParams) (hn : p.nesterov = false) (hw : p.weightDecay ≤ 0) (I : Finset ι)
    (θ : Wf ι 𝕜) (h : List (ℝ × Wf ι 𝕜)) (hlr : ∀ a ∈ h, 0 ≤ a.1) (ho : OrthHistory p I θ h) :
    ∀ k, siteNormSq I (sgdRun p θ (h.take k)).1 ≤ siteNormSq I (sgdRun p θ (h.take (k + 1))).1 := by
  have key : ∀ k, sip I (sgdRun p θ (h.take k)).1 ((sgdRun p θ (h.take k)).2.getD 0) ≤ 0 ∧
      (0 < p.momentum ∨ (sgdRun p θ (h.take k)).2.getD 0 = 0) ∧
      siteNormSq I (sgdRun p θ (h.take k)).1 ≤ siteNormSq I (sgdRun p θ (h.take (k + 1))).1 := by
    have step : ∀ k, (sip I (sgdRun p θ (h.take k)).1 ((sgdRun p θ (h.take k)).2.getD 0) ≤ 0 ∧
        (0 < p.momentum ∨ (sgdRun p θ (h.take k)).2.getD 0 = 0)) →
        (sip I (sgdRun p θ (h.take (k + 1))).1 ((sgdRun p θ (h.take (k + 1))).2.getD 0) ≤ 0 ∧
        (0 < p.momentum ∨ (sgdRun p θ (h.take (k + 1))).2.getD 0 = 0)) ∧
        siteNormSq I (sgdRun p θ (h.take k)).1 ≤ siteNormSq I (sgdRun p θ (h.take (k + 1))).1 := by
      rintro k ⟨h1, h2⟩
      rcases lt_or_ge k h.length with hk | hk
      · have hg : h[k]? = some h[k] := List.getElem?_eq_getElem hk
        have hog := sip_of_orth (ho k _ hg)
        have hl := hlr _ (List.getElem_mem hk)
        have e : sgdRun p θ (h.take (k + 1)) = sgdStep p (sgdRun p θ (h.take k)) h[k] := by
          unfold sgdRun
          rw [List.take_succ, hg, List.foldl_append]; rfl
        rw [e]
        generalize sgdRun p θ (h.take k) = s at *
        generalize h[k] = a at *
        obtain ⟨t, vel⟩ := s
        obtain ⟨lr, g⟩ := a
        dsimp only at h1 h2 hog hl
        unfold sgdStep sgdUpdate
        dsimp only
        rw [if_neg hw.not_gt, hn]
        by_cases hm : 0 < p.momentum
        · rw [if_pos hm]
          simp only [Bool.false_eq_true, if_false, Option.getD_some]
          set v := (p.momentum : 𝕜) • vel.getD 0 + g
          have hv : sip I t v ≤ 0 := by
            rw [show sip I t v = p.momentum * sip I t (vel.getD 0) + sip I t g by
              rw [sip_add_right, sip_smul_right], hog, add_zero]
            exact mul_nonpos_of_nonneg_of_nonpos hm.le h1
          have hN := siteNormSq_nonneg I v
          refine ⟨⟨?_, .inl hm⟩, ?_⟩
          · rw [sip_add_left, sip_smul_left, sip_self]
            nlinarith
          · rw [norm_step]
            nlinarith [mul_nonneg (sq_nonneg lr) hN, mul_nonneg hl (neg_nonneg.2 hv)]
        · rw [if_neg hm]
          simp only [Option.getD_some]
          have h0 := h2.resolve_left hm
          refine ⟨⟨by rw [h0, sip_zero_right], .inr h0⟩, ?_⟩
          rw [norm_step, hog]
          nlinarith [mul_nonneg (sq_nonneg lr) (siteNormSq_nonneg I g)]
      · rw [List.take_of_length_le (by omega : h.length ≤ k + 1), List.take_of_length_le hk] at *
        exact ⟨⟨h1, h2⟩, le_rfl⟩
    intro k
    have inv : ∀ k, sip I (sgdRun p θ (h.take k)).1 ((sgdRun p θ (h.take k)).2.getD 0) ≤ 0 ∧
        (0 < p.momentum ∨ (sgdRun p θ (h.take k)).2.getD 0 = 0) := by
      intro k
      induction k with
      | zero => simp [sgdRun, sip_zero_right]
      | succ k ih => exact (step k ih).1
    exact ⟨(inv k).1, (inv k).2, (step k (inv k)).2⟩
  exact fun k => (key k).2.2

/-- two steps with momentum one half; the second gradient is orthogonal to the state it meets -/
example : OrthHistory ⟨1 / 2, false, 0⟩ univ (!₂[1, 0] : Wf (Fin 2) ℝ) [(1, !₂[0, 1]), (1 / 3, !₂[1, 1])] := by
  intro k a hk
  match k with
  | 0 => simp at hk; subst hk; simp [SiteOrth, sgdRun, Fin.sum_univ_two]
  | 1 => simp at hk; subst hk; simp [SiteOrth, sgdRun, sgdStep, sgdUpdate, Fin.sum_univ_two]
  | k + 2 => simp at hk

/-- **C159.** With Nesterov's momentum an iteration can shrink a site, if the learning rate varies. -/
theorem nesterov_shrinks : ∃ (θ : Wf (Fin 2) ℝ) (h : List (ℝ × Wf (Fin 2) ℝ)), (∀ a ∈ h, 0 < a.1) ∧
    OrthHistory ⟨1 / 2, true, 0⟩ univ θ h ∧
    siteNormSq univ (sgdRun ⟨1 / 2, true, 0⟩ θ (h.take 3)).1 <
      siteNormSq univ (sgdRun ⟨1 / 2, true, 0⟩ θ (h.take 2)).1 := by
  refine ⟨!₂[1, 0], [(1 / 50, !₂[0, 1]), (1, !₂[-1 / 100, -1 / 3]), (1, 0)], ?_, ?_, ?_⟩
  · intro a ha
    simp only [List.mem_cons, List.not_mem_nil, or_false] at ha
    rcases ha with rfl | rfl | rfl <;> norm_num
  · intro k a hk
    match k with
    | 0 => simp at hk; subst hk; simp [SiteOrth, sgdRun, Fin.sum_univ_two]
    | 1 =>
      simp at hk; subst hk
      simp [SiteOrth, sgdRun, sgdStep, sgdUpdate, Fin.sum_univ_two]
      norm_num
    | 2 => simp at hk; subst hk; simp [SiteOrth]
    | k + 3 => simp at hk
  · simp [siteNormSq, sgdRun, sgdStep, sgdUpdate, Fin.sum_univ_two]
    norm_num [abs_of_pos, abs_of_neg, sq_abs]

/-- **C159.** Clipping by the global norm leaves the gradient without component along the site. -/
theorem clip_norm_orth (firstOrder : Bool) (clipNorm : Option ℝ) (I : Finset ι) (θ g : Wf ι 𝕜)
    (h : SiteOrth I θ g) : SiteOrth I θ (preprocess firstOrder none clipNorm g) := by
  have hs : ∀ c : 𝕜, SiteOrth I θ (c • g) := by
    intro c
    unfold SiteOrth at *
    simp only [PiLp.smul_apply, smul_eq_mul, mul_left_comm _ c, ← mul_sum, h, mul_zero]
  unfold preprocess
  split_ifs
  · dsimp only
    cases clipNorm with
    | none => exact h
    | some c =>
      dsimp only
      split_ifs
      · unfold clipByGlobalNorm
        dsimp only
        split_ifs
        · exact hs _
        · exact h
      · exact h
  · exact h

/-- **C159.** Clipping element by element does not: the clipped step can shrink a site. -/
theorem clip_value_shrinks : ∃ (θ g : Wf (Fin 2) ℝ) (lr : ℝ), 0 < lr ∧ SiteOrth univ θ g ∧
    siteNormSq univ (sgdUpdate ⟨0, false, 0⟩ none θ (preprocess true (some 1) none g) lr).1 < siteNormSq univ θ := by
  refine ⟨!₂[2, 1], !₂[1, -2], 1 / 10, by norm_num, ?_, ?_⟩
  · simp [SiteOrth, Fin.sum_univ_two]
  · simp [siteNormSq, Fin.sum_univ_two, sgdUpdate, preprocess, elementWiseClipTo, clipElem]
    norm_num

end

end QLPeps.GradStep
