import Verif.Lemmas.CGProtocol

/-!
# Conjugate-gradient solver: C37, C38, C39, C40, C69
-/

namespace QLPeps.CG

section serial
variable {𝕜 : Type*} [RCLike 𝕜] {V : Type*} [NormedAddCommGroup V] [InnerProductSpace 𝕜 V]

theorem solve_small (eps : ℝ) (A : V →ₗ[𝕜] V) (b x0 : V) (pr : Params ℝ)
    (hc : ‖b - A x0‖ ^ 2 ≤ tolSq (exactOps 𝕜 V eps) pr b) :
    solve (exactOps 𝕜 V eps) A b x0 pr = ⟨x0, ‖b - A x0‖, 0, .converged⟩ := by
  unfold solve
  dsimp only
  have h : (exactOps 𝕜 V eps).le ((exactOps 𝕜 V eps).normSq ((exactOps 𝕜 V eps).sub b (A x0)))
    (tolSq (exactOps 𝕜 V eps) pr b) = true := (ex_le eps _ _).2 hc
  rw [if_pos h]
  simp only [ex_sqrtR, ex_normSq, ex_sub, Real.sqrt_sq (norm_nonneg _)]

theorem solve_large (eps : ℝ) (A : V →ₗ[𝕜] V) (b x0 : V) (pr : Params ℝ)
    (hc : ¬ ‖b - A x0‖ ^ 2 ≤ tolSq (exactOps 𝕜 V eps) pr b) :
    solve (exactOps 𝕜 V eps) A b x0 pr = loop (exactOps 𝕜 V eps) A pr (tolSq (exactOps 𝕜 V eps) pr b) b pr.maxIter 0
      (initSt x0 (b - A x0) (‖b - A x0‖ ^ 2)) := by
  unfold solve
  dsimp only
  have h : ¬ (exactOps 𝕜 V eps).le ((exactOps 𝕜 V eps).normSq ((exactOps 𝕜 V eps).sub b (A x0)))
    (tolSq (exactOps 𝕜 V eps) pr b) = true := fun h => hc ((ex_le eps _ _).1 h)
  rw [if_neg h]
  rfl

/-- **C37.** At most `max_iter` iterations are reported; a converged result satisfies
`‖b - A x‖ ≤ max(rel_tol ‖b‖, abs_tol)` with the true residual. Any linear operator, real or complex. -/
theorem C37_converged_meets_tolerance (eps : ℝ) (A : V →ₗ[𝕜] V) (b x0 : V) (pr : Params ℝ)
    (hrel : 0 ≤ pr.relTol) (habs : 0 ≤ pr.absTol) :
    (solve (exactOps 𝕜 V eps) A b x0 pr).iterations ≤ pr.maxIter ∧
    ((solve (exactOps 𝕜 V eps) A b x0 pr).reason = .converged →
      ‖b - A (solve (exactOps 𝕜 V eps) A b x0 pr).x‖ ≤ max (pr.relTol * ‖b‖) pr.absTol) := by
  have hconv : ∀ y : V, ‖y‖ ^ 2 ≤ tolSq (exactOps 𝕜 V eps) pr b → ‖y‖ ≤ max (pr.relTol * ‖b‖) pr.absTol := by
    intro y hy
    rw [tolSq_eq] at hy
    have h1 : 0 ≤ pr.relTol * ‖b‖ := by positivity
    rcases le_max_iff.1 hy with h | h
    · exact (le_of_sq_le_sq h h1).trans (le_max_left _ _)
    · exact (le_of_sq_le_sq h habs).trans (le_max_right _ _)
  by_cases hc : ‖b - A x0‖ ^ 2 ≤ tolSq (exactOps 𝕜 V eps) pr b
  · rw [solve_small eps A b x0 pr hc]
    exact ⟨Nat.zero_le _, fun _ => hconv _ hc⟩
  · rw [solve_large eps A b x0 pr hc]
    obtain ⟨h1, _, h3, _⟩ := loop_inv eps A pr (tolSq (exactOps 𝕜 V eps) pr b) b (‖b - A x0‖ ^ 2) pr.maxIter 0
      (initSt x0 (b - A x0) (‖b - A x0‖ ^ 2)) (by simp) ⟨rfl, rfl, rfl, le_refl _, le_refl _⟩
    exact ⟨h1, fun hr => hconv _ (h3 hr)⟩

/-- the start of the loop satisfies the invariant -/
theorem init_inv (A : V →ₗ[𝕜] V) (b x0 : V) :
    Inv A b (‖b - A x0‖ ^ 2) (initSt x0 (b - A x0) (‖b - A x0‖ ^ 2)) := ⟨rfl, rfl, rfl, le_refl _, le_refl _⟩

/-- **C38.** Whatever the exit: the reported residual norm is the true residual norm of the returned
vector and it is not larger than the initial guess's; a non-converged exit returns a point among those the
solver evaluated, and none of these has a smaller residual. -/
theorem C38_best_iterate (eps : ℝ) (A : V →ₗ[𝕜] V) (b x0 : V) (pr : Params ℝ) :
    (solve (exactOps 𝕜 V eps) A b x0 pr).residualNorm = ‖b - A (solve (exactOps 𝕜 V eps) A b x0 pr).x‖ ∧
    ‖b - A (solve (exactOps 𝕜 V eps) A b x0 pr).x‖ ≤ ‖b - A x0‖ ∧
    ((solve (exactOps 𝕜 V eps) A b x0 pr).reason ≠ .converged →
      (solve (exactOps 𝕜 V eps) A b x0 pr).x ∈ iterates (exactOps 𝕜 V eps) A b x0 pr ∧
      ∀ y ∈ iterates (exactOps 𝕜 V eps) A b x0 pr,
        ‖b - A (solve (exactOps 𝕜 V eps) A b x0 pr).x‖ ≤ ‖b - A y‖) := by
  unfold iterates
  by_cases hc : ‖b - A x0‖ ^ 2 ≤ tolSq (exactOps 𝕜 V eps) pr b
  · rw [solve_small eps A b x0 pr hc]
    exact ⟨rfl, le_refl _, fun h => absurd rfl h⟩
  · rw [solve_large eps A b x0 pr hc]
    obtain ⟨_, h2, h3, h4⟩ := loop_inv eps A pr (tolSq (exactOps 𝕜 V eps) pr b) b (‖b - A x0‖ ^ 2) pr.maxIter 0
      (initSt x0 (b - A x0) (‖b - A x0‖ ^ 2)) (by simp) (init_inv A b x0)
    simp only [ex_sub, ex_normSq]
    refine ⟨h2, ?_, fun hne => ?_⟩
    · by_cases hr : (loop (exactOps 𝕜 V eps) A pr (tolSq (exactOps 𝕜 V eps) pr b) b pr.maxIter 0
        (initSt x0 (b - A x0) (‖b - A x0‖ ^ 2))).reason = .converged
      · exact le_of_sq_le_sq ((h3 hr).trans (not_le.1 hc).le) (norm_nonneg _)
      · exact le_of_sq_le_sq (h4 hr).1 (norm_nonneg _)
    · obtain ⟨b1, b2, b3⟩ := h4 hne
      refine ⟨?_, fun y hy => ?_⟩
      · rcases b3 with b3 | b3
        · rw [b3]; exact List.mem_cons_self ..
        · exact List.mem_cons_of_mem _ b3
      · rcases List.mem_cons.1 hy with rfl | hy
        · exact le_of_sq_le_sq b1 (norm_nonneg _)
        · exact b2 y hy

/-- the classical theory on an invariant subspace on which `A` is positive definite -/
theorem solve_on_subspace (eps : ℝ) (A : V →ₗ[𝕜] V) (U : Submodule 𝕜 V) [FiniteDimensional 𝕜 U] (b x0 : V)
    (pr : Params ℝ) (hA : A.IsSymmetric) (hAU : ∀ v ∈ U, A v ∈ U)
    (hpos : ∀ v ∈ U, v ≠ 0 → 0 < RCLike.re (inner 𝕜 v (A v))) (hortho : 0 ≤ pr.ortho) (hr : b - A x0 ∈ U) :
    ((solve (exactOps 𝕜 V eps) A b x0 pr).reason = .converged ∨
      ((solve (exactOps 𝕜 V eps) A b x0 pr).reason = .stagnated ∧ eps ≠ 0) ∨
      ((solve (exactOps 𝕜 V eps) A b x0 pr).reason = .maxIterations ∧ pr.maxIter < Module.finrank 𝕜 U)) ∧
    (solve (exactOps 𝕜 V eps) A b x0 pr).iterations ≤ Module.finrank 𝕜 U := by
  by_cases hc : ‖b - A x0‖ ^ 2 ≤ tolSq (exactOps 𝕜 V eps) pr b
  · rw [solve_small eps A b x0 pr hc]
    exact ⟨Or.inl rfl, Nat.zero_le _⟩
  · rw [solve_large eps A b x0 pr hc]
    have htol : 0 ≤ tolSq (exactOps 𝕜 V eps) pr b := by rw [tolSq_eq]; positivity
    have hnz : b - A x0 ≠ 0 := by
      intro h0; apply hc; rw [h0]; simpa using htol
    exact loop_kry eps A U pr _ b _ hA hAU hpos hortho htol pr.maxIter 0 _ [] [] (by simp) rfl (init_inv A b x0)
      ⟨hr, hr, by simp, hnz, by simp, by simp, List.Pairwise.nil, by simp, by simp, by simp [initSt], by simp,
        Submodule.subset_span (by simp [initSt]),
        by simp only [initSt]; rw [inner_self_eq_norm_sq_to_K]; push_cast; rfl, rfl⟩

/-- **C69a.** Self-adjoint positive-definite operator on a space of dimension `d`, in exact arithmetic: the
solver never reports an indefinite matrix or a breakdown and needs at most `d` iterations; with
`max_iter ≥ d` it converges, unless the stagnation test (step below machine epsilon) stops it. -/
theorem C69_positive_definite (eps : ℝ) [FiniteDimensional 𝕜 V] (A : V →ₗ[𝕜] V) (b x0 : V) (pr : Params ℝ)
    (hA : A.IsSymmetric) (hpos : ∀ v, v ≠ 0 → 0 < RCLike.re (inner 𝕜 v (A v))) (hortho : 0 ≤ pr.ortho) :
    (solve (exactOps 𝕜 V eps) A b x0 pr).iterations ≤ Module.finrank 𝕜 V ∧
    (solve (exactOps 𝕜 V eps) A b x0 pr).reason ≠ .indefinite ∧
    (solve (exactOps 𝕜 V eps) A b x0 pr).reason ≠ .breakdown ∧
    (Module.finrank 𝕜 V ≤ pr.maxIter →
      (solve (exactOps 𝕜 V eps) A b x0 pr).reason = .converged ∨
      ((solve (exactOps 𝕜 V eps) A b x0 pr).reason = .stagnated ∧ eps ≠ 0)) := by
  obtain ⟨h1, h2⟩ := solve_on_subspace eps A ⊤ b x0 pr hA (by simp) (fun v _ => hpos v) hortho (by simp)
  rw [finrank_top] at h1 h2
  refine ⟨h2, ?_, ?_, fun hm => ?_⟩
  · rcases h1 with h | ⟨h, _⟩ | ⟨h, _⟩ <;> simp [h]
  · rcases h1 with h | ⟨h, _⟩ | ⟨h, _⟩ <;> simp [h]
  · rcases h1 with h | h | ⟨_, h⟩
    · exact Or.inl h
    · exact Or.inr h
    · omega

/-- **C69b.** A positive *semi*definite operator and a right-hand side in its range (stochastic
reconfiguration without diagonal shift): the same, with the rank of the operator instead of the dimension. -/
theorem C69_semidefinite (eps : ℝ) [FiniteDimensional 𝕜 V] (A : V →ₗ[𝕜] V) (b x0 : V) (pr : Params ℝ)
    (hA : A.IsSymmetric) (hpsd : ∀ v, 0 ≤ RCLike.re (inner 𝕜 v (A v))) (hb : b ∈ LinearMap.range A)
    (hortho : 0 ≤ pr.ortho) :
    (solve (exactOps 𝕜 V eps) A b x0 pr).iterations ≤ Module.finrank 𝕜 (LinearMap.range A) ∧
    (solve (exactOps 𝕜 V eps) A b x0 pr).reason ≠ .indefinite ∧
    (solve (exactOps 𝕜 V eps) A b x0 pr).reason ≠ .breakdown ∧
    (Module.finrank 𝕜 (LinearMap.range A) ≤ pr.maxIter →
      (solve (exactOps 𝕜 V eps) A b x0 pr).reason = .converged ∨
      ((solve (exactOps 𝕜 V eps) A b x0 pr).reason = .stagnated ∧ eps ≠ 0)) := by
  have hpos : ∀ v ∈ LinearMap.range A, v ≠ 0 → 0 < RCLike.re (inner 𝕜 v (A v)) := by
    intro v hv hnz
    rcases (hpsd v).lt_or_eq with h | h
    · exact h
    exfalso
    -- `re ⟪v, A v⟫ = 0` makes `v` a minimiser of the form, so `A v = 0`, so `v` is orthogonal to the range
    have hAv : A v = 0 := by
      by_contra hne
      set w := A v with hw
      have hq : ∀ t : ℝ, 0 ≤ t ^ 2 * RCLike.re (inner 𝕜 w (A w)) - 2 * t * ‖w‖ ^ 2 := by
        intro t
        have h0 := hpsd (v - (t : 𝕜) • w)
        have e1 : inner 𝕜 (v - (t : 𝕜) • w) (A (v - (t : 𝕜) • w)) =
            inner 𝕜 v (A v) - (t : 𝕜) * inner 𝕜 v (A w) - ((t : 𝕜) * inner 𝕜 w (A v) - (t : 𝕜) * ((t : 𝕜) * inner 𝕜 w (A w))) := by
          simp only [map_sub, map_smul, inner_sub_left, inner_sub_right, inner_smul_left, inner_smul_right,
            RCLike.conj_ofReal]
          ring
        have e2 : inner 𝕜 v (A w) = ((‖w‖ ^ 2 : ℝ) : 𝕜) := by
          have : inner 𝕜 v (A w) = inner 𝕜 (A v) w := (hA v w).symm
          rw [this, ← hw, inner_self_eq_norm_sq_to_K]; push_cast; rfl
        have e3 : inner 𝕜 w (A v) = ((‖w‖ ^ 2 : ℝ) : 𝕜) := by
          rw [← hw, inner_self_eq_norm_sq_to_K]; push_cast; rfl
        rw [e1, e2, e3] at h0
        simp only [map_sub, RCLike.re_ofReal_mul, RCLike.ofReal_re] at h0
        rw [← h] at h0
        nlinarith [h0]
      have hwpos : 0 < ‖w‖ ^ 2 := by have := norm_pos_iff.2 hne; positivity
      set C := RCLike.re (inner 𝕜 w (A w)) with hC
      have hC0 : 0 ≤ C := hpsd w
      have := hq (‖w‖ ^ 2 / (C + 1))
      have hC1 : 0 < C + 1 := by linarith
      rw [div_pow] at this
      have h5 : (‖w‖ ^ 2) ^ 2 / (C + 1) ^ 2 * C - 2 * (‖w‖ ^ 2 / (C + 1)) * ‖w‖ ^ 2 < 0 := by
        have : (‖w‖ ^ 2) ^ 2 / (C + 1) ^ 2 * C - 2 * (‖w‖ ^ 2 / (C + 1)) * ‖w‖ ^ 2
            = (‖w‖ ^ 2) ^ 2 * (C - 2 * (C + 1)) / (C + 1) ^ 2 := by field_simp
        rw [this]
        apply div_neg_of_neg_of_pos
        · apply mul_neg_of_pos_of_neg
          · positivity
          · linarith
        · positivity
      linarith
    obtain ⟨u, rfl⟩ := hv
    have h6 : inner 𝕜 (A u) (A u) = (0 : 𝕜) := by
      have : inner 𝕜 (A u) (A u) = inner 𝕜 u (A (A u)) := hA u (A u)
      rw [this, hAv, inner_zero_right]
    exact hnz (inner_self_eq_zero.1 h6)
  obtain ⟨h1, h2⟩ := solve_on_subspace eps A (LinearMap.range A) b x0 pr hA (fun v _ => LinearMap.mem_range_self A v) hpos
    hortho (Submodule.sub_mem _ hb (LinearMap.mem_range_self A x0))
  refine ⟨h2, ?_, ?_, fun hm => ?_⟩
  · rcases h1 with h | ⟨h, _⟩ | ⟨h, _⟩ <;> simp [h]
  · rcases h1 with h | ⟨h, _⟩ | ⟨h, _⟩ <;> simp [h]
  · rcases h1 with h | h | ⟨_, h⟩
    · exact Or.inl h
    · exact Or.inr h
    · omega

/-- C37/C69 on a concrete system: `2 x = 4` is solved in one iteration, and the answer is exact. -/
example : (solve (exactOps ℝ ℝ 0) (⇑((2 : ℝ) • LinearMap.id : ℝ →ₗ[ℝ] ℝ)) 4 0 ⟨1, 0, 0, 20, 1 / 2⟩).x = 2 := by
  have h := C69_positive_definite (𝕜 := ℝ) (V := ℝ) 0 ((2 : ℝ) • LinearMap.id) 4 0 ⟨1, 0, 0, 20, 1 / 2⟩
    (by intro u v; simp; ring) (by intro v hv; simp; nlinarith [mul_self_pos.2 hv]) (by norm_num)
  have hc := (h.2.2.2 (by simp)).resolve_right (by simp)
  have ht := (C37_converged_meets_tolerance (𝕜 := ℝ) (V := ℝ) 0 ((2 : ℝ) • LinearMap.id) 4 0 ⟨1, 0, 0, 20, 1 / 2⟩
    (le_refl _) (le_refl _)).2 hc
  simp only [zero_mul, max_self] at ht
  have h0 := norm_le_zero_iff.1 ht
  simp only [LinearMap.smul_apply, LinearMap.id_apply, smul_eq_mul] at h0
  linarith

/-- C38 on a concrete non-converged exit: `-x = 1` is reported indefinite at once, returning the guess. -/
example : (solve (exactOps ℝ ℝ 0) (fun v => -v) (1 : ℝ) 0 ⟨5, 0, 0, 20, 1 / 2⟩).reason = .indefinite := by
  have hv : (exactOps ℝ ℝ 0).papValid ((exactOps ℝ ℝ 0).inner (1 : ℝ) (-1)) = false := by
    rw [← Bool.not_eq_true, ex_pap]; simp
  have hle : (exactOps ℝ ℝ 0).le 1 0 = false := by rw [← Bool.not_eq_true, ex_le]; norm_num
  unfold solve
  rw [tolSq_eq]
  simp only [ex_sub, neg_zero, sub_zero, ex_normSq, norm_one, one_pow,
    zero_mul, ne_eq, OfNat.ofNat_ne_zero, not_false_eq_true, zero_pow, max_self, hle, Bool.false_eq_true, if_false]
  simp only [loop, iter, initSt, hv, Bool.not_false, if_true, giveUp]

end serial

/-! ## Distributed solver -/

section distributed
variable {V K R : Type*} {n : ℕ}

/-- **C39 (safety and deadlock freedom).** For arbitrary arithmetic (so for every numerical outcome,
including NaN), every number of slaves, and every schedule and amount of buffering: no slave ever receives
something it does not expect, and unless everything has finished some process can move even under an MPI
that never buffers. -/
theorem C39_never_stuck (o : Ops V K R) (A0 : V → V) (A : Fin n → V → V) (b x0 : V) (pr : Params R)
    {m : ℕ} {st : Sys n V R} (h : Path o A0 A (initSys n o b x0 pr) m st) :
    (∀ i, (st.s i).pc ≠ .error) ∧ (Finished st ∨ ∃ st', Must o A0 A st st') := by
  obtain ⟨w, hg, _⟩ := path_good (init_good o A b x0 pr) h
  exact ⟨good_no_error hg, good_progress hg⟩

/-- **C39 (termination).** No execution is longer than an explicit bound in `max_iter` and the number of
slaves. -/
theorem C39_bounded (o : Ops V K R) (A0 : V → V) (A : Fin n → V → V) (b x0 : V) (pr : Params R)
    {m : ℕ} {st : Sys n V R} (h : Path o A0 A (initSys n o b x0 pr) m st) :
    m ≤ (2 * pr.maxIter + 1) * (4 * n + 5) + (n + 2) := by
  obtain ⟨w, _, hle⟩ := path_good (init_good o A b x0 pr) h
  have h0 : total (initSys n o b x0 pr).s = 0 := by
    simp [total, initSys, Slave.weight]
  rw [h0] at hle
  omega

/-- **C39 (agreement).** Every execution that cannot continue has finished: the master has returned, every
slave has left its loop, no message is left over, and each slave performed exactly the master's number of
products. -/
theorem C39_ends_finished (o : Ops V K R) (A0 : V → V) (A : Fin n → V → V) (b x0 : V) (pr : Params R)
    {m : ℕ} {st : Sys n V R} (h : Path o A0 A (initSys n o b x0 pr) m st) (hend : ∀ st', ¬ Must o A0 A st st') :
    (∃ res, st.m = .run (.ret res)) ∧
      ∀ i, (st.s i).pc = .done ∧ (st.s i).queue = [] ∧ (st.s i).mail = [] ∧ (st.s i).products = st.products := by
  rcases (C39_never_stuck o A0 A b x0 pr h).2 with hf | ⟨st', hs⟩
  · exact hf
  · exact absurd hs (hend st')

/-- every partial execution can be completed -/
theorem C39_completes (o : Ops V K R) (A0 : V → V) (A : Fin n → V → V) (b x0 : V) (pr : Params R)
    {m : ℕ} {st : Sys n V R} (h : Path o A0 A (initSys n o b x0 pr) m st) :
    ∃ m' st', Path o A0 A (initSys n o b x0 pr) m' st' ∧ m ≤ m' ∧ Finished st' := by
  by_contra hcon
  push Not at hcon
  have hinf : ∀ j, ∃ st', Path o A0 A (initSys n o b x0 pr) (m + j) st' := by
    intro j
    induction j with
    | zero => exact ⟨st, h⟩
    | succ j ih =>
      obtain ⟨st', h'⟩ := ih
      rcases (C39_never_stuck o A0 A b x0 pr h').2 with hf | ⟨st'', hs⟩
      · exact absurd hf (hcon _ _ h' (by omega))
      · exact ⟨st'', Path.snoc h' (Step.must hs)⟩
  obtain ⟨st', h'⟩ := hinf ((2 * pr.maxIter + 1) * (4 * n + 5) + (n + 2) + 1)
  have := C39_bounded o A0 A b x0 pr h'
  omega

/-- **C40 (each reply exactly once).** Although the master receives from any source, whenever it finishes
collecting the replies to a product it holds exactly one reply per slave, each computed from the vector of
that very product. Arbitrary arithmetic. -/
theorem C40_one_reply_per_slave (o : Ops V K R) (A0 : V → V) (A : Fin n → V → V) (b x0 : V) (pr : Params R)
    {m : ℕ} {v : V} {k : V → Prog V R} {got : List (Fin n × V)} {s : Fin n → Slave V} {c : ℕ}
    (h : Path o A0 A (initSys n o b x0 pr) m ⟨.gather v k got, s, c⟩) (hlen : got.length = n) :
    (∀ i, (got.map Prod.fst).count i = 1) ∧ (∀ e ∈ got, e.2 = A e.1 v) ∧ ∀ i, (s i).mail = [] := by
  obtain ⟨w, hg, _⟩ := path_good (init_good o A b x0 pr) h
  cases hg with
  | gather f N v k got s c h' hs =>
    refine ⟨fun i => List.count_eq_one_of_mem hs.1 (hs.full hlen i), hs.2.1, fun i => ?_⟩
    rcases hs.2.2 i with ⟨_, h1⟩ | ⟨h1, _⟩
    · rw [h1]
    · exact absurd (hs.full hlen i) h1

end distributed

section exactDistributed
variable {𝕜 : Type*} [RCLike 𝕜] {V : Type*} [NormedAddCommGroup V] [InnerProductSpace 𝕜 V] {n : ℕ}

/-- **C40 (value).** In exact arithmetic every execution of the distributed solver, whatever the arrival
orders, returns on the master exactly what the serial solver returns for the summed matrix. -/
theorem C40_equals_serial (eps : ℝ) (A0 : V → V) (A : Fin n → V → V) (b x0 : V) (pr : Params ℝ)
    {m : ℕ} {st : Sys n V ℝ} (h : Path (exactOps 𝕜 V eps) A0 A (initSys n (exactOps 𝕜 V eps) b x0 pr) m st)
    {res : Result V ℝ} (hres : st.m = .run (.ret res)) :
    res = solve (exactOps 𝕜 V eps) (fun v => A0 v + ∑ i, A i v) b x0 pr := by
  have hev := path_eval (prod := fun v => A0 v + ∑ i, A i v) (fun v got f c s hs hlen => by
    unfold gathered
    simp only [ex_add]
    rw [foldl_add_eq, gathered_eq hs.1 (hs.full hlen) hs.2.1]) (init_good (exactOps 𝕜 V eps) A b x0 pr) h
  rw [hres] at hev
  have : (res : Result V ℝ) = (masterProg (exactOps 𝕜 V eps) b x0 pr).eval (fun v => A0 v + ∑ i, A i v) := hev
  rw [this, eval_masterProg]

/-- **C40 (one product).** The collected sum does not depend on the order of arrival. -/
theorem C40_arrival_order (eps : ℝ) (A0 : V → V) (v : V) (got got' : List (Fin n × V)) (h : got.Perm got') :
    gathered (exactOps 𝕜 V eps) A0 v got = gathered (exactOps 𝕜 V eps) A0 v got' := by
  unfold gathered
  simp only [ex_add]
  rw [foldl_add_eq, foldl_add_eq, (h.map Prod.snd).sum_eq]

/-- non-vacuous: two slaves and a one-dimensional system; some execution finishes, and its result is the
serial one -/
example : ∃ m st res, Path (exactOps ℝ ℝ 0) (fun v => v) (fun (_ : Fin 2) v => v)
    (initSys 2 (exactOps ℝ ℝ 0) 6 0 ⟨3, 0, 0, 20, 1 / 2⟩) m st ∧ st.m = .run (.ret res) ∧
    res = solve (exactOps ℝ ℝ 0) (fun v => v + ∑ _i : Fin 2, v) 6 0 ⟨3, 0, 0, 20, 1 / 2⟩ := by
  obtain ⟨m, st, hp, _, ⟨res, hres⟩, _⟩ := C39_completes (exactOps ℝ ℝ 0) (fun v : ℝ => v)
    (fun (_ : Fin 2) v => v) (6 : ℝ) 0 ⟨3, 0, 0, 20, 1 / 2⟩ Path.nil
  exact ⟨m, st, res, hp, hres, C40_equals_serial 0 _ _ 6 0 _ hp hres⟩

end exactDistributed

end QLPeps.CG
