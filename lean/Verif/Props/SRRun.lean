import Verif.Model.SRRun
import Verif.Spec.GradStep
import Verif.Props.GradScale
import Verif.Props.CG

/-!
# Property C162: conjugate gradient starts from the state, and what this does to the tensors of a site

From the second iteration on, stochastic reconfiguration hands the updated state to conjugate gradient as
initial guess. Conjugate gradient does not change the component of its guess along directions the matrix does
not see. The tensors of a site are such a direction (C158). So without diagonal shift every natural gradient
contains the tensors of the state itself, and every step shrinks them.
-/

namespace QLPeps.SRRun

open QLPeps.UpdateRules QLPeps.SRStep QLPeps.SR QLPeps.GradStep.Spec
open QLPeps.CG (exactOps solve)

noncomputable section

section cg

variable {𝕜 : Type*} [RCLike 𝕜] {V : Type*} [NormedAddCommGroup V] [InnerProductSpace 𝕜 V]

/-- the component of points and directions of conjugate gradient along `n` -/
structure Kept (n : V) (c : 𝕜) (s : CG.St V ℝ) : Prop where
  x : inner 𝕜 n s.x = c
  best : inner 𝕜 n s.bestX = c
  p : inner 𝕜 n s.p = 0
  r : inner 𝕜 n s.r = 0

theorem finish_kept (eps : ℝ) (pr : CG.Params ℝ) (tol : ℝ) (k : ℕ) {n : V} {c : 𝕜} {s : CG.St V ℝ} (h : Kept n c s) :
    match CG.finishIter (exactOps 𝕜 V eps) pr tol k s with
    | .inl res => inner 𝕜 n res.x = c
    | .inr s' => Kept n c s' := by
  unfold CG.finishIter
  dsimp only
  set s1 : CG.St V ℝ := if (exactOps 𝕜 V eps).lt ((exactOps 𝕜 V eps).normSq s.r) s.best then
    { s with bestX := s.x, best := (exactOps 𝕜 V eps).normSq s.r } else s with hs1
  have h1 : Kept n c s1 := by
    rw [hs1]
    split_ifs
    · exact ⟨h.x, h.x, h.p, h.r⟩
    · exact h
  simp only [CG.ex_fin, Bool.not_true, Bool.false_eq_true, if_false]
  by_cases ht : (exactOps 𝕜 V eps).le ((exactOps 𝕜 V eps).normSq s.r) tol = true
  · rw [if_pos ht]
    exact h1.x
  · rw [if_neg ht]
    split_ifs
    · exact ⟨h1.x, h1.best, h1.r, h1.r⟩
    · refine ⟨h1.x, h1.best, ?_, h1.r⟩
      simp only [CG.ex_add, CG.ex_smulR, inner_add_right, inner_smul_right, h1.r, h1.p, mul_zero, add_zero]

theorem loop_kept (eps : ℝ) (A : V → V) (pr : CG.Params ℝ) (tol : ℝ) (b : V) {n : V} (hA : ∀ v, inner 𝕜 n (A v) = 0)
    (hb : inner 𝕜 n b = 0) (c : 𝕜) (m : ℕ) : ∀ (k : ℕ) (s : CG.St V ℝ), Kept n c s →
      inner 𝕜 n (CG.loop (exactOps 𝕜 V eps) A pr tol b m k s).x = c := by
  induction m with
  | zero => intro k s h; exact h.best
  | succ m ih =>
    intro k s h
    have key : match CG.iter (exactOps 𝕜 V eps) A pr tol b k s with
        | .inl res => inner 𝕜 n res.x = c
        | .inr s' => Kept n c s' := by
      unfold CG.iter
      dsimp only
      by_cases h1 : (!(exactOps 𝕜 V eps).papValid ((exactOps 𝕜 V eps).inner s.p (A s.p))) = true
      · rw [if_pos h1]; exact h.best
      · rw [if_neg h1]
        by_cases h2 : 3 ≤ CG.stagNext (exactOps 𝕜 V eps)
            ((exactOps 𝕜 V eps).div s.rk ((exactOps 𝕜 V eps).inner s.p (A s.p))) s.p
            ((exactOps 𝕜 V eps).add s.x ((exactOps 𝕜 V eps).smul
              ((exactOps 𝕜 V eps).div s.rk ((exactOps 𝕜 V eps).inner s.p (A s.p))) s.p)) s.stag
        · rw [if_pos h2]; exact h.best
        · rw [if_neg h2]
          refine finish_kept eps pr tol k ⟨?_, h.best, h.p, ?_⟩
          · simp only [CG.ex_add, CG.ex_smul, inner_add_right, inner_smul_right, h.p, mul_zero, add_zero, h.x]
          · dsimp only
            split_ifs
            · simp only [CG.ex_sub, inner_sub_right, hA, hb, sub_zero]
            · simp only [CG.ex_sub, CG.ex_smul, inner_sub_right, inner_smul_right, hA, h.r, mul_zero, sub_zero]
    rw [CG.loop]
    cases hi : CG.iter (exactOps 𝕜 V eps) A pr tol b k s with
    | inl res => rw [hi] at key; exact key
    | inr s' => rw [hi] at key; exact ih (k + 1) s' key

/-- **C162.** If neither the matrix nor the right hand side has a component along a direction, the result
of conjugate gradient has the component of the initial guess, however it ended. -/
theorem cg_keeps (eps : ℝ) (A : V → V) (b x0 : V) (pr : CG.Params ℝ) (n : V) (hA : ∀ v, inner 𝕜 n (A v) = 0)
    (hb : inner 𝕜 n b = 0) : inner 𝕜 n (solve (exactOps 𝕜 V eps) A b x0 pr).x = inner 𝕜 n x0 := by
  unfold CG.solve
  dsimp only
  split_ifs
  · rfl
  · have hr : inner 𝕜 n (b - A x0) = 0 := by rw [inner_sub_right, hA, hb, sub_zero]
    exact loop_kept eps A pr _ b hA hb _ _ 0 _ ⟨rfl, rfl, hr, hr⟩

end cg

variable {ι 𝕜 : Type*} [Fintype ι] [DecidableEq ι] [RCLike 𝕜]

/-- the tensors of a site, zero elsewhere -/
def part (I : Finset ι) (θ : Wf ι 𝕜) : Wf ι 𝕜 := WithLp.toLp 2 fun i => if i ∈ I then θ i else 0

theorem inner_part (I : Finset ι) (θ x : Wf ι 𝕜) : inner 𝕜 (part I θ) x = ∑ i ∈ I, (starRingEnd 𝕜) (θ i) * x i := by
  simp only [part, PiLp.inner_apply, RCLike.inner_apply]
  rw [← Finset.sum_subset (Finset.subset_univ I)]
  · refine Finset.sum_congr rfl fun i hi => ?_
    rw [if_pos hi, mul_comm]
  · intro i _ hi
    rw [if_neg hi, map_zero, mul_zero]

theorem part_self (I : Finset ι) (θ : Wf ι 𝕜) : inner 𝕜 (part I θ) θ = ((siteNormSq I θ : ℝ) : 𝕜) := by
  rw [inner_part]
  unfold siteNormSq
  rw [RCLike.ofReal_sum]
  refine Finset.sum_congr rfl fun i _ => ?_
  rw [RCLike.conj_mul, RCLike.ofReal_pow]

/-- What C158 shows for the iteration of a run: all samples of `O*` have the same component along the
tensors of the site and the gradient has none; the matrix is the S matrix of the samples. -/
structure Blind (I : Finset ι) (θ : Wf ι 𝕜) (shift : ℝ) (a : Input ι 𝕜) : Prop where
  matrix : ∃ (P B : ℕ) (samples : Fin P → List (Wf ι 𝕜)), 0 < P ∧ 0 < B ∧ (∀ r, (samples r).length = B) ∧
    (∀ v, Applied samples (shift : 𝕜) v (a.A v)) ∧
    ∃ c : 𝕜, ∀ r, ∀ o ∈ samples r, ∑ i ∈ I, (starRingEnd 𝕜) (o i) * θ i = c
  grad : SiteOrth I θ a.g

theorem Blind.matrix_part {I : Finset ι} {θ : Wf ι 𝕜} {shift : ℝ} {a : Input ι 𝕜} (h : Blind I θ shift a) (v : Wf ι 𝕜) :
    inner 𝕜 (part I θ) (a.A v) = (shift : 𝕜) * inner 𝕜 (part I θ) v := by
  obtain ⟨P, B, samples, hP, hB, hlen, hA, c, hc⟩ := h.matrix
  have hw : a.A (part I θ) = (shift : 𝕜) • part I θ := by
    refine QLPeps.GradScale.smatrix_scale_free hP hB samples hlen (shift : 𝕜) (part I θ) _ c (fun r o ho => ?_) (hA _)
    rw [← inner_conj_symm, inner_part, map_sum, ← hc r o ho]
    refine Finset.sum_congr rfl fun i _ => ?_
    rw [map_mul, RCLike.conj_conj, mul_comm]
  have h1 := (C41_hermitian_and_bounded hP hB samples hlen shift _ v _ _ (hA (part I θ)) (hA v)).1
  rw [hw, inner_smul_left, RCLike.conj_ofReal] at h1
  exact h1.symm

/-- **C162.** One iteration, no shift, no normalization, any guess: the component of the new state along the
old tensors of the site. -/
theorem iterate_site (eps : ℝ) (pr : CG.Params ℝ) (s t : St ι 𝕜) (a : Input ι 𝕜) (I : Finset ι)
    (hb : Blind I s.state 0 a) (ht : iterate eps pr false s a = some t) :
    ∑ i ∈ I, (starRingEnd 𝕜) (s.state i) * t.state i =
      ((siteNormSq I s.state : ℝ) : 𝕜) - (a.lr : 𝕜) * ∑ i ∈ I, (starRingEnd 𝕜) (s.state i) * s.guess i := by
  have hk := cg_keeps eps a.A a.g s.guess pr (part I s.state) (fun v => by rw [hb.matrix_part, RCLike.ofReal_zero, zero_mul])
    (by rw [inner_part]; exact hb.grad)
  have hst : t.state = srUpdate s.state (solve (exactOps 𝕜 (Wf ι 𝕜) eps) a.A a.g s.guess pr).x a.lr false := by
    unfold iterate at ht
    dsimp only at ht
    split at ht
    · cases ht
    · cases ht
    · cases ht; rfl
  rw [← inner_part, ← inner_part, hst]
  have h1 : ∀ y : Wf ι 𝕜, srRate y a.lr false = a.lr := fun y => by simp [srRate]
  unfold srUpdate
  rw [h1, inner_add_right, inner_smul_right, hk, part_self, RCLike.ofReal_neg]
  ring

theorem iterate_guess (eps : ℝ) (pr : CG.Params ℝ) (nz : Bool) (s t : St ι 𝕜) (a : Input ι 𝕜)
    (ht : iterate eps pr nz s a = some t) : t.guess = t.state := by
  unfold iterate at ht
  dsimp only at ht
  split at ht
  · cases ht
  · cases ht
  · cases ht; rfl

/-- **C162.** After any nonempty history the guess is the state. -/
theorem run_guess (eps : ℝ) (pr : CG.Params ℝ) (nz : Bool) (θ : Wf ι 𝕜) (h : List (Input ι 𝕜)) (hne : h ≠ [])
    (s : St ι 𝕜) (hs : run eps pr nz θ h = some s) : s.guess = s.state := by
  obtain ⟨l, a, rfl⟩ : ∃ l a, h = l ++ [a] := ⟨h.dropLast, h.getLast hne, (List.dropLast_append_getLast hne).symm⟩
  unfold run at hs
  rw [List.foldlM_append] at hs
  obtain ⟨u, hu, h1⟩ := Option.bind_eq_some_iff.1 hs
  rw [List.foldlM_cons] at h1
  obtain ⟨w, hw, h2⟩ := Option.bind_eq_some_iff.1 h1
  have e : w = s := by simpa using h2
  exact e ▸ iterate_guess eps pr nz u w a hw

/-- **C162.** The first iteration leaves the component of the state along the tensors of the site alone. -/
theorem first_keeps (eps : ℝ) (pr : CG.Params ℝ) (θ : Wf ι 𝕜) (a : Input ι 𝕜) (t : St ι 𝕜) (I : Finset ι)
    (hb : Blind I θ 0 a) (ht : run eps pr false θ [a] = some t) :
    ∑ i ∈ I, (starRingEnd 𝕜) (θ i) * t.state i = ((siteNormSq I θ : ℝ) : 𝕜) := by
  have h : iterate eps pr false (start θ) a = some t := by simpa [run] using ht
  have := iterate_site eps pr (start θ) t a I hb h
  simpa [start] using this

/-- **C162.** Every later iteration multiplies it by one minus the learning rate: the natural gradient
contains the state itself. -/
theorem later_shrinks (eps : ℝ) (pr : CG.Params ℝ) (θ : Wf ι 𝕜) (h : List (Input ι 𝕜)) (hne : h ≠ []) (a : Input ι 𝕜)
    (s t : St ι 𝕜) (I : Finset ι) (hs : run eps pr false θ h = some s) (hb : Blind I s.state 0 a)
    (ht : run eps pr false θ (h ++ [a]) = some t) :
    ∑ i ∈ I, (starRingEnd 𝕜) (s.state i) * t.state i = ((1 - a.lr : ℝ) : 𝕜) * ((siteNormSq I s.state : ℝ) : 𝕜) := by
  have h1 : iterate eps pr false s a = some t := by
    unfold run at ht hs
    rw [List.foldlM_append, hs] at ht
    simpa using ht
  have h2 := iterate_site eps pr s t a I hb h1
  rw [run_guess eps pr false θ h hne s hs, ← inner_part, ← inner_part, part_self] at h2
  rw [← inner_part, h2, RCLike.ofReal_sub, RCLike.ofReal_one]
  ring

/-- **C162.** With a positive shift a converged natural gradient has almost no such component, whatever the
guess: at most the tolerance divided by the shift. -/
theorem shift_bounds (eps : ℝ) (A : Wf ι 𝕜 →ₗ[𝕜] Wf ι 𝕜) (g x0 : Wf ι 𝕜) (lr : ℝ) (pr : CG.Params ℝ) (hrel : 0 ≤ pr.relTol)
    (habs : 0 ≤ pr.absTol) (I : Finset ι) (θ : Wf ι 𝕜) (shift : ℝ) (hshift : 0 < shift)
    (hb : Blind I θ shift ⟨A, g, lr⟩)
    (hc : (solve (exactOps 𝕜 (Wf ι 𝕜) eps) A g x0 pr).reason = .converged) :
    ‖∑ i ∈ I, (starRingEnd 𝕜) (θ i) * (solve (exactOps 𝕜 (Wf ι 𝕜) eps) A g x0 pr).x i‖ ≤
      Real.sqrt (siteNormSq I θ) * max (pr.relTol * ‖g‖) pr.absTol / shift := by
  have h1 := (CG.C37_converged_meets_tolerance eps A g x0 pr hrel habs).2 hc
  set x := (solve (exactOps 𝕜 (Wf ι 𝕜) eps) A g x0 pr).x
  have h2 : inner 𝕜 (part I θ) (g - A x) = -((shift : 𝕜) * inner 𝕜 (part I θ) x) := by
    have := hb.matrix_part x
    dsimp only at this
    rw [inner_sub_right, this, inner_part I θ g, show (∑ i ∈ I, (starRingEnd 𝕜) (θ i) * g i) = 0 from hb.grad, zero_sub]
  have h3 := norm_inner_le_norm (𝕜 := 𝕜) (part I θ) (g - A x)
  rw [h2, norm_neg, norm_mul, RCLike.norm_ofReal, abs_of_pos hshift] at h3
  have h4 : ‖part I θ‖ = Real.sqrt (siteNormSq I θ) := by
    rw [EuclideanSpace.norm_eq]
    congr 1
    unfold siteNormSq
    rw [← Finset.sum_subset (Finset.subset_univ I)]
    · exact Finset.sum_congr rfl fun i hi => by simp [part, hi]
    · intro i _ hi; simp [part, hi]
  rw [← inner_part, le_div_iff₀ hshift, mul_comm]
  refine h3.trans ?_
  rw [h4]
  exact mul_le_mul_of_nonneg_left h1 (Real.sqrt_nonneg _)

/-- With the S matrix of samples, a shift that is not negative and the gradient estimated from them, an iteration
always succeeds (C71). -/
theorem iterate_succeeds {J : Type*} [Fintype J] [Nonempty J] (eps : ℝ) (pr : CG.Params ℝ) (hortho : 0 ≤ pr.ortho) (nz : Bool)
    (s : St ι 𝕜) (a : Input ι 𝕜) (O : J → Wf ι 𝕜) (E : J → 𝕜) (shift : ℝ) (hs : 0 ≤ shift)
    (hA : ∀ v, a.A v = cov 𝕜 (samplesSet O) v + (shift : 𝕜) • v) (hg : a.g = gradEstimate E O) :
    ∃ t, iterate eps pr nz s a = some t := by
  classical
  have h := C71_sr_never_aborts O E shift hs a.A hA s.guess pr eps hortho
  rw [← hg] at h
  unfold iterate
  dsimp only
  split
  · exact absurd (by assumption) h.1
  · exact absurd (by assumption) h.2.1
  · exact ⟨_, rfl⟩

/-- a nontrivial case: two elements, the site is the first of them, samples `(1, ±1)` with local energies `±1`,
so that the S matrix is the projection on the second axis and the gradient is `(0, 1)`; learning rate 1/2. Two
iterations succeed, the first leaves the first element alone, the second halves it. -/
example (eps : ℝ) (pr : CG.Params ℝ) (hortho : 0 ≤ pr.ortho) :
    let a : Input (Fin 2) ℝ := ⟨fun v => !₂[0, v 1], !₂[0, 1], 1 / 2⟩
    ∃ s t, run eps pr false !₂[1, 0] [a] = some s ∧ run eps pr false !₂[1, 0] ([a] ++ [a]) = some t ∧
      s.state 0 = 1 ∧ t.state 0 = 1 / 2 := by
  intro a
  have hok : ∀ u : St (Fin 2) ℝ, ∃ t, iterate eps pr false u a = some t := fun u =>
    iterate_succeeds eps pr hortho false u a (fun j : Fin 2 => !₂[1, if j = 0 then 1 else -1])
      (fun j => if j = 0 then 1 else -1) 0 le_rfl
      (fun v => by
        ext i
        fin_cases i <;> simp [a, cov, mean, samplesSet, PiLp.inner_apply, Fin.sum_univ_two, Fin.univ_val_map] <;> ring)
      (by
        ext i
        fin_cases i <;> simp [a, gradEstimate, Fin.sum_univ_two] <;> norm_num)
  obtain ⟨s, hs⟩ := hok (start !₂[1, 0])
  obtain ⟨t, ht⟩ := hok s
  have hs' : run eps pr false !₂[1, 0] [a] = some s := by simp [run, hs]
  have ht' : run eps pr false !₂[1, 0] ([a] ++ [a]) = some t := by simp [run, hs, ht]
  have hb : ∀ θ : Wf (Fin 2) ℝ, Blind {0} θ 0 a := by
    intro θ
    refine ⟨⟨1, 2, fun _ => [!₂[1, 1], !₂[1, -1]], by omega, by omega, fun _ => rfl, fun v => ?_, θ 0, ?_⟩, ?_⟩
    · rw [C41_apply (B := 2) (by omega) (by omega) _ (fun _ => rfl)]
      ext i
      fin_cases i <;> simp [a, cov, mean, all, PiLp.inner_apply, Fin.sum_univ_two] <;> ring
    · intro r o ho
      rcases List.mem_cons.1 ho with rfl | ho
      · simp
      · rcases List.mem_cons.1 ho with rfl | ho
        · simp
        · simp at ho
    · simp [a, SiteOrth]
  have h0 : s.state 0 = 1 := by
    have := first_keeps eps pr !₂[1, 0] a s {0} (hb _) hs'
    simpa [siteNormSq] using this
  refine ⟨s, t, hs', ht', h0, ?_⟩
  have := later_shrinks eps pr !₂[1, 0] [a] (by simp) a s t {0} hs' (hb _) ht'
  simp [siteNormSq, h0] at this
  rw [this]; norm_num [a]

end

end QLPeps.SRRun
