import Verif.Spec.CG
import Mathlib.Analysis.InnerProductSpace.Symmetric
import Mathlib.Analysis.InnerProductSpace.Orthonormal
import Mathlib.LinearAlgebra.Dimension.Constructions
import Mathlib.LinearAlgebra.FiniteDimensional.Lemmas
import Mathlib.Analysis.InnerProductSpace.Subspace
import Mathlib.Tactic

/-! Helper lemmas for the conjugate-gradient theorems. -/

namespace QLPeps.CG

variable {𝕜 : Type*} [RCLike 𝕜] {V : Type*} [NormedAddCommGroup V] [InnerProductSpace 𝕜 V]

/-! ### exact arithmetic of the operations -/

section ops
variable (eps : ℝ)
@[simp] theorem ex_add (u v : V) : (exactOps 𝕜 V eps).add u v = u + v := rfl
@[simp] theorem ex_sub (u v : V) : (exactOps 𝕜 V eps).sub u v = u - v := rfl
@[simp] theorem ex_smul (a : 𝕜) (v : V) : (exactOps 𝕜 V eps).smul a v = a • v := rfl
@[simp] theorem ex_smulR (a : ℝ) (v : V) : (exactOps 𝕜 V eps).smulR a v = (a : 𝕜) • v := rfl
@[simp] theorem ex_inner (u v : V) : (exactOps 𝕜 V eps).inner u v = inner 𝕜 u v := rfl
@[simp] theorem ex_normSq (v : V) : (exactOps 𝕜 V eps).normSq v = ‖v‖ ^ 2 := rfl
@[simp] theorem ex_div (a : ℝ) (z : 𝕜) : (exactOps 𝕜 V eps).div a z = (a : 𝕜) / z := rfl
@[simp] theorem ex_neg (z : 𝕜) : (exactOps 𝕜 V eps).neg z = -z := rfl
@[simp] theorem ex_absSq (z : 𝕜) : (exactOps 𝕜 V eps).absSq z = ‖z‖ ^ 2 := rfl
@[simp] theorem ex_re (z : 𝕜) : (exactOps 𝕜 V eps).re z = RCLike.re z := rfl
@[simp] theorem ex_mulR (a b : ℝ) : (exactOps 𝕜 V eps).mulR a b = a * b := rfl
@[simp] theorem ex_divR (a b : ℝ) : (exactOps 𝕜 V eps).divR a b = a / b := rfl
@[simp] theorem ex_absR (a : ℝ) : (exactOps 𝕜 V eps).absR a = |a| := rfl
@[simp] theorem ex_sqrtR (a : ℝ) : (exactOps 𝕜 V eps).sqrtR a = Real.sqrt a := rfl
@[simp] theorem ex_lt (a b : ℝ) : ((exactOps 𝕜 V eps).lt a b = true) ↔ a < b := by simp [exactOps]
@[simp] theorem ex_le (a b : ℝ) : ((exactOps 𝕜 V eps).le a b = true) ↔ a ≤ b := by simp [exactOps]
@[simp] theorem ex_fin (a : ℝ) : (exactOps 𝕜 V eps).isFinite a = true := rfl
@[simp] theorem ex_eps : (exactOps 𝕜 V eps).eps = eps := rfl
@[simp] theorem ex_pap (z : 𝕜) : ((exactOps 𝕜 V eps).papValid z = true) ↔
    (0 < RCLike.re z ∧ |RCLike.im z| < 1e-10) := by simp [exactOps]

theorem ex_max (a b : ℝ) : (exactOps 𝕜 V eps).max a b = max a b := by
  unfold Ops.max
  by_cases h : a < b
  · rw [if_pos ((ex_lt eps a b).2 h), max_eq_right h.le]
  · rw [if_neg (fun h' => h ((ex_lt eps a b).1 h')), max_eq_left (not_lt.1 h)]

theorem tolSq_eq (pr : Params ℝ) (b : V) :
    tolSq (exactOps 𝕜 V eps) pr b = max ((pr.relTol * ‖b‖) ^ 2) (pr.absTol ^ 2) := by
  unfold tolSq
  rw [ex_max]
  simp only [ex_mulR, ex_normSq]
  congr 1 <;> ring

end ops

/-! ### the loop invariant: the residuals are the true ones -/

/-- loop invariant at the head of the loop -/
structure Inv (A : V →ₗ[𝕜] V) (b : V) (rn0 : ℝ) (s : St V ℝ) : Prop where
  res : s.r = b - A s.x
  rk : s.rk = ‖s.r‖ ^ 2
  best : s.best = ‖b - A s.bestX‖ ^ 2
  le0 : s.best ≤ rn0
  leCur : s.best ≤ s.rk

/-- what one iteration guarantees -/
theorem iter_inv (eps : ℝ) (A : V →ₗ[𝕜] V) (pr : Params ℝ) (tol : ℝ) (b : V) (k : ℕ) (rn0 : ℝ)
    (s : St V ℝ) (h : Inv A b rn0 s) :
    match iter (exactOps 𝕜 V eps) A pr tol b k s with
    | .inl res =>
      (res.reason = .converged ∧ res.iterations = k + 1 ∧ res.residualNorm = ‖b - A res.x‖ ∧
        ‖b - A res.x‖ ^ 2 ≤ tol) ∨
      (res.reason ≠ .converged ∧ res.iterations ≤ k + 1 ∧ res.x = s.bestX ∧ res.residualNorm = Real.sqrt s.best)
    | .inr s' => Inv A b rn0 s' ∧ s'.best ≤ s.best ∧ (s'.bestX = s.bestX ∨ s'.bestX = s'.x) := by
  unfold iter
  dsimp only
  by_cases hp : (exactOps 𝕜 V eps).papValid ((exactOps 𝕜 V eps).inner s.p (A s.p)) = true
  swap
  · simp only [Bool.not_eq_true] at hp
    rw [hp]
    simp [giveUp]
  rw [hp]
  simp only [Bool.not_true, Bool.false_eq_true, if_false]
  set alpha := (exactOps 𝕜 V eps).div s.rk ((exactOps 𝕜 V eps).inner s.p (A s.p)) with ha
  set x := (exactOps 𝕜 V eps).add s.x ((exactOps 𝕜 V eps).smul alpha s.p) with hx
  set stag := stagNext (exactOps 𝕜 V eps) alpha s.p x s.stag with hst
  by_cases hs3 : 3 ≤ stag
  · rw [if_pos hs3]; simp [giveUp]
  rw [if_neg hs3]
  set r := (if recomputeNow pr k then (exactOps 𝕜 V eps).sub b (A x)
    else (exactOps 𝕜 V eps).sub s.r ((exactOps 𝕜 V eps).smul alpha (A s.p))) with hr
  have hres : r = b - A x := by
    rw [hr]
    split_ifs with hrec
    · rfl
    · simp only [ex_sub, ex_smul, hx, ex_add, map_add, map_smul, h.res]
      abel
  unfold finishIter
  simp only [ex_fin, Bool.not_true, Bool.false_eq_true, if_false, ex_normSq]
  have hsqrt : Real.sqrt (‖r‖ ^ 2) = ‖r‖ := Real.sqrt_sq (norm_nonneg _)
  by_cases hb : ‖r‖ ^ 2 < s.best
  · simp only [(ex_lt (𝕜 := 𝕜) (V := V) eps _ _).2 hb, if_true]
    by_cases hle : ‖r‖ ^ 2 ≤ tol
    · simp only [(ex_le (𝕜 := 𝕜) (V := V) eps _ _).2 hle, if_true]
      left
      exact ⟨trivial, trivial, by simp [hsqrt, ← hres], by rw [← hres]; exact hle⟩
    · have : (exactOps 𝕜 V eps).le (‖r‖ ^ 2) tol = false := by
        rw [← Bool.not_eq_true]; intro h'; exact hle ((ex_le eps _ _).1 h')
      simp only [this, Bool.false_eq_true, if_false]
      split_ifs
      · exact ⟨⟨hres, rfl, by rw [← hres], by dsimp only; linarith [h.le0], le_refl _⟩, hb.le, Or.inr rfl⟩
      · exact ⟨⟨hres, rfl, by rw [← hres], by dsimp only; linarith [h.le0], le_refl _⟩, hb.le, Or.inr rfl⟩
  · have hbf : (exactOps 𝕜 V eps).lt (‖r‖ ^ 2) s.best = false := by
      rw [← Bool.not_eq_true]; intro h'; exact hb ((ex_lt eps _ _).1 h')
    simp only [hbf, Bool.false_eq_true, if_false]
    by_cases hle : ‖r‖ ^ 2 ≤ tol
    · simp only [(ex_le (𝕜 := 𝕜) (V := V) eps _ _).2 hle, if_true]
      left
      exact ⟨trivial, trivial, by simp [hsqrt, ← hres], by rw [← hres]; exact hle⟩
    · have : (exactOps 𝕜 V eps).le (‖r‖ ^ 2) tol = false := by
        rw [← Bool.not_eq_true]; intro h'; exact hle ((ex_le eps _ _).1 h')
      simp only [this, Bool.false_eq_true, if_false]
      split_ifs
      · exact ⟨⟨hres, rfl, h.best, h.le0, not_lt.1 hb⟩, le_refl _, Or.inl rfl⟩
      · exact ⟨⟨hres, rfl, h.best, h.le0, not_lt.1 hb⟩, le_refl _, Or.inl rfl⟩

theorem loop_inv (eps : ℝ) (A : V →ₗ[𝕜] V) (pr : Params ℝ) (tol : ℝ) (b : V) (rn0 : ℝ) :
    ∀ (n k : ℕ) (s : St V ℝ), k + n = pr.maxIter → Inv A b rn0 s →
    let res := loop (exactOps 𝕜 V eps) A pr tol b n k s
    res.iterations ≤ pr.maxIter ∧ res.residualNorm = ‖b - A res.x‖ ∧
      (res.reason = .converged → ‖b - A res.x‖ ^ 2 ≤ tol) ∧
      (res.reason ≠ .converged →
        ‖b - A res.x‖ ^ 2 ≤ s.best ∧
        (∀ y ∈ visited (exactOps 𝕜 V eps) A pr tol b n k s, ‖b - A res.x‖ ≤ ‖b - A y‖) ∧
        (res.x = s.bestX ∨ res.x ∈ visited (exactOps 𝕜 V eps) A pr tol b n k s)) := by
  intro n
  induction n with
  | zero =>
    intro k s hk h
    simp only [loop, giveUp, visited, ex_sqrtR, h.best, Real.sqrt_sq (norm_nonneg _)]
    refine ⟨le_refl _, trivial, by simp, fun _ => ⟨le_refl _, by simp, Or.inl trivial⟩⟩
  | succ n ih =>
    intro k s hk h
    have hi := iter_inv eps A pr tol b k rn0 s h
    simp only [loop, visited]
    cases hit : iter (exactOps 𝕜 V eps) A pr tol b k s with
    | inl res =>
      rw [hit] at hi
      dsimp only at hi ⊢
      rcases hi with ⟨h1, h2, h3, h4⟩ | ⟨h1, h2, h3, h4⟩
      · exact ⟨by omega, h3, fun _ => h4, fun hne => absurd h1 hne⟩
      · have hn : res.residualNorm = ‖b - A res.x‖ := by
          rw [h4, h3, h.best, Real.sqrt_sq (norm_nonneg _)]
        refine ⟨by omega, hn, fun hc => absurd hc h1, fun _ => ⟨?_, by simp, Or.inl h3⟩⟩
        rw [h3, h.best]
    | inr s' =>
      rw [hit] at hi
      dsimp only at hi ⊢
      obtain ⟨hinv, hbest, hwhere⟩ := hi
      obtain ⟨a1, a2, a3, a4⟩ := ih (k + 1) s' (by omega) hinv
      refine ⟨a1, a2, a3, fun hne => ?_⟩
      obtain ⟨b1, b2, b3⟩ := a4 hne
      refine ⟨b1.trans hbest, ?_, ?_⟩
      · intro y hy
        rcases List.mem_cons.1 hy with rfl | hy
        · have h5 : ‖b - A (loop (exactOps 𝕜 V eps) (⇑A) pr tol b n (k + 1) s').x‖ ^ 2 ≤ ‖b - A s'.x‖ ^ 2 := by
            refine b1.trans (hinv.leCur.trans ?_)
            rw [hinv.rk, hinv.res]
          exact le_of_sq_le_sq h5 (norm_nonneg _)
        · exact b2 y hy
      · rcases b3 with b3 | b3
        · rcases hwhere with hw | hw
          · left; rw [b3, hw]
          · right; rw [b3, hw]; exact List.mem_cons_self ..
        · right; exact List.mem_cons_of_mem _ b3

/-! ### conjugacy: the classical theory -/

/-- Krylov invariant: `rs` earlier residuals, `ps` earlier directions -/
structure Kry (A : V →ₗ[𝕜] V) (U : Submodule 𝕜 V) (s : St V ℝ) (rs ps : List V) : Prop where
  rU : s.r ∈ U
  pU : s.p ∈ U
  rsU : ∀ q ∈ rs, q ∈ U
  nz : s.r ≠ 0
  rsnz : ∀ q ∈ rs, q ≠ 0
  orth : ∀ q ∈ rs, inner 𝕜 q s.r = 0
  pw : rs.Pairwise (fun u v => inner 𝕜 u v = 0)
  conj : ∀ d ∈ ps, inner 𝕜 d (A s.p) = 0
  rsSpan : ∀ q ∈ rs, q ∈ Submodule.span 𝕜 {d | d ∈ ps}
  rpSpan : s.r - s.p ∈ Submodule.span 𝕜 {d | d ∈ ps}
  ASpan : ∀ d ∈ ps, A d ∈ Submodule.span 𝕜 {q | q ∈ s.r :: rs}
  pSpan : s.p ∈ Submodule.span 𝕜 {q | q ∈ s.r :: rs}
  rp : inner 𝕜 s.r s.p = ((‖s.r‖ ^ 2 : ℝ) : 𝕜)
  prev : s.rPrev = s.r

theorem inner_span_right {S : Set V} {u w : V} (hw : w ∈ Submodule.span 𝕜 S)
    (h : ∀ d ∈ S, inner 𝕜 u d = 0) : inner 𝕜 u w = 0 := by
  induction hw using Submodule.span_induction with
  | mem x hx => exact h x hx
  | zero => simp
  | add x y _ _ hx hy => rw [inner_add_right, hx, hy, add_zero]
  | smul a x _ hx => rw [inner_smul_right, hx, mul_zero]

theorem inner_span_left {S : Set V} {u w : V} (hw : w ∈ Submodule.span 𝕜 S)
    (h : ∀ d ∈ S, inner 𝕜 d u = 0) : inner 𝕜 w u = 0 := by
  rw [← inner_conj_symm, inner_span_right hw (fun d hd => by rw [← inner_conj_symm, h d hd]; simp)]
  simp

/-- direction positivity: the denominators are fine -/
theorem Kry.pap {A : V →ₗ[𝕜] V} {U : Submodule 𝕜 V} {s : St V ℝ} {rs ps : List V}
    (hA : A.IsSymmetric) (hpos : ∀ v ∈ U, v ≠ 0 → 0 < RCLike.re (inner 𝕜 v (A v)))
    (h : Kry A U s rs ps) :
    0 < RCLike.re (inner 𝕜 s.p (A s.p)) ∧ RCLike.im (inner 𝕜 s.p (A s.p)) = 0 ∧
      inner 𝕜 s.p (A s.p) = ((RCLike.re (inner 𝕜 s.p (A s.p)) : ℝ) : 𝕜) := by
  have hp0 : s.p ≠ 0 := by
    intro h0
    have := h.rp
    rw [h0, inner_zero_right] at this
    have h2 : (‖s.r‖ ^ 2 : ℝ) = 0 := by
      have := this.symm
      exact_mod_cast this
    exact h.nz (norm_eq_zero.1 (by nlinarith [norm_nonneg s.r]))
  have him : RCLike.im (inner 𝕜 s.p (A s.p)) = 0 := by
    have h1 : (starRingEnd 𝕜) (inner 𝕜 s.p (A s.p)) = inner 𝕜 s.p (A s.p) := by
      rw [inner_conj_symm]; exact hA s.p s.p
    exact RCLike.conj_eq_iff_im.1 h1
  refine ⟨hpos _ h.pU hp0, him, ?_⟩
  apply RCLike.ext <;> simp [him]

theorem kry_step (eps : ℝ) {A : V →ₗ[𝕜] V} {U : Submodule 𝕜 V} {pr : Params ℝ} {tol : ℝ} {b : V} {k : ℕ}
    {rn0 : ℝ} {s : St V ℝ} {rs ps : List V}
    (hA : A.IsSymmetric) (hAU : ∀ v ∈ U, A v ∈ U)
    (hpos : ∀ v ∈ U, v ≠ 0 → 0 < RCLike.re (inner 𝕜 v (A v)))
    (hortho : 0 ≤ pr.ortho) (htol : 0 ≤ tol)
    (hI : Inv A b rn0 s) (h : Kry A U s rs ps) :
    match iter (exactOps 𝕜 V eps) A pr tol b k s with
    | .inl res => res.reason = .converged ∨ (res.reason = .stagnated ∧ eps ≠ 0)
    | .inr s' => Kry A U s' (s.r :: rs) (s.p :: ps) := by
  obtain ⟨hpap, hpim, hpeq⟩ := h.pap hA hpos
  unfold iter
  dsimp only
  have hv : (exactOps 𝕜 V eps).papValid ((exactOps 𝕜 V eps).inner s.p (A s.p)) = true := by
    rw [ex_pap]; simp only [ex_inner]; refine ⟨hpap, by rw [hpim]; norm_num⟩
  rw [hv]
  simp only [Bool.not_true, Bool.false_eq_true, if_false]
  set P : ℝ := RCLike.re (inner 𝕜 s.p (A s.p)) with hP
  have hrpos : 0 < ‖s.r‖ ^ 2 := by have := norm_pos_iff.2 h.nz; positivity
  have ha : (exactOps 𝕜 V eps).div s.rk ((exactOps 𝕜 V eps).inner s.p (A s.p)) = ((‖s.r‖ ^ 2 / P : ℝ) : 𝕜) := by
    simp only [ex_div, ex_inner, hI.rk]
    rw [hpeq]; push_cast; rfl
  rw [ha]
  set a : ℝ := ‖s.r‖ ^ 2 / P with hadef
  have hapos : 0 < a := by positivity
  set x := (exactOps 𝕜 V eps).add s.x ((exactOps 𝕜 V eps).smul (a : 𝕜) s.p) with hx
  set stag := stagNext (exactOps 𝕜 V eps) (a : 𝕜) s.p x s.stag with hst
  by_cases hs3 : 3 ≤ stag
  · rw [if_pos hs3]
    right
    refine ⟨rfl, ?_⟩
    intro he
    have : stag = 0 := by
      rw [hst]; unfold stagNext
      rw [if_neg]
      simp only [ex_lt, ex_mulR, ex_absSq, ex_normSq, ex_eps, he]
      simp only [mul_zero, zero_mul, not_lt]
      positivity
    omega
  rw [if_neg hs3]
  have hr : (if recomputeNow pr k then (exactOps 𝕜 V eps).sub b (A x)
    else (exactOps 𝕜 V eps).sub s.r ((exactOps 𝕜 V eps).smul (a : 𝕜) (A s.p))) = s.r - (a : 𝕜) • A s.p := by
    split_ifs with hrec
    · simp only [ex_sub, ex_smul, hx, ex_add, map_add, map_smul, hI.res]
      abel
    · rfl
  rw [hr]
  set r' : V := s.r - (a : 𝕜) • A s.p with hr'
  -- orthogonality of the new residual
  have hrAp : inner 𝕜 s.r (A s.p) = (P : 𝕜) := by
    have h1 : inner 𝕜 (s.r - s.p) (A s.p) = 0 := inner_span_left h.rpSpan h.conj
    rw [inner_sub_left, hpeq] at h1
    exact sub_eq_zero.1 h1
  have hnew : ∀ q ∈ s.r :: rs, inner 𝕜 q r' = 0 := by
    intro q hq
    rcases List.mem_cons.1 hq with rfl | hq
    · rw [hr', inner_sub_right, inner_smul_right, hrAp, inner_self_eq_norm_sq_to_K, hadef]
      have : (P : 𝕜) ≠ 0 := by exact_mod_cast hpap.ne'
      push_cast
      field_simp
      ring
    · rw [hr', inner_sub_right, inner_smul_right, h.orth q hq, inner_span_left (h.rsSpan q hq) h.conj]
      simp
  have hApEq : A s.p = ((a⁻¹ : ℝ) : 𝕜) • (s.r - r') := by
    have hak : (a : 𝕜) ≠ 0 := by exact_mod_cast hapos.ne'
    rw [hr', sub_sub_cancel, smul_smul]
    rw [← RCLike.ofReal_mul, inv_mul_cancel₀ hapos.ne', RCLike.ofReal_one, one_smul]
  have hpr' : inner 𝕜 s.p r' = 0 := inner_span_left h.pSpan hnew
  have hr'p : inner 𝕜 r' s.p = 0 := by rw [← inner_conj_symm, hpr']; simp
  unfold finishIter
  simp only [ex_fin, Bool.not_true, Bool.false_eq_true, if_false, ex_normSq, h.prev]
  have hin0 : (exactOps 𝕜 V eps).lt ((exactOps 𝕜 V eps).mulR pr.ortho (‖r'‖ ^ 2))
      ((exactOps 𝕜 V eps).absR ((exactOps 𝕜 V eps).re ((exactOps 𝕜 V eps).inner s.r r'))) = false := by
    rw [← Bool.not_eq_true]
    intro h'
    rw [ex_lt] at h'
    simp only [ex_mulR, ex_absR, ex_re, ex_inner, hnew s.r (List.mem_cons_self ..), map_zero, abs_zero] at h'
    have : 0 ≤ pr.ortho * ‖r'‖ ^ 2 := by positivity
    linarith
  by_cases hle : ‖r'‖ ^ 2 ≤ tol
  · simp only [(ex_le (𝕜 := 𝕜) (V := V) eps _ _).2 hle, if_true]
    left; trivial
  have hlef : (exactOps 𝕜 V eps).le (‖r'‖ ^ 2) tol = false := by
    rw [← Bool.not_eq_true]; intro h'; exact hle ((ex_le eps _ _).1 h')
  have hr'nz : r' ≠ 0 := by
    intro h0; apply hle; rw [h0]; simpa using htol
  have key : ∀ (bx : V) (be : ℝ),
      Kry A U ⟨x, r' + (((‖r'‖ ^ 2 / s.rk : ℝ)) : 𝕜) • s.p, r', r', bx, be, ‖r'‖ ^ 2, stag⟩
        (s.r :: rs) (s.p :: ps) := by
    intro bx be
    set be' : ℝ := ‖r'‖ ^ 2 / s.rk with hbe
    have hr'U : r' ∈ U := U.sub_mem h.rU (U.smul_mem _ (hAU _ h.pU))
    refine ⟨hr'U, U.add_mem hr'U (U.smul_mem _ h.pU), ?_, hr'nz, ?_, hnew, ?_, ?_, ?_, ?_, ?_, ?_, ?_, rfl⟩
    · intro q hq; rcases List.mem_cons.1 hq with rfl | hq
      · exact h.rU
      · exact h.rsU q hq
    · intro q hq; rcases List.mem_cons.1 hq with rfl | hq
      · exact h.nz
      · exact h.rsnz q hq
    · refine List.Pairwise.cons ?_ h.pw
      intro q hq
      rw [← inner_conj_symm, h.orth q hq]; simp
    · intro d hd
      simp only [map_add, map_smul, inner_add_right, inner_smul_right]
      have hsym : inner 𝕜 d (A r') = inner 𝕜 (A d) r' := (hA d r').symm
      rw [hsym]
      rcases List.mem_cons.1 hd with rfl | hd
      · rw [hApEq, inner_smul_left, inner_sub_left, hnew s.r (List.mem_cons_self ..), ← hApEq, hpeq,
          inner_self_eq_norm_sq_to_K, hbe, hI.rk, hadef]
        have h1 : (P : 𝕜) ≠ 0 := by exact_mod_cast hpap.ne'
        have h2 : ((‖s.r‖ : ℝ) : 𝕜) ≠ 0 := by
          exact_mod_cast (norm_pos_iff.2 h.nz).ne'
        simp only [RCLike.conj_ofReal]
        push_cast
        field_simp
        ring
      · rw [inner_span_left (h.ASpan d hd) hnew, h.conj d hd]; simp
    · intro q hq
      rcases List.mem_cons.1 hq with rfl | hq
      · have h1 : s.r = s.p + (s.r - s.p) := by abel
        rw [h1]
        refine Submodule.add_mem _ (Submodule.subset_span (by simp)) ?_
        exact Submodule.span_mono (by intro d hd; exact List.mem_cons_of_mem _ hd) h.rpSpan
      · exact Submodule.span_mono (by intro d hd; exact List.mem_cons_of_mem _ hd) (h.rsSpan q hq)
    · have : r' - (r' + (be' : 𝕜) • s.p) = -((be' : 𝕜) • s.p) := by abel
      dsimp only
      rw [this]
      exact Submodule.neg_mem _ (Submodule.smul_mem _ _ (Submodule.subset_span (by simp)))
    · intro d hd
      dsimp only
      rcases List.mem_cons.1 hd with rfl | hd
      · rw [hApEq]
        refine Submodule.smul_mem _ _ (Submodule.sub_mem _ ?_ ?_) <;> exact Submodule.subset_span (by simp)
      · exact Submodule.span_mono (by intro d hd; exact List.mem_cons_of_mem _ hd) (h.ASpan d hd)
    · dsimp only
      refine Submodule.add_mem _ (Submodule.subset_span (by simp)) (Submodule.smul_mem _ _ ?_)
      exact Submodule.span_mono (by intro d hd; exact List.mem_cons_of_mem _ hd) h.pSpan
    · dsimp only
      rw [inner_add_right, inner_smul_right, hr'p, mul_zero, add_zero, inner_self_eq_norm_sq_to_K]
      push_cast; rfl
  by_cases hb : ‖r'‖ ^ 2 < s.best
  · simp only [(ex_lt (𝕜 := 𝕜) (V := V) eps _ _).2 hb, if_true, hlef, Bool.false_eq_true, if_false, hin0,
      Bool.and_false, ex_add, ex_smulR, ex_divR, h.prev]
    exact key _ _
  · have hbf : (exactOps 𝕜 V eps).lt (‖r'‖ ^ 2) s.best = false := by
      rw [← Bool.not_eq_true]; intro h'; exact hb ((ex_lt eps _ _).1 h')
    simp only [hbf, Bool.false_eq_true, if_false, hlef, hin0, Bool.and_false, ex_add, ex_smulR, ex_divR, h.prev]
    exact key _ _

/-- pairwise orthogonal nonzero vectors in `U` are at most `finrank U` many -/
theorem Kry.length {A : V →ₗ[𝕜] V} {U : Submodule 𝕜 V} [FiniteDimensional 𝕜 U] {s : St V ℝ} {rs ps : List V}
    (h : Kry A U s rs ps) : rs.length + 1 ≤ Module.finrank 𝕜 U := by
  set l : List V := s.r :: rs with hl
  have hlU : ∀ q ∈ l, q ∈ U := by
    intro q hq; rcases List.mem_cons.1 hq with rfl | hq
    · exact h.rU
    · exact h.rsU q hq
  have hlnz : ∀ q ∈ l, q ≠ 0 := by
    intro q hq; rcases List.mem_cons.1 hq with rfl | hq
    · exact h.nz
    · exact h.rsnz q hq
  have hpw : l.Pairwise (fun u v => inner 𝕜 u v = 0) := by
    refine List.Pairwise.cons ?_ h.pw
    intro q hq; rw [← inner_conj_symm, h.orth q hq]; simp
  let f : Fin l.length → U := fun i => ⟨l.get i, hlU _ (List.get_mem ..)⟩
  have hind : LinearIndependent 𝕜 f := by
    apply linearIndependent_of_ne_zero_of_inner_eq_zero
    · intro i h0
      exact hlnz _ (List.get_mem l i) (congrArg Subtype.val h0)
    · intro i j hij
      have hpg := List.pairwise_iff_get.1 hpw
      rcases lt_or_gt_of_ne hij with hlt | hgt
      · exact hpg i j hlt
      · show inner 𝕜 (l.get i) (l.get j) = 0
        rw [← inner_conj_symm, hpg j i hgt]; simp
  have := hind.fintype_card_le_finrank
  simpa [hl] using this

theorem loop_kry (eps : ℝ) (A : V →ₗ[𝕜] V) (U : Submodule 𝕜 V) [FiniteDimensional 𝕜 U] (pr : Params ℝ) (tol : ℝ)
    (b : V) (rn0 : ℝ) (hA : A.IsSymmetric) (hAU : ∀ v ∈ U, A v ∈ U)
    (hpos : ∀ v ∈ U, v ≠ 0 → 0 < RCLike.re (inner 𝕜 v (A v)))
    (hortho : 0 ≤ pr.ortho) (htol : 0 ≤ tol) :
    ∀ (n k : ℕ) (s : St V ℝ) (rs ps : List V), k + n = pr.maxIter → rs.length = k → Inv A b rn0 s →
      Kry A U s rs ps →
    let res := loop (exactOps 𝕜 V eps) A pr tol b n k s
    (res.reason = .converged ∨ (res.reason = .stagnated ∧ eps ≠ 0) ∨
      (res.reason = .maxIterations ∧ pr.maxIter < Module.finrank 𝕜 U)) ∧
    res.iterations ≤ Module.finrank 𝕜 U := by
  intro n
  induction n with
  | zero =>
    intro k s rs ps hk hlen hI h
    have := h.length
    simp only [loop, giveUp]
    exact ⟨Or.inr (Or.inr ⟨trivial, by omega⟩), by omega⟩
  | succ n ih =>
    intro k s rs ps hk hlen hI h
    have hs := kry_step eps (pr := pr) (tol := tol) (b := b) (k := k) hA hAU hpos hortho htol hI h
    have hi := iter_inv eps A pr tol b k rn0 s hI
    have hle := h.length
    simp only [loop]
    cases hit : iter (exactOps 𝕜 V eps) A pr tol b k s with
    | inl res =>
      rw [hit] at hs hi
      dsimp only at hs hi ⊢
      refine ⟨by tauto, ?_⟩
      rcases hi with ⟨_, h2, _⟩ | ⟨_, h2, _⟩ <;> omega
    | inr s' =>
      rw [hit] at hs hi
      dsimp only at hs hi ⊢
      exact ih (k + 1) s' _ _ (by omega) (by simp [hlen]) hi.1 hs

end QLPeps.CG
