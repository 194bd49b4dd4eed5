import Verif.Model.LineSearch
import Mathlib.Tactic

/-!
# Property C36: the strong-Wolfe line search
-/

namespace QLPeps.LineSearch

variable {E X : Type*} [NormedAddCommGroup E] [InnerProductSpace ℝ E]

local notation "⟪" x ", " y "⟫" => inner ℝ x y

/-- what acceptance of step `alpha` with trial state `w` promises, in terms of the calls made: the last
call evaluated exactly `w = state + alpha · dir`, and energy and gradient returned by *that* call satisfy
sufficient decrease and the strong curvature condition (up to the absolute gradient tolerance) -/
def Wolfe (c : Ctx E X) (calls : List (Call E)) (w : E) (alpha : ℝ) : Prop :=
  ∃ k, calls.getLast? = some k ∧ k.state = w ∧ w = c.state + alpha • c.dir ∧
    k.energy ≤ c.phi0 + c.p.c1 * alpha * c.dphi0 ∧
    |⟪k.grad, c.dir⟫| ≤ max (c.p.c2 * |c.dphi0|) c.p.tolGrad

theorem getLast_cons {k : Call E} {l : List (Call E)} {a : Call E} (h : l.getLast? = some a) :
    (k :: l).getLast? = some a := by
  cases l with
  | nil => simp at h
  | cons b l => rw [List.getLast?_cons_cons]; exact h

theorem Wolfe.cons {c : Ctx E X} {l : List (Call E)} {w : E} {a : ℝ} (k : Call E)
    (h : Wolfe c l w a) : Wolfe c (k :: l) w a := by
  obtain ⟨k', h1, h2⟩ := h
  exact ⟨k', getLast_cons h1, h2⟩

theorem threshold_eq (c : Ctx E X) (h : c.dphi0 < 0) :
    c.threshold = max (c.p.c2 * |c.dphi0|) c.p.tolGrad := by
  unfold Ctx.threshold
  rw [abs_of_neg h]; ring_nf

theorem zoom_spec (c : Ctx E X) (hd : c.dphi0 < 0) (n : ℕ) (x : X) (alo phiLo ahi : ℝ)
    (h0 : 0 ≤ alo) (h1 : 0 ≤ ahi) (h2 : 0 < alo + ahi) (M : ℝ) (hlo : alo ≤ M) (hhi : ahi ≤ M) :
    (zoom c n x alo phiLo ahi).calls.length ≤ n ∧
    ∀ w a, (zoom c n x alo phiLo ahi).accepted = some (w, a) →
      Wolfe c (zoom c n x alo phiLo ahi).calls w a ∧ 0 < a ∧ a ≤ M := by
  induction n generalizing x alo phiLo ahi with
  | zero => exact ⟨le_refl _, fun w a h => by simp [zoom] at h⟩
  | succ n ih =>
    set alpha := (1 / 2 : ℝ) * (alo + ahi) with ha
    have hapos : 0 < alpha := by rw [ha]; linarith
    have haM : alpha ≤ M := by rw [ha]; linarith
    unfold zoom
    simp only [← ha]
    split_ifs with g1 g2 g3 g4 g5 g6
    · exact ⟨by simp, fun w a h => by simp at h⟩
    · obtain ⟨i1, i2⟩ := ih (c.eval x (c.trial alpha)).2 alo phiLo alpha h0 hapos.le (by linarith) hlo haM
      exact ⟨by simp only [List.length_cons]; omega,
        fun w a h => ⟨((i2 w a h).1).cons _, (i2 w a h).2⟩⟩
    · refine ⟨by simp, fun w a h => ?_⟩
      simp only [Option.some.injEq, Prod.mk.injEq] at h
      obtain ⟨rfl, rfl⟩ := h
      refine ⟨⟨_, rfl, rfl, rfl, ?_, ?_⟩, hapos, haM⟩
      · exact not_lt.1 fun h => g1 (.inl h)
      · rw [← threshold_eq c hd]; exact g3
    · exact ⟨by simp, fun w a h => by simp at h⟩
    · obtain ⟨i1, i2⟩ := ih (c.eval x (c.trial alpha)).2 alpha (c.call x alpha).energy alo hapos.le h0
        (by linarith) haM hlo
      exact ⟨by simp only [List.length_cons]; omega,
        fun w a h => ⟨((i2 w a h).1).cons _, (i2 w a h).2⟩⟩
    · exact ⟨by simp, fun w a h => by simp at h⟩
    · obtain ⟨i1, i2⟩ := ih (c.eval x (c.trial alpha)).2 alpha (c.call x alpha).energy ahi hapos.le h1
        (by linarith) haM hhi
      exact ⟨by simp only [List.length_cons]; omega,
        fun w a h => ⟨((i2 w a h).1).cons _, (i2 w a h).2⟩⟩

theorem outer_spec (c : Ctx E X) (hd : c.dphi0 < 0) (n : ℕ) (first : Bool) (x : X)
    (alphaPrev phiPrev alpha : ℝ) (h0 : 0 ≤ alphaPrev) (h1 : 0 < alpha)
    (hlo : alphaPrev ≤ c.p.maxStep) (hhi : alpha ≤ c.p.maxStep) :
    (outer c n first x alphaPrev phiPrev alpha).calls.length ≤ n ∧
    ∀ w a, (outer c n first x alphaPrev phiPrev alpha).accepted = some (w, a) →
      Wolfe c (outer c n first x alphaPrev phiPrev alpha).calls w a ∧ 0 < a ∧ a ≤ c.p.maxStep := by
  induction n generalizing first x alphaPrev phiPrev alpha with
  | zero => exact ⟨le_refl _, fun w a h => by simp [outer] at h⟩
  | succ n ih =>
    unfold outer
    dsimp only
    split_ifs with g1 g2 g3 g4
    · obtain ⟨i1, i2⟩ := zoom_spec c hd n (c.eval x (c.trial alpha)).2 alphaPrev phiPrev alpha h0 h1.le
        (by linarith) _ hlo hhi
      exact ⟨by simp only [List.length_cons]; omega,
        fun w a h => ⟨((i2 w a h).1).cons _, (i2 w a h).2⟩⟩
    · refine ⟨by simp, fun w a h => ?_⟩
      simp only [Option.some.injEq, Prod.mk.injEq] at h
      obtain ⟨rfl, rfl⟩ := h
      refine ⟨⟨_, rfl, rfl, rfl, ?_, ?_⟩, h1, hhi⟩
      · exact not_lt.1 fun h => g1 (.inl h)
      · rw [← threshold_eq c hd]; exact g2
    · obtain ⟨i1, i2⟩ := zoom_spec c hd n (c.eval x (c.trial alpha)).2 alpha (c.call x alpha).energy
        alphaPrev h1.le h0 (by linarith) _ hhi hlo
      exact ⟨by simp only [List.length_cons]; omega,
        fun w a h => ⟨((i2 w a h).1).cons _, (i2 w a h).2⟩⟩
    · exact ⟨by simp, fun w a h => by simp at h⟩
    · have hm : 0 < min (alpha * 2) c.p.maxStep := lt_min (by linarith) (h1.trans_le hhi)
      obtain ⟨i1, i2⟩ := ih false (c.eval x (c.trial alpha)).2 alpha (c.call x alpha).energy
        (min (alpha * 2) c.p.maxStep) h1.le hm hhi (min_le_right _ _)
      exact ⟨by simp only [List.length_cons]; omega,
        fun w a h => ⟨((i2 w a h).1).cons _, (i2 w a h).2⟩⟩

theorem firstAlpha_mem (p : Params) (lr : ℝ) (h0 : 0 < p.minStep) (h1 : p.minStep ≤ p.maxStep) :
    p.minStep ≤ firstAlpha p lr ∧ firstAlpha p lr ≤ p.maxStep := by
  unfold firstAlpha
  dsimp only
  split_ifs with h
  · exact ⟨le_refl _, h1⟩
  · exact ⟨le_min (le_max_right _ _) h1, min_le_right _ _⟩

/-- **C36.** If the search reports acceptance, the state it returns was the last one evaluated, is
`state + alpha · dir` with `0 < alpha ≤ max_step`, and the energy and gradient of that evaluation satisfy
sufficient decrease and the strong curvature condition. At most `max_eval` evaluations are made. Any
evaluator, also stateful or noisy; any `phi0`, `dphi0`, direction and learning rate. -/
theorem C36_accepted (c : Ctx E X) (lr : ℝ) (x : X) (r : Res E X) (h0 : 0 < c.p.minStep)
    (h : strongWolfe c lr x = .returned r) :
    r.calls.length ≤ c.p.maxEval ∧
    ∀ w a, r.accepted = some (w, a) → Wolfe c r.calls w a ∧ 0 < a ∧ a ≤ c.p.maxStep := by
  unfold strongWolfe at h
  split_ifs at h with g1 g2 g3 g4 g5
  · cases h; exact ⟨by simp, fun w a h => by simp at h⟩
  · cases h
    obtain ⟨f1, f2⟩ := firstAlpha_mem c.p lr h0 (not_lt.1 g5)
    exact outer_spec c (not_le.1 g4) _ _ _ _ _ _ (le_refl _) (h0.trans_le f1)
      (h0.le.trans (not_lt.1 g5)) f2

/-- **C36.** For a deterministic evaluator `f`, `∇f` with the true initial slope: the accepted state has
lower energy, `f(w + α d) ≤ f(w) + c1 α ⟨∇f(w), d⟩ < f(w)`, and
`|⟨∇f(w + α d), d⟩| ≤ max (c2 |⟨∇f(w), d⟩|) tolerance_grad`. -/
theorem C36_deterministic (p : Params) (f : E → ℝ) (df : E → E) (w d : E) (lr : ℝ) (r : Res E Unit)
    (h0 : 0 < p.minStep)
    (h : strongWolfe ⟨p, fun x v => ((f v, df v), x), w, d, f w, ⟪df w, d⟫⟩ lr () = .returned r)
    (w' : E) (a : ℝ) (ha : r.accepted = some (w', a)) :
    w' = w + a • d ∧ f w' ≤ f w + p.c1 * a * ⟪df w, d⟫ ∧ f w' < f w ∧
      |⟪df w', d⟫| ≤ max (p.c2 * |⟪df w, d⟫|) p.tolGrad := by
  set c : Ctx E Unit := ⟨p, fun x v => ((f v, df v), x), w, d, f w, ⟪df w, d⟫⟩ with hc
  have hcalls : ∀ k ∈ r.calls, k.energy = f k.state ∧ k.grad = df k.state := by
    have hz : ∀ n x alo phiLo ahi, ∀ k ∈ (zoom c n x alo phiLo ahi).calls,
        k.energy = f k.state ∧ k.grad = df k.state := by
      intro n
      induction n with
      | zero => intro x alo phiLo ahi k hk; simp [zoom] at hk
      | succ n ih =>
        intro x alo phiLo ahi k hk
        unfold zoom at hk
        dsimp only at hk
        split_ifs at hk
        all_goals
          simp only [List.mem_cons, List.not_mem_nil, or_false] at hk
          first
          | (subst hk; exact ⟨rfl, rfl⟩)
          | (rcases hk with rfl | hk
             · exact ⟨rfl, rfl⟩
             · exact ih _ _ _ _ k hk)
    have ho : ∀ n b x ap pp al, ∀ k ∈ (outer c n b x ap pp al).calls,
        k.energy = f k.state ∧ k.grad = df k.state := by
      intro n
      induction n with
      | zero => intro b x ap pp al k hk; simp [outer] at hk
      | succ n ih =>
        intro b x ap pp al k hk
        unfold outer at hk
        dsimp only at hk
        split_ifs at hk
        all_goals
          simp only [List.mem_cons, List.not_mem_nil, or_false] at hk
          first
          | (subst hk; exact ⟨rfl, rfl⟩)
          | (rcases hk with rfl | hk
             · exact ⟨rfl, rfl⟩
             · first | exact hz _ _ _ _ _ k hk | exact ih _ _ _ _ _ k hk)
    unfold strongWolfe at h
    split_ifs at h
    · cases h; intro k hk; simp at hk
    · cases h; exact ho _ _ _ _ _ _
  obtain ⟨⟨k, k1, k2, k3, k4, k5⟩, apos, _⟩ := (C36_accepted c lr () r h0 h).2 w' a ha
  obtain ⟨e1, e2⟩ := hcalls k (List.mem_of_getLast? k1)
  rw [e1, k2] at k4
  rw [e2, k2] at k5
  have hneg : ⟪df w, d⟫ < 0 ∧ 0 < p.c1 := by
    unfold strongWolfe at h
    split_ifs at h with g1 g2 g3 g4
    · cases h; simp at ha
    · exact ⟨not_le.1 g4, not_le.1 fun h => g1 (.inl h)⟩
  refine ⟨k3, k4, lt_of_le_of_lt k4 ?_, k5⟩
  have : p.c1 * a * ⟪df w, d⟫ < 0 := mul_neg_of_pos_of_neg (mul_pos hneg.2 apos) hneg.1
  show f w + p.c1 * a * ⟪df w, d⟫ < f w
  linarith

/-- **C36.** Invalid parameters are rejected before the evaluator is called, and a direction that is not a
descent direction fails without a call. -/
theorem C36_rejects (c : Ctx E X) (lr : ℝ) (x : X) :
    (¬ (0 < c.p.c1 ∧ c.p.c1 < c.p.c2 ∧ c.p.c2 < 1 ∧ 0 < c.p.maxEval ∧ 0 ≤ c.p.tolGrad) →
      strongWolfe c lr x = .invalid) ∧
    (0 ≤ c.dphi0 → 0 < c.p.c1 ∧ c.p.c1 < c.p.c2 ∧ c.p.c2 < 1 ∧ 0 < c.p.maxEval ∧ 0 ≤ c.p.tolGrad →
      strongWolfe c lr x = .returned ⟨none, [], x⟩) := by
  unfold strongWolfe
  constructor
  · intro h
    split_ifs with g1 g2 g3 g4 g5 <;> first | rfl | exfalso
    all_goals
      push Not at g1
      obtain ⟨a, b, d, e⟩ := g1
      exact h ⟨a, d, e, Nat.pos_of_ne_zero g2, not_lt.1 g3⟩
  · rintro h ⟨a, b, d, e, g⟩
    rw [if_neg (by push Not; exact ⟨a, b.trans d, b, d⟩), if_neg e.ne', if_neg (not_lt.2 g), if_pos h]

/-- **C36.** The step taken always is `state + alpha · dir` with `alpha ≥ 0`. In strong-Wolfe mode a step
that is not the (opt-in) fallback satisfies the Wolfe conditions; the fallback is only used if allowed, and
otherwise a failed search throws. At most `max_eval` evaluations. -/
theorem C36_step (fixed : Bool) (q : LBFGS.Params) (c : Ctx E X) (lr : ℝ) (x : X)
    (h0 : 0 < c.p.minStep) (w : E) (a : ℝ) (fb : Bool) (calls : List (Call E)) (x' : X)
    (h : lbfgsStep fixed q c lr x = .next w a fb calls x') :
    w = c.state + a • c.dir ∧ 0 ≤ a ∧ calls.length ≤ c.p.maxEval ∧
    (fixed = true → calls = [] ∧ a = max 0 lr) ∧
    (fixed = false → fb = false → Wolfe c calls w a) ∧
    (fb = true → q.allowFallback = true) := by
  unfold lbfgsStep at h
  cases fixed with
  | true =>
    simp only [if_true] at h
    cases h
    exact ⟨rfl, le_max_left _ _, by simp, fun _ => ⟨rfl, rfl⟩, fun h => by simp at h, fun h => by simp at h⟩
  | false =>
    simp only [Bool.false_eq_true, if_false] at h
    cases hs : strongWolfe c lr x with
    | invalid => rw [hs] at h; cases h
    | undefined => rw [hs] at h; cases h
    | returned r =>
      rw [hs] at h
      obtain ⟨n1, n2⟩ := C36_accepted c lr x r h0 hs
      cases hr : r.accepted with
      | some wa =>
        obtain ⟨w', a'⟩ := wa
        simp only [hr] at h
        cases h
        obtain ⟨hw, hp, _⟩ := n2 _ _ hr
        refine ⟨?_, hp.le, n1, fun h => by simp at h, fun _ _ => hw, fun h => by simp at h⟩
        obtain ⟨_, _, _, e, _⟩ := hw
        exact e
      | none =>
        simp only [hr] at h
        split_ifs at h with hf
        cases h
        exact ⟨rfl, le_max_left _ _, n1, fun h => by simp at h, fun _ h => by simp at h, fun _ => hf⟩

/-- the parameters of the examples -/
noncomputable def exP : Params := ⟨1e-5, 1e-9, 3, 1e-4, 0.9, 1/2, 2⟩

/-- minimizing `x²` from `1` along `-4` -/
noncomputable def exC : Ctx ℝ Unit := ⟨exP, fun x v => ((v ^ 2, 2 * v), x), 1, -4, 1, -8⟩

theorem example_zoom2 : zoom exC 1 () 0 1 (1/2) = ⟨some (0, 1/4), [⟨0, 0, 0⟩], ()⟩ := by
  unfold zoom
  norm_num [exC, exP, Ctx.call, Ctx.trial, Ctx.threshold]

theorem example_zoom1 :
    zoom exC 2 () 0 1 1 = ⟨some (0, 1/4), [⟨-1, 1, -2⟩, ⟨0, 0, 0⟩], ()⟩ := by
  unfold zoom
  have := example_zoom2
  norm_num at this
  norm_num [exC, exP, Ctx.call, Ctx.trial, Ctx.threshold] at this ⊢
  norm_num [this]

/-- with learning rate 1: the first trial overshoots to `-3`, two bisections reach the minimum with step
`1/4` -/
theorem example_search :
    strongWolfe exC 1 () =
      .returned ⟨some (0, 1/4), [⟨-3, 9, -6⟩, ⟨-1, 1, -2⟩, ⟨0, 0, 0⟩], ()⟩ := by
  have h1 : firstAlpha exP 1 = 1 := by norm_num [firstAlpha, exP]
  have h2 : strongWolfe exC 1 () = .returned (outer exC 3 true () 0 1 1) := by
    unfold strongWolfe
    rw [show exC.p = exP from rfl, h1]
    norm_num [exC, exP]
  rw [h2]
  unfold outer
  have := example_zoom1
  norm_num [exC, exP, Ctx.call, Ctx.trial, Ctx.threshold] at this ⊢
  norm_num [this]

/-- the hypotheses of `C36_deterministic` are met by this search -/
example : (0 : ℝ) ^ 2 < 1 ^ 2 := by
  refine (C36_deterministic exP (fun v : ℝ => v ^ 2) (fun v => 2 * v) 1 (-4) 1
    ⟨some (0, 1/4), [⟨-3, 9, -6⟩, ⟨-1, 1, -2⟩, ⟨0, 0, 0⟩], ()⟩ (by norm_num [exP]) ?_ 0 (1/4) rfl).2.2.1
  rw [← example_search]; norm_num [exC]

/-- **C36, remark.** `min_step` is not a lower bound for accepted steps: the zoom phase goes below it. Here
`min_step = 1/2` and the accepted step is `1/4`. -/
theorem C36_below_min_step :
    ∃ (c : Ctx ℝ Unit) (r : Res ℝ Unit) (w a : ℝ), strongWolfe c 1 () = .returned r ∧
      r.accepted = some (w, a) ∧ a < c.p.minStep :=
  ⟨exC, _, 0, 1/4, example_search, rfl, by norm_num [exC, exP]⟩

end QLPeps.LineSearch
