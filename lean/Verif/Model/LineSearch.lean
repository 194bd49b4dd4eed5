import Mathlib.Analysis.InnerProductSpace.Basic
import Verif.Model.LBFGS

/-!
# Strong-Wolfe line search and the L-BFGS step

Models `StrongWolfeLBFGSStep_` (include/qlpeps/optimizer/optimizer_impl.h:1547-1662) and the step-size part
of the L-BFGS dispatch (:643-674).

Simplifications: as in `Verif.Model.LBFGS` (real inner product space, exact arithmetic, master rank). The
evaluator may be stateful: `X` is its hidden state. Each call is recorded as (state evaluated, energy,
gradient). Calling `std::clamp` with `min_step > max_step` is undefined behaviour and a separate
outcome. In exact arithmetic no number is NaN.
-/

namespace QLPeps.LineSearch

variable {E X : Type*} [NormedAddCommGroup E] [InnerProductSpace ℝ E]

local notation "⟪" x ", " y "⟫" => inner ℝ x y

/-- optimizer_params.h:119-152 `LBFGSParams`, the line-search part -/
structure Params where
  tolGrad : ℝ
  tolChange : ℝ
  maxEval : ℕ
  c1 : ℝ
  c2 : ℝ
  minStep : ℝ
  maxStep : ℝ

/-- the fixed data of one search -/
structure Ctx (E X : Type*) where
  p : Params
  /-- the evaluator: energy and gradient of a state -/
  eval : X → E → (ℝ × E) × X
  state : E
  dir : E
  phi0 : ℝ
  dphi0 : ℝ

/-- an evaluator call: state, energy, gradient -/
structure Call (E : Type*) where
  state : E
  energy : ℝ
  grad : E

/-- accepted step (with the trial state) or `kFailed`, the calls made, the hidden state -/
structure Res (E X : Type*) where
  accepted : Option (E × ℝ)
  calls : List (Call E)
  x : X

/-- :1572 -/
noncomputable def Ctx.threshold (c : Ctx E X) : ℝ := max (-c.p.c2 * c.dphi0) c.p.tolGrad

/-- :1581-1595 `eval_alpha`: the trial state -/
def Ctx.trial (c : Ctx E X) (alpha : ℝ) : E := c.state + alpha • c.dir

/-- :1581-1595 `eval_alpha`: the call -/
def Ctx.call (c : Ctx E X) (x : X) (alpha : ℝ) : Call E :=
  ⟨c.trial alpha, (c.eval x (c.trial alpha)).1.1, (c.eval x (c.trial alpha)).1.2⟩

/-- :1597-1627 `zoom`, with `n` evaluations left -/
noncomputable def zoom (c : Ctx E X) : ℕ → X → (alo phiLo ahi : ℝ) → Res E X
  | 0, x, _, _, _ => ⟨none, [], x⟩
  | n + 1, x, alo, phiLo, ahi =>
    let alpha := (1 / 2 : ℝ) * (alo + ahi)
    let k := c.call x alpha
    let x' := (c.eval x (c.trial alpha)).2
    let phi := k.energy
    let dphi := ⟪k.grad, c.dir⟫
    if c.phi0 + c.p.c1 * alpha * c.dphi0 < phi ∨ phiLo ≤ phi then
      if |alpha - alo| ≤ c.p.tolChange then ⟨none, [k], x'⟩
      else
        let r := zoom c n x' alo phiLo alpha
        ⟨r.accepted, k :: r.calls, r.x⟩
    else if |dphi| ≤ c.threshold then ⟨some (k.state, alpha), [k], x'⟩
    else
      let ahi' := if 0 ≤ dphi * (ahi - alo) then alo else ahi
      if |ahi' - alpha| ≤ c.p.tolChange then ⟨none, [k], x'⟩
      else
        let r := zoom c n x' alpha phi ahi'
        ⟨r.accepted, k :: r.calls, r.x⟩

/-- :1636-1661 the outer loop, with `n` evaluations left; `first` = `outer == 0` -/
noncomputable def outer (c : Ctx E X) : ℕ → Bool → X → (alphaPrev phiPrev alpha : ℝ) → Res E X
  | 0, _, x, _, _, _ => ⟨none, [], x⟩
  | n + 1, first, x, alphaPrev, phiPrev, alpha =>
    let k := c.call x alpha
    let x' := (c.eval x (c.trial alpha)).2
    let phi := k.energy
    let dphi := ⟪k.grad, c.dir⟫
    if c.phi0 + c.p.c1 * alpha * c.dphi0 < phi ∨ (first = false ∧ phiPrev ≤ phi) then
      let r := zoom c n x' alphaPrev phiPrev alpha
      ⟨r.accepted, k :: r.calls, r.x⟩
    else if |dphi| ≤ c.threshold then ⟨some (k.state, alpha), [k], x'⟩
    else if 0 ≤ dphi then
      let r := zoom c n x' alpha phi alphaPrev
      ⟨r.accepted, k :: r.calls, r.x⟩
    else
      let next := min (alpha * 2) c.p.maxStep
      if next - alpha ≤ c.p.tolChange then ⟨none, [k], x'⟩
      else
        let r := outer c n false x' alpha phi next
        ⟨r.accepted, k :: r.calls, r.x⟩

/-- :1629-1634 the first step length -/
noncomputable def firstAlpha (p : Params) (lr : ℝ) : ℝ :=
  let a := min (max (max lr p.minStep) p.minStep) p.maxStep
  if a ≤ 0 then p.minStep else a

/-- outcomes of a search -/
inductive Outcome (E X : Type*) where
  /-- `std::invalid_argument` -/
  | invalid
  /-- `std::clamp` with an empty interval -/
  | undefined
  | returned (r : Res E X)

/-- :1547-1662 `StrongWolfeLBFGSStep_` -/
noncomputable def strongWolfe (c : Ctx E X) (lr : ℝ) (x : X) : Outcome E X :=
  if c.p.c1 ≤ 0 ∨ 1 ≤ c.p.c1 ∨ c.p.c2 ≤ c.p.c1 ∨ 1 ≤ c.p.c2 then .invalid
  else if c.p.maxEval = 0 then .invalid
  else if c.p.tolGrad < 0 then .invalid
  else if 0 ≤ c.dphi0 then .returned ⟨none, [], x⟩
  else if c.p.maxStep < c.p.minStep then .undefined
  else .returned (outer c c.p.maxEval true x 0 c.phi0 (firstAlpha c.p lr))

/-- outcome of the step-size part of the L-BFGS dispatch -/
inductive StepOutcome (E X : Type*) where
  /-- exception -/
  | threw
  | undefined
  /-- new state, step length used, whether it is the fallback step, evaluator calls made -/
  | next (state : E) (alpha : ℝ) (fallback : Bool) (calls : List (Call E)) (x : X)

/-- :643-674 step part of the dispatch: fixed step, or strong Wolfe with optional fallback -/
noncomputable def lbfgsStep (fixed : Bool) (q : LBFGS.Params) (c : Ctx E X) (lr : ℝ) (x : X) :
    StepOutcome E X :=
  if fixed then
    .next (LBFGS.fixedStep c.state c.dir lr).1 (LBFGS.fixedStep c.state c.dir lr).2 false [] x
  else match strongWolfe c lr x with
    | .invalid => .threw
    | .undefined => .undefined
    | .returned r => match r.accepted with
      | some (w, a) => .next w a false r.calls r.x
      | none =>
        if q.allowFallback then
          let f := LBFGS.fixedStep c.state c.dir (max q.minStep (lr * q.fallbackScale))
          .next f.1 f.2 true r.calls r.x
        else .threw

end QLPeps.LineSearch
