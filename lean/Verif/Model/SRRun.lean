import Verif.Model.SRStep
import Verif.Model.CG

/-!
# Iterations of stochastic reconfiguration

Models the part of `Optimizer::IterativeOptimize` (include/qlpeps/optimizer/optimizer_impl.h:126-129, 573-587) and of
`CalculateNaturalGradient` (:1033-1088) that says where conjugate gradient starts and what is done with its
result. Simplifications: exact arithmetic; the matrix `A`, the gradient and the learning rate of an iteration are
inputs; no step selector and no spike recovery.
-/

namespace QLPeps.SRRun

open QLPeps.UpdateRules QLPeps.SRStep

variable {ι 𝕜 : Type*} [Fintype ι] [RCLike 𝕜]

/-- what an iteration gets: matrix, gradient, learning rate -/
structure Input (ι 𝕜 : Type*) [Fintype ι] where
  A : Wf ι 𝕜 → Wf ι 𝕜
  g : Wf ι 𝕜
  lr : ℝ

/-- `current_state` and `sr_init_guess` -/
structure St (ι 𝕜 : Type*) [Fintype ι] where
  state : Wf ι 𝕜
  guess : Wf ι 𝕜

/-- optimizer_impl.h:126-129: the first guess is a state of default tensors, which are zero -/
noncomputable def start (θ : Wf ι 𝕜) : St ι 𝕜 := ⟨θ, 0⟩

/-- optimizer_impl.h:573-587 with :1033-1088: an indefinite matrix or a breakdown throws (`none`), any other
result of the solver is used; the next guess is the first component of the result, the updated state (:586) -/
noncomputable def iterate (eps : ℝ) (pr : CG.Params ℝ) (normalize : Bool) (s : St ι 𝕜) (a : Input ι 𝕜) :
    Option (St ι 𝕜) :=
  let res := CG.solve (CG.exactOps 𝕜 (Wf ι 𝕜) eps) a.A a.g s.guess pr
  match res.reason with
  | .indefinite => none
  | .breakdown => none
  | _ =>
    let θ := srUpdate s.state res.x a.lr normalize
    some ⟨θ, θ⟩

/-- all iterations -/
noncomputable def run (eps : ℝ) (pr : CG.Params ℝ) (normalize : Bool) (θ : Wf ι 𝕜) (h : List (Input ι 𝕜)) :
    Option (St ι 𝕜) :=
  h.foldlM (iterate eps pr normalize) (start θ)

end QLPeps.SRRun
