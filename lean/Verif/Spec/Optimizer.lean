import Verif.Model.Optimizer

/-!
# Vocabulary for the optimizer properties

Everything here is defined from the observable trace or from plain lists, not from the loop.
-/

namespace QLPeps.Optimizer.Spec

open QLPeps.Spike QLPeps.Optimizer

variable {W K : Type*}

/-- the accepted steps, in order: evaluated state and its energy -/
def accepted (t : List (Event W K)) : List (W × K) :=
  t.filterMap fun
    | .accept _ w e => some (w, e)
    | _ => none

/-- the iteration numbers of the accepted steps, in order -/
def acceptedIters (t : List (Event W K)) : List ℕ :=
  t.filterMap fun
    | .accept i _ _ => some i
    | _ => none

/-- number of main-path evaluator calls -/
def evals (t : List (Event W K)) : ℕ :=
  t.countP fun
    | .eval .. => true
    | _ => false

/-- the checkpoints, in order -/
def checkpoints (t : List (Event W K)) : List (ℕ × W) :=
  t.filterMap fun
    | .checkpoint i w => some (i, w)
    | _ => none

/-- What the documentation promises about states. The pair holds the state to be evaluated next and,
if a rollback is possible, the state it goes back to. A resample keeps the state, an accepted update
replaces it and remembers the old one, a rollback goes back once. -/
def replayStep : W × Option W → Event W K → W × Option W
  | (cur, back), .spike _ _ _ .rollback => (back.getD cur, none)
  | (cur, _), .advance next => (next, some cur)
  | p, _ => p

/-- the state that has to be evaluated after the events `t`, starting from `w₀` -/
def replay (w₀ : W) (t : List (Event W K)) : W × Option W := t.foldl replayStep (w₀, none)

/-- the last main-path evaluation of a trace -/
def lastEval (t : List (Event W K)) : Option (ℕ × W × K) :=
  (t.filterMap fun
    | .eval i w e _ => some (i, w, e)
    | _ => none).getLast?

/-- entry `j` of the energy history is a new strict minimum -/
def IsRecord [LT K] (big : K) (es : List K) (j : ℕ) : Prop :=
  ∃ e, es[j]? = some e ∧ e < big ∧ ∀ i < j, ∀ e', es[i]? = some e' → e < e'

/-- the three documented stopping criteria after iteration `j` -/
def StopAt [LT K] [Sub K] (c : Config K) (es gs : List K) (j : ℕ) : Prop :=
  0 < j ∧
    ((∃ g, gs[j]? = some g ∧ g < c.gradTol) ∨
     (∃ e e', es[j]? = some e ∧ es[j - 1]? = some e' ∧ c.fabs (e - e') < c.energyTol) ∨
     (c.patience ≤ j + 1 ∧ ∀ i, j + 1 ≤ i + c.patience → i ≤ j → ¬ IsRecord c.big es i))

end QLPeps.Optimizer.Spec
