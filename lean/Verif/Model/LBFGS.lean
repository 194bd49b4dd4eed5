import Mathlib.Analysis.InnerProductSpace.Basic

/-!
# L-BFGS

Models `ResetLBFGSState_`, `SaveLBFGSSnapshot_`, `RestoreLBFGSSnapshot_`,
`UpdateLBFGSHistoryFromAnchor_`, `ComputeLBFGSSearchDirection_`, `ApplyFixedLBFGSStep_` and the L-BFGS part
of the algorithm dispatch of include/qlpeps/optimizer/optimizer_impl.h (lines cited below).

Simplifications: wave functions with `RealInnerProduct_` (:1398-1401, the real part of the element-wise
inner product) form a real inner product space `E`; exact arithmetic; master rank only; the diagnostic
counters are dropped; `machEps` stands for `std::numeric_limits<double>::epsilon()` and `1e-15` is a
parameter of the model as well (`lift`).
-/

namespace QLPeps.LBFGS

variable {E : Type*} [NormedAddCommGroup E] [InnerProductSpace ℝ E]

local notation "⟪" x ", " y "⟫" => inner ℝ x y

/-- optimizer_params.h:119-152 `LBFGSParams` (the part used here) and the two numerical constants -/
structure Params where
  historySize : ℕ
  minCurvature : ℝ
  useDamping : Bool
  maxDirectionNorm : ℝ
  minStep : ℝ
  allowFallback : Bool
  fallbackScale : ℝ
  machEps : ℝ
  lift : ℝ

/-- `LBFGSHistoryPair` -/
structure Pair (E : Type*) where
  s : E
  y : E
  rho : ℝ

/-- the history, oldest pair first (`lbfgs_history_`), and the anchor (`lbfgs_anchor_state_`,
`lbfgs_anchor_gradient_`, present iff `lbfgs_has_anchor_`) -/
structure Mem (E : Type*) where
  history : List (Pair E)
  anchor : Option (E × E)

/-- :1403-1413 `ResetLBFGSState_` (without the snapshot) -/
def Mem.reset : Mem E := ⟨[], none⟩

/-- :1461-1471: the "damping" of the gradient difference -/
noncomputable def damped (p : Params) (s y : E) : E :=
  if ⟪s, y⟫ ≤ p.minCurvature ∧ p.useDamping then
    if p.machEps < ⟪y, y⟫ then y + ((p.minCurvature - ⟪s, y⟫ + p.lift) / ⟪y, y⟫) • s else y
  else y

/-- :1478-1485: append and drop from the front down to `history_size` -/
def push (n : ℕ) (h : List (Pair E)) (q : Pair E) : List (Pair E) := (h ++ [q]).drop ((h ++ [q]).length - n)

/-- :1442-1486 `UpdateLBFGSHistoryFromAnchor_`; `none` = `std::invalid_argument` -/
noncomputable def updateFromAnchor (p : Params) (m : Mem E) (state grad : E) : Option (Mem E) :=
  match m.anchor with
  | none => some m
  | some (a, ga) =>
    if p.historySize = 0 then none
    else
      let s := state - a
      let y := damped p s (grad - ga)
      if ⟪s, y⟫ ≤ p.minCurvature then some m
      else some { m with history := push p.historySize m.history ⟨s, y, 1 / ⟪s, y⟫⟩ }

/-- :1503-1506 first loop, newest pair first: the reduced vector and the coefficients `alpha`, oldest
first -/
noncomputable def firstLoop (h : List (Pair E)) (q : E) : E × List ℝ :=
  h.foldr (fun pr acc =>
    let a := pr.rho * ⟪pr.s, acc.1⟫
    (acc.1 + (-a) • pr.y, a :: acc.2)) (q, [])

/-- :1508-1514 the initial scaling -/
noncomputable def gamma (p : Params) (last : Pair E) : ℝ :=
  if p.machEps < ⟪last.y, last.y⟫ ∧ p.minCurvature < ⟪last.s, last.y⟫
  then ⟪last.s, last.y⟫ / ⟪last.y, last.y⟫ else 1

/-- :1516-1520 second loop, oldest pair first -/
noncomputable def secondLoop (ha : List (Pair E × ℝ)) (r : E) : E :=
  ha.foldl (fun r pa =>
    let b := pa.1.rho * ⟪pa.1.y, r⟫
    r + (pa.2 - b) • pa.1.s) r

/-- :1500-1522 the quasi-Newton direction (before the sign): both loops -/
noncomputable def twoLoop (p : Params) (h : List (Pair E)) (g : E) : E :=
  match h.getLast? with
  | none => g
  | some last =>
    let (q, alpha) := firstLoop h g
    secondLoop (h.zip alpha) (gamma p last • q)

/-- :1488-1532 `ComputeLBFGSSearchDirection_`; `none` = `std::invalid_argument` -/
noncomputable def direction (p : Params) (h : List (Pair E)) (g : E) : Option E :=
  if p.historySize = 0 then none
  else
    let d := (-1 : ℝ) • twoLoop p h g
    some (if 0 < p.maxDirectionNorm then
        if p.maxDirectionNorm < ‖d‖ ∧ 0 < ‖d‖ then (p.maxDirectionNorm / ‖d‖) • d else d
      else d)

/-- :620-641 the direction actually used by the dispatch: reset and steepest descent if the direction is
not a descent direction. Returns the direction, its slope, and the memory. -/
noncomputable def dispatchDirection (p : Params) (m : Mem E) (g : E) : Option (E × ℝ × Mem E) :=
  (direction p m.history g).map fun d =>
    if 0 ≤ ⟪g, d⟫ then ((-1 : ℝ) • g, ⟪g, (-1 : ℝ) • g⟫, .reset) else (d, ⟪g, d⟫, m)

/-- :1534-1545 `ApplyFixedLBFGSStep_`: the new state and the step used -/
noncomputable def fixedStep (state dir : E) (lr : ℝ) : E × ℝ := (state + max 0 lr • dir, max 0 lr)

/-! ## All memory operations of a run -/

/-- the snapshots kept for rollback (`lbfgs_prev_snapshot_`) and for resampling
(`lbfgs_iter_start_*`, :208-220) -/
structure Full (E : Type*) where
  mem : Mem E
  prev : Option (Mem E)
  iterStart : Mem E

/-- what `IterativeOptimize` does to the L-BFGS memory; each operation may occur at any time in the
model -/
inductive Op (E : Type*) where
  /-- :178-180, :633-638 -/
  | reset
  /-- :215-220 -/
  | iterStart
  /-- :245-249: after an evaluation of `state` with gradient `grad` -/
  | evaluated (state grad : E)
  /-- :222-231 -/
  | resample
  /-- :277, :712, :755 `RestoreLBFGSSnapshot_` :1427-1440 -/
  | rollback
  /-- :841-851: an accepted step; the snapshot is taken if rollback is enabled -/
  | accepted (enableRollback : Bool) (state grad : E)

/-- the effect of one operation (`none` = exception) -/
noncomputable def Op.apply (p : Params) (f : Full E) : Op E → Option (Full E)
  | .reset => some { f with mem := .reset, prev := none }
  | .iterStart => some { f with iterStart := f.mem }
  | .evaluated state grad => (updateFromAnchor p f.mem state grad).map fun m => { f with mem := m }
  | .resample => some { f with mem := f.iterStart }
  | .rollback => match f.prev with
    | none => some { f with mem := .reset, prev := none }
    | some m => some { f with mem := m }
  | .accepted en state grad =>
    some { f with
      prev := if en then some f.mem else f.prev
      mem := { f.mem with anchor := some (state, grad) } }

/-- a history of operations from a fresh optimizer -/
noncomputable def runOps (p : Params) (ops : List (Op E)) : Option (Full E) :=
  ops.foldl (fun f o => f.bind fun f => o.apply p f) (some ⟨.reset, none, .reset⟩)

end QLPeps.LBFGS
