import Mathlib.Analysis.InnerProductSpace.Basic
import Mathlib.Analysis.SpecialFunctions.Pow.Real

/-!
# Model of the split-index tensor-product state and of the engine's start-up

Sources (under `/repo/include/qlpeps/`): `two_dim_tn/tps/split_index_tps.h`,
`two_dim_tn/tps/split_index_tps_impl.h`, `algorithm/vmc_update/monte_carlo_engine.h`.

`Ten` is the type of site tensors. One type serves all sites, so a shape mismatch between two
tensors (an error inside the tensor library) is not modelled. `none` is a default-constructed
tensor (`IsDefault()`). Scalars are `𝕜 = ℝ` or `ℂ` and exact.
-/

namespace QLPeps.State

/-- `BoundaryCondition` -/
inductive BC | obc | pbc
  deriving DecidableEq, Repr

/-- `SplitIndexTPS` (split_index_tps.h:79-612): a `TenMatrix` of component vectors and
`boundary_condition_`. Only positions inside `rows × cols` are meaningful. -/
structure Sitps (Ten : Type*) where
  rows : ℕ
  cols : ℕ
  bc : BC
  comps : ℕ → ℕ → List (Option Ten)

variable {Ten : Type*}

/-- `PhysicalDim()` (split_index_tps.h:222-224): the number of components at site (0, 0). -/
def Sitps.phys (a : Sitps Ten) : ℕ := (a.comps 0 0).length

/-- every index `[i]`, `i < d`, and every site access of a loop over `rows × cols` is in range -/
def Sitps.Has (a : Sitps Ten) (rows cols d : ℕ) : Prop :=
  0 < a.rows ∧ 0 < a.cols ∧ rows ≤ a.rows ∧ cols ≤ a.cols ∧
    ∀ r < rows, ∀ c < cols, d ≤ (a.comps r c).length

instance (a : Sitps Ten) (rows cols d : ℕ) : Decidable (a.Has rows cols d) := by
  unfold Sitps.Has; infer_instance

/-- component `i` of a site -/
def Sitps.comp (a : Sitps Ten) (r c i : ℕ) : Option Ten := (a.comps r c).getD i none

/-- `ApplyBinaryOp_` (split_index_tps_impl.h:50-63): the result is built by the two-argument
constructor, whose boundary condition defaults to `Open` (split_index_tps.h:107). `none` is an
index out of range. -/
def binary (f : Option Ten → Option Ten → Option Ten) (a b : Sitps Ten) : Option (Sitps Ten) :=
  if a.Has a.rows a.cols a.phys ∧ b.Has a.rows a.cols a.phys then
    some ⟨a.rows, a.cols, .obc, fun r c =>
      (List.range a.phys).map fun i => f (a.comp r c i) (b.comp r c i)⟩
  else none

/-- `CreateInitializedResult_` followed by `ForEachValidTensor_` (split_index_tps_impl.h:22-33,
66-76): the out-of-place transforms. Default components stay default. -/
def unary (f : Ten → Ten) (a : Sitps Ten) : Option (Sitps Ten) :=
  if a.Has a.rows a.cols a.phys then
    some ⟨a.rows, a.cols, .obc, fun r c => (List.range a.phys).map fun i => (a.comp r c i).map f⟩
  else none

/-- `ForEachValidTensor_` (split_index_tps_impl.h:35-48): the in-place transforms. Components
beyond the physical dimension of site (0, 0) are not touched. -/
def inPlace (f : Ten → Ten) (a : Sitps Ten) : Option (Sitps Ten) :=
  if a.Has a.rows a.cols a.phys then
    some { a with comps := fun r c =>
      (a.comps r c).mapIdx fun i x => if i < a.phys then x.map f else x }
  else none

section Arithmetic
variable {𝕜 : Type*} [RCLike 𝕜] [NormedAddCommGroup Ten] [InnerProductSpace 𝕜 Ten]

/-- the lambda of `operator+` (split_index_tps.h:316-323) -/
def addComp : Option Ten → Option Ten → Option Ten
  | some x, some y => some (x + y)
  | some x, none => some x
  | none, some y => some y
  | none, none => none

/-- `operator+` (split_index_tps.h:315-324) -/
def add (a b : Sitps Ten) : Option (Sitps Ten) := binary addComp a b

/-- one component of `operator+=` (split_index_tps.h:331-334) -/
def addAssignComp : Option Ten → Option Ten → Option Ten
  | none, y => y
  | some x, none => some x
  | some x, some y => some (x + y)

/-- `operator+=` (split_index_tps.h:326-339) -/
def addAssign (a b : Sitps Ten) : Option (Sitps Ten) :=
  if a.Has a.rows a.cols a.phys ∧ b.Has a.rows a.cols a.phys then
    some { a with comps := fun r c => (a.comps r c).mapIdx fun i x =>
      if i < a.phys then addAssignComp x (b.comp r c i) else x }
  else none

/-- `operator*(scalar)` (split_index_tps.h:282-288) -/
def smul (k : 𝕜) (a : Sitps Ten) : Option (Sitps Ten) := unary (fun x => k • x) a

/-- `operator*=(scalar)` (split_index_tps.h:299-304) -/
def smulAssign (k : 𝕜) (a : Sitps Ten) : Option (Sitps Ten) := inPlace (fun x => k • x) a

/-- unary `operator-` (split_index_tps.h:387-393) -/
def neg (a : Sitps Ten) : Option (Sitps Ten) := unary (fun x => -x) a

/-- binary `operator-` (split_index_tps.h:395-397) -/
def sub (a b : Sitps Ten) : Option (Sitps Ten) := (neg b).bind fun nb => add a nb

/-- `operator-=` (split_index_tps_impl.h:444-448): assigns the result of `operator+`. -/
def subAssign (a b : Sitps Ten) : Option (Sitps Ten) := (neg b).bind fun nb => add a nb

/-- contribution of one component to the inner product (split_index_tps.h:372-375) -/
noncomputable def innerComp : Option Ten → Option Ten → 𝕜
  | some x, some y => inner 𝕜 x y
  | _, _ => 0

/-- inner product `operator*` (split_index_tps.h:370-377): the triple loop with `+=`. -/
noncomputable def dot (a b : Sitps Ten) : Option 𝕜 :=
  if a.Has a.rows a.cols a.phys ∧ b.Has a.rows a.cols a.phys then
    some ((List.range a.rows).foldl (fun s r => (List.range a.cols).foldl (fun s c =>
      (List.range a.phys).foldl (fun s i => s + innerComp (a.comp r c i) (b.comp r c i)) s) s) 0)
  else none

/-- contribution of one component to the norm (split_index_tps_impl.h:173-175) -/
noncomputable def normSqComp : Option Ten → ℝ
  | some x => ‖x‖ ^ 2
  | none => 0

/-- `NormSquare` (split_index_tps_impl.h:170-177). -/
noncomputable def normSquare (a : Sitps Ten) : Option ℝ :=
  if a.Has a.rows a.cols a.phys then
    some ((List.range a.rows).foldl (fun s r => (List.range a.cols).foldl (fun s c =>
      (List.range a.phys).foldl (fun s i => s + normSqComp (a.comp r c i)) s) s) 0)
  else none

/-! ## Rescaling one site -/

/-- all non-default components of one site times `k` -/
def scaleSite (k : 𝕜) (site : ℕ × ℕ) (a : Sitps Ten) : Sitps Ten :=
  { a with comps := fun r c =>
      if (r, c) = site then (a.comps r c).map (Option.map fun x => k • x) else a.comps r c }

/-- `NormalizeSite` (split_index_tps_impl.h:208-225): new state and returned factor. -/
noncomputable def normalizeSite (site : ℕ × ℕ) (a : Sitps Ten) : Sitps Ten × ℝ :=
  let normSq := (a.comps site.1 site.2).foldl (fun s x => s + normSqComp x) 0
  let norm := Real.sqrt normSq
  (scaleSite (((1 / norm : ℝ)) : 𝕜) site a, norm)

/-- `ScaleMaxAbsForSite` (split_index_tps_impl.h:228-246); `maxAbs` is `GetMaxAbs` of the tensor
library. -/
noncomputable def scaleMaxAbsSite (maxAbs : Ten → ℝ) (aim : ℝ) (site : ℕ × ℕ) (a : Sitps Ten) :
    Sitps Ten × ℝ :=
  let m := (a.comps site.1 site.2).foldl (fun s x => match x with
    | none => s
    | some x => max s (maxAbs x)) 0
  let k := aim / m
  (scaleSite ((k : ℝ) : 𝕜) site a, 1 / k)

/-- `NormalizeAllSite` (split_index_tps_impl.h:248-255); the list of the returned factors is kept
for the statement of the theorems (the code discards it). -/
noncomputable def normalizeAll (a : Sitps Ten) : Sitps Ten × List ℝ :=
  (List.range a.rows).foldl (fun s r => (List.range a.cols).foldl (fun s c =>
    let n := normalizeSite (𝕜 := 𝕜) (r, c) s.1
    (n.1, s.2 ++ [n.2])) s) (a, [])

/-- `ScaleMaxAbsForAllSite` (split_index_tps_impl.h:257-265) -/
noncomputable def scaleMaxAbsAll (maxAbs : Ten → ℝ) (aim : ℝ) (a : Sitps Ten) :
    Sitps Ten × List ℝ :=
  (List.range a.rows).foldl (fun s r => (List.range a.cols).foldl (fun s c =>
    let n := scaleMaxAbsSite (𝕜 := 𝕜) maxAbs aim (r, c) s.1
    (n.1, s.2 ++ [n.2])) s) (a, [])

end Arithmetic

/-! ## Start-up of the Monte-Carlo engine -/

section Engine
variable {Conf A : Type*}

/-- One rank: `tps_sample_` (configuration and amplitude), `init_valid_`, `warm_up_`
(monte_carlo_engine.h:559-577). -/
structure Rank (Conf A : Type*) where
  config : Conf
  amp : A
  initValid : Bool
  warmUp : Bool

/-- `TryConstructWavefunction_` (monte_carlo_engine.h:434-443): `construct` is the constructor of
the wave-function component on the rank's state, `none` an exception, which leaves the sample as
it was. -/
def tryConstruct (construct : Conf → Option A) (cfg : Conf) (r : Rank Conf A) :
    Rank Conf A × Bool :=
  match construct cfg with
  | some a => ({ r with config := cfg, amp := a }, true)
  | none => (r, false)

/-- outcome of a collective start-up: aborted by some rank, or the new ranks -/
inductive Startup (α : Type*)
  | abort
  | ok (x : α)

/-- `EnsureConfigurationValidity` (monte_carlo_engine.h:340-414) on all ranks together.
`legal` is `CheckWaveFunctionAmplitudeValidity` (wave_function_component.h:393-401). The
`MPI_Allgather` gives every rank the same flags, so the branches are taken collectively;
`MPI_Abort` on any rank ends the program. -/
def ensureValidity (construct : Conf → Option A) (legal : A → Bool) (enabled : Bool)
    (ranks : List (Rank Conf A)) : Startup (List (Rank Conf A)) :=
  let flags := ranks.map fun r => r.initValid && legal r.amp
  let numValid := (flags.map fun b => if b then 1 else 0).sum
  if numValid = ranks.length then .ok ranks
  else if !enabled then .abort
  else
    match ranks[flags.findIdx id]? with
    | none => .abort
    | some src =>
      let done := ranks.map fun r =>
        if r.initValid && legal r.amp then (r, true)
        else
          let x := tryConstruct construct src.config r
          ({ x.1 with initValid := true, warmUp := false }, x.2)
      if done.all Prod.snd then .ok (done.map Prod.fst) else .abort

/-- the first half of `Initialize_` (monte_carlo_engine.h:421-424): every rank tries its own
initial configuration, then the check. -/
def initRanks (construct : Conf → Option A) (legal : A → Bool) (enabled : Bool)
    (ranks : List (Rank Conf A)) : Startup (List (Rank Conf A)) :=
  ensureValidity construct legal enabled (ranks.map fun r =>
    let x := tryConstruct construct r.config r
    { x.1 with initValid := x.2 })

/-- `NormalizeStateOrder1` (monte_carlo_engine.h:206-239): factor on every site. `std::max_element`
with the comparison of moduli returns the first maximum. -/
noncomputable def order1Factor {𝕜 : Type*} [RCLike 𝕜] (sites : ℕ) (amps : List 𝕜) : ℝ :=
  let m := amps.foldl (fun best a => if ‖best‖ < ‖a‖ then a else best) (amps.headD 0)
  (1 / ‖m‖) ^ (1 / (sites : ℝ))

/-- `NormalizeStateOrder1`: the rescaled state (line 225) -/
noncomputable def normalizeOrder1 {𝕜 : Type*} [RCLike 𝕜] [NormedAddCommGroup Ten]
    [InnerProductSpace 𝕜 Ten] (amps : List 𝕜) (a : Sitps Ten) : Option (Sitps Ten) :=
  smulAssign ((order1Factor (a.rows * a.cols) amps : ℝ) : 𝕜) a

end Engine

end QLPeps.State
