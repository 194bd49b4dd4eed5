import Mathlib.Data.List.Basic
import Mathlib.Logic.Function.Basic
import Mathlib.Data.Nat.Basic

/-!
# Model of the TRG contractor: geometry, caches and trials

Sources (under `/repo/include/qlpeps/two_dim_tn/tensor_network_2d/trg/`): `trg_contractor.h` (`H:` below) and
`trg_contractor_impl.h` (`I:` below).

Modelled here in full: the checks of `Init`, the fine-to-coarse topology of all scales, its validation, and
the functions that fill, read and rewrite the caches (`Trace`, `BeginTrialWithReplacement`,
`EvaluateReplacement`, `CommitTrial`, `ClearCache`). The tensor operations are parameters (`Ops`): the split of a
site may truncate in any way.

Simplifications. Node numbers are natural numbers; `0xFFFFFFFF`, the absent parent, is `none`. A vector is its size
and a function of the index; a default-constructed tensor is `none`. `scales_[0].graph.nbr` and `split_dir` are written
and never read, and are left out. A `std::map` is an association list with unique keys and a `std::set` a list
without repetitions, both in the order of insertion: the loops over them write each entry once and read none of
the entries written. The truncation parameters are part of `Ops`; whether they are set is `hasParams`.
-/

namespace QLPeps.Trg

/-- What a call may end with other than a result: `std::invalid_argument`, `std::logic_error`,
`std::out_of_range`, `std::runtime_error`, and access outside a vector through `operator[]`. -/
inductive Fail
  | invalid | logic | range | runtime | ub
  deriving DecidableEq, Repr

/-- Tensor operations. `T`: site tensor, `P`: half of a split tensor, `I`: the factors kept for the holes,
`A`: amplitude. -/
structure Ops (T P I A : Type*) where
  /-- I:385-415 `SplitNode_`, the pieces `P` and `Q`; the flag is `SplitType::Type1` -/
  split : Bool → T → P × P
  /-- I:417-425 `SplitNode_`, `U`, `Vt` and `S_inv_sqrt` -/
  iso : Bool → T → I
  /-- I:448-456 `ContractPlaquetteCore_` -/
  plaq : P → P → P → P → T
  /-- I:460-468 `ContractDiamondCore_` -/
  diam : P → P → P → P → T
  /-- `TenElemT(0)` -/
  zero : A
  /-- I:833-861 `ContractFinal1x1_` -/
  fin1 : T → A
  /-- I:864-882 `ContractFinal2x2_` -/
  fin2 : T → T → T → T → A
  /-- I:885-931 `ContractFinal3x3_` -/
  fin3 : T → T → T → T → T → T → T → T → T → A

/-- H:341-348 `TrialSplitData`, H:556-564 `SplitResult`, and the entries of `split_type`, `split_P`, `split_Q`,
`split_U`, `split_Vt`, `split_S_inv_sqrt` of one node (H:531-552). -/
structure SplitData (P I : Type*) where
  type1 : Bool
  p : P
  q : P
  iso : Option I

/-- H:501-553 `ScaleCache`. `size` is `tens.size()`. -/
structure Scale (T P I : Type*) where
  size : ℕ
  tens : ℕ → Option T
  f2c : ℕ → Option ℕ × Option ℕ
  c2f : ℕ → List ℕ
  split : ℕ → Option (SplitData P I)

/-- H:617-626, the members of the contractor; `periodic` is `bc_ == BoundaryCondition::Periodic`. -/
structure Trg (T P I : Type*) where
  rows : ℕ
  cols : ℕ
  periodic : Bool
  ready : Bool
  scales : List (Scale T P I)
  hasParams : Bool

/-- A tensor network as the contractor sees it: `rows()`, `cols()`, `GetBoundaryCondition()` and the tensors. -/
structure Net (T : Type*) where
  rows : ℕ
  cols : ℕ
  periodic : Bool
  ten : ℕ → ℕ → T

variable {T P I A : Type}

/-! ### Geometry -/

/-- H:566 `IsPowerOfTwo_` -/
def isPow2 (n : ℕ) : Bool := n != 0 && (n &&& (n - 1)) == 0

/-- I:294-297, I:335-338 `add_parent` -/
def addParent (f2c : ℕ → Option ℕ × Option ℕ) (f w : ℕ) : ℕ → Option ℕ × Option ℕ :=
  Function.update f2c f (match f2c f with
    | (none, b) => (some w, b)
    | (a, _) => (a, some w))

/-- I:276-303: the plaquettes in the order of the two loops, with their children TL, TR, BL, BR. `(x + n) % n` is
`x % n` on the values used. -/
def plaquettes (n : ℕ) : List (ℕ × List ℕ) :=
  (List.range n).flatMap fun r => ((List.range n).filter fun c => (r + c) % 2 == 0).map fun c =>
    (r * (n / 2) + c / 2,
      [r * n + c, r * n + (c + 1) % n, (r + 1) % n * n + c, (r + 1) % n * n + (c + 1) % n])

/-- I:305-344: the diamonds in the order of the two loops, with their children N, E, S, W. `mod(i - 1)` wraps to
`n - 1` for `i = 0`. -/
def diamonds (n : ℕ) : List (ℕ × List ℕ) :=
  ((List.range n).filter fun i => i % 2 == 0).flatMap fun i =>
    ((List.range n).filter fun j => j % 2 == 1).map fun j =>
      (i / 2 * (n / 2) + (j - 1) / 2,
        [(i + n - 1) % n * (n / 2) + j / 2, i * (n / 2) + (j + 1) % n / 2,
          (i + 1) % n * (n / 2) + j / 2, i * (n / 2) + (j + n - 1) % n / 2])

/-- the assignments to `coarse_to_fine` (I:291, I:334) -/
def c2fOf (l : List (ℕ × List ℕ)) : ℕ → List ℕ :=
  l.foldl (fun f x => Function.update f x.1 x.2) fun _ => [0, 0, 0, 0]

/-- the calls of `add_parent` (I:298-301, I:339-342) on a vector of absent parents (I:265) -/
def f2cOf (l : List (ℕ × List ℕ)) : ℕ → Option ℕ × Option ℕ :=
  l.foldl (fun f x => x.2.foldl (fun f c => addParent f c x.1) f) fun _ => (none, none)

/-- I:245-354 `BuildTopology_`: the scales from `idx` on, `n` being the size at that point, `size` the number of
nodes of scale `idx` and `c2f` its `coarse_to_fine`. -/
def topo (n idx size : ℕ) (c2f : ℕ → List ℕ) : Except Fail (List (Scale T P I)) :=
  if h : 3 < n then
    if idx % 2 = 0 then
      if n % 2 ≠ 0 then .error .logic
      else
        match topo n (idx + 1) (n * n / 2) (c2fOf (plaquettes n)) with
        | .error e => .error e
        | .ok l => .ok (⟨size, fun _ => none, f2cOf (plaquettes n), c2f, fun _ => none⟩ :: l)
    else
      match topo (n / 2) (idx + 1) (n / 2 * (n / 2)) (c2fOf (diamonds n)) with
      | .error e => .error e
      | .ok l => .ok (⟨size, fun _ => none, f2cOf (diamonds n), c2f, fun _ => none⟩ :: l)
  else .ok [⟨size, fun _ => none, fun _ => (none, none), c2f, fun _ => none⟩]
termination_by 2 * n + (1 - idx % 2)
decreasing_by all_goals omega

/-- I:432-444 `ChildSplitType_` (`true`: Type1). At scale 0 the sublattice of the child (I:237-238). -/
def childType1 (cols s child role : ℕ) : Bool :=
  if s = 0 then (child / cols + child % cols) % 2 != 0
  else if s % 2 = 0 then !(role == 0 || role == 3)
  else role == 0 || role == 2

/-- I:186-189: the last position of `fid` among the children -/
def lastRole (children : List ℕ) (fid : ℕ) : Option ℕ :=
  (List.range 4).foldl (fun r k => if children.getD k 0 = fid then some k else r) none

/-- one slot of I:178-198: the split type found so far -/
def validateSlot (cols s fid : ℕ) (coarse : Scale T P I) (st : Option Bool) :
    Option ℕ → Except Fail (Option Bool)
  | none => .ok st
  | some pid =>
    if coarse.size ≤ pid then .error .logic
    else match lastRole (coarse.c2f pid) fid with
      | none => .error .logic
      | some role => match st with
        | none => .ok (some (childType1 cols s fid role))
        | some t => if t = childType1 cols s fid role then .ok (some t) else .error .logic

/-- I:174-202, one fine node -/
def validateNode (cols s fid : ℕ) (fine coarse : Scale T P I) : Except Fail Unit :=
  match validateSlot cols s fid coarse none (fine.f2c fid).1 with
  | .error e => .error e
  | .ok st => match validateSlot cols s fid coarse st (fine.f2c fid).2 with
    | .error e => .error e
    | .ok st => match st with
      | none => .error .logic
      | some _ => .ok ()

/-- I:169-204 `ValidateTopologyConsistency_` from scale `s` on -/
def validate (cols : ℕ) : ℕ → List (Scale T P I) → Except Fail Unit
  | s, fine :: coarse :: rest =>
    match (List.range fine.size).foldlM (fun _ fid => validateNode cols s fid fine coarse) () with
    | .error e => .error e
    | .ok _ => validate cols (s + 1) (coarse :: rest)
  | _, _ => .ok ()

/-- I:142-166 `Init`: the contractor after the call, and how the call ended. The geometry is replaced before the
checks. -/
def init (g : Trg T P I) (tn : Net T) : Trg T P I × Except Fail Unit :=
  let g := { g with periodic := tn.periodic, rows := tn.rows, cols := tn.cols }
  if !tn.periodic then (g, .error .invalid)
  else if tn.rows ≠ tn.cols then (g, .error .invalid)
  else if !isPow2 tn.rows && !(tn.rows % 3 == 0 && isPow2 (tn.rows / 3)) then (g, .error .invalid)
  else match topo (T := T) (P := P) (I := I) tn.rows 0 (tn.rows * tn.rows) (fun _ => []) with
    | .error e => ({ g with scales := [], ready := false }, .error e)
    | .ok scales => ({ g with scales := scales, ready := false }, validate tn.cols 0 scales)

/-- I:136-139 `ClearCache` -/
def clearCache (g : Trg T P I) : Trg T P I := { g with scales := [], ready := false }

/-! ### Filling the caches -/

/-- I:358-428 `SplitNode_` -/
def splitNode (o : Ops T P I A) (type1 isometry : Bool) : Option T → Except Fail (SplitData P I)
  | none => .error .runtime
  | some t =>
    .ok ⟨type1, (o.split type1 t).1, (o.split type1 t).2, if isometry then some (o.iso type1 t) else none⟩

/-- I:494-508: the first parent that lists the node decides; within it the first position. -/
def typeOfNode (cols s id : ℕ) (fine coarse : Scale T P I) : Option Bool :=
  [(fine.f2c id).1, (fine.f2c id).2].findSome? fun
    | none => none
    | some pid => ((List.range 4).find? fun k => (coarse.c2f pid).getD k 0 == id).map (childType1 cols s id)

/-- I:488-520, one node of the loop of `EnsureSplitCacheForNodes_` -/
def ensureNode (o : Ops T P I A) (cols s : ℕ) (coarse : Scale T P I) (fine : Scale T P I) (id : ℕ) :
    Except Fail (Scale T P I) :=
  if fine.size ≤ id then .error .range
  else match fine.tens id with
    | none => .error .logic
    | some t => match typeOfNode cols s id fine coarse with
      | none => .error .logic
      | some ty => match splitNode o ty true (some t) with
        | .error e => .error e
        | .ok d => .ok { fine with split := Function.update fine.split id (some d) }

/-- I:471-521 `EnsureSplitCacheForNodes_`; at the last scale (no coarser one) nothing is done. -/
def ensureSplit (o : Ops T P I A) (cols s : ℕ) (coarse : Option (Scale T P I)) (nodes : List ℕ)
    (fine : Scale T P I) : Except Fail (Scale T P I) :=
  match coarse with
  | none => .ok fine
  | some coarse => nodes.foldlM (ensureNode o cols s coarse) fine

/-- I:603-628: a coarse tensor from the split pieces of its children, which `get child role` returns. A piece
that was never computed is a default tensor; contracting it throws. -/
def coarseTen (o : Ops T P I A) (s : ℕ) (sp : ℕ → Option (SplitData P I)) (children : List ℕ) : Except Fail T :=
  match sp (children.getD 0 0), sp (children.getD 1 0), sp (children.getD 2 0), sp (children.getD 3 0) with
  | some d0, some d1, some d2, some d3 =>
    if s % 2 = 0 then .ok (o.plaq d0.q d1.q d2.p d3.p) else .ok (o.diam d0.p d1.p d2.q d3.q)
  | _, _, _, _ => .error .runtime

/-- I:602-629, one coarse node -/
def fillNode (o : Ops T P I A) (s : ℕ) (fine coarse : Scale T P I) (w : ℕ) : Except Fail (Scale T P I) :=
  match coarseTen o s fine.split (coarse.c2f w) with
  | .error e => .error e
  | .ok t => .ok { coarse with tens := Function.update coarse.tens w (some t) }

/-- I:601-629, the loop over the coarse nodes -/
def fillCoarse (o : Ops T P I A) (s : ℕ) (fine coarse : Scale T P I) : Except Fail (Scale T P I) :=
  (List.range coarse.size).foldlM (fillNode o s fine) coarse

/-- I:590-635: split the scale, then fill the next one, and so on. -/
def traceUp (o : Ops T P I A) (cols : ℕ) : ℕ → Scale T P I → List (Scale T P I) → Except Fail (List (Scale T P I))
  | s, fine, coarse :: rest =>
    match ensureSplit o cols s (some coarse) (List.range fine.size) fine with
    | .error e => .error e
    | .ok fine => match fillCoarse o s fine coarse with
      | .error e => .error e
      | .ok coarse => match traceUp o cols (s + 1) coarse rest with
        | .error e => .error e
        | .ok up => .ok (fine :: up)
  | _, fine, [] => .ok [fine]

/-- `std::map::find` -/
def find? {V : Type*} (m : List (ℕ × V)) (k : ℕ) : Option V := m.lookup k

/-- `m[k] = v` -/
def insert {V : Type*} (m : List (ℕ × V)) (k : ℕ) (v : V) : List (ℕ × V) :=
  if m.any (·.1 == k) then m.map fun x => if x.1 = k then (k, v) else x else m ++ [(k, v)]

/-- I:531-535, I:539-544, I:551-561: the updated tensor if there is one -/
def overlay (upd : List (ℕ × T)) (tens : ℕ → Option T) (i : ℕ) : Option T :=
  match find? upd i with
  | some t => some t
  | none => tens i

/-- I:524-565 `ComputeFinalAmplitude_`; `upd` is the overlay of the last scale, empty for none. -/
def finalAmp (o : Ops T P I A) (scales : List (Scale T P I)) (upd : List (ℕ × T)) : Except Fail A :=
  match scales.getLast? with
  | none => .ok o.zero
  | some top =>
    let t := overlay upd top.tens
    if top.size = 1 then
      match t 0 with
      | some t0 => .ok (o.fin1 t0)
      | none => .error .runtime
    else if top.size = 4 then
      match t 0, t 1, t 2, t 3 with
      | some t0, some t1, some t2, some t3 => .ok (o.fin2 t0 t1 t2 t3)
      | _, _, _, _ => .error .runtime
    else if top.size = 9 then
      match t 0, t 1, t 2, t 3, t 4, t 5, t 6, t 7, t 8 with
      | some t0, some t1, some t2, some t3, some t4, some t5, some t6, some t7, some t8 =>
        .ok (o.fin3 t0 t1 t2 t3 t4 t5 t6 t7 t8)
      | _, _, _, _, _, _, _, _, _ => .error .logic
    else .error .logic

/-- I:568-641 `Trace`: the contractor after the call and the value. With empty `scales_` the assignment to
`scales_[0].tens[i]` (I:581) is out of bounds. -/
def trace (o : Ops T P I A) (g : Trg T P I) (tn : Net T) : Except Fail (Trg T P I × A) :=
  if !g.periodic then .error .logic
  else if !tn.periodic then .error .invalid
  else if !g.hasParams then .error .logic
  else if g.ready then
    match finalAmp o g.scales [] with
    | .error e => .error e
    | .ok a => .ok (g, a)
  else match g.scales with
    | [] => .error .ub
    | s0 :: rest =>
      let s0 := { s0 with tens := fun i =>
        if i < g.rows * g.cols then some (tn.ten (i / g.cols) (i % g.cols)) else s0.tens i }
      match traceUp o g.cols 0 s0 rest with
      | .error e => .error e
      | .ok scales => match finalAmp o scales [] with
        | .error e => .error e
        | .ok a => .ok ({ g with scales := scales, ready := true }, a)

/-! ### Trials -/

/-- H:350-357 `Trial` -/
structure Trial (T P I A : Type*) where
  updates : List (List (ℕ × T))
  splits : List (List (ℕ × SplitData P I))
  amp : A

/-- I:761-762: `if (p != 0xFFFFFFFF) dirty_coarse_nodes.insert(p)` -/
def addDirty (d : List ℕ) : Option ℕ → List ℕ
  | none => d
  | some w => if w ∈ d then d else d ++ [w]

/-- I:757-763: the parents of the updated nodes -/
def dirty (fine : Scale T P I) (upd : List (ℕ × T)) : List ℕ :=
  upd.foldl (fun d x => addDirty (addDirty d (fine.f2c x.1).1) (fine.f2c x.1).2) []

/-- I:782-811 `get_split`: the splits stored so far, and the split of the child. -/
def getSplit (o : Ops T P I A) (cols s : ℕ) (isometry : Bool) (fine : Scale T P I) (upd : List (ℕ × T))
    (m : List (ℕ × SplitData P I)) (child role : ℕ) :
    Except Fail (List (ℕ × SplitData P I) × SplitData P I) :=
  match find? upd child with
  | none => match fine.split child with
    | some d => .ok (m, d)
    | none => .error .range
  | some t => match find? m child with
    | some d => .ok (m, d)
    | none => match splitNode o (childType1 cols s child role) isometry (some t) with
      | .error e => .error e
      | .ok d => .ok (insert m child d, d)

/-- I:768-828, one dirty coarse node -/
def propNode (o : Ops T P I A) (cols s : ℕ) (isometry : Bool) (fine coarse : Scale T P I) (upd : List (ℕ × T))
    (x : List (ℕ × T) × List (ℕ × SplitData P I)) (w : ℕ) :
    Except Fail (List (ℕ × T) × List (ℕ × SplitData P I)) := do
  let ch := coarse.c2f w
  let (m, d0) ← getSplit o cols s isometry fine upd x.2 (ch.getD 0 0) 0
  let (m, d1) ← getSplit o cols s isometry fine upd m (ch.getD 1 0) 1
  let (m, d2) ← getSplit o cols s isometry fine upd m (ch.getD 2 0) 2
  let (m, d3) ← getSplit o cols s isometry fine upd m (ch.getD 3 0) 3
  let t := if s % 2 = 0 then o.plaq d0.q d1.q d2.p d3.p else o.diam d0.p d1.p d2.q d3.q
  .ok (insert x.1 w t, m)

/-- I:745-830 `PropagateReplacements_` from scale `s` on, `upd` being the updates of that scale: the updates and the
splits of all scales from `s` on. -/
def propagate (o : Ops T P I A) (cols : ℕ) (isometry : Bool) : ℕ → List (Scale T P I) → List (ℕ × T) →
    Except Fail (List (List (ℕ × T)) × List (List (ℕ × SplitData P I)))
  | s, fine :: coarse :: rest, upd =>
    if upd.isEmpty then
      .ok (upd :: (coarse :: rest).map fun _ => [], [] :: (coarse :: rest).map fun _ => [])
    else
      match (dirty fine upd).foldlM (propNode o cols s isometry fine coarse upd) ([], []) with
      | .error e => .error e
      | .ok (up, m) => match propagate o cols isometry (s + 1) (coarse :: rest) up with
        | .error e => .error e
        | .ok (us, ms) => .ok (upd :: us, m :: ms)
  | _, [_], upd => .ok ([upd], [[]])
  | _, [], _ => .ok ([], [])

/-- I:655-658, I:733-735: the updates of scale 0; a later replacement of a site overwrites an earlier one. -/
def scale0 (cols : ℕ) (reps : List ((ℕ × ℕ) × T)) : List (ℕ × T) :=
  reps.foldl (fun m x => insert m (x.1.1 * cols + x.1.2) x.2) []

/-- I:645-671 `BeginTrialWithReplacement` -/
def beginTrial (o : Ops T P I A) (g : Trg T P I) (reps : List ((ℕ × ℕ) × T)) : Except Fail (Trial T P I A) :=
  if !g.periodic then .error .logic
  else if !g.hasParams then .error .logic
  else if !g.ready then .error .logic
  else
    let u0 := scale0 g.cols reps
    if u0.isEmpty then
      match finalAmp o g.scales [] with
      | .error e => .error e
      | .ok a => .ok ⟨g.scales.map fun _ => [], g.scales.map fun _ => [], a⟩
    else match propagate o g.cols true 0 g.scales u0 with
      | .error e => .error e
      | .ok (us, ms) => match finalAmp o g.scales (us.getLastD []) with
        | .error e => .error e
        | .ok a => .ok ⟨us, ms, a⟩

/-- I:722-742 `EvaluateReplacement` -/
def evaluate (o : Ops T P I A) (g : Trg T P I) (reps : List ((ℕ × ℕ) × T)) : Except Fail A :=
  if !g.periodic then .error .logic
  else if !g.hasParams then .error .logic
  else if !g.ready then .error .logic
  else if reps.isEmpty then finalAmp o g.scales []
  else match propagate o g.cols false 0 g.scales (scale0 g.cols reps) with
    | .error e => .error e
    | .ok (us, _) => finalAmp o g.scales (us.getLastD [])

/-- I:692-706: the split stored in the trial, if there is one -/
def transplant (sp : List (ℕ × SplitData P I)) (f : Scale T P I) (id : ℕ) : Scale T P I :=
  match find? sp id with
  | some d => { f with split := Function.update f.split id (some d) }
  | none => f

/-- I:681-717, one scale of `CommitTrial`. A write to `tens[id]` outside the vector is undefined. -/
def commitScale (o : Ops T P I A) (cols s : ℕ) (coarse : Option (Scale T P I)) (upd : List (ℕ × T))
    (sp : List (ℕ × SplitData P I)) (fine : Scale T P I) : Except Fail (Scale T P I) :=
  if upd.isEmpty then .ok fine
  else if upd.any fun x => decide (fine.size ≤ x.1) then .error .ub
  else
    let fine := upd.foldl (fun (f : Scale T P I) x =>
      { f with tens := Function.update f.tens x.1 (some x.2) }) fine
    if sp.isEmpty then ensureSplit o cols s coarse (upd.map Prod.fst) fine
    else
      let fine' := upd.foldl (fun (f : Scale T P I) x => transplant sp f x.1) fine
      ensureSplit o cols s coarse ((upd.map Prod.fst).filter fun id => (find? sp id).isNone) fine'

/-- I:680-718, all scales from `s` on -/
def commitUp (o : Ops T P I A) (cols : ℕ) : ℕ → List (Scale T P I) → List (List (ℕ × T)) →
    List (List (ℕ × SplitData P I)) → Except Fail (List (Scale T P I))
  | s, fine :: rest, u :: us, m :: ms =>
    match commitScale o cols s rest.head? u m fine with
    | .error e => .error e
    | .ok fine => match commitUp o cols (s + 1) rest us ms with
      | .error e => .error e
      | .ok up => .ok (fine :: up)
  | _, l, _, _ => .ok l

/-- I:674-719 `CommitTrial` -/
def commit (o : Ops T P I A) (g : Trg T P I) (t : Trial T P I A) : Except Fail (Trg T P I) :=
  if !g.periodic then .error .logic
  else if !g.hasParams then .error .logic
  else if !g.ready then .error .logic
  else if t.updates.length ≠ g.scales.length then .error .invalid
  else match commitUp o g.cols 0 g.scales t.updates t.splits with
    | .error e => .error e
    | .ok scales => .ok { g with scales := scales }

end QLPeps.Trg
