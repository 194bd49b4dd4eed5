import Verif.Model.Sweep
import Verif.Model.SuwaTodo
import Verif.Model.NextPerm
import Mathlib.Data.List.Sort

/-!
# Model of the local Monte-Carlo updates

Sources (under `/repo/include/qlpeps/vmc_basic/`):
`configuration_update_strategies/square_nn_updater.h`,
`configuration_update_strategies/square_3site_updater.h`,
`configuration_update_strategies/square_hubbard_u1u1_updater.h`,
`wave_function_component.h`.

* `A` is the type of amplitudes (`TenElemT`), `ab : A → K` is `std::abs`.
* `Γ` is everything the contractor caches (an arbitrary type); the traces it
  returns are arbitrary functions of the caches and the current configuration.
* Random numbers come from a stream `ξ : ℕ → K`; `draws` counts how many were used.
-/

namespace QLPeps.Updaters

open QLPeps.Sweep

/-- `TPSWaveFunctionComponent` (wave_function_component.h:136-379): configuration,
amplitude and contractor, plus the number of random numbers consumed by the updater.
The tensor network `tn` is a function of the configuration (`UpdateSiteTensor` is
called for every configuration change), so it is not stored. -/
structure Walker (A Γ : Type*) where
  config : Config
  amp : A
  env : Γ
  draws : ℕ

/-- The contractor as an oracle: what the replacement traces return and how the
caches change. `erase` is `EraseEnvsAfterUpdate` (wave_function_component.h:372). -/
structure Contractor (A Γ : Type*) where
  nnTrace : Γ → Config → Site → Site → Orient → ℕ → ℕ → A
  tnnTrace : Γ → Config → Site → Site → Site → Orient → ℕ → ℕ → ℕ → A
  erase : Config → Site → Γ → Γ
  generateBMPSApproach : Config → Pos → Γ → Γ
  initBTen : Config → Pos → ℕ → Γ → Γ
  growFullBTen : Config → Pos → ℕ → ℕ → Γ → Γ
  shiftBTenWindow : Config → Pos → Γ → Γ
  shiftBMPSWindow : Config → Pos → Γ → Γ
  deleteInnerBMPS : Config → Pos → Γ → Γ

variable {A Γ K : Type*}

/-- assign one site of a configuration -/
def setSite (c : Config) (s : Site) (v : ℕ) : Config := fun t => if t = s then v else c t

/-- `UpdateSingleSite_` (wave_function_component.h:361-378). -/
def updateSingleSite (C : Contractor A Γ) (s : Site) (v : ℕ) (w : Walker A Γ) : Walker A Γ :=
  let c := setSite w.config s v
  { w with config := c, env := C.erase c s w.env }

/-- `UpdateLocal` (wave_function_component.h:345-352): the sites in argument order, then
the amplitude. -/
def updateLocal (C : Contractor A Γ) (newAmp : A) (l : List (Site × ℕ)) (w : Walker A Γ) :
    Walker A Γ :=
  { l.foldl (fun w p => updateSingleSite C p.1 p.2 w) w with amp := newAmp }

/-- the contractor calls of a sweep acting on the walker -/
def envOps (C : Contractor A Γ) : EnvOps (Walker A Γ) where
  generateBMPSApproach p w := { w with env := C.generateBMPSApproach w.config p w.env }
  initBTen p i w := { w with env := C.initBTen w.config p i w.env }
  growFullBTen p i r w := { w with env := C.growFullBTen w.config p i r w.env }
  shiftBTenWindow p w := { w with env := C.shiftBTenWindow w.config p w.env }
  shiftBMPSWindow p w := { w with env := C.shiftBMPSWindow w.config p w.env }
  deleteInnerBMPS p w := { w with env := C.deleteInnerBMPS w.config p w.env }

section Metropolis
variable [LE K] [DecidableLE K] [LT K] [DecidableLT K] [Div K] [Mul K]

/-- square_nn_updater.h:169-180 and 226-234: accept/reject. No order axioms are assumed
of `K`, so a comparison with NaN (always false) is included. -/
def metropolisAccept (absB absA u : K) : Bool :=
  if absA ≤ absB then true
  else
    let div := absB / absA
    let P := div * div
    decide (u < P)

/-- square_nn_updater.h:169: whether the acceptance test consumes a random number. -/
def metropolisDraws (absB absA : K) : ℕ := if absA ≤ absB then 0 else 1

/-- `MCUpdateSquareNNExchangeOBC::TwoSiteNNUpdateLocalImpl` (square_nn_updater.h:146-188). -/
def nnExchange (C : Contractor A Γ) (ab : A → K) (ξ : ℕ → K) (s1 s2 : Site) (d : Orient)
    (w : Walker A Γ) : Walker A Γ × Bool :=
  if w.config s1 = w.config s2 then (w, false)
  else
    let psiB := C.nnTrace w.env w.config s1 s2 d (w.config s2) (w.config s1)
    let acc := metropolisAccept (ab psiB) (ab w.amp) (ξ w.draws)
    let w' := { w with draws := w.draws + metropolisDraws (ab psiB) (ab w.amp) }
    if acc then
      (updateLocal C psiB [(s1, w.config s2), (s2, w.config s1)] w', true)
    else (w', false)

/-- `MCUpdateSquareNNExchangePBC::TwoSiteNNUpdateLocalImpl` (square_nn_updater.h:200-243) with
`BeginTrial`/`AcceptTrial` (wave_function_component.h:230-302). The trial amplitude is the
contractor's replacement trace; acceptance writes `new_cfgs` in order and the trial
amplitude, the contractor cache update is `C.erase`. -/
def nnExchangePBC (C : Contractor A Γ) (ab : A → K) (ξ : ℕ → K) (s1 s2 : Site) (d : Orient)
    (w : Walker A Γ) : Walker A Γ × Bool :=
  if w.config s1 = w.config s2 then (w, false)
  else
    let c1 := w.config s1
    let c2 := w.config s2
    let psiB := C.nnTrace w.env w.config s1 s2 d c2 c1
    let acc := metropolisAccept (ab psiB) (ab w.amp) (ξ w.draws)
    let w' := { w with draws := w.draws + metropolisDraws (ab psiB) (ab w.amp) }
    if acc then (updateLocal C psiB [(s1, c2), (s2, c1)] w', true) else (w', false)

end Metropolis

section SuwaTodo
variable [Field K] [LinearOrder K]

/-- square_nn_updater.h:279-282, square_hubbard_u1u1_updater.h:139-143:
`weights[i] = std::norm(psi_i / amplitude)`, i.e. `(|psi_i|/|amplitude|)^2`. A zero
amplitude gives NaN or infinite weights; the behaviour is then left undefined (`none`). -/
def normWeights (ab : A → K) (psis : List A) (ref : K) : Option (List K) :=
  if ref = 0 then none else some (psis.map (fun p => (ab p / ref) * (ab p / ref)))

/-- Common tail of the updaters based on `SuwaTodoStateUpdate`: draw the final state from
candidate list `cands` (local states of the touched sites), apply it if it differs.
Out-of-range indexing is `none`.
(square_nn_updater.h:283-291, square_hubbard_u1u1_updater.h:146-156,
square_3site_updater.h:150-158). -/
def suwaTodoTail (C : Contractor A Γ) (ξ : ℕ → K) (sites : List Site)
    (cands : List (List ℕ)) (psis : List A) (weights : Option (List K)) (init : ℕ)
    (w : Walker A Γ) : Option (Walker A Γ × Bool) :=
  match weights with
  | none => none
  | some ws => match SuwaTodo.suwaTodo ws init (ξ w.draws) with
    | none => none
    | some fin =>
      let w' := { w with draws := w.draws + 1 }
      if fin = init then some (w', false)
      else match cands[fin]?, psis[fin]? with
        | some vals, some psi => some (updateLocal C psi (sites.zip vals) w', true)
        | _, _ => none

/-- `MCUpdateSquareNNFullSpaceUpdateOBC::TwoSiteNNUpdateLocalImpl`
(square_nn_updater.h:257-292). `dim` is `sitps.PhysicalDim()`. State `k` stands for
`(k / dim, k % dim)`. -/
def fullSpace (C : Contractor A Γ) (ab : A → K) (ξ : ℕ → K) (dim : ℕ) (s1 s2 : Site)
    (d : Orient) (w : Walker A Γ) : Option (Walker A Γ × Bool) :=
  let init := w.config s1 * dim + w.config s2
  if init < dim * dim then   -- `alternative_psi[init_config]`, otherwise out of range
    let psis := (List.range (dim * dim)).map (fun k =>
      if k ≠ init then C.nnTrace w.env w.config s1 s2 d (k / dim) (k % dim) else w.amp)
    suwaTodoTail C ξ [s1, s2] ((List.range (dim * dim)).map (fun k => [k / dim, k % dim]))
      psis (normWeights ab psis (ab w.amp)) init w
  else none

/-- `HubbardConfig2SpinCounts` (square_hubbard_u1u1_updater.h:30-40); `none` is `std::abort`. -/
def hubbardSpinCounts : ℕ → Option (ℕ × ℕ)
  | 0 => some (1, 1)
  | 1 => some (1, 0)
  | 2 => some (0, 1)
  | 3 => some (0, 0)
  | _ => none

/-- `EnumerateHubbardTwoSiteConfigsWithU1U1` (square_hubbard_u1u1_updater.h:57-72). -/
def enumerateHubbard (nUp nDn : ℕ) : List (ℕ × ℕ) :=
  (List.range 4).flatMap fun c1 => (List.range 4).filterMap fun c2 =>
    match hubbardSpinCounts c1, hubbardSpinCounts c2 with
    | some (u1, d1), some (u2, d2) =>
      if u1 + u2 = nUp ∧ d1 + d2 = nDn then some (c1, c2) else none
    | _, _ => none

/-- `MCUpdateSquareNNHubbardU1U1OBC::TwoSiteNNUpdateLocalImpl`
(square_hubbard_u1u1_updater.h:94-157). -/
def hubbardU1U1 (C : Contractor A Γ) (ab : A → K) (ξ : ℕ → K) (s1 s2 : Site) (d : Orient)
    (w : Walker A Γ) : Option (Walker A Γ × Bool) :=
  match hubbardSpinCounts (w.config s1), hubbardSpinCounts (w.config s2) with
  | some (u1, d1), some (u2, d2) =>
    let valid := enumerateHubbard (u1 + u2) (d1 + d2)
    if valid.length ≤ 1 then some (w, false)
    else
      let idx := valid.findIdx (fun p => p.1 == w.config s1 && p.2 == w.config s2)
      let init := if idx < valid.length then idx else 0
      let psis := valid.mapIdx (fun i p =>
        if i ≠ init then C.nnTrace w.env w.config s1 s2 d p.1 p.2 else w.amp)
      suwaTodoTail C ξ [s1, s2] (valid.map (fun p => [p.1, p.2])) psis
        (normWeights ab psis (ab w.amp)) init w
  | _, _ => none

/-- `std::sort` and the `do push_back while (std::next_permutation)` loop
(square_3site_updater.h:121-127); six iterations always suffice (proved). -/
def permutations3 (x y z : ℕ) : Option (List (List ℕ)) :=
  NextPerm.permLoop 6 ([x, y, z].insertionSort (· ≤ ·))

/-- `MCUpdateSquareTNN3SiteExchange::TNN3SiteUpdateImpl` (square_3site_updater.h:108-159). -/
def tnn3Exchange (C : Contractor A Γ) (ab : A → K) (ξ : ℕ → K) (s1 s2 s3 : Site) (d : Orient)
    (w : Walker A Γ) : Option (Walker A Γ × Bool) :=
  let a := w.config s1
  let b := w.config s2
  let c := w.config s3
  if a = b ∧ b = c then some (w, false)
  else
    match permutations3 a b c with
    | none => none
    | some perms =>
      let init := perms.findIdx (fun p => p == [a, b, c])
      let psis := perms.mapIdx (fun i p =>
        if i ≠ init then
          C.tnnTrace w.env w.config s1 s2 s3 d (p.getD 0 0) (p.getD 1 0) (p.getD 2 0)
        else w.amp)
      let psiMax := psis.foldl (fun m p => max m (ab p)) 0
      suwaTodoTail C ξ [s1, s2, s3] perms psis (normWeights ab psis psiMax) init w

/-- square_3site_updater.h:39-42: `amplitude = ReplaceTNNSiteTrace` with the current states. -/
def refresh3 (C : Contractor A Γ) (s1 s2 s3 : Site) (d : Orient) (w : Walker A Γ) : Walker A Γ :=
  { w with amp := C.tnnTrace w.env w.config s1 s2 s3 d (w.config s1) (w.config s2) (w.config s3) }

end SuwaTodo

/-- contractor calls on an execution that may already have hit undefined behaviour -/
def envOpsOption (C : Contractor A Γ) : EnvOps (Option (Walker A Γ)) where
  generateBMPSApproach p := Option.map ((envOps C).generateBMPSApproach p)
  initBTen p i := Option.map ((envOps C).initBTen p i)
  growFullBTen p i r := Option.map ((envOps C).growFullBTen p i r)
  shiftBTenWindow p := Option.map ((envOps C).shiftBTenWindow p)
  shiftBMPSWindow p := Option.map ((envOps C).shiftBMPSWindow p)
  deleteInnerBMPS p := Option.map ((envOps C).deleteInnerBMPS p)

/-- run a partial local update inside a sweep -/
def liftUpd {W : Type*} (f : W → Option (W × Bool)) : Option W → Option W × Bool
  | none => (none, false)
  | some w => match f w with
    | none => (none, false)
    | some (w', b) => (some w', b)

end QLPeps.Updaters
