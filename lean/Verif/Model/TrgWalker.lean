import Verif.Model.TrgHoles
import Verif.Model.Energy
import Verif.Model.UpdatersPBC

/-!
# The wave-function component, the periodic updaters and the periodic solvers on the TRG contractor

Sources: `wave_function_component.h` (`W:` below), `square_nn_updater.h` (`N:`),
`square_spin_onehalf_j1j2_xxz_pbc.h` (`X:`), `heisenberg_square_pbc.h`, `transverse_field_ising_square_pbc.h` (`F:`).

The contractor is the one of `Model/Trg`, with its caches and trials. `A` is the type of amplitudes; amplitudes that
are not numbers are not modelled. The checks of `EvaluateAmplitude` for a network that was never filled (W:191-193)
and its warning (W:205-210) are left out.
-/

namespace QLPeps.TrgWalker

open QLPeps.Trg QLPeps.Updaters QLPeps.Sweep
open QLPeps.Peps (Tn)
open QLPeps.Energy (Bond pbcBonds pbcValue allSites pbcRight pbcDown tfimFlip spinZ)

noncomputable section

variable {T P I A : Type}

/-- `TPSWaveFunctionComponent<…, TRGContractor>` (W:134-140): configuration, amplitude, contractor and projected network; the
random numbers drawn by the updater are counted along. -/
abbrev Comp (T P I A : Type) := Walker A (Trg T P I × Net T)

/-- `TensorNetwork2D(sitps, config)` (tensor_network_2d_basic_impl.h:25-72) of a periodic split-index TPS, all of whose
components that are read are initialized (its checks do not fire) -/
def projected (rows cols : ℕ) (sitps : Site → ℕ → T) (cfg : Config) : Net T :=
  ⟨rows, cols, true, fun r c => sitps (r, c) (cfg (r, c))⟩

/-- `SetTruncateParams` (trg_contractor.h:247) -/
def setParams (g : Trg T P I) : Trg T P I := { g with hasParams := true }

/-- the constructor from a state and a configuration (W:156-163) and `EvaluateAmplitude` (W:190-212) -/
def create (o : Ops T P I A) (rows cols : ℕ) (sitps : Site → ℕ → T) (cfg : Config) (draws : ℕ) : Except Fail (Comp T P I A) :=
  let tn := projected rows cols sitps cfg
  match init ⟨rows, cols, false, false, [], false⟩ tn with
  | (_, .error e) => .error e
  | (g, .ok _) =>
    match trace o (setParams g) tn with
    | .error e => .error e
    | .ok (g, a) => .ok ⟨cfg, a, (g, tn), draws⟩

/-- `TPSWaveFunctionComponent::Trial` (W:223-228); the replacements are not read after `BeginTrial` -/
structure Trial (T P I A : Type) where
  amp : A
  newCfgs : List (Site × ℕ)
  token : Trg.Trial T P I A

/-- `BeginTrial` (W:230-250) on the component whose truncation parameters have been set (W:232-234) -/
def beginTrial (o : Ops T P I A) (w : Comp T P I A) (reps : List (Site × T)) (newCfgs : List (Site × ℕ)) :
    Except Fail (Trial T P I A) :=
  match Trg.beginTrial o w.env.1 reps with
  | .error e => .error e
  | .ok t => .ok ⟨t.amp, newCfgs, t⟩

/-- W:266-269: one site of `AcceptTrial`; `UpdateSiteTensor` (tensor_network_2d_basic_impl.h:83-108) puts the tensor of the new
state into the network -/
def applySite (sitps : Site → ℕ → T) (w : Comp T P I A) (p : Site × ℕ) : Comp T P I A :=
  { w with
    config := setSite w.config p.1 p.2
    env := (w.env.1, { w.env.2 with ten := fun r c => (if (r, c) = p.1 then sitps p.1 p.2 else w.env.2.ten r c) }) }

/-- `AcceptTrial` (W:256-302) with a contractor that has `CommitTrial` -/
def acceptTrial (o : Ops T P I A) (sitps : Site → ℕ → T) (w : Comp T P I A) (t : Trial T P I A) : Except Fail (Comp T P I A) :=
  match commit o w.env.1 t.token with
  | .error e => .error e
  | .ok g => .ok { t.newCfgs.foldl (applySite sitps) { w with env := (g, w.env.2) } with amp := t.amp }

/-- W:232-234: `contractor.SetTruncateParams(this->trun_para)` -/
def withParams (w : Comp T P I A) : Comp T P I A := { w with env := (setParams w.env.1, w.env.2) }

section
variable {K : Type} [Field K] [LinearOrder K]

/-- `MCUpdateSquareNNExchangePBC::TwoSiteNNUpdateLocalImpl` (N:198-244) -/
def exchange (o : Ops T P I A) (sitps : Site → ℕ → T) (ab : A → K) (ξ : ℕ → K) (s1 s2 : Site) (w : Comp T P I A) :
    Except Fail (Comp T P I A × Bool) :=
  if w.config s1 = w.config s2 then .ok (w, false)
  else
    let c1 := w.config s1
    let c2 := w.config s2
    let w := withParams w
    match beginTrial o w [(s1, sitps s1 c2), (s2, sitps s2 c1)] [(s1, c2), (s2, c1)] with
    | .error e => .error e
    | .ok t =>
      let acc := metropolisAccept (ab t.amp) (ab w.amp) (ξ w.draws)
      let w := { w with draws := w.draws + metropolisDraws (ab t.amp) (ab w.amp) }
      if acc then
        match acceptTrial o sitps w t with
        | .error e => .error e
        | .ok w => .ok (w, true)
      else .ok (w, false)

/-- N:319-345: one entry of `trials` and `alternative_psi` -/
def spaceTrial (o : Ops T P I A) (sitps : Site → ℕ → T) (dim : ℕ) (s1 s2 : Site) (w : Comp T P I A) (p : ℕ × ℕ) :
    Except Fail (A × Option (Trial T P I A)) :=
  if p.1 * dim + p.2 = w.config s1 * dim + w.config s2 then .ok (w.amp, none)
  else match beginTrial o w [(s1, sitps s1 p.1), (s2, sitps s2 p.2)] [(s1, p.1), (s2, p.2)] with
    | .error e => .error e
    | .ok t => .ok (t.amp, some t)

/-- N:319-320: the two nested loops over the states of the two sites -/
def statePairs (dim : ℕ) : List (ℕ × ℕ) :=
  (List.range dim).flatMap fun c1 => (List.range dim).map fun c2 => (c1, c2)

/-- `MCUpdateSquareNNFullSpaceUpdatePBC::TwoSiteNNUpdateLocalImpl` (N:302-373). A zero amplitude (division by zero), an
initial state out of range and a state the draw does not define are undefined. -/
def space (o : Ops T P I A) (sitps : Site → ℕ → T) (ab : A → K) (ξ : ℕ → K) (dim : ℕ) (s1 s2 : Site) (w : Comp T P I A) :
    Except Fail (Comp T P I A × Bool) :=
  let init := w.config s1 * dim + w.config s2
  if init < dim * dim then
    let w := withParams w
    match (statePairs dim).mapM (spaceTrial o sitps dim s1 s2 w) with
    | .error e => .error e
    | .ok trials =>
      match normWeights ab (trials.map Prod.fst) (ab w.amp) with
      | none => .error .ub
      | some ws => match SuwaTodo.suwaTodo ws init (ξ w.draws) with
        | none => .error .ub
        | some fin =>
          let w := { w with draws := w.draws + 1 }
          if fin = init then .ok (w, false)
          else match trials[fin]? with
            | some (_, some t) =>
              match acceptTrial o sitps w t with
              | .error e => .error e
              | .ok w => .ok (w, true)
            | _ => .error .ub
  else .error .ub

end

/-- an update of a component that may have failed before -/
def lift (f : Comp T P I A → Except Fail (Comp T P I A × Bool)) : Except Fail (Comp T P I A) → Except Fail (Comp T P I A) × Bool
  | .error e => (.error e, false)
  | .ok w => match f w with
    | .error e => (.error e, false)
    | .ok (w, b) => (.ok w, b)

/-! ### The solvers -/

variable {𝕜 : Type} [RCLike 𝕜]

/-- X:263-294 `EvaluateCouplingEnergy_` (heisenberg_square_pbc.h:246-285 `EvaluateBondEnergy_`) -/
def coupling (o : Ops (Tn 𝕜) P I 𝕜) (sitps : Site → ℕ → Tn 𝕜) (g : Trg (Tn 𝕜) P I) (cfg : Config) (inv jz jxy : 𝕜)
    (a b : Site) : Except Fail 𝕜 :=
  if cfg a ≠ cfg b then
    match Trg.evaluate o g [(a, sitps a (cfg b)), (b, sitps b (cfg a))] with
    | .error e => .error e
    | .ok psiEx => .ok (pbcValue jz jxy cfg a b inv psiEx)
  else .ok (pbcValue jz jxy cfg a b inv 0)

/-- X:92-113: one bond, added to the energy -/
def addBond (o : Ops (Tn 𝕜) P I 𝕜) (sitps : Site → ℕ → Tn 𝕜) (g : Trg (Tn 𝕜) P I) (cfg : Config) (inv jz jxy jz2 jxy2 : 𝕜)
    (e : 𝕜) (b : Bond) : Except Fail 𝕜 :=
  match b.kind with
  | .h | .v => match coupling o sitps g cfg inv jz jxy b.a b.b with
    | .error f => .error f
    | .ok v => .ok (e + v)
  | .dr | .ur => match coupling o sitps g cfg inv jz2 jxy2 b.a b.b with
    | .error f => .error f
    | .ok v => .ok (e + v)

/-- what a solver leaves behind: the energy, `psi_list`, `hole_res` (if holes were asked for) and the component -/
structure Solved (T P I 𝕜 : Type) where
  energy : 𝕜
  psi : List 𝕜
  holes : Option (ℕ → ℕ → T)
  comp : Comp T P I 𝕜

/-- X:79-87: the holes -/
def daggedHoles (g : Trg (Tn 𝕜) (Tn 𝕜) (Iso 𝕜)) (tn : Net (Tn 𝕜)) : Except Fail (ℕ → ℕ → Tn 𝕜) :=
  match punchAllHoles g tn with
  | .error e => .error e
  | .ok H => .ok fun r c => QLPeps.Peps.dag (H r c)

/-- X:55-115 `CalEnergyAndHolesImpl` (heisenberg_square_pbc.h:65-135 is the case `jz2 = jxy2 = pin = 0`). Division
by an amplitude zero gives infinities, which are not modelled (here the quotient is zero). -/
def xxz [DecidableEq 𝕜] (o : Ops (Tn 𝕜) (Tn 𝕜) (Iso 𝕜) 𝕜) (jz jxy jz2 jxy2 pin : 𝕜) (calcHoles : Bool) (sitps : Site → ℕ → Tn 𝕜)
    (w : Comp (Tn 𝕜) (Tn 𝕜) (Iso 𝕜) 𝕜) : Except Fail (Solved (Tn 𝕜) (Tn 𝕜) (Iso 𝕜) 𝕜) :=
  let tn := w.env.2
  if !tn.periodic then .error .invalid
  else match trace o (setParams w.env.1) tn with
    | .error e => .error e
    | .ok (g, psi) =>
      match (if calcHoles then (daggedHoles g tn).map some else .ok none) with
      | .error e => .error e
      | .ok holes =>
        match (pbcBonds tn.rows tn.cols (jz2 ≠ 0 || jxy2 ≠ 0)).foldlM
            (addBond o sitps g w.config (1 / psi) jz jxy jz2 jxy2) 0 with
        | .error e => .error e
        | .ok e => .ok ⟨e + if pin = 0 then 0 else -pin * spinZ (w.config (0, 0)), [psi], holes, { w with env := (g, tn) }⟩

/-- F:110-118: the transverse field at one site. `1 - s` wraps around for a state above 1. -/
def addField (sitps : Site → ℕ → Tn 𝕜) (H : ℕ → ℕ → Tn 𝕜) (cfg : Config) (h inv : 𝕜) (e : 𝕜) (s : Site) : Except Fail 𝕜 :=
  if 1 < cfg s then .error .ub
  else
    let psiEx := (QLPeps.Peps.contractN (H s.1 s.2) [0, 1, 2, 3] (sitps s (1 - cfg s)) [0, 1, 2, 3]).elem []
    .ok (e + tfimFlip h inv psiEx)

/-- F:84-95: the diagonal part -/
def isingDiag (cfg : Config) (rows cols : ℕ) : 𝕜 :=
  (allSites rows cols).foldl (fun e s =>
    (e + if cfg s = cfg (pbcRight cols s) then (-1 : 𝕜) else 1) +
      if cfg s = cfg (pbcDown rows s) then (-1 : 𝕜) else 1) (0 : 𝕜)

/-- F:52-123 `CalEnergyAndHolesImpl`: the amplitudes with one spin flipped come from the holes -/
def tfim (o : Ops (Tn 𝕜) (Tn 𝕜) (Iso 𝕜) 𝕜) (h : 𝕜) (calcHoles : Bool) (sitps : Site → ℕ → Tn 𝕜)
    (w : Comp (Tn 𝕜) (Tn 𝕜) (Iso 𝕜) 𝕜) : Except Fail (Solved (Tn 𝕜) (Tn 𝕜) (Iso 𝕜) 𝕜) :=
  let tn := w.env.2
  if !tn.periodic then .error .invalid
  else match trace o (setParams w.env.1) tn with
    | .error e => .error e
    | .ok (g, psi) =>
      match punchAllHoles g tn with
      | .error e => .error e
      | .ok H =>
        match (allSites tn.rows tn.cols).foldlM (addField sitps H w.config h (1 / psi)) 0 with
        | .error e => .error e
        | .ok ex => .ok ⟨isingDiag w.config tn.rows tn.cols + ex, [psi],
            if calcHoles then some fun r c => QLPeps.Peps.dag (H r c) else none, { w with env := (g, tn) }⟩

end

end QLPeps.TrgWalker
