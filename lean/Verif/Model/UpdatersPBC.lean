import Verif.Model.Updaters

/-!
# Full-space updates with periodic boundaries

`MCUpdateSquareNNFullSpaceUpdatePBC` of square_nn_updater.h and the trials of
wave_function_component.h it works with.
-/

namespace QLPeps.Updaters

variable {A K Γ : Type*}

/-- `TPSWaveFunctionComponent::Trial` (wave_function_component.h:223-228): the amplitude of the
proposed configuration and the proposed site states. The contractor's own trial data is not kept: accepting
a trial is modelled by `C.erase`, as in `nnExchangePBC`. -/
structure Trial (A : Type*) where
  amp : A
  newCfgs : List (Site × ℕ)

/-- `TPSWaveFunctionComponent::BeginTrial` (wave_function_component.h:230-250) for two sites. -/
def beginTrial (C : Contractor A Γ) (s1 s2 : Site) (d : Orient) (c1 c2 : ℕ) (w : Walker A Γ) : Trial A :=
  ⟨C.nnTrace w.env w.config s1 s2 d c1 c2, [(s1, c1), (s2, c2)]⟩

/-- `TPSWaveFunctionComponent::AcceptTrial` (wave_function_component.h:256-302). -/
def acceptTrial (C : Contractor A Γ) (t : Trial A) (w : Walker A Γ) : Walker A Γ :=
  updateLocal C t.amp t.newCfgs w

section SuwaTodo
variable [Field K] [LinearOrder K]

/-- square_nn_updater.h:319-345: the two nested loops over the local states. The entry of the
current state is the current amplitude and no trial (a default-constructed one). -/
def fullSpaceTrials (C : Contractor A Γ) (dim : ℕ) (s1 s2 : Site) (d : Orient) (w : Walker A Γ) :
    List (A × Option (Trial A)) :=
  (List.range dim).flatMap fun c1 => (List.range dim).map fun c2 =>
    if c1 * dim + c2 = w.config s1 * dim + w.config s2 then (w.amp, none)
    else
      let t := beginTrial C s1 s2 d c1 c2 w
      (t.amp, some t)

/-- `MCUpdateSquareNNFullSpaceUpdatePBC::TwoSiteNNUpdateLocalImpl` (square_nn_updater.h:302-373). -/
def fullSpacePBC (C : Contractor A Γ) (ab : A → K) (ξ : ℕ → K) (dim : ℕ) (s1 s2 : Site)
    (d : Orient) (w : Walker A Γ) : Option (Walker A Γ × Bool) :=
  let init := w.config s1 * dim + w.config s2
  if init < dim * dim then
    let trials := fullSpaceTrials C dim s1 s2 d w
    match normWeights ab (trials.map Prod.fst) (ab w.amp) with
    | none => none
    | some ws => match SuwaTodo.suwaTodo ws init (ξ w.draws) with
      | none => none
      | some fin =>
        let w' := { w with draws := w.draws + 1 }
        if fin = init then some (w', false)
        else match trials[fin]? with
          | some (_, some t) => some (acceptTrial C t w', true)
          | _ => none
  else none

end SuwaTodo

end QLPeps.Updaters
