import Verif.Model.BmpsTraversal
import Verif.Model.Energy

/-!
# Model of the energy solvers running on the boundary-MPS contractor

The solvers of `Model/Energy` with the contractor of `Model/Bmps` in place of the oracle: they
traverse the projected network of a sample (`Model/Traversal`) and combine what they are shown.
-/

namespace QLPeps.SolverRun

universe u

open QLPeps.Contractor QLPeps.Energy
open QLPeps.Peps (Tn Lib dag)
open QLPeps.Bmps (tensorOps5)

noncomputable section

variable {𝕜 : Type u} [RCLike 𝕜]

/-- what a solver does with one visit: an amplitude is kept as `inv_psi = 1.0 / psi`
(square_nnn_energy_solver.h:151; bond_traversal_mixin.h:72, 128); everything else contributes the
energy `term` computes from the visit and `inv_psi` -/
def step (term : Visit (Tn 𝕜) 𝕜 (Tn 𝕜) → 𝕜 → Option 𝕜) (x : 𝕜 × 𝕜) (v : Visit (Tn 𝕜) 𝕜 (Tn 𝕜)) :
    Option (𝕜 × 𝕜) :=
  match v with
  | .psi _ _ a => some (1 / a, x.2)
  | v => (term v x.1).map fun e => (x.1, x.2 + e)

/-- the sum of all contributions (square_nnn_energy_solver.h:97) -/
def energyOf (term : Visit (Tn 𝕜) 𝕜 (Tn 𝕜) → 𝕜 → Option 𝕜) (vs : List (Visit (Tn 𝕜) 𝕜 (Tn 𝕜))) :
    Option 𝕜 :=
  (vs.foldlM (step term) (0, 0)).map Prod.snd

/-- `psi_list` -/
def psiList (vs : List (Visit (Tn 𝕜) 𝕜 (Tn 𝕜))) : List 𝕜 :=
  vs.filterMap fun
    | .psi _ _ a => some a
    | _ => none

/-- the writes `hole_res(site) = Dag(PunchHole(…))` (square_nnn_energy_solver.h:163), in order -/
def holeList (vs : List (Visit (Tn 𝕜) 𝕜 (Tn 𝕜))) : List (Site × Tn 𝕜) :=
  vs.filterMap fun
    | .hole s h => some (s, dag h)
    | _ => none

/-- What a solver returns: the energy, the holes and the amplitudes; and the caches it leaves. -/
structure Result (𝕜 : Type u) where
  energy : 𝕜
  holes : List (Site × Tn 𝕜)
  psi : List 𝕜
  caches : Ctr (List (Tn 𝕜)) (Tn 𝕜) (Tn 𝕜)

variable (lib : Lib 𝕜) (rows cols : ℕ) (sitps : Site → ℕ → Tn 𝕜) (cfg : Config)

/-- the trace with the states of two sites exchanged:
`Replace…SiteTrace(…, split_index_tps(site1)[config2], split_index_tps(site2)[config1])`
(square_spin_onehalf_xxz_obc.h:90-93, 126-131). The code asks only if the two states differ; the bond
energies of `Model/Energy` do not use the answer otherwise. -/
def exchanged (q : Tn 𝕜 → Tn 𝕜 → Option 𝕜) (s1 s2 : Site) : Option 𝕜 :=
  q (sitps s1 (cfg s2)) (sitps s2 (cfg s1))

/-- the kind of a bond -/
def orientKind : Orient → Kind
  | .horizontal => .h
  | .vertical => .v

/-- the kind of a diagonal -/
def diagKind : Diag → Kind
  | .leftUpToRightDown => .dr
  | .leftDownToRightUp => .ur

/-- the calls of `EvaluateBondEnergy` and `EvaluateNNNEnergy`
(square_nnn_energy_solver.h:188-198, 216-249, 300-310) -/
def pairTerm (m : PairModel 𝕜) (v : Visit (Tn 𝕜) 𝕜 (Tn 𝕜)) (inv : 𝕜) : Option 𝕜 :=
  match v with
  | .bond d s1 s2 q => (exchanged sitps cfg q s1 s2).map (m.bond cfg ⟨s1, s2, orientKind d⟩ inv)
  | .link d s1 s2 q => (exchanged sitps cfg q s1 s2).map (m.bond cfg ⟨s1, s2, diagKind d⟩ inv)
  | _ => some 0

/-- `SquareNNNModelEnergySolver::CalEnergyAndHolesImpl` (square_nnn_energy_solver.h:79-102), bosonic. -/
def pairSolver (isZero : 𝕜 → Bool) (calchols : Bool) (m : PairModel 𝕜)
    (c : Ctr (List (Tn 𝕜)) (Tn 𝕜) (Tn 𝕜)) : Except Fail (Result 𝕜) := do
  let r ← Contractor.traverseAll (tensorOps5 lib rows cols) rows cols (project sitps cfg) isZero
    ⟨true, calchols, false, m.nnn, false, fun _ => none⟩ c
  let e ← access (energyOf (pairTerm sitps cfg m) r.1)
  pure ⟨e + m.onsite cfg, holeList r.1, psiList r.1, r.2⟩

/-- the transverse-field terms (transverse_field_ising_square_obc.h:191-205) -/
def tfimTerm (h : 𝕜) (v : Visit (Tn 𝕜) 𝕜 (Tn 𝕜)) (inv : 𝕜) : Option 𝕜 :=
  match v with
  | .site s q => (q (sitps s (1 - cfg s))).map (tfimFlip h inv)
  | _ => some 0

/-- `TransverseFieldIsingSquareOBC::CalEnergyAndHolesImplParsed`
(transverse_field_ising_square_obc.h:211-247): one pass over the rows, no check for zero -/
def tfimSolver (calchols : Bool) (h : 𝕜) (c : Ctr (List (Tn 𝕜)) (Tn 𝕜) (Tn 𝕜)) :
    Except Fail (Result 𝕜) := do
  let r ← traverseHorizontal (tensorOps5 lib rows cols) rows cols (project sitps cfg) (fun _ => false)
    ⟨true, calchols, true, false, false, fun _ => none⟩ c
  let e ← access (energyOf (tfimTerm sitps cfg h) r.1)
  pure ⟨e + tfimDiagOBC cfg rows cols, holeList r.1, psiList r.1, r.2⟩

/-- the bonds of the triangular J1-J2 model
(spin_onehalf_triangle_heisenbergJ1J2_sqrpeps.h:337-349, 356-397, 413-440); `e1 + j2 * e2` is added
up term by term -/
def triTerm (j2 : 𝕜) (v : Visit (Tn 𝕜) 𝕜 (Tn 𝕜)) (inv : 𝕜) : Option 𝕜 :=
  match v with
  | .bond _ s1 s2 q => (exchanged sitps cfg q s1 s2).map (xxzValue 1 1 cfg s1 s2 inv)
  | .link .leftDownToRightUp s1 s2 q => (exchanged sitps cfg q s1 s2).map (xxzValue 1 1 cfg s1 s2 inv)
  | .link .leftUpToRightDown s1 s2 q =>
    (exchanged sitps cfg q s1 s2).map fun x => j2 * xxzValue 1 1 cfg s1 s2 inv x
  | .link5 _ s1 s2 q => (exchanged sitps cfg q s1 s2).map fun x => j2 * xxzValue 1 1 cfg s1 s2 inv x
  | _ => some 0

/-- `SpinOneHalfTriJ1J2HeisenbergSqrPEPS::CalEnergyAndHolesImpl`
(spin_onehalf_triangle_heisenbergJ1J2_sqrpeps.h:306-448), no check for zero. The code also stores the
amplitudes of the rows and columns in the sample; see `psiList`. -/
def triSolver (calchols : Bool) (j2 : 𝕜) (c : Ctr (List (Tn 𝕜)) (Tn 𝕜) (Tn 𝕜)) :
    Except Fail (Result 𝕜) := do
  let r ← Contractor.traverseAll (tensorOps5 lib rows cols) rows cols (project sitps cfg)
    (fun _ => false) ⟨true, calchols, false, true, true, fun _ => none⟩ c
  let e ← access (energyOf (triTerm sitps cfg j2) r.1)
  pure ⟨e, holeList r.1, psiList r.1, r.2⟩

end

end QLPeps.SolverRun
