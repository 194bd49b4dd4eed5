import Mathlib.Tactic
import Verif.Model.Observables
import Verif.Spec.Statistics

/-!
# Specification: packed pairs, cells of lattice observables, particle counting

`Solver`, `Vals` and `ObsMap` are only used as data; no loop of the model is mentioned.
-/

namespace QLPeps.Observables

open QLPeps.Statistics

/-- The documented linear index of the pair `i ≤ j < n` (monte_carlo_peps_measurer_impl.h:629-630):
`k = i*L - i*(i-1)/2 + (j - i)`. -/
def packedIndex (n i j : ℕ) : ℕ := i * n - i * (i - 1) / 2 + (j - i)

/-- The number of the sample that belongs to lattice position `(y, x)` in a two-dimensional observable. -/
def cell {K : Type*} [Field K] (s : Solver) (key : String) (v : Vals K) (y x : ℕ) : K :=
  match key with
  | "spin_z" => match s with
    | .heisenbergPBC | .j1j2PBC _ | .tfim => (v.cfg y x : K) - 1 / 2
    | _ => v.sz (v.cfg y x)
  | "charge" => v.density (v.cfg y x)
  | "double_occupancy" => v.doublon (v.cfg y x)
  | "bond_energy_h" => v.eh y x
  | "bond_energy_v" => v.ev y x
  | "bond_energy_dr" => v.edr y x
  | "bond_energy_ur" => v.eur y x
  | "SC_bond_singlet_h" => v.sch y x
  | "SC_bond_singlet_v" => v.scv y x
  | "sigma_x" => v.sx y x
  | _ => 0

/-- Solvers whose measurement returns: all but a t-J solver with the pair correlation switched on. -/
def Solver.returns : Solver → Bool
  | .tJ _ _ true _ => false
  | _ => true

/-- Whether a declared array is measured with the given options: the bond singlets of the t-J solvers
only on request, the pair correlation never (see `Solver.returns`). -/
def Solver.records : Solver → String → Bool
  | .tJ _ sc _ _, k => k != "SC_singlet_pair_corr" && (sc || (k != "SC_bond_singlet_h" && k != "SC_bond_singlet_v"))
  | _, _ => true

/-- Average over ranks of the averages over each rank's samples. -/
noncomputable def doubleAverage {𝕜 α : Type*} [RCLike 𝕜] (ranks : List (List α)) (f : α → 𝕜) : 𝕜 :=
  average (ranks.map (fun r => average (r.map f)))

/-- The value in row `y`, column `x` of a table; the `i`-th value of a column. -/
def File.entry {K : Type*} : File K → ℕ → ℕ → Option K
  | .table rows, y, x => rows[y]?.bind (fun r => r[x]?)
  | .column _, _, _ => none

/-- Rows and columns of a table. -/
def File.IsTable {K : Type*} (f : File K) (r c : ℕ) : Prop :=
  ∃ rows : List (List K), f = .table rows ∧ rows.length = r ∧ ∀ l ∈ rows, l.length = c

/-- Total particle number of a configuration. -/
def particles (perState : List ℕ) (config : List ℕ) : ℕ := (config.map (fun s => perState.getD s 0)).sum

end QLPeps.Observables
