import Verif.Model.Updaters
import Verif.Model.Configuration
import Mathlib.Analysis.SpecialFunctions.Exp
import Mathlib.Analysis.Complex.Basic

/-!
# Model of the Jastrow factor

Sources (under `/repo/include/qlpeps/vmc_basic/`): `jastrow_factor.h`,
`wave_function_component.h`, `configuration_update_strategies/square_nn_updater.h`
and `/repo/include/qlpeps/algorithm/vmc_update/model_solvers/square_tJ_model.h`.
`double` is `ℝ`.
-/

namespace QLPeps.Jastrow

open QLPeps.Updaters

/-- `PackedUpperIndex` (jastrow_factor.h:115-118). The `size_t` subtraction is natural
subtraction; that it does not underflow for `i < j < N` is proved. -/
def packed (N i j : ℕ) : ℕ := i * N + j - ((i + 1) * (i + 2)) / 2

/-- The vector `v_ij_` of size `N (N-1) / 2`, all zero (jastrow_factor.h:36-37). -/
def init {K : Type*} [Zero K] (N : ℕ) : List K := List.replicate ((N * (N - 1)) / 2) 0

/-- `Set(i, j, v)` (jastrow_factor.h:40-44) and the non-const `operator()`; an index outside the
vector is undefined. -/
def set {K : Type*} (N i j : ℕ) (x : K) (v : List K) : Option (List K) :=
  let k := if i < j then packed N i j else packed N j i
  if k < v.length then some (v.set k x) else none

/-- the const `operator()(i, j)` (jastrow_factor.h:73-77). -/
def get {K : Type*} [Zero K] (N i j : ℕ) (v : List K) : Option K :=
  if i = j then some 0
  else v[if i < j then packed N i j else packed N j i]?

/-- `Fill` (jastrow_factor.h:66-71). -/
def fill {K : Type*} (N : ℕ) (f : ℕ → ℕ → K) (v : List K) : Option (List K) :=
  (List.range N).foldl (fun o i =>
    (List.range' (i + 1) (N - (i + 1))).foldl (fun o j => match o with
      | some v => set N i j (f i j) v
      | none => none) o) (some v)

/-- `JastrowFieldAtSite` (jastrow_factor.h:99-110) as a function of the couplings
`v i j = operator()(i, j)`; `n` is `density_config`. -/
noncomputable def field (Ly Lx : ℕ) (v : ℕ → ℕ → ℝ) (n : Site → ℕ) (s : Site) : ℝ :=
  Configuration.forCells Ly Lx (fun row col sum =>
    if row * Lx + col = s.1 * Lx + s.2 then sum
    else sum + v (s.1 * Lx + s.2) (row * Lx + col) * (n (row, col) : ℝ)) 0

/-- The factor multiplying the amplitude ratio when the contents of `s1` and `s2` are exchanged
(square_nn_updater.h:402-420, square_tJ_model.h:395-406 and 507-518); `none` is `exit`. -/
noncomputable def exchangeRatio (Ly Lx : ℕ) (v : ℕ → ℕ → ℝ) (n : Site → ℕ) (s1 s2 : Site) :
    Option ℝ :=
  if n s1 = n s2 then some 1
  else
    let f1 := field Ly Lx v n s1
    let f2 := field Ly Lx v n s2
    if n s1 = 0 ∧ n s2 = 1 then some (Real.exp (f1 - f2))
    else if n s1 = 1 ∧ n s2 = 0 then some (Real.exp (f2 - f1))
    else none

/-- The walker of a Jastrow-dressed wave function: `dress.density_config` beside the component
(wave_function_component.h:107-122). -/
structure Dressed (A Γ : Type*) where
  walker : Walker A Γ
  density : Site → ℕ

/-- `MCUpdateSquareNNExchangeJastrowDressedTJ::TwoSiteNNUpdateLocalImpl`
(square_nn_updater.h:385-438). `abs_ratio >= 1` consumes no random number. `none` is `exit`. -/
noncomputable def exchange {A Γ : Type*} (Ly Lx : ℕ) (v : ℕ → ℕ → ℝ) (C : Contractor A Γ)
    (ab : A → ℝ) (ξ : ℕ → ℝ) (s1 s2 : Site) (d : Orient) (w : Dressed A Γ) :
    Option (Dressed A Γ × Bool) :=
  let c1 := w.walker.config s1
  let c2 := w.walker.config s2
  if c1 = c2 then some (w, false)
  else
    let psiB := C.nnTrace w.walker.env w.walker.config s1 s2 d c2 c1
    match exchangeRatio Ly Lx v w.density s1 s2 with
    | none => none
    | some r =>
      let absRatio := ab psiB * |r| / ab w.walker.amp
      let P := absRatio * absRatio
      let w' := { w.walker with draws := w.walker.draws + if 1 ≤ absRatio then 0 else 1 }
      if 1 ≤ absRatio ∨ ξ w.walker.draws < P then
        some (⟨updateLocal C psiB [(s1, c2), (s2, c1)] w',
          setSite (setSite w.density s1 (w.density s2)) s2 (w.density s1)⟩, true)
      else some (⟨w', w.density⟩, false)

/-- Hopping energy of one bond of the Jastrow-dressed t-J solver (square_tJ_model.h:385-406 with
`t`, 500-519 with `t2`): `-t * conj(psi_ex / psi) * jastrow_ratio`, used when exactly one of the two
site states is `Empty = 2`. -/
noncomputable def hopEnergy (Ly Lx : ℕ) (v : ℕ → ℕ → ℝ) (n : Site → ℕ) (t : ℝ) (ratio : ℂ)
    (config1 : ℕ) (s1 s2 : Site) : ℂ :=
  let f1 := field Ly Lx v n s1
  let f2 := field Ly Lx v n s2
  let jr := if config1 = 2 then Real.exp (f1 - f2) else Real.exp (f2 - f1)
  (-(t : ℂ)) * ratio * (jr : ℂ)

end QLPeps.Jastrow
