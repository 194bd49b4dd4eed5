import Mathlib.Analysis.RCLike.Basic
import Mathlib.Analysis.SpecialFunctions.Sqrt
import Mathlib.Order.WithBot

/-!
# Model of the Monte-Carlo statistics and of the sampling engine's arithmetic

Sources (under `/repo/include/qlpeps/`): `vmc_basic/monte_carlo_tools/statistics.h`,
`algorithm/vmc_update/monte_carlo_engine.h`.

The element type is `𝕜 = ℝ` or `ℂ` (`RCLike`), so both C++ instantiations are covered; `double` is
`ℝ`. `⊤ : WithTop ℝ` is `std::numeric_limits::infinity()`. A communicator is the list of the
ranks' contributions in rank order; only the master's result is modelled.
-/

namespace QLPeps.Statistics

variable {𝕜 : Type*} [RCLike 𝕜]

/-- `Mean` (statistics.h:51-59): `std::accumulate` from the left. -/
noncomputable def mean (data : List 𝕜) : 𝕜 :=
  if data = [] then 0 else data.foldl (· + ·) 0 / (data.length : 𝕜)

/-- `Variance(data, mean)` (statistics.h:61-81). Meaningful for non-empty data (C++ gives NaN for
empty data). -/
noncomputable def variance (data : List 𝕜) (mu : 𝕜) : ℝ :=
  let diff := data.map (fun x => x - mu)
  let sqSum := diff.foldl (fun s d => s + ‖d‖ ^ 2) 0
  sqSum / (data.length : ℝ)

/-- `StandardError` (statistics.h:88-96). -/
noncomputable def standardError (data : List 𝕜) (mu : 𝕜) : WithTop ℝ :=
  if data.length = 1 then ⊤
  else ((Real.sqrt (variance data mu / ((data.length : ℝ) - 1)) : ℝ) : WithTop ℝ)

/-- `sum[i] += d[i]` (statistics.h:113-115) -/
noncomputable def addStep (d : List 𝕜) (o : Option (List 𝕜)) (i : ℕ) : Option (List 𝕜) :=
  match o, d[i]? with
  | some s, some x => some (s.set i (s.getD i 0 + x))
  | _, _ => none

/-- `AveListOfData` (statistics.h:98-121); reading past the end of a sample is undefined (`none`). -/
noncomputable def aveListOfData (data : List (List 𝕜)) : Option (List 𝕜) :=
  match data with
  | [] => some []
  | d0 :: _ =>
    let N := d0.length
    if N = 0 then some []
    else
      let sum := data.foldl (fun o d =>
        (List.range N).foldl (addStep d) o) (some (List.replicate N 0))
      sum.map (fun s => s.map (fun x => x / (data.length : 𝕜)))

/-- per-rank bin means (statistics.h:156-180); `static_cast<size_t>(std::sqrt(N))` is the integer
square root. -/
noncomputable def binMeans (xs : List 𝕜) : List 𝕜 :=
  let n := xs.length
  if 0 < n then
    let b := max 1 (Nat.sqrt n)
    let nb := n / b
    (List.range nb).map (fun i =>
      ((xs.drop (i * b)).take ((i + 1) * b - i * b)).foldl (· + ·) 0 / (b : 𝕜))
  else []

/-- `MeanAndBinnedErrorSqrtNUniformBin` (statistics.h:146-225) on the master: `MPI_Gatherv` with the
running displacements concatenates the bin means in rank order. -/
noncomputable def meanAndBinnedError (ranks : List (List 𝕜)) : 𝕜 × WithTop ℝ :=
  let all := ranks.flatMap binMeans
  if 0 < all.length then
    let m := mean all
    (m, if 1 < all.length then standardError all m else ⊤)
  else (0, ((0 : ℝ) : WithTop ℝ))

/-- `GatherStatisticSingleData` (statistics.h:227-286) on the master; `data i` is rank `i`'s value. -/
noncomputable def gatherSingle (data : List 𝕜) : 𝕜 × WithTop ℝ :=
  if data.length = 1 then (data.headD 0, ⊤)
  else
    let m := data.foldl (· + ·) 0 / (data.length : 𝕜)
    let sumSquare := data.foldl (fun s x => s + ‖x‖ ^ 2) 0
    let var := sumSquare / (data.length : ℝ) - ‖m‖ ^ 2
    (m, ((Real.sqrt (var / ((data.length : ℝ) - 1)) : ℝ) : WithTop ℝ))

/-- `GatherStatisticListOfData` (statistics.h:288-339) on the master: `MPI_Gather` of `dataSize`
elements per rank, transposition, then `Mean`/`StandardError` per entry. `none`: a rank contributes
a list of another length. -/
noncomputable def gatherList (ranks : List (List 𝕜)) : Option (List 𝕜 × List (WithTop ℝ)) :=
  let dataSize := (ranks.headD []).length
  if ranks.any (fun r => r.length ≠ dataSize) then none
  else if dataSize = 0 then some ([], [])
  else if ranks.length = 1 then some (ranks.headD [], [])
  else
    let all := ranks.flatten
    let transposed := (List.range dataSize).map (fun j =>
      (List.range ranks.length).map (fun i => all.getD (i * dataSize + j) 0))
    some (transposed.map mean, transposed.map (fun l => standardError l (mean l)))

/-! ## Autocorrelation -/

/-- `acc += x[t] * x[t + k]` (statistics.h:389) -/
noncomputable def gammaStep (x : List ℝ) (k : ℕ) (o : Option ℝ) (t : ℕ) : Option ℝ :=
  match o, x[t]?, x[t + k]? with
  | some acc, some a, some b => some (acc + a * b)
  | _, _, _ => none

/-- `gamma_hat(k)` (statistics.h:386-392): `none` if an index is out of range (`N - k` underflows or
`x[t + k]` does not exist). -/
noncomputable def gammaHat (x : List ℝ) (k : ℕ) : Option ℝ :=
  if x.length < k then none
  else ((List.range (x.length - k)).foldl (gammaStep x k) (some 0)).map (fun acc => acc / (x.length : ℝ))

/-- the loop over lags (statistics.h:397-404); `n` is the number of remaining lags. -/
noncomputable def ipsLoop (x : List ℝ) (gamma0 : ℝ) : ℕ → ℕ → ℝ → Option ℝ
  | 0, _, s => some s
  | n + 1, k, s => match gammaHat x k, gammaHat x (k + 1) with
    | some gk, some gk1 =>
      if gk + gk1 ≤ 0 then some s else ipsLoop x gamma0 n (k + 1) (s + gk / gamma0)
    | _, _ => none

/-- the mean subtracted from the series (statistics.h:375-383) -/
noncomputable def ipsMean (values : List ℝ) (precomputed : Option ℝ) : ℝ :=
  match precomputed with
  | some m => m
  | none => values.foldl (· + ·) 0 / (values.length : ℝ)

/-- `IPSInflationFactor` (statistics.h:367-408); `values` are the real parts. -/
noncomputable def ipsInflationFactor (values : List ℝ) (precomputed : Option ℝ) : Option ℝ :=
  let N := values.length
  if N < 3 then some 1
  else
    let mu := ipsMean values precomputed
    let x := values.map (fun v => v - mu)
    match gammaHat x 0 with
    | none => none
    | some gamma0 =>
      if gamma0 ≤ 0 then some 1
      else
        let kMax := if 2 < N then min 20 (N - 2) else 0
        match ipsLoop x gamma0 kMax 1 0 with
        | none => none
        | some s =>
          let g := 1 + 2 * s
          some (if 1 ≤ g then g else 1)

/-! ## Engine arithmetic -/

/-- `samples_per_rank_` (monte_carlo_engine.h:97-98). Integer division by zero ranks cannot occur. -/
def samplesPerRank (total ranks : ℕ) : ℕ := (total + ranks - 1) / ranks

/-- the loop of `IsTRGSupportedLinearSize_` (monte_carlo_engine.h:447-449), `fuel` iterations at
most. -/
def halve : ℕ → ℕ → ℕ
  | 0, n => n
  | fuel + 1, n => if n % 2 = 0 then halve fuel (n / 2) else n

/-- `IsTRGSupportedLinearSize_` (monte_carlo_engine.h:445-451). -/
def isTRGSupported (fuel n : ℕ) : Bool :=
  if n = 0 then false
  else
    let m := halve fuel n
    m == 1 || m == 3

end QLPeps.Statistics
