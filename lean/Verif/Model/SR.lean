import Mathlib.Analysis.InnerProductSpace.Basic
import Mathlib.Data.Real.Sqrt

/-!
# Stochastic reconfiguration: the S matrix, the MinSR T matrix and its solver

Models include/qlpeps/optimizer/stochastic_reconfiguration_smatrix.h, minsr_tmatrix.h,
minsr_eigensolve.h (replicated path) and `CalculateMinSRDirection_` of optimizer_impl.h:1127-1215.

Simplifications: tensors (`SplitIndexTPS`) are vectors of an inner product space over `𝕜` (real or complex),
`u * v` being the inner product, conjugate-linear on the left (split_index_tps.h:370-377); exact arithmetic.
A `SplitIndexTPS` send/receive is one message (it is received tensor by tensor from one fixed source,
split_index_tps_impl.h:650-722). LAPACK is an oracle. The ScaLAPACK path is not modelled.
-/

namespace QLPeps.SR

variable {𝕜 : Type*} [RCLike 𝕜] {V : Type*} [NormedAddCommGroup V] [InnerProductSpace 𝕜 V]

/-! ## The S matrix -/

/-- `SRSMatrix::operator*` (stochastic_reconfiguration_smatrix.h:45-91) on one process. `mean` is
`some` on the master only; `meanDot` is the scalar every process holds after the broadcast (:52-59).
`none`: no samples on this process, reading `samples[0]` is undefined (:61). -/
noncomputable def applyLocal (samples : List V) (mean : Option V) (meanDot : 𝕜) (worldSize : ℕ) (shift : 𝕜) (v : V) :
    Option V :=
  match samples with
  | [] => none
  | o0 :: rest =>
    let res := rest.foldl (fun acc o => acc + (inner 𝕜 o v - meanDot) • o) ((inner 𝕜 o0 v - meanDot) • o0)
    let res := ((1 / ((samples.length * worldSize : ℕ) : ℝ) : ℝ) : 𝕜) • res
    some (if mean.isSome then res + shift • v else res)

/-- the scalar broadcast by the master (:52-59) -/
noncomputable def meanDot (mean : V) (v : V) : 𝕜 := inner 𝕜 mean v

/-! ## The MinSR ring exchange (minsr_tmatrix.h:76-116) -/

/-- Local state of one process during the ring: finished rounds, messages sent and received in the current
round, the batch being sent, the batch being received, its rows of the matrix and its row sums. -/
structure Rank (V 𝕜 : Type*) where
  t : ℕ
  sent : ℕ
  recvd : ℕ
  sendBuf : List V
  recvBuf : List V
  /-- `row_block_[i * ns_global + c]` -/
  block : ℕ → ℕ → 𝕜
  rowSum : ℕ → 𝕜

/-- All processes, and for each the messages on their way to its successor -/
structure Ring (V 𝕜 : Type*) where
  rank : ℕ → Rank V 𝕜
  chan : ℕ → List V

/-- next operation of a process -/
inductive Op
  | send | recv | compute | done
  deriving DecidableEq

/-- :95-103: in each of the `P - 1` rounds process `P-1` sends its batch of `B` samples and then receives,
all others receive and then send; :105-115 then compute. -/
def nextOp (P B r : ℕ) (s : Rank V 𝕜) : Op :=
  if P - 1 ≤ s.t then .done
  else if r = P - 1 then
    if s.sent < B then .send else if s.recvd < B then .recv else .compute
  else
    if s.recvd < B then .recv else if s.sent < B then .send else .compute

/-- :78 -/
def nextRank (P r : ℕ) : ℕ := (r + 1) % P

/-- :91 `((rank - round) % world_size + world_size) % world_size` on C++ `int` -/
def sourceRank (P r round : ℕ) : ℕ := ((((r : ℤ) - round).tmod P + P).tmod P).toNat

/-- one block of inner products (:71-75, :105-111) written to the columns starting at `col` -/
def writeBlock (ip : V → V → 𝕜) (mine other : List V) (col : ℕ) (block : ℕ → ℕ → 𝕜) : ℕ → ℕ → 𝕜 :=
  fun i c =>
    match mine[i]?, (if col ≤ c then other[c - col]? else none) with
    | some a, some b => ip a b
    | _, _ => block i c

/-- the corresponding update of the row sums -/
def addSums (ip : V → V → 𝕜) (mine other : List V) (sums : ℕ → 𝕜) : ℕ → 𝕜 :=
  fun i =>
    match mine[i]? with
    | some a => other.foldl (fun acc b => acc + ip a b) (sums i)
    | none => sums i

/-- end of a round (:105-115) -/
def Rank.compute (ip : V → V → 𝕜) (P B r : ℕ) (mine : List V) (s : Rank V 𝕜) : Rank V 𝕜 :=
  { t := s.t + 1, sent := 0, recvd := 0, sendBuf := s.recvBuf, recvBuf := [],
    block := writeBlock ip mine s.recvBuf (sourceRank P r (s.t + 1) * B) s.block,
    rowSum := addSums ip mine s.recvBuf s.rowSum }

/-- before the ring (:64-76): round 0, the local block -/
def Rank.init (ip : V → V → 𝕜) (B r : ℕ) (mine : List V) : Rank V 𝕜 :=
  { t := 0, sent := 0, recvd := 0, sendBuf := mine, recvBuf := [],
    block := writeBlock ip mine mine (r * B) (fun _ _ => 0),
    rowSum := addSums ip mine mine (fun _ => 0) }

/-- Steps every MPI implementation can take: local computation, receiving a message that is there, and a
rendezvous of a blocking send with the matching receive. `O r` are the samples of process `r`. -/
inductive Must (ip : V → V → 𝕜) (P B : ℕ) (O : ℕ → List V) : Ring V 𝕜 → Ring V 𝕜 → Prop
  | compute (g : Ring V 𝕜) (r : ℕ) (hr : r < P) (h : nextOp P B r (g.rank r) = .compute) :
      Must ip P B O g ⟨Function.update g.rank r ((g.rank r).compute ip P B r (O r)), g.chan⟩
  | recv (g : Ring V 𝕜) (r : ℕ) (hr : r < P) (x : V) (rest : List V)
      (h : nextOp P B (nextRank P r) (g.rank (nextRank P r)) = .recv) (hc : g.chan r = x :: rest) :
      Must ip P B O g
        ⟨Function.update g.rank (nextRank P r)
          { g.rank (nextRank P r) with
              recvd := (g.rank (nextRank P r)).recvd + 1, recvBuf := (g.rank (nextRank P r)).recvBuf ++ [x] },
          Function.update g.chan r rest⟩
  | rendezvous (g : Ring V 𝕜) (r : ℕ) (hr : r < P) (x : V) (hne : nextRank P r ≠ r)
      (hs : nextOp P B r (g.rank r) = .send)
      (h : nextOp P B (nextRank P r) (g.rank (nextRank P r)) = .recv) (hc : g.chan r = [])
      (hx : (g.rank r).sendBuf[(g.rank r).sent]? = some x) :
      Must ip P B O g
        ⟨Function.update (Function.update g.rank r { g.rank r with sent := (g.rank r).sent + 1 }) (nextRank P r)
          { g.rank (nextRank P r) with
              recvd := (g.rank (nextRank P r)).recvd + 1, recvBuf := (g.rank (nextRank P r)).recvBuf ++ [x] },
          g.chan⟩

/-- All steps some MPI implementation may take: a blocking send may also return with the message buffered. -/
inductive Step (ip : V → V → 𝕜) (P B : ℕ) (O : ℕ → List V) : Ring V 𝕜 → Ring V 𝕜 → Prop
  | must {g g'} (h : Must ip P B O g g') : Step ip P B O g g'
  | buffered (g : Ring V 𝕜) (r : ℕ) (hr : r < P) (x : V) (hs : nextOp P B r (g.rank r) = .send)
      (hx : (g.rank r).sendBuf[(g.rank r).sent]? = some x) :
      Step ip P B O g
        ⟨Function.update g.rank r { g.rank r with sent := (g.rank r).sent + 1 },
          Function.update g.chan r (g.chan r ++ [x])⟩

/-- start of the ring -/
def Ring.init (ip : V → V → 𝕜) (B : ℕ) (O : ℕ → List V) : Ring V 𝕜 :=
  ⟨fun r => Rank.init ip B r (O r), fun _ => []⟩

/-! ## Centring (minsr_tmatrix.h:118-146) -/

/-- `m_i` of the sample with global index `q` (:121-131): the row sum of its process, and the allgather -/
noncomputable def allM (B Ns : ℕ) (g : Ring V 𝕜) (q : ℕ) : 𝕜 := (g.rank (q / B)).rowSum (q % B) / ((Ns : ℝ) : 𝕜)

/-- `c_` (:134-138) -/
noncomputable def centre (B Ns : ℕ) (g : Ring V 𝕜) : 𝕜 :=
  ((List.range Ns).foldl (fun acc q => acc + allM B Ns g q) 0) / ((Ns : ℝ) : 𝕜)

/-- final entry of row `i` of process `r`, column `q` (:141-146) -/
noncomputable def entry (P B : ℕ) (g : Ring V 𝕜) (r i q : ℕ) : 𝕜 :=
  ((g.rank r).block i q - (g.rank r).rowSum i / (((B * P : ℕ) : ℝ) : 𝕜) - (starRingEnd 𝕜) (allM B (B * P) g q)
    + centre B (B * P) g) / (((B * P : ℕ) : ℝ) : 𝕜)

/-! ## Pseudo-inverse (minsr_eigensolve.h:44-78) -/

/-- :52-57 -/
noncomputable def cutoff (ev : List ℝ) (rPinv aPinv : ℝ) : ℝ := rPinv * ev.foldl (fun m e => max m |e|) 0 + aPinv

/-- :60-76 one eigenvalue -/
noncomputable def filterEv (soft : Bool) (cut lam : ℝ) : ℝ :=
  if soft then
    let lam2 := lam * lam
    let lam5 := lam2 * lam2 * lam
    let lam6 := lam5 * lam
    let denom := lam6 + cut * cut * cut * cut * cut * cut
    if denom = 0 then 0 else lam5 / denom
  else if cut < |lam| then 1 / lam else 0

/-- `ApplyPseudoInverseCutoff` -/
noncomputable def applyPinv (ev : List ℝ) (rPinv aPinv : ℝ) (soft : Bool) : List ℝ :=
  ev.map (filterEv soft (cutoff ev rPinv aPinv))

/-- `ReplicatedEigenSolve*` after the decomposition (minsr_eigensolve.h:130-153, :213-236):
`y = Z diag(λ⁺) Z^† rhs`, the columns of `Z` being the eigenvectors `z k`. -/
noncomputable def eigenSolve {ι κ : Type*} [Fintype ι] [Fintype κ] (z : κ → ι → 𝕜) (lamPlus : κ → ℝ) (rhs : ι → 𝕜) : ι → 𝕜 :=
  fun i => ∑ k, z k i * ((∑ j, (starRingEnd 𝕜) (z k j) * rhs j) * (lamPlus k : 𝕜))

/-- `epsilon_bar` (optimizer_impl.h:1147-1151) -/
noncomputable def epsilonBar {ι : Type*} [Fintype ι] (E : ι → 𝕜) (Emean : 𝕜) : ι → 𝕜 :=
  fun i => (starRingEnd 𝕜) (E i - Emean) / ((Fintype.card ι : ℝ) : 𝕜)

/-- back-substitution (optimizer_impl.h:1181-1207): `Σ y_i O_i - (Σ y_i) O_mean` -/
noncomputable def backSubst {ι : Type*} [Fintype ι] (O : ι → V) (mean : V) (y : ι → 𝕜) : V :=
  (∑ i, y i • O i) + (-(∑ i, y i)) • mean

end QLPeps.SR
