import Verif.Model.SR

/-!
# Model of the two eigensolvers of MinSR and of the direction on several processes

Sources: `/repo/include/qlpeps/optimizer/minsr_eigensolve.h:95-316` (replicated path and dispatch),
`minsr_scalapack.h` (distributed path), `optimizer_impl.h:1127-1210` (`CalculateMinSRDirection_`).

Buffers are functions from indices, and every access is checked: `none` is an access out of range, a signed
overflow or a thrown exception. Real and complex cases differ in the conversion of the replicated path only;
conjugation is the identity on real numbers. Processes run the same code and meet in collectives only, so
that one function computes what all of them hold. The numerical routines (`dsyev`, `zheev`, `pdsyev`,
`pzheev`, `p?gemr2d`) are specified in `Spec/MinSRRun` and not modelled. Exact arithmetic.
-/

namespace QLPeps.MinSR

variable {𝕜 : Type*} [RCLike 𝕜]

/-- `b[i]` of a vector of `n` elements -/
def rd (n : ℕ) (b : ℕ → 𝕜) (i : ℕ) : Option 𝕜 := if i < n then some (b i) else none

/-- `b[i] += x` of a vector of `n` elements -/
def addAt (n : ℕ) (b : ℕ → 𝕜) (i : ℕ) (x : 𝕜) : Option (ℕ → 𝕜) :=
  if i < n then some (Function.update b i (b i + x)) else none

/-- two nested loops that write `v i j` at position `f i j` -/
def fill (a b : ℕ) (f : ℕ → ℕ → ℕ) (v : ℕ → ℕ → 𝕜) : ℕ → 𝕜 :=
  (List.range a).foldl (fun z i => (List.range b).foldl (fun z j => Function.update z (f i j) (v i j)) z)
    fun _ => 0

/-! ## the replicated path -/

/-- `MPI_Allgather` of `s` elements per process -/
def allgather (s : ℕ) (x : ℕ → ℕ → 𝕜) : ℕ → 𝕜 := fun q => x (q / s) (q % s)

/-- the buffer given to `LAPACKE_dsyev` (minsr_eigensolve.h:103-117) -/
def inputReal (B N : ℕ) (rb : ℕ → ℕ → 𝕜) : ℕ → 𝕜 := allgather (B * N) rb

/-- the buffer given to `LAPACKE_zheev` (minsr_eigensolve.h:174-199), after the conversion to column-major
order -/
def inputComplex (B N : ℕ) (rb : ℕ → ℕ → 𝕜) : ℕ → 𝕜 :=
  fill N N (fun i j => i + j * N) fun i j => allgather (B * N) rb (i * N + j)

/-- `tmp` (minsr_eigensolve.h:130-142, 216-229) -/
noncomputable def replicatedTmp (N : ℕ) (z : ℕ → 𝕜) (lamPlus : ℕ → ℝ) (rhs : ℕ → 𝕜) (k : ℕ) : 𝕜 :=
  (List.range N).foldl (fun d i => d + (starRingEnd 𝕜) (z (i + k * N)) * rhs i) 0 * (lamPlus k : 𝕜)

/-- `y` (minsr_eigensolve.h:144-152, 231-239) -/
noncomputable def replicated (N : ℕ) (z : ℕ → 𝕜) (lamPlus : ℕ → ℝ) (rhs : ℕ → 𝕜) (i : ℕ) : 𝕜 :=
  (List.range N).foldl (fun v k => v + z (i + k * N) * replicatedTmp N z lamPlus rhs k) 0

/-! ## the distributed path -/

/-- `numroc_` of ScaLAPACK (TOOLS/numroc.f), first process 0, as called by `LocalBlockCyclicDim`
(minsr_scalapack.h:147-150) -/
def numroc (n nb iproc nprocs : ℕ) : ℕ :=
  let nblocks := n / nb
  if (nprocs + iproc) % nprocs < nblocks % nprocs then nblocks / nprocs * nb + nb
  else if (nprocs + iproc) % nprocs = nblocks % nprocs then nblocks / nprocs * nb + n % nb
  else nblocks / nprocs * nb

/-- `indxl2g_` of ScaLAPACK (TOOLS/indxl2g.f), one-based, first process 0 -/
def indxl2g (l nb iproc nprocs : ℕ) : ℕ :=
  nprocs * nb * ((l - 1) / nb) + (l - 1) % nb + (nprocs + iproc) % nprocs * nb + 1

/-- `BlockCyclicLocalToGlobal` (minsr_scalapack.h:164-169) -/
def toGlobal (l nb iproc nprocs : ℕ) : ℕ := indxl2g (l + 1) nb iproc nprocs - 1

/-- the grid of the target context (minsr_scalapack.h:107-122): `MPI_Dims_create` chooses `nprow * npcol`,
the processes are placed row by row; `nb` is the block size -/
structure Grid where
  nprow : ℕ
  npcol : ℕ
  nb : ℕ

/-- `myrow` and `mycol` -/
def Grid.myrow (g : Grid) (rank : ℕ) : ℕ := rank / g.npcol
def Grid.mycol (g : Grid) (rank : ℕ) : ℕ := rank % g.npcol

/-- `local_rows_bc`, `local_cols_bc`, `tgt_lld` (minsr_scalapack.h:232-236, 379-383) -/
def Grid.rows (g : Grid) (n rank : ℕ) : ℕ := numroc n g.nb (g.myrow rank) g.nprow
def Grid.cols (g : Grid) (n rank : ℕ) : ℕ := numroc n g.nb (g.mycol rank) g.npcol
def Grid.lld (g : Grid) (n rank : ℕ) : ℕ := max 1 (g.rows n rank)

/-- the local row block in column-major order (minsr_scalapack.h:208-213, 356-361) -/
def colMajorBlock (B N : ℕ) (rb : ℕ → 𝕜) : ℕ → 𝕜 :=
  fill B N (fun i j => j * B + i) fun i j => rb (i * N + j)

/-- `Z_bc[li + lj * tgt_lld]`, the index being computed as an `int` (minsr_scalapack.h:296, 317) -/
def readZ (g : Grid) (n rank : ℕ) (z : ℕ → 𝕜) (li lj : ℕ) : Option 𝕜 :=
  if li + lj * g.lld n rank < 2 ^ 31 then rd (g.rows n rank * g.cols n rank) z (li + lj * g.lld n rank)
  else none

/-- one element of `local_tmp` (minsr_scalapack.h:294-297, 451-454) -/
def tmpStep (g : Grid) (n rank : ℕ) (z rhs : ℕ → 𝕜) (lj : ℕ) (acc : ℕ → 𝕜) (li : ℕ) : Option (ℕ → 𝕜) :=
  (readZ g n rank z li lj).bind fun x =>
  (rd n rhs (toGlobal li g.nb (g.myrow rank) g.nprow)).bind fun r =>
  addAt n acc (toGlobal lj g.nb (g.mycol rank) g.npcol) ((starRingEnd 𝕜) x * r)

/-- `local_tmp` of a process (minsr_scalapack.h:291-298, 448-455) -/
def localTmp (g : Grid) (n rank : ℕ) (z rhs : ℕ → 𝕜) : Option (ℕ → 𝕜) :=
  (List.range (g.cols n rank)).foldlM (fun acc lj =>
    (List.range (g.rows n rank)).foldlM (tmpStep g n rank z rhs lj) acc) fun _ => 0

/-- one element of `local_y` (minsr_scalapack.h:315-318, 472-475) -/
def yStep (g : Grid) (n rank : ℕ) (z : ℕ → 𝕜) (t : 𝕜) (lj : ℕ) (acc : ℕ → 𝕜) (li : ℕ) : Option (ℕ → 𝕜) :=
  (readZ g n rank z li lj).bind fun x =>
  addAt n acc (toGlobal li g.nb (g.myrow rank) g.nprow) (x * t)

/-- `local_y` of a process (minsr_scalapack.h:310-319, 467-476) -/
def localY (g : Grid) (n rank : ℕ) (z tmp : ℕ → 𝕜) : Option (ℕ → 𝕜) :=
  (List.range (g.cols n rank)).foldlM (fun acc lj =>
    (rd n tmp (toGlobal lj g.nb (g.mycol rank) g.npcol)).bind fun t =>
    (List.range (g.rows n rank)).foldlM (yStep g n rank z t lj) acc) fun _ => 0

/-- `MPI_Allreduce` with `MPI_SUM` over all processes -/
def allreduce (xs : List (ℕ → 𝕜)) : ℕ → 𝕜 := fun k => (xs.map fun x => x k).sum

/-- `ScaLAPACKEigenSolveReal/Complex` after the decomposition (minsr_scalapack.h:285-324, 445-481): `z r` is
the buffer `Z_bc` of process `r` -/
noncomputable def distributed (P : ℕ) (g : Grid) (n : ℕ) (z : ℕ → ℕ → 𝕜) (lamPlus : ℕ → ℝ) (rhs : ℕ → 𝕜) :
    Option (ℕ → 𝕜) :=
  ((List.range P).mapM fun r => localTmp g n r (z r) rhs).bind fun ts =>
  ((List.range P).mapM fun r => localY g n r (z r) fun k => allreduce ts k * (lamPlus k : 𝕜)).map allreduce

/-- `solver_mode` (optimizer_params.h) -/
inductive Mode
  | auto
  | replicated
  | distributed
  deriving DecidableEq

/-- `MinSREigenSolveDispatch` (minsr_eigensolve.h:275-316): whether the distributed path is taken; `none` is
the exception thrown without ScaLAPACK. The threshold is `kAutoDispatchThreshold` (:260) -/
def useScalapack (available : Bool) (m : Mode) (n : ℕ) : Option Bool :=
  match m with
  | .replicated => some false
  | .distributed => if available then some true else none
  | .auto => some (available && decide (5000 < n))

/-! ## the direction -/

variable {V : Type*} [AddCommGroup V] [Module 𝕜 V]

/-- `epsilon_bar` on all processes (optimizer_impl.h:1145-1159): process `r` has `B` local energies -/
noncomputable def epsBar (P B : ℕ) (E : ℕ → ℕ → 𝕜) (energy : 𝕜) : ℕ → 𝕜 :=
  allgather B fun r i => (starRingEnd 𝕜) (E r i - energy) / (((B * P : ℕ) : ℝ) : 𝕜)

/-- `local_sum` of process `r` (optimizer_impl.h:1183-1186) -/
def localSum (B : ℕ) (y : ℕ → 𝕜) (O : ℕ → ℕ → V) (r : ℕ) : V :=
  (List.range B).foldl (fun s i => s + y (r * B + i) • O r i) 0

/-- `local_y_sum` of process `r` (optimizer_impl.h:1182-1187) -/
def localYSum (B : ℕ) (y : ℕ → 𝕜) (r : ℕ) : 𝕜 := (List.range B).foldl (fun s i => s + y (r * B + i)) 0

/-- what the master assembles (optimizer_impl.h:1190-1207) -/
def assemble (P B : ℕ) (y : ℕ → 𝕜) (O : ℕ → ℕ → V) (mean : V) : V :=
  (List.range (P - 1)).foldl (fun s k => s + localSum B y O (k + 1)) (localSum B y O 0)
    + (-((List.range P).map (localYSum B y)).sum) • mean

end QLPeps.MinSR
