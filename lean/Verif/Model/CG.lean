import Mathlib.Analysis.InnerProductSpace.Basic
import Mathlib.Data.Real.Sqrt

/-!
# Conjugate-gradient solver, serial and distributed

Models include/qlpeps/utility/conjugate_gradient_solver.h.

The control flow is written once for arbitrary arithmetic (`Ops`), so that it also covers floating point
with NaN; `exactOps` is the idealisation to exact arithmetic in a real or complex inner product space.
Not modelled: the warning text and the timing/debug output.
-/

namespace QLPeps.CG

/-- optimizer_params.h:50-57 `ConjugateGradientParams` -/
structure Params (R : Type*) where
  maxIter : ℕ
  relTol : R
  absTol : R
  /-- `int residual_recompute_interval` -/
  recompute : ℤ
  ortho : R

/-- conjugate_gradient_solver.h:74-80 `CGTerminationReason` -/
inductive Reason
  | converged | maxIterations | indefinite | breakdown | stagnated
  deriving DecidableEq, Repr

/-- conjugate_gradient_solver.h:97-105 `CGResult` -/
structure Result (V R : Type*) where
  x : V
  residualNorm : R
  iterations : ℕ
  reason : Reason

/-- The vector and scalar operations the solver uses (concepts at :40-66, helpers at :142-157).
`V` vectors, `K` the type of `u * v` (double or complex), `R` is double. -/
structure Ops (V K R : Type*) where
  add : V → V → V
  sub : V → V → V
  smul : K → V → V
  smulR : R → V → V
  inner : V → V → K
  normSq : V → R
  /-- `detail::pap_is_valid` :142-148 -/
  papValid : K → Bool
  /-- `double / K` -/
  div : R → K → K
  neg : K → K
  absSq : K → R
  re : K → R
  mulR : R → R → R
  divR : R → R → R
  absR : R → R
  sqrtR : R → R
  lt : R → R → Bool
  le : R → R → Bool
  isFinite : R → Bool
  /-- machine epsilon -/
  eps : R

variable {V K R : Type*}

/-- `std::max(a, b)`: `a < b ? b : a` -/
def Ops.max (o : Ops V K R) (a b : R) : R := if o.lt a b then b else a

/-- :194-196 -/
def tolSq (o : Ops V K R) (pr : Params R) (b : V) : R :=
  o.max (o.mulR (o.mulR pr.relTol pr.relTol) (o.normSq b)) (o.mulR pr.absTol pr.absTol)

/-- local variables of the loop (:203-210); `rk` is `rkp1_2norm` at loop entry -/
structure St (V R : Type*) where
  x : V
  p : V
  r : V
  rPrev : V
  bestX : V
  best : R
  rk : R
  stag : ℕ

/-- :237 is the residual recomputed from scratch in iteration `k`? -/
def recomputeNow (pr : Params R) (k : ℕ) : Bool :=
  decide (0 < pr.recompute) && ((k % pr.recompute.toNat : ℕ) == pr.recompute.toNat - 1)

/-- return of the best iterate (:219, :231, :246, :272, :281) -/
def giveUp (o : Ops V K R) (s : St V R) (it : ℕ) (why : Reason) : Result V R :=
  ⟨s.bestX, o.sqrtR s.best, it, why⟩

/-- The part of an iteration after the residual update (:242-274): finiteness, best-iterate tracking,
convergence test, restart, new direction. `s` already holds the new `x` and `r`; `s.rk` is still the old
squared residual. -/
def finishIter (o : Ops V K R) (pr : Params R) (tol : R) (k : ℕ) (s : St V R) : Result V R ⊕ St V R :=
  let rkp1 := o.normSq s.r
  if !o.isFinite rkp1 then .inl (giveUp o s (k + 1) .breakdown)
  else
    let s1 : St V R := if o.lt rkp1 s.best then { s with bestX := s.x, best := rkp1 } else s
    if o.le rkp1 tol then .inl ⟨s1.x, o.sqrtR rkp1, k + 1, .converged⟩
    else if decide (0 < k) && o.lt (o.mulR pr.ortho rkp1) (o.absR (o.re (o.inner s1.rPrev s1.r))) then
      .inr { s1 with p := s1.r, rPrev := s1.r, rk := rkp1 }
    else
      let beta := o.divR rkp1 s1.rk
      if !o.isFinite beta then .inl (giveUp o s1 (k + 1) .breakdown)
      else .inr { s1 with p := o.add s1.r (o.smulR beta s1.p), rPrev := s1.r, rk := rkp1 }

/-- :227-235 stagnation counter after the step `alpha` along `p`, `x` being the new point -/
def stagNext (o : Ops V K R) (alpha : K) (p x : V) (stag : ℕ) : ℕ :=
  if o.lt (o.mulR (o.absSq alpha) (o.normSq p)) (o.mulR (o.mulR o.eps o.eps) (o.normSq x)) then stag + 1 else 0

/-- One iteration of the serial loop (:214-274) -/
def iter (o : Ops V K R) (A : V → V) (pr : Params R) (tol : R) (b : V) (k : ℕ) (s : St V R) :
    Result V R ⊕ St V R :=
  let ap := A s.p
  let pap := o.inner s.p ap
  if !o.papValid pap then .inl (giveUp o s k .indefinite)
  else
    let alpha := o.div s.rk pap
    let x := o.add s.x (o.smul alpha s.p)
    let stag := stagNext o alpha s.p x s.stag
    if 3 ≤ stag then .inl (giveUp o s (k + 1) .stagnated)
    else
      let r := if recomputeNow pr k then o.sub b (A x) else o.sub s.r (o.smul alpha ap)
      finishIter o pr tol k { s with x := x, r := r, stag := stag }

/-- the `for` loop (:213-275) with `n` iterations left, `k` done -/
def loop (o : Ops V K R) (A : V → V) (pr : Params R) (tol : R) (b : V) : ℕ → ℕ → St V R → Result V R
  | 0, _, s => giveUp o s pr.maxIter .maxIterations
  | n + 1, k, s =>
    match iter o A pr tol b k s with
    | .inl res => res
    | .inr s' => loop o A pr tol b n (k + 1) s'

/-- :203-210 initial locals -/
def initSt (x0 r : V) (rn : R) : St V R := ⟨x0, r, r, r, x0, rn, rn, 0⟩

/-- Serial `ConjugateGradientSolver` (:183-276) -/
def solve (o : Ops V K R) (A : V → V) (b x0 : V) (pr : Params R) : Result V R :=
  let tol := tolSq o pr b
  let r := o.sub b (A x0)
  let rn := o.normSq r
  if o.le rn tol then ⟨x0, o.sqrtR rn, 0, .converged⟩
  else loop o A pr tol b pr.maxIter 0 (initSt x0 r rn)

/-! ## Distributed solver -/

/-- conjugate_gradient_solver.h:376-380 -/
inductive Instr
  | start | multiplication | finish
  deriving DecidableEq, Repr

/-- What the master does that others can see: broadcasts of an instruction
(`MasterBroadcastInstruction` :382-391), distributed products (`MatrixMultiplyVectorMaster` :548-592, which
broadcasts a vector and gathers one reply per slave), and returning. A product's continuation receives
whatever the gather produced. -/
inductive Prog (V R : Type*)
  | instr (i : Instr) (next : Prog V R)
  | mul (v : V) (next : V → Prog V R)
  | ret (res : Result V R)

/-- The master's loop (:444-523): the same iteration as the serial one, with `x += alpha * p`,
`r += (-alpha) * ap` (:472, :490), an instruction before every product and `finish` before every return. -/
def masterLoop (o : Ops V K R) (pr : Params R) (tol : R) (b : V) : ℕ → ℕ → St V R → Prog V R
  | 0, _, s => .instr .finish (.ret (giveUp o s pr.maxIter .maxIterations))
  | n + 1, k, s =>
    .instr .multiplication <| .mul s.p fun ap =>
      let pap := o.inner s.p ap
      if !o.papValid pap then .instr .finish (.ret (giveUp o s k .indefinite))
      else
        let alpha := o.div s.rk pap
        let x := o.add s.x (o.smul alpha s.p)
        let stag := stagNext o alpha s.p x s.stag
        if 3 ≤ stag then .instr .finish (.ret (giveUp o s (k + 1) .stagnated))
        else
          let rest : V → Prog V R := fun r =>
            match finishIter o pr tol k { s with x := x, r := r, stag := stag } with
            | .inl res => .instr .finish (.ret res)
            | .inr s' => masterLoop o pr tol b n (k + 1) s'
          if recomputeNow pr k then
            .instr .multiplication <| .mul x fun ax => rest (o.sub b ax)
          else rest (o.add s.r (o.smul (o.neg alpha) ap))

/-- `ConjugateGradientSolverMaster` (:413-527). `r_prev` is default-constructed there (:441) and never read
before it is assigned; the model starts it at `r` like the serial solver. -/
def masterProg (o : Ops V K R) (b x0 : V) (pr : Params R) : Prog V R :=
  .instr .start <| .mul x0 fun ax0 =>
    let tol := tolSq o pr b
    let r := o.sub b ax0
    let rn := o.normSq r
    if o.le rn tol then .instr .finish (.ret ⟨x0, o.sqrtR rn, 0, .converged⟩)
    else masterLoop o pr tol b pr.maxIter 0 (initSt x0 r rn)

/-- A broadcast message: an instruction (MPI_INT) or a vector -/
inductive Msg (V : Type*)
  | instr (i : Instr)
  | vec (v : V)

/-- Program counter of a slave: `ConjugateGradientSolverSlave` (:531-544) with `MatrixMultiplyVectorSlave`
(:596-611) inlined. `wait0`: first instruction; `waitVec`: in the vector broadcast; `sending w`: in
`MPI_Send`; `waitInstr`: in the instruction broadcast at the loop end; `done`: returned; `error`: a
broadcast of the wrong kind or a failed `assert(instrct == start)`. -/
inductive SPC (V : Type*)
  | wait0 | waitVec | sending (w : V) | waitInstr | done | error

/-- how a slave reacts to the next broadcast message, `Ar` being its local matrix -/
def SPC.recv (Ar : V → V) : SPC V → Msg V → SPC V
  | .wait0, .instr .start => .waitVec
  | .waitVec, .vec v => .sending (Ar v)
  | .waitInstr, .instr .finish => .done
  | .waitInstr, .instr _ => .waitVec
  | _, _ => .error

/-- One slave: program counter, broadcasts it has not consumed yet, replies sent but not yet received by
the master, and (ghost) how many products it has performed. -/
structure Slave (V : Type*) where
  pc : SPC V
  queue : List (Msg V)
  mail : List V
  products : ℕ

/-- The master: about to run `p`; inside the broadcast call before `p`; inside the vector broadcast of a
product; receiving replies (`got`: source and value of each message received so far, in order). -/
inductive MPC (n : ℕ) (V R : Type*)
  | run (p : Prog V R)
  | inInstr (p : Prog V R)
  | inVec (v : V) (next : V → Prog V R)
  | gather (v : V) (next : V → Prog V R) (got : List (Fin n × V))

/-- Global state: the master, `n` slaves, and (ghost) how many products the master has performed. -/
structure Sys (n : ℕ) (V R : Type*) where
  m : MPC n V R
  s : Fin n → Slave V
  products : ℕ

variable {n : ℕ}

/-- a broadcast reaches the queue of every slave -/
def pushAll (s : Fin n → Slave V) (m : Msg V) : Fin n → Slave V :=
  fun i => { s i with queue := (s i).queue ++ [m] }

/-- Result of the gather (:551-592): own product plus the received vectors in order of arrival. -/
def gathered (o : Ops V K R) (A0 : V → V) (v : V) (got : List (Fin n × V)) : V :=
  got.foldl (fun acc e => o.add acc e.2) (A0 v)

/-- slave-side effect of consuming a broadcast message -/
def Slave.consume (Ar : V → V) (s : Slave V) (m : Msg V) (rest : List (Msg V)) : Slave V :=
  { s with pc := s.pc.recv Ar m, queue := rest }

/-- Steps every MPI implementation can always take: a broadcast returns on the master at the latest when
every slave has received it, a receive completes when a matching message is there or a matching sender
waits. `A0` is the master's local matrix, `A i` slave `i`'s. -/
inductive Must (o : Ops V K R) (A0 : V → V) (A : Fin n → V → V) : Sys n V R → Sys n V R → Prop
  | instr (i p s c) : Must o A0 A ⟨.run (.instr i p), s, c⟩ ⟨.inInstr p, pushAll s (.instr i), c⟩
  | instrEnd (p s c) (h : ∀ i, (s i).queue = []) : Must o A0 A ⟨.inInstr p, s, c⟩ ⟨.run p, s, c⟩
  | vec (v k s c) : Must o A0 A ⟨.run (.mul v k), s, c⟩ ⟨.inVec v k, pushAll s (.vec v), c⟩
  | vecEnd (v k s c) (h : ∀ i, (s i).queue = []) : Must o A0 A ⟨.inVec v k, s, c⟩ ⟨.gather v k [], s, c⟩
  | consume (m s c i msg rest) (h : (s i).queue = msg :: rest)
      (hready : (s i).pc = .wait0 ∨ (s i).pc = .waitVec ∨ (s i).pc = .waitInstr) :
      Must o A0 A ⟨m, s, c⟩ ⟨m, Function.update s i ((s i).consume (A i) msg rest), c⟩
  | recvMail (v k got s c i w rest) (hlen : got.length < n) (h : (s i).mail = w :: rest) :
      Must o A0 A ⟨.gather v k got, s, c⟩
        ⟨.gather v k (got ++ [(i, w)]), Function.update s i { s i with mail := rest }, c⟩
  | recvDirect (v k got s c i w) (hlen : got.length < n) (h : (s i).pc = .sending w)
      (hm : (s i).mail = []) :
      Must o A0 A ⟨.gather v k got, s, c⟩
        ⟨.gather v k (got ++ [(i, w)]),
          Function.update s i { s i with pc := .waitInstr, products := (s i).products + 1 }, c⟩
  | gatherEnd (v k got s c) (hlen : got.length = n) :
      Must o A0 A ⟨.gather v k got, s, c⟩ ⟨.run (k (gathered o A0 v got)), s, c + 1⟩

/-- All steps some MPI implementation may take: additionally a broadcast may return on the master before
the slaves have received it, and a blocking send may return before the message is received (buffering). -/
inductive Step (o : Ops V K R) (A0 : V → V) (A : Fin n → V → V) : Sys n V R → Sys n V R → Prop
  | must {a b} (h : Must o A0 A a b) : Step o A0 A a b
  | instrEarly (p s c) : Step o A0 A ⟨.inInstr p, s, c⟩ ⟨.run p, s, c⟩
  | vecEarly (v k s c) : Step o A0 A ⟨.inVec v k, s, c⟩ ⟨.gather v k [], s, c⟩
  | sendEarly (m s c i w) (h : (s i).pc = .sending w) :
      Step o A0 A ⟨m, s, c⟩
        ⟨m, Function.update s i
          { s i with pc := .waitInstr, mail := (s i).mail ++ [w], products := (s i).products + 1 }, c⟩

/-- All processes have entered the solver. -/
def initSys (n : ℕ) (o : Ops V K R) (b x0 : V) (pr : Params R) : Sys n V R :=
  ⟨.run (masterProg o b x0 pr), fun _ => ⟨.wait0, [], [], 0⟩, 0⟩

/-! ## Exact arithmetic -/

open Classical in
/-- Exact real/complex arithmetic in an inner product space. `SplitIndexTPS * SplitIndexTPS`
(split_index_tps.h:370-377) is conjugate-linear in the left argument, like `inner`. -/
noncomputable def exactOps (𝕜 : Type*) [RCLike 𝕜] (V : Type*) [NormedAddCommGroup V] [InnerProductSpace 𝕜 V]
    (eps : ℝ) : Ops V 𝕜 ℝ where
  add := (· + ·)
  sub := (· - ·)
  smul := fun a v => a • v
  smulR := fun a v => (a : 𝕜) • v
  inner := fun u v => inner 𝕜 u v
  normSq := fun v => ‖v‖ ^ 2
  papValid := fun z => decide (0 < RCLike.re z ∧ |RCLike.im z| < 1e-10)
  div := fun a z => (a : 𝕜) / z
  neg := fun z => -z
  absSq := fun z => ‖z‖ ^ 2
  re := fun z => RCLike.re z
  mulR := (· * ·)
  divR := (· / ·)
  absR := fun a => |a|
  sqrtR := Real.sqrt
  lt := fun a b => decide (a < b)
  le := fun a b => decide (a ≤ b)
  isFinite := fun _ => true
  eps := eps

end QLPeps.CG
