import Verif.Model.Traversal

/-!
# Model of the boundary-MPS walker and of the structure-factor measurement

Sources: `/repo/include/qlpeps/two_dim_tn/tensor_network_2d/bmps/bmps_contractor.h:357-633`
(`BMPSWalker`), `bmps/impl/bmps_walker.h`, `bmps/impl/bten_operations.h`, and
`/repo/include/qlpeps/algorithm/vmc_update/model_solvers/base/structure_factor_measurement_mixin.h`.

The tensor operations are those of `Model/Contractor`: the free functions of `bten_operations.h`
perform the same contractions as the contractor itself (`CreateVacuumBTenLeft/Right` are `bten0`,
`GrowBTenLeftStep/RightStep` are `bgrow`, `TraceBTen` is `one .horizontal`). `none` stands for a thrown
`runtime_error` and for an access out of range. Simplifications: boundary MPS always have `cols` tensors
(as in `Model/Contractor`), so that of the size checks only the one on the MPO is left; `target_col + 1`
does not wrap; `ContractRow` is in `Model/WalkerRow`.
-/

namespace QLPeps.Walker

open QLPeps.Contractor

variable {T E B C C2 A H : Type*}

/-- the members of `BMPSWalker` (bmps_contractor.h:623-637); the network is passed to the operations -/
structure Wk (B C : Type*) where
  bmps : B
  pos : Pos
  stackSize : ℕ
  left : List C
  right : List C
  leftCol : ℕ
  rightCol : ℕ

/-- the constructor (bmps_contractor.h:367-376) -/
def make (b : B) (p : Pos) (n : ℕ) : Wk B C := ⟨b, p, n, [], [], 0, 0⟩

/-- `GetWalker` (bmps_walker.h:48-54): a copy of the last boundary MPS of a stack -/
def getWalker (p : Pos) (c : Ctr B C C2) : Option (Wk B C) :=
  ((c.bmps p).getLast?).map fun b => make b p (c.bmps p).length

/-- `Evolve` (bmps_walker.h:13-20); the MPO is copied because `MultiplyMPO` may reverse it -/
def evolve (o : Ops T E B C C2 A H) (mpo : List T) (w : Wk B C) : Wk B C :=
  { w with bmps := o.absorb w.pos w.bmps mpo }

/-- the row or column absorbed next (bmps_walker.h:25-35) -/
def mpoNum (rows cols : ℕ) (p : Pos) (size : ℕ) : Option ℕ :=
  match p with
  | .up => sub? size 1
  | .left => sub? size 1
  | .down => sub? rows size
  | .right => sub? cols size

/-- the check for over-evolution, for UP and LEFT only (bmps_walker.h:37-40) -/
def atEnd (rows cols : ℕ) (p : Pos) (i : ℕ) : Bool :=
  match p with
  | .up => rows - 1 ≤ i
  | .left => cols - 1 ≤ i
  | _ => false

/-- `EvolveStep` (bmps_walker.h:23-45) -/
def evolveStep (o : Ops T E B C C2 A H) (rows cols : ℕ) (t : Site → T) (w : Wk B C) :
    Option (Wk B C) :=
  (mpoNum rows cols w.pos w.stackSize).bind fun i =>
    if atEnd rows cols w.pos i then some w
    else (getSlice rows cols t w.pos i).map fun mpo =>
      { evolve o mpo w with stackSize := w.stackSize + 1 }

/-- `bten_ops::CreateVacuumBTenLeft` (bten_operations.h:61-93) -/
def vacuumLeft (o : Ops T E B C C2 A H) (n : ℕ) (b opp : B) : Option C :=
  ((sub? n 1).bind (raw? o n b)).bind fun e1 =>
    (raw? o n opp 0).map fun e2 => o.bten0 .left e1 e2

/-- `bten_ops::CreateVacuumBTenRight` (bten_operations.h:106-134) -/
def vacuumRight (o : Ops T E B C C2 A H) (n : ℕ) (b opp : B) : Option C :=
  ((sub? n 1).bind (raw? o n opp)).bind fun e1 =>
    (raw? o n b 0).map fun e2 => o.bten0 .right e1 e2

/-- the vacuum created on demand by `GrowBTenLeftStep` (bmps_walker.h:273-283) -/
def ensureLeft (o : Ops T E B C C2 A H) (n : ℕ) (opp : B) (w : Wk B C) : Option (Wk B C) :=
  if w.left.isEmpty then
    if w.leftCol ≠ 0 then none
    else (vacuumLeft o n w.bmps opp).map fun v => { w with left := [v] }
  else some w

/-- absorbing the column at the left edge (bmps_walker.h:285-300) -/
def absorbLeft (o : Ops T E B C C2 A H) (n : ℕ) (mpo : List T) (opp : B) (w : Wk B C) :
    Option (Wk B C) :=
  if n ≤ w.leftCol then none
  else
    (w.left.getLast?).bind fun v =>
    ((sub? n (w.leftCol + 1)).bind (raw? o n w.bmps)).bind fun e1 =>
    (mpo[w.leftCol]?).bind fun x =>
    (raw? o n opp w.leftCol).map fun e2 =>
      { w with left := w.left ++ [o.bgrow .left v e1 x e2], leftCol := w.leftCol + 1 }

/-- `GrowBTenLeftStep` (bmps_walker.h:261-301) -/
def growLeft (o : Ops T E B C C2 A H) (n : ℕ) (mpo : List T) (opp : B) (w : Wk B C) :
    Option (Wk B C) :=
  if n = 0 ∨ mpo.length ≠ n then none
  else (ensureLeft o n opp w).bind (absorbLeft o n mpo opp)

/-- `GrowBTenRightStep` (bmps_walker.h:304-330) -/
def growRight (o : Ops T E B C C2 A H) (n : ℕ) (mpo : List T) (opp : B) (w : Wk B C) :
    Option (Wk B C) :=
  if w.right.isEmpty then none
  else if w.rightCol = 0 then none
  else
    (w.right.getLast?).bind fun v =>
    (raw? o n opp (w.rightCol - 1)).bind fun e1 =>
    (mpo[w.rightCol - 1]?).bind fun x =>
    ((sub? n (w.rightCol - 1 + 1)).bind (raw? o n w.bmps)).map fun e2 =>
      { w with right := w.right ++ [o.bgrow .right v e1 x e2], rightCol := w.rightCol - 1 }

/-- the `while` loops of `InitBTenLeft` and `InitBTenRight` (bmps_walker.h:228-230, 255-257), whose
number of rounds is known beforehand -/
def times {α : Type*} (k : ℕ) (f : α → Option α) (a : α) : Option α :=
  (List.range k).foldlM (fun a _ => f a) a

/-- `InitBTenLeft` (bmps_walker.h:207-231) -/
def initLeft (o : Ops T E B C C2 A H) (n : ℕ) (mpo : List T) (opp : B) (target : ℕ) (w : Wk B C) :
    Option (Wk B C) :=
  if n = 0 ∨ mpo.length ≠ n then none
  else (vacuumLeft o n w.bmps opp).bind fun v =>
    times (min target n) (growLeft o n mpo opp) { w with left := [v], leftCol := 0 }

/-- `InitBTenRight` (bmps_walker.h:234-258) -/
def initRight (o : Ops T E B C C2 A H) (n : ℕ) (mpo : List T) (opp : B) (target : ℕ) (w : Wk B C) :
    Option (Wk B C) :=
  if n = 0 ∨ mpo.length ≠ n then none
  else (vacuumRight o n w.bmps opp).bind fun v =>
    times (n - (target + 1)) (growRight o n mpo opp) { w with right := [v], rightCol := n }

/-- `ShiftBTenWindow(·, ·, LEFT)` (bmps_walker.h:337-344); the edge is a `size_t` and wraps -/
def shiftLeft (o : Ops T E B C C2 A H) (n : ℕ) (mpo : List T) (opp : B) (w : Wk B C) :
    Option (Wk B C) :=
  if w.left.isEmpty then none
  else growRight o n mpo opp
    { w with left := w.left.dropLast, leftCol := (w.leftCol + (2 ^ 64 - 1)) % 2 ^ 64 }

/-- `ShiftBTenWindow(·, ·, RIGHT)` (bmps_walker.h:345-353) -/
def shiftRight (o : Ops T E B C C2 A H) (n : ℕ) (mpo : List T) (opp : B) (w : Wk B C) :
    Option (Wk B C) :=
  if w.right.isEmpty then none
  else growLeft o n mpo opp { w with right := w.right.dropLast, rightCol := w.rightCol + 1 }

/-- `ClearBTen` (bmps_contractor.h:584) -/
def clear (w : Wk B C) : Wk B C := { w with left := [], right := [], leftCol := 0, rightCol := 0 }

/-- the far boundary tensor for a window that ends at column `col` (bmps_walker.h:380-384, 431-436) -/
def rightAt (n col : ℕ) (w : Wk B C) : Option C := (sub? n (col + 1)).bind fun i => w.right[i]?

/-- `TraceWithBTen` (bmps_walker.h:357-394) -/
def trace (o : Ops T E B C C2 A H) (n : ℕ) (x : T) (col : ℕ) (opp : B) (w : Wk B C) : Option A :=
  if w.left.isEmpty ∨ w.right.isEmpty then none
  else if w.leftCol < col then none
  else if col + 1 < w.rightCol then none
  else
    (w.left[col]?).bind fun l =>
    (rightAt n col w).bind fun r =>
    ((sub? n (col + 1)).bind (raw? o n w.bmps)).bind fun up =>
    (raw? o n opp col).map fun dn => o.one .horizontal l up dn x r

/-- `TraceWithTwoSiteBTen` (bmps_walker.h:397-461) -/
def trace2 (o : Ops T E B C C2 A H) (n : ℕ) (xa xb : T) (col : ℕ) (opp : B) (w : Wk B C) : Option A :=
  if n ≤ col + 1 then none
  else if w.left.isEmpty ∨ w.right.isEmpty then none
  else if w.leftCol < col then none
  else if col + 2 < w.rightCol then none
  else
    (w.left[col]?).bind fun l =>
    (rightAt n (col + 1) w).bind fun r =>
    ((sub? n (col + 1)).bind (raw? o n w.bmps)).bind fun upA =>
    (raw? o n opp col).bind fun dnA =>
    ((sub? n (col + 2)).bind (raw? o n w.bmps)).bind fun upB =>
    (raw? o n opp (col + 1)).map fun dnB =>
      o.one .horizontal (o.bgrow .left l upA xa dnA) upB dnB xb r

/-! ## `MeasureStructureFactor` -/

/-- one tuple of the output: source, target, value (structure_factor_measurement_mixin.h:199-205); the
code flattens the five numbers -/
abbrev Entry (A : Type*) := Site × Site × A

variable [Zero A]

/-- one position of the scan over a target row, from right to left
(structure_factor_measurement_mixin.h:175-196) -/
def scanStep (o : Ops T E B C C2 A H) (cols : ℕ) (sitps : Site → ℕ → T) (cfg : Config) (down : Bool)
    (y2 : ℕ) (mpo : List T) (opp : B) (z : Wk B C × (ℕ → A)) (k : ℕ) : Option (Wk B C × (ℕ → A)) :=
  let x2 := cols - 1 - k
  (if down = true ∧ cfg (y2, x2) = 1 then
      (trace o cols (sitps (y2, x2) 0) x2 opp z.1).map (Function.update z.2 x2)
    else some z.2).bind fun res =>
  (if 0 < x2 then growRight o cols mpo opp z.1 else some z.1).map fun w => (w, res)

/-- one target row (structure_factor_measurement_mixin.h:145-214): with too few DOWN layers the row is
recorded as zero and *not* absorbed into the walker (`continue`) -/
def targetRow (o : Ops T E B C C2 A H) (rows cols : ℕ) (sitps : Site → ℕ → T) (cfg : Config)
    (t : Site → T) (down : List B) (s1 : Site) (z : List (Entry A) × Wk B C) (y2 : ℕ) :
    Option (List (Entry A) × Wk B C) :=
  match down[rows - 1 - y2]? with
  | none => some (z.1 ++ (List.range cols).map fun x2 => (s1, (y2, x2), 0), z.2)
  | some opp =>
    (getRow rows cols t y2).bind fun mpo =>
    (initLeft o cols mpo opp cols z.2).bind fun w =>
    (initRight o cols mpo opp (cols - 1) w).bind fun w =>
    ((List.range cols).foldlM (scanStep o cols sitps cfg (cfg s1 == 0) y2 mpo opp)
      (w, fun _ => 0)).map fun r =>
    (z.1 ++ (List.range cols).map fun x2 => (s1, (y2, x2), r.2 x2),
      if y2 < rows - 1 then evolve o mpo (clear r.1) else clear r.1)

/-- one source site (structure_factor_measurement_mixin.h:125-215): fork, absorb the row with the
flipped spin, go down -/
def sourceSite (o : Ops T E B C C2 A H) (rows cols : ℕ) (sitps : Site → ℕ → T) (cfg : Config)
    (t : Site → T) (down : List B) (y1 : ℕ) (main : Wk B C) (out : List (Entry A)) (x1 : ℕ) :
    Option (List (Entry A)) :=
  (getRow rows cols t y1).bind fun mpo =>
  ((upTo (y1 + 1) rows).foldlM (targetRow o rows cols sitps cfg t down (y1, x1))
    (out, evolve o (if cfg (y1, x1) = 0 then mpo.set x1 (sitps (y1, x1) 1) else mpo) main)).map Prod.fst

/-- one source row (structure_factor_measurement_mixin.h:124-220) -/
def sourceRow (o : Ops T E B C C2 A H) (rows cols : ℕ) (sitps : Site → ℕ → T) (cfg : Config)
    (t : Site → T) (down : List B) (z : List (Entry A) × Wk B C) (y1 : ℕ) :
    Option (List (Entry A) × Wk B C) :=
  ((List.range cols).foldlM (sourceSite o rows cols sitps cfg t down y1 z.2) z.1).bind fun out =>
  (getRow rows cols t y1).map fun mpo => (out, evolve o mpo z.2)

/-- `MeasureStructureFactor` (structure_factor_measurement_mixin.h:89-225): the tuples of `SpSm_cross`;
nothing is recorded if there is no UP boundary MPS -/
def measure (o : Ops T E B C C2 A H) (rows cols : ℕ) (sitps : Site → ℕ → T) (cfg : Config)
    (c : Ctr B C C2) : Option (List (Entry A)) :=
  match (c.bmps .up)[0]? with
  | none => some []
  | some b =>
    ((List.range (rows - 1)).foldlM
      (sourceRow o rows cols sitps cfg (project sitps cfg) (c.bmps .down)) ([], make b .up 1)).map
      Prod.fst

end QLPeps.Walker
