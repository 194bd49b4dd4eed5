import Verif.Model.Updaters
import Mathlib.Logic.Function.Basic

/-!
# Model of the boundary-MPS contractor and its caches

Sources (under `/repo/include/qlpeps/two_dim_tn/tensor_network_2d/bmps/`):
`bmps_contractor.h`, `impl/bmps_contractor_init.h`, `impl/bmps_contractor_grow.h`,
`impl/bmps_contractor_trace.h`, `impl/bmps_contractor_helpers.h`, and
`/repo/include/qlpeps/basic.h`, `/repo/include/qlpeps/vmc_basic/wave_function_component.h`.

The three families of caches (boundary MPS, boundary tensors of one layer, boundary tensors of
two layers), the index arithmetic that fills, reads and erases them and the sites whose tensors
are used are modelled in full. The tensor contractions themselves are parameters (`Ops`): the
absorption of a row or column may truncate in any way.

Every operation returns `none` where the C++ reads or writes out of range (`std::vector::at`
throws, `operator[]`, `back()` and `pop_back()` are undefined behaviour); a `size_t` difference
that would be negative wraps to an index outside every container, and is `none` here.

Simplifications: the boundary layer (`InitBMPS`) and the initial boundary tensors
(`InitBTen`, `InitBTen2`) read only the *index* of the lattice tensors on the outer legs,
which does not depend on the local state; they are functions of the position and of the
boundary-MPS tensors read. Truncation parameters are part of the absorption function.
-/

namespace QLPeps.Contractor

/-- Tensor operations. `T`: site tensor, `E`: one tensor of a boundary MPS, `B`: boundary MPS,
`C`, `C2`: boundary tensor of one or two layers, `A`: amplitude, `H`: punched hole. -/
structure Ops (T E B C C2 A H : Type*) where
  /-- bmps_contractor_init.h:35-70, the trivial boundary MPS -/
  boundary : Pos → B
  /-- `BMPS::MultiplyMPO` with the contractor's truncation parameters -/
  absorb : Pos → B → List T → B
  /-- `BMPS::operator[]`, raw index -/
  get : B → ℕ → E
  /-- bmps_contractor_init.h:106-119: from the last tensor of the preceding and the first tensor
  of the following boundary MPS -/
  bten0 : Pos → E → E → C
  /-- one step of `GrowFullBTen` / `GrowBTenStep` -/
  bgrow : Pos → C → E → T → E → C
  /-- bmps_contractor_init.h:170-183 -/
  bten20 : Pos → E → E → C2
  /-- one step of `GrowFullBTen2` / `GrowBTen2Step` -/
  bgrow2 : Pos → C2 → E → T → T → E → C2
  /-- bmps_contractor_trace.h:92-205: near boundary tensor; preceding-side and following-side MPS
  tensor and site tensor of the first site; the same for the second site; far boundary tensor.
  For `horizontal`: left, (up, down, site) twice, right; for `vertical`: up,
  (left, right, site) twice, down. -/
  nn : Orient → C → E → E → T → E → E → T → C → A
  /-- bmps_contractor_trace.h:327-423, three sites -/
  tnn : Orient → C → E → E → T → E → E → T → E → E → T → C → A
  /-- bmps_contractor_trace.h:31-88, one site -/
  one : Orient → C → E → E → T → C → A
  /-- bmps_contractor_grow.h:152-183, no site -/
  hole : Orient → C → E → E → C → H
  /-- bmps_contractor_trace.h:208-324: near boundary tensor, the four MPS tensors (first side at
  first and second position, second side at first and second position), the tensors of the
  plaquette at `(row1,col1)`, `(row2,col1)`, `(row1,col2)`, `(row2,col2)`, far boundary tensor. -/
  nnn : Orient → C2 → E → E → E → E → T → T → T → T → C2 → A

/-- bmps_contractor.h: `bmps_set_`, `bten_set_`, `bten_set2_`; `push_back` appends at the end. -/
structure Ctr (B C C2 : Type*) where
  bmps : Pos → List B
  bten : Pos → List C
  bten2 : Pos → List C2

/-- basic.h:80-88 `Opposite`. -/
def opposite : Pos → Pos
  | .left => .right
  | .down => .up
  | .right => .left
  | .up => .down

/-- `BMPSPOSITION((size_t(post) + 3) % 4)` (bmps_contractor_grow.h:531-532). -/
def pre : Pos → Pos
  | .left => .up
  | .down => .left
  | .right => .down
  | .up => .right

/-- `BMPSPOSITION((size_t(post) + 1) % 4)` (bmps_contractor_grow.h:533). -/
def next : Pos → Pos
  | .left => .down
  | .down => .right
  | .right => .up
  | .up => .left

/-- `size_t` subtraction used as an index; a wrapped value is out of range everywhere -/
def sub? (a b : ℕ) : Option ℕ := if b ≤ a then some (a - b) else none

variable {T E B C C2 A H : Type*}

/-- `TenMatrix::get_row` (two_dim_tn/framework/ten_matrix.h:147). -/
def getRow (rows cols : ℕ) (t : Site → T) (r : ℕ) : Option (List T) :=
  if r < rows then some ((List.range cols).map fun c => t (r, c)) else none

/-- `TenMatrix::get_col` (ten_matrix.h:140). -/
def getCol (rows cols : ℕ) (t : Site → T) (c : ℕ) : Option (List T) :=
  if c < cols then some ((List.range rows).map fun r => t (r, c)) else none

/-- `tn({row, col})`. -/
def site? (rows cols : ℕ) (t : Site → T) (s : Site) : Option T :=
  if s.1 < rows ∧ s.2 < cols then some (t s) else none

/-- `tn.get_slice(i, Rotate(Orientation(position)))` (bmps_contractor_grow.h:45). -/
def getSlice (rows cols : ℕ) (t : Site → T) : Pos → ℕ → Option (List T)
  | .up, i => getRow rows cols t i
  | .down, i => getRow rows cols t i
  | .left, i => getCol rows cols t i
  | .right, i => getCol rows cols t i

/-- number of boundary MPS positions in the growth direction -/
def span (rows cols : ℕ) : Pos → ℕ
  | .up => rows
  | .down => rows
  | .left => cols
  | .right => cols

/-- number of tensors of a boundary MPS: `tn.length(Rotate(Orientation(post)))`
(bmps_contractor_init.h:38) -/
def width (rows cols : ℕ) : Pos → ℕ
  | .up => cols
  | .down => cols
  | .left => rows
  | .right => rows

/-- bmps_contractor_init.h:10-23, the constructor. -/
def empty : Ctr B C C2 := ⟨fun _ => [], fun _ => [], fun _ => []⟩

/-- `Init` (bmps_contractor_init.h:26-32). The boundary-tensor caches are not touched. -/
def init (o : Ops T E B C C2 A H) (c : Ctr B C C2) : Ctr B C C2 :=
  { c with bmps := fun p => [o.boundary p] }

/-- `GrowBMPSStep(position, mpo)` (bmps_contractor_grow.h:20-31). -/
def pushLayer (o : Ops T E B C C2 A H) (p : Pos) (mpo : List T) (c : Ctr B C C2) :
    Option (Ctr B C C2) :=
  match (c.bmps p).getLast? with
  | none => none
  | some b => some { c with bmps := Function.update c.bmps p (c.bmps p ++ [o.absorb p b mpo]) }

/-- bmps_contractor_grow.h:37-44, the row or column absorbed next. -/
def nextSlice (rows cols : ℕ) (p : Pos) (size : ℕ) : Option ℕ :=
  match p with
  | .up => sub? size 1
  | .left => sub? size 1
  | .down => sub? rows size
  | .right => sub? cols size

/-- `GrowBMPSStep(tn, position)` (bmps_contractor_grow.h:34-47). -/
def growBMPSStep (o : Ops T E B C C2 A H) (rows cols : ℕ) (t : Site → T) (p : Pos)
    (c : Ctr B C C2) : Option (Ctr B C C2) :=
  (nextSlice rows cols p (c.bmps p).length).bind fun i =>
    (getSlice rows cols t p i).bind fun mpo => pushLayer o p mpo c

/-- absorb the given rows or columns one after the other -/
def growSlices (o : Ops T E B C C2 A H) (rows cols : ℕ) (t : Site → T) (p : Pos)
    (is : List ℕ) (c : Ctr B C C2) : Option (Ctr B C C2) :=
  is.foldlM (fun c i => (getSlice rows cols t p i).bind fun mpo => pushLayer o p mpo c) c

/-- `for (i = from; i > to; i--)` -/
def downTo (start stop : ℕ) : List ℕ := (List.range (start - stop)).map fun j => start - j

/-- `for (i = from; i < to; i++)` -/
def upTo (start stop : ℕ) : List ℕ := (List.range (stop - start)).map fun j => start + j

/-- `GrowFullBMPS` (bmps_contractor_grow.h:50-86). With an empty stack the UP and LEFT loops
start at the wrapped value and do not run. -/
def growFullBMPS (o : Ops T E B C C2 A H) (rows cols : ℕ) (t : Site → T) (p : Pos)
    (c : Ctr B C C2) : Option (Ctr B C C2) :=
  match p with
  | .down => (sub? rows (c.bmps .down).length).bind fun k =>
      growSlices o rows cols t .down (downTo k 0) c
  | .right => (sub? cols (c.bmps .right).length).bind fun k =>
      growSlices o rows cols t .right (downTo k 0) c
  | .up => match sub? (c.bmps .up).length 1 with
      | none => some c
      | some k => growSlices o rows cols t .up (upTo k (rows - 1)) c
  | .left => match sub? (c.bmps .left).length 1 with
      | none => some c
      | some k => growSlices o rows cols t .left (upTo k (cols - 1)) c

/-- `DeleteInnerBMPS` (bmps_contractor.h:320-324). -/
def deleteInner (p : Pos) (c : Ctr B C C2) : Ctr B C C2 :=
  { c with bmps := Function.update c.bmps p ((c.bmps p).take 1) }

/-- `GenerateBMPSApproach` (bmps_contractor_grow.h:13-17). -/
def generateApproach (o : Ops T E B C C2 A H) (rows cols : ℕ) (t : Site → T) (p : Pos)
    (c : Ctr B C C2) : Option (Ctr B C C2) :=
  growFullBMPS o rows cols t (opposite p) (deleteInner p c)

/-- `GrowBMPSForRow` (bmps_contractor_grow.h:90-104). -/
def growForRow (o : Ops T E B C C2 A H) (rows cols : ℕ) (t : Site → T) (row : ℕ)
    (c : Ctr B C C2) : Option (Ctr B C C2) :=
  ((sub? rows (c.bmps .down).length).bind fun k =>
    growSlices o rows cols t .down (downTo k row) c).bind fun c =>
  match sub? (c.bmps .up).length 1 with
  | none => some c
  | some k => growSlices o rows cols t .up (upTo k row) c

/-- `GrowBMPSForCol` (bmps_contractor_grow.h:108-122). -/
def growForCol (o : Ops T E B C C2 A H) (rows cols : ℕ) (t : Site → T) (col : ℕ)
    (c : Ctr B C C2) : Option (Ctr B C C2) :=
  ((sub? cols (c.bmps .right).length).bind fun k =>
    growSlices o rows cols t .right (downTo k col) c).bind fun c =>
  match sub? (c.bmps .left).length 1 with
  | none => some c
  | some k => growSlices o rows cols t .left (upTo k col) c

/-- `ShiftBMPSWindow` (bmps_contractor_grow.h:144-148); `pop_back` of an empty vector is
undefined behaviour. -/
def shiftBMPSWindow (o : Ops T E B C C2 A H) (rows cols : ℕ) (t : Site → T) (p : Pos)
    (c : Ctr B C C2) : Option (Ctr B C C2) :=
  if (c.bmps p).isEmpty then none
  else growBMPSStep o rows cols t (opposite p)
    { c with bmps := Function.update c.bmps p (c.bmps p).dropLast }

/-- position in a stack of a logical slice index: `BMPSAtSlice_`, `BTenAtSlice_`,
`BTen2AtSlice_` (bmps_contractor.h:985-1028). -/
def stackIdx (rows cols : ℕ) (p : Pos) (i : ℕ) : Option ℕ :=
  match p with
  | .down => sub? rows (i + 1)
  | .right => sub? cols (i + 1)
  | .up => some i
  | .left => some i

/-- `BMPSAtSlice_` (bmps_contractor.h:985-999). -/
def bmpsAt (rows cols : ℕ) (c : Ctr B C C2) (p : Pos) (i : ℕ) : Option B :=
  (stackIdx rows cols p i).bind fun k => (c.bmps p)[k]?

/-- `BTenAtSlice_` (bmps_contractor.h:1003-1018). -/
def btenAt (rows cols : ℕ) (c : Ctr B C C2) (p : Pos) (i : ℕ) : Option C :=
  (stackIdx rows cols p i).bind fun k => (c.bten p)[k]?

/-- `BTen2AtSlice_` (bmps_contractor.h:1020-1027). -/
def bten2At (rows cols : ℕ) (c : Ctr B C C2) (p : Pos) (i : ℕ) : Option C2 :=
  (stackIdx rows cols p i).bind fun k => (c.bten2 p)[k]?

/-- raw access to a tensor of a boundary MPS with `n` tensors -/
def raw? (o : Ops T E B C C2 A H) (n : ℕ) (b : B) (i : ℕ) : Option E :=
  if i < n then some (o.get b i) else none

/-- `AtLogicalCol` (one_dim_tn/boundary_mps/bmps.h:214-218): the storage of UP and RIGHT boundary
MPS is reversed. -/
def atLogical (o : Ops T E B C C2 A H) (n : ℕ) (p : Pos) (b : B) (i : ℕ) : Option E :=
  match p with
  | .up => (sub? n (i + 1)).bind (raw? o n b)
  | .right => (sub? n (i + 1)).bind (raw? o n b)
  | .left => raw? o n b i
  | .down => raw? o n b i

/-- The site absorbed at step `i` into the boundary tensor `p` of slice `s`
(bmps_contractor_grow.h:269,303,333,357). -/
def btenSite (rows cols : ℕ) (p : Pos) (s i : ℕ) : Option Site :=
  match p with
  | .left => some (s, i)
  | .right => (sub? cols (i + 1)).map fun j => (s, j)
  | .up => some (i, s)
  | .down => (sub? rows (i + 1)).map fun j => (j, s)

/-- `InitBTen` (bmps_contractor_init.h:73-120). -/
def initBTen (o : Ops T E B C C2 A H) (rows cols : ℕ) (p : Pos) (s : ℕ)
    (c : Ctr B C C2) : Option (Ctr B C C2) :=
  let n := span rows cols p
  (bmpsAt rows cols c (pre p) s).bind fun b1 =>
  (bmpsAt rows cols c (next p) s).bind fun b2 =>
  ((sub? n 1).bind (raw? o n b1)).bind fun e1 =>
  (raw? o n b2 0).bind fun e2 =>
  some { c with bten := Function.update c.bten p [o.bten0 p e1 e2] }

/-- one iteration of the loops of `GrowFullBTen` (bmps_contractor_grow.h:266-287, 300-321,
330-350, 354-375): MPS tensors `N-i-1` and `i`, site `btenSite`. -/
def btenStep (o : Ops T E B C C2 A H) (rows cols : ℕ) (t : Site → T) (p : Pos) (s : ℕ)
    (b1 b2 : B) (c : Ctr B C C2) (i : ℕ) : Option (Ctr B C C2) :=
  let n := span rows cols p
  ((sub? n (i + 1)).bind (raw? o n b1)).bind fun e1 =>
  (raw? o n b2 i).bind fun e2 =>
  ((btenSite rows cols p s i).bind (site? rows cols t)).bind fun x =>
  ((c.bten p).getLast?).bind fun last =>
  some { c with bten := Function.update c.bten p (c.bten p ++ [o.bgrow p last e1 x e2]) }

/-- `GrowFullBTen` (bmps_contractor_grow.h:244-373). -/
def growFullBTen (o : Ops T E B C C2 A H) (rows cols : ℕ) (t : Site → T) (p : Pos)
    (s remain : ℕ) (ini : Bool) (c : Ctr B C C2) : Option (Ctr B C C2) :=
  (if ini then initBTen o rows cols p s c else some c).bind fun c =>
  (bmpsAt rows cols c (pre p) s).bind fun b1 =>
  (bmpsAt rows cols c (next p) s).bind fun b2 =>
  (sub? (span rows cols p) remain).bind fun stop =>
  match sub? (c.bten p).length 1 with
  | none => some c
  | some start => (upTo start stop).foldlM (btenStep o rows cols t p s b1 b2) c

/-- the slice of the current window: `bmps_set_[UP].size() - 1` resp.
`bmps_set_[LEFT].size() - 1` (bmps_contractor_grow.h:548,554,560,566). -/
def windowSlice (c : Ctr B C C2) : Pos → Option ℕ
  | .left => sub? (c.bmps .up).length 1
  | .right => sub? (c.bmps .up).length 1
  | .up => sub? (c.bmps .left).length 1
  | .down => sub? (c.bmps .left).length 1

/-- `GrowBTenStep` (bmps_contractor_grow.h:530-582). -/
def growBTenStep (o : Ops T E B C C2 A H) (rows cols : ℕ) (t : Site → T) (p : Pos)
    (c : Ctr B C C2) : Option (Ctr B C C2) :=
  let n := span rows cols p
  (sub? (c.bten p).length 1).bind fun i =>
  (windowSlice c p).bind fun s =>
  ((c.bmps (pre p)).getLast?).bind fun b1 =>
  ((c.bmps (next p)).getLast?).bind fun b2 =>
  ((sub? n (i + 1)).bind (raw? o n b1)).bind fun e1 =>
  (raw? o n b2 i).bind fun e2 =>
  ((btenSite rows cols p s i).bind (site? rows cols t)).bind fun x =>
  ((c.bten p).getLast?).bind fun last =>
  some { c with bten := Function.update c.bten p (c.bten p ++ [o.bgrow p last e1 x e2]) }

/-- `ShiftBTenWindow` (bmps_contractor_grow.h:518-521). -/
def shiftBTenWindow (o : Ops T E B C C2 A H) (rows cols : ℕ) (t : Site → T) (p : Pos)
    (c : Ctr B C C2) : Option (Ctr B C C2) :=
  if (c.bten p).isEmpty then none
  else growBTenStep o rows cols t (opposite p)
    { c with bten := Function.update c.bten p (c.bten p).dropLast }

/-- `TruncateBTen` (bmps_contractor_init.h:123-128). -/
def truncateBTen (p : Pos) (len : ℕ) (c : Ctr B C C2) : Ctr B C C2 :=
  { c with bten := Function.update c.bten p ((c.bten p).take len) }

/-- number of cache entries kept on side `p` after a change at a site
(bmps_contractor_trace.h:542-560 and 582-589). -/
def keep (rows cols : ℕ) (p : Pos) (s : Site) : ℕ :=
  match p with
  | .left => s.2 + 1
  | .up => s.1 + 1
  | .right => cols - s.2
  | .down => rows - s.1

/-- `EraseEnvsAfterUpdate` (bmps_contractor_trace.h:539-590). -/
def eraseEnvs (rows cols : ℕ) (s : Site) (c : Ctr B C C2) : Ctr B C C2 where
  bmps p := (c.bmps p).take (keep rows cols p s)
  bten p := (c.bten p).take (keep rows cols p s)
  bten2 p := (c.bten2 p).take (keep rows cols p s)

/-- `ReplaceNNSiteTrace` (bmps_contractor_trace.h:92-205). -/
def nnTrace (o : Ops T E B C C2 A H) (rows cols : ℕ) (c : Ctr B C C2) (sa sb : Site)
    (d : Orient) (ta tb : T) : Option A :=
  match d with
  | .horizontal =>
    (bmpsAt rows cols c .up sa.1).bind fun up =>
    (bmpsAt rows cols c .down sa.1).bind fun dn =>
    (atLogical o cols .up up sa.2).bind fun ua =>
    (atLogical o cols .down dn sa.2).bind fun da =>
    ((c.bten .left)[sa.2]?).bind fun l =>
    (atLogical o cols .up up sb.2).bind fun ub =>
    (atLogical o cols .down dn sb.2).bind fun db =>
    (btenAt rows cols c .right sb.2).bind fun r =>
    some (o.nn .horizontal l ua da ta ub db tb r)
  | .vertical =>
    (bmpsAt rows cols c .left sa.2).bind fun lf =>
    (bmpsAt rows cols c .right sa.2).bind fun rt =>
    (atLogical o rows .left lf sa.1).bind fun la =>
    (atLogical o rows .right rt sa.1).bind fun ra =>
    ((c.bten .up)[sa.1]?).bind fun u =>
    (atLogical o rows .left lf sb.1).bind fun lb =>
    (atLogical o rows .right rt sb.1).bind fun rb =>
    (btenAt rows cols c .down sb.1).bind fun dn =>
    some (o.nn .vertical u la ra ta lb rb tb dn)

/-- `ReplaceTNNSiteTrace` (bmps_contractor_trace.h:327-423). -/
def tnnTrace (o : Ops T E B C C2 A H) (rows cols : ℕ) (c : Ctr B C C2) (s0 : Site)
    (d : Orient) (t0 t1 t2 : T) : Option A :=
  match d with
  | .horizontal =>
    (bmpsAt rows cols c .up s0.1).bind fun up =>
    (bmpsAt rows cols c .down s0.1).bind fun dn =>
    (atLogical o cols .up up s0.2).bind fun u0 =>
    (atLogical o cols .down dn s0.2).bind fun d0 =>
    (atLogical o cols .up up (s0.2 + 1)).bind fun u1 =>
    (atLogical o cols .down dn (s0.2 + 1)).bind fun d1 =>
    (atLogical o cols .up up (s0.2 + 2)).bind fun u2 =>
    (atLogical o cols .down dn (s0.2 + 2)).bind fun d2 =>
    ((c.bten .left)[s0.2]?).bind fun l =>
    (btenAt rows cols c .right (s0.2 + 2)).bind fun r =>
    some (o.tnn .horizontal l u0 d0 t0 u1 d1 t1 u2 d2 t2 r)
  | .vertical =>
    (bmpsAt rows cols c .left s0.2).bind fun lf =>
    (bmpsAt rows cols c .right s0.2).bind fun rt =>
    (atLogical o rows .left lf s0.1).bind fun l0 =>
    (atLogical o rows .right rt s0.1).bind fun r0 =>
    (atLogical o rows .left lf (s0.1 + 1)).bind fun l1 =>
    (atLogical o rows .right rt (s0.1 + 1)).bind fun r1 =>
    (atLogical o rows .left lf (s0.1 + 2)).bind fun l2 =>
    (atLogical o rows .right rt (s0.1 + 2)).bind fun r2 =>
    ((c.bten .up)[s0.1]?).bind fun u =>
    (btenAt rows cols c .down (s0.1 + 2)).bind fun dn =>
    some (o.tnn .vertical u l0 r0 t0 l1 r1 t1 l2 r2 t2 dn)

/-- `ReplaceOneSiteTrace` (bmps_contractor_trace.h:31-88). -/
def oneTrace (o : Ops T E B C C2 A H) (rows cols : ℕ) (c : Ctr B C C2) (s : Site)
    (d : Orient) (x : T) : Option A :=
  match d with
  | .horizontal =>
    (bmpsAt rows cols c .up s.1).bind fun up =>
    (bmpsAt rows cols c .down s.1).bind fun dn =>
    (atLogical o cols .up up s.2).bind fun u =>
    (atLogical o cols .down dn s.2).bind fun d =>
    ((c.bten .left)[s.2]?).bind fun l =>
    (btenAt rows cols c .right s.2).bind fun r =>
    some (o.one .horizontal l u d x r)
  | .vertical =>
    (bmpsAt rows cols c .left s.2).bind fun lf =>
    (bmpsAt rows cols c .right s.2).bind fun rt =>
    (atLogical o rows .left lf s.1).bind fun l =>
    (atLogical o rows .right rt s.1).bind fun r =>
    ((c.bten .up)[s.1]?).bind fun u =>
    (btenAt rows cols c .down s.1).bind fun dn =>
    some (o.one .vertical u l r x dn)

/-- `PunchHole` (bmps_contractor_grow.h:152-183). -/
def punchHole (o : Ops T E B C C2 A H) (rows cols : ℕ) (c : Ctr B C C2) (s : Site)
    (d : Orient) : Option H :=
  match d with
  | .horizontal =>
    (bmpsAt rows cols c .up s.1).bind fun up =>
    (bmpsAt rows cols c .down s.1).bind fun dn =>
    (atLogical o cols .up up s.2).bind fun u =>
    (atLogical o cols .down dn s.2).bind fun d =>
    ((c.bten .left)[s.2]?).bind fun l =>
    (btenAt rows cols c .right s.2).bind fun r =>
    some (o.hole .horizontal l u d r)
  | .vertical =>
    (bmpsAt rows cols c .left s.2).bind fun lf =>
    (bmpsAt rows cols c .right s.2).bind fun rt =>
    (atLogical o rows .left lf s.1).bind fun l =>
    (atLogical o rows .right rt s.1).bind fun r =>
    ((c.bten .up)[s.1]?).bind fun u =>
    (btenAt rows cols c .down s.1).bind fun dn =>
    some (o.hole .vertical u l r dn)

/-- `Trace(tn, site_a, bond_dir)` (bmps_contractor_trace.h:12-28). -/
def trace (o : Ops T E B C C2 A H) (rows cols : ℕ) (t : Site → T) (c : Ctr B C C2) (sa : Site)
    (d : Orient) : Option A :=
  let sb : Site := match d with
    | .horizontal => (sa.1, sa.2 + 1)
    | .vertical => (sa.1 + 1, sa.2)
  (site? rows cols t sa).bind fun ta => (site? rows cols t sb).bind fun tb =>
    nnTrace o rows cols c sa sb d ta tb

/-! ## Two-layer boundary tensors -/

/-- the two sites absorbed at step `i` into the two-layer boundary tensor `p` of slices
`s`, `s + 1`, in the order `mpo1`, `mpo2` (bmps_contractor_grow.h:389-428,
bmps_contractor_helpers.h:53-90). -/
def bten2Sites (rows cols : ℕ) (p : Pos) (s i : ℕ) : Option (Site × Site) :=
  match p with
  | .left => some ((s, i), (s + 1, i))
  | .right => (sub? cols (i + 1)).map fun j => ((s + 1, j), (s, j))
  | .up => some ((i, s + 1), (i, s))
  | .down => (sub? rows (i + 1)).map fun j => ((j, s), (j, s + 1))

/-- slice of the preceding-side boundary MPS of a two-layer boundary tensor
(bmps_contractor_init.h:137-169, bmps_contractor_grow.h:389-428). -/
def preSlice (p : Pos) (s : ℕ) : ℕ :=
  match p with
  | .left => s
  | .down => s
  | .right => s + 1
  | .up => s + 1

/-- slice of the following-side boundary MPS of a two-layer boundary tensor. -/
def nextSlice2 (p : Pos) (s : ℕ) : ℕ :=
  match p with
  | .left => s + 1
  | .down => s + 1
  | .right => s
  | .up => s

/-- `InitBTen2` (bmps_contractor_init.h:131-186). -/
def initBTen2 (o : Ops T E B C C2 A H) (rows cols : ℕ) (p : Pos) (s : ℕ)
    (c : Ctr B C C2) : Option (Ctr B C C2) :=
  let n := span rows cols p
  (bmpsAt rows cols c (pre p) (preSlice p s)).bind fun b1 =>
  (bmpsAt rows cols c (next p) (nextSlice2 p s)).bind fun b2 =>
  ((sub? n 1).bind (raw? o n b1)).bind fun e1 =>
  (raw? o n b2 0).bind fun e2 =>
  some { c with bten2 := Function.update c.bten2 p [o.bten20 p e1 e2] }

/-- one two-layer growth step with given boundary MPS (bmps_contractor_grow.h:432-469 and
473-515): MPS tensors `N-i-1` and `i`. -/
def bten2Step (o : Ops T E B C C2 A H) (rows cols : ℕ) (t : Site → T) (p : Pos) (s : ℕ)
    (b1 b2 : B) (c : Ctr B C C2) (i : ℕ) : Option (Ctr B C C2) :=
  let n := span rows cols p
  ((sub? n (i + 1)).bind (raw? o n b1)).bind fun e1 =>
  (raw? o n b2 i).bind fun e2 =>
  (bten2Sites rows cols p s i).bind fun ss =>
  (site? rows cols t ss.1).bind fun x1 =>
  (site? rows cols t ss.2).bind fun x2 =>
  ((c.bten2 p).getLast?).bind fun last =>
  some { c with bten2 := Function.update c.bten2 p (c.bten2 p ++ [o.bgrow2 p last e1 x1 x2 e2]) }

/-- `GrowFullBTen2` (bmps_contractor_grow.h:376-470). -/
def growFullBTen2 (o : Ops T E B C C2 A H) (rows cols : ℕ) (t : Site → T) (p : Pos)
    (s remain : ℕ) (ini : Bool) (c : Ctr B C C2) : Option (Ctr B C C2) :=
  (if ini then initBTen2 o rows cols p s c else some c).bind fun c =>
  (bmpsAt rows cols c (pre p) (preSlice p s)).bind fun b1 =>
  (bmpsAt rows cols c (next p) (nextSlice2 p s)).bind fun b2 =>
  (sub? (span rows cols p) remain).bind fun stop =>
  match sub? (c.bten2 p).length 1 with
  | none => some c
  | some start => (upTo start stop).foldlM (bten2Step o rows cols t p s b1 b2) c

/-- `GrowBTen2Step` (bmps_contractor_grow.h:473-515 with
bmps_contractor_helpers.h:42-92; the stack indices `mps1_idx`, `mps2_idx` computed there are
those of `BMPSAtSlice_`). -/
def growBTen2Step (o : Ops T E B C C2 A H) (rows cols : ℕ) (t : Site → T) (p : Pos) (s : ℕ)
    (c : Ctr B C C2) : Option (Ctr B C C2) :=
  (bmpsAt rows cols c (pre p) (preSlice p s)).bind fun b1 =>
  (bmpsAt rows cols c (next p) (nextSlice2 p s)).bind fun b2 =>
  (sub? (c.bten2 p).length 1).bind fun i => bten2Step o rows cols t p s b1 b2 c i

/-- `ShiftBTen2Window` (bmps_contractor_grow.h:524-527). -/
def shiftBTen2Window (o : Ops T E B C C2 A H) (rows cols : ℕ) (t : Site → T) (p : Pos) (s : ℕ)
    (c : Ctr B C C2) : Option (Ctr B C C2) :=
  if (c.bten2 p).isEmpty then none
  else growBTen2Step o rows cols t (opposite p) s
    { c with bten2 := Function.update c.bten2 p (c.bten2 p).dropLast }

/-- basic.h:90-93 `DIAGONAL_DIR`. -/
inductive Diag | leftUpToRightDown | leftDownToRightUp
  deriving DecidableEq, Repr

/-- `ReplaceNNNSiteTrace` with horizontal boundary MPS (bmps_contractor_trace.h:208-288). The
vertical orientation is not called by the solvers and is not modelled. -/
def nnnTrace (o : Ops T E B C C2 A H) (rows cols : ℕ) (t : Site → T) (c : Ctr B C C2) (s : Site)
    (dd : Diag) (tl tr : T) : Option A :=
  (bmpsAt rows cols c .up s.1).bind fun up =>
  (bmpsAt rows cols c .down (s.1 + 1)).bind fun dn =>
  (atLogical o cols .up up s.2).bind fun u1 =>
  (atLogical o cols .down dn s.2).bind fun d1 =>
  (atLogical o cols .down dn (s.2 + 1)).bind fun d2 =>
  (atLogical o cols .up up (s.2 + 1)).bind fun u2 =>
  ((c.bten2 .left)[s.2]?).bind fun l =>
  (bten2At rows cols c .right (s.2 + 1)).bind fun r =>
  match dd with
  | .leftUpToRightDown =>
    (site? rows cols t (s.1 + 1, s.2)).bind fun x1 =>
    (site? rows cols t (s.1, s.2 + 1)).bind fun x3 =>
    some (o.nnn .horizontal l u1 u2 d1 d2 tl x1 x3 tr r)
  | .leftDownToRightUp =>
    (site? rows cols t (s.1, s.2)).bind fun x0 =>
    (site? rows cols t (s.1 + 1, s.2 + 1)).bind fun x2 =>
    some (o.nnn .horizontal l u1 u2 d1 d2 x0 tl tr x2 r)

/-! ## The contractor inside the wave-function component -/

/-- the projected tensor network of a configuration: `TensorNetwork2D(sitps, config)` and
`UpdateSiteTensor` (tensor_network_2d_basic_impl.h:25-108) -/
def project (sitps : Site → ℕ → T) (cfg : Config) : Site → T := fun s => sitps s (cfg s)

/-- `EvaluateAmplitude` (wave_function_component.h:187-212, boundary-MPS branch). -/
def evaluateAmplitude (o : Ops T E B C C2 A H) (rows cols : ℕ) (t : Site → T)
    (c : Ctr B C C2) : Option (A × Ctr B C C2) :=
  (growForRow o rows cols t 0 c).bind fun c =>
  (growFullBTen o rows cols t .right 0 2 true c).bind fun c =>
  (initBTen o rows cols .left 0 c).bind fun c =>
  (trace o rows cols t c (0, 0) .horizontal).map fun a => (a, c)

/-- the contractor as used by the updaters: a cache state (`none` after an out-of-range access),
traces with site tensors taken from the split-index TPS -/
def bmpsContractor (o : Ops T E B C C2 A H) (rows cols : ℕ) (sitps : Site → ℕ → T) :
    Updaters.Contractor (Option A) (Option (Ctr B C C2)) where
  nnTrace env _ s1 s2 d a b :=
    env.bind fun c => nnTrace o rows cols c s1 s2 d (sitps s1 a) (sitps s2 b)
  tnnTrace env _ s1 s2 s3 d a b e :=
    env.bind fun c => tnnTrace o rows cols c s1 d (sitps s1 a) (sitps s2 b) (sitps s3 e)
  erase _ s env := env.map (eraseEnvs rows cols s)
  generateBMPSApproach cfg p env := env.bind (generateApproach o rows cols (project sitps cfg) p)
  initBTen _ p i env := env.bind (initBTen o rows cols p i)
  growFullBTen cfg p i r env :=
    env.bind (growFullBTen o rows cols (project sitps cfg) p i r true)
  shiftBTenWindow cfg p env := env.bind (shiftBTenWindow o rows cols (project sitps cfg) p)
  shiftBMPSWindow cfg p env := env.bind (shiftBMPSWindow o rows cols (project sitps cfg) p)
  deleteInnerBMPS _ p env := env.map (deleteInner p)

end QLPeps.Contractor
