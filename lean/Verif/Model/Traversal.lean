import Verif.Model.Contractor

/-!
# Energy and measurement traversals

What the energy and measurement solvers with open boundaries read from the boundary-MPS
contractor, pass by pass: `BondTraversalMixin` (model_solvers/base/bond_traversal_mixin.h),
`SquareNNNModelEnergySolver` (model_solvers/base/square_nnn_energy_solver.h; the nearest-neighbour
solver is its specialisation without links), the transverse-field Ising solver
(model_solvers/transverse_field_ising_square_obc.h) and the triangular J1-J2 solver
(model_solvers/spin_onehalf_triangle_heisenbergJ1J2_sqrpeps.h).

A traversal returns the list of everything it makes available to the model-specific callbacks.
For a replaced trace that is the trace as a function of the replaced tensors, evaluated with the
caches as they are at that moment; the callbacks choose the tensors and whether to ask at all.
Between two changes of the caches the callbacks may ask in any order; the model fixes one order.
The tensor network is not changed by the traversal except inside `offDiagRow`.
-/

namespace QLPeps.Contractor

universe u

variable {T E B C C2 A H : Type u}

/-- The contractor with the trace used for links of length √5
(`ReplaceSqrt5DistTwoSiteTrace`, bmps_contractor_trace.h:426-536): near boundary tensor; at each of
the three positions along the slices the first-side and second-side MPS tensor and the first-slice
and second-slice site tensor; far boundary tensor. -/
structure Ops5 (T E B C C2 A H : Type u) extends Ops T E B C C2 A H where
  sq5 : Orient → C2 → (E × E × T × T) → (E × E × T × T) → (E × E × T × T) → C2 → A

/-- How a traversal can fail: `std::vector::at` (or an unchecked index) out of range, or the
`runtime_error` on a vanishing amplitude (bond_traversal_mixin.h:69-71 and 125-127). -/
inductive Fail | outOfRange | zeroAmplitude
  deriving DecidableEq, Repr

/-- an access that may be out of range -/
def access {α : Type*} : Option α → Except Fail α
  | none => .error .outOfRange
  | some a => .ok a

/-- What the callbacks of a traversal get to see. -/
inductive Visit (T A H : Type u)
  /-- amplitude of the row (column), pushed on `psi_list` -/
  | psi (d : Orient) (s : Site) (a : A)
  /-- punched hole, for the gradient -/
  | hole (s : Site) (h : H)
  /-- trace with one replaced tensor -/
  | site (s : Site) (q : T → Option A)
  /-- trace with the two tensors of a bond replaced -/
  | bond (d : Orient) (s1 s2 : Site) (q : T → T → Option A)
  /-- trace with the two tensors of a diagonal link replaced -/
  | link (dd : Diag) (s1 s2 : Site) (q : T → T → Option A)
  /-- trace with the two tensors of a link of length √5 replaced -/
  | link5 (d : Orient) (s1 s2 : Site) (q : T → T → Option A)
  /-- trace with a fixed replaced tensor at `s1` and a replaced tensor at `s2` -/
  | pair (s1 s2 : Site) (q : T → Option A)

/-- Which parts a solver asks for. -/
structure Plan (T : Type u) where
  /-- bosonic: the amplitude of each row is evaluated first
  (`!Index<QNT>::IsFermionic()`, square_nnn_energy_solver.h:146-153) -/
  rowPsi : Bool
  /-- gradient sampling (`calchols`) -/
  holes : Bool
  /-- one-site terms (transverse field) -/
  sites : Bool
  /-- diagonal links -/
  links : Bool
  /-- links of length √5 -/
  links5 : Bool
  /-- off-diagonal correlations along the row: the replacing tensor of the first site -/
  corr : ℕ → Option T

variable (o : Ops5 T E B C C2 A H) (rows cols : ℕ) (t : Site → T) (isZero : A → Bool)

/-- `ReplaceSqrt5DistTwoSiteTrace` (bmps_contractor_trace.h:426-536), for the one direction the
solvers use, `LEFTDOWN_TO_RIGHTUP`. The vertical version starts its contraction at the bottom;
the arguments are listed here from the top. -/
def sq5Trace (c : Ctr B C C2) (s : Site) (d : Orient) (tl tr : T) : Option A :=
  match d with
  | .horizontal =>
    (bmpsAt rows cols c .up s.1).bind fun up =>
    (bmpsAt rows cols c .down (s.1 + 1)).bind fun dn =>
    (atLogical o.toOps cols .up up s.2).bind fun m1 =>
    (atLogical o.toOps cols .down dn s.2).bind fun m2 =>
    (atLogical o.toOps cols .up up (s.2 + 1)).bind fun m3 =>
    (atLogical o.toOps cols .down dn (s.2 + 1)).bind fun m4 =>
    (atLogical o.toOps cols .up up (s.2 + 2)).bind fun m5 =>
    (atLogical o.toOps cols .down dn (s.2 + 2)).bind fun m6 =>
    ((c.bten2 .left)[s.2]?).bind fun l =>
    (bten2At rows cols c .right (s.2 + 2)).bind fun r =>
    (site? rows cols t (s.1, s.2)).bind fun x0 =>
    (site? rows cols t (s.1 + 1, s.2 + 2)).bind fun x5 =>
    (site? rows cols t (s.1, s.2 + 1)).bind fun x2 =>
    (site? rows cols t (s.1 + 1, s.2 + 1)).bind fun x3 =>
    some (o.sq5 .horizontal l (m1, m2, x0, tl) (m3, m4, x2, x3) (m5, m6, tr, x5) r)
  | .vertical =>
    (bmpsAt rows cols c .left s.2).bind fun lf =>
    (bmpsAt rows cols c .right (s.2 + 1)).bind fun rt =>
    (atLogical o.toOps rows .left lf (s.1 + 2)).bind fun m1 =>
    (atLogical o.toOps rows .right rt (s.1 + 2)).bind fun m2 =>
    (atLogical o.toOps rows .left lf (s.1 + 1)).bind fun m3 =>
    (atLogical o.toOps rows .right rt (s.1 + 1)).bind fun m4 =>
    (atLogical o.toOps rows .left lf s.1).bind fun m5 =>
    (atLogical o.toOps rows .right rt s.1).bind fun m6 =>
    ((c.bten2 .up)[s.1]?).bind fun u =>
    (bten2At rows cols c .down (s.1 + 2)).bind fun b =>
    (site? rows cols t (s.1 + 1, s.2)).bind fun x2 =>
    (site? rows cols t (s.1 + 1, s.2 + 1)).bind fun x3 =>
    (site? rows cols t (s.1 + 2, s.2 + 1)).bind fun x1 =>
    (site? rows cols t (s.1, s.2)).bind fun x4 =>
    some (o.sq5 .vertical u (m5, m6, x4, tr) (m3, m4, x2, x3) (m1, m2, tl, x1) b)

/-- the amplitude at the beginning of a row or column with the check for zero
(bond_traversal_mixin.h:68-73, 124-129). `isZero` is constantly false for the solvers that do not
check. -/
def startPsi (s : Site) (d : Orient) (c : Ctr B C C2) : Except Fail (List (Visit T A H)) := do
  let a ← access (trace o.toOps rows cols t c s d)
  if isZero a then throw .zeroAmplitude
  pure [.psi d s a]

/-- body of the loop over the columns of a row (square_nnn_energy_solver.h:154-202;
bond_traversal_mixin.h:75-80 without holes; transverse_field_ising_square_obc.h:228-239). -/
def rowStep (pl : Plan T) (row : ℕ) (x : List (Visit T A H) × Ctr B C C2) (col : ℕ) :
    Except Fail (List (Visit T A H) × Ctr B C C2) := do
  let c := x.2
  let hs ← if pl.holes then do
      let h ← access (punchHole o.toOps rows cols c (row, col) .horizontal)
      pure [Visit.hole (row, col) h]
    else pure []
  let ss : List (Visit T A H) := if pl.sites then
      [.site (row, col) (oneTrace o.toOps rows cols c (row, col) .horizontal)] else []
  if col + 1 < cols then
    let c' ← access (shiftBTenWindow o.toOps rows cols t .right c)
    pure (x.1 ++ hs ++ ss ++ [.bond .horizontal (row, col) (row, col + 1)
      (nnTrace o.toOps rows cols c (row, col) (row, col + 1) .horizontal)], c')
  else pure (x.1 ++ hs ++ ss, c)

/-- body of the loop over the plaquettes of two rows (square_nnn_energy_solver.h:208-263;
bond_traversal_mixin.h:85-95; spin_onehalf_triangle_heisenbergJ1J2_sqrpeps.h:352-394). -/
def linkStep (pl : Plan T) (row : ℕ) (x : List (Visit T A H) × Ctr B C C2) (col : ℕ) :
    Except Fail (List (Visit T A H) × Ctr B C C2) := do
  let c := x.2
  let vs : List (Visit T A H) :=
    [.link .leftUpToRightDown (row, col) (row + 1, col + 1)
      (nnnTrace o.toOps rows cols t c (row, col) .leftUpToRightDown),
     .link .leftDownToRightUp (row + 1, col) (row, col + 1)
      (nnnTrace o.toOps rows cols t c (row, col) .leftDownToRightUp)]
  let ws : List (Visit T A H) := if pl.links5 ∧ col + 2 < cols then
      [.link5 .horizontal (row + 1, col) (row, col + 2)
        (sq5Trace o rows cols t c (row, col) .horizontal)] else []
  let c' ← access (shiftBTen2Window o.toOps rows cols t .right row c)
  pure (x.1 ++ vs ++ ws, c')

/-- body of the loop over the second site (square_spin_onehalf_xxz_obc.h:39-51); `t'` is the
network with the first site replaced. -/
def corrStep (t' : Site → T) (row : ℕ) (x : List (Visit T A H) × Ctr B C C2) (i : ℕ) :
    Except Fail (List (Visit T A H) × Ctr B C C2) := do
  let c := x.2
  let s2 : Site := (row, cols / 4 + (i + 1))
  let c' ← access (shiftBTenWindow o.toOps rows cols t' .right c)
  pure (x.1 ++ [.pair (row, cols / 4) s2 (oneTrace o.toOps rows cols c s2 .horizontal)], c')

/-- `MeasureSpinOneHalfOffDiagOrderInRow` (square_spin_onehalf_xxz_obc.h:21-60): the tensor of the
first site, at column `Lx/4`, is replaced by `x1` and put back at the end; `CheckInvalidateEnvs`
consists of assertions only and is not modelled. -/
def offDiagRow (row : ℕ) (x1 : T) (c : Ctr B C C2) :
    Except Fail (List (Visit T A H) × Ctr B C C2) := do
  let s1 : Site := (row, cols / 4)
  let t' := Function.update t s1 x1
  let c := eraseEnvs rows cols s1 c
  let c ← access (growBTenStep o.toOps rows cols t' .left c)
  let c ← access (growFullBTen o.toOps rows cols t' .right row (cols / 4 + 2) false c)
  let r ← (List.range (cols / 2)).foldlM (corrStep o rows cols t' row) ([], c)
  pure (r.1, eraseEnvs rows cols s1 r.2)

/-- the amplitude at the beginning of a row (square_nnn_energy_solver.h:146-153;
bond_traversal_mixin.h:68-73) -/
def psiPart (pl : Plan T) (row : ℕ) (c : Ctr B C C2) : Except Fail (List (Visit T A H)) :=
  if pl.rowPsi then startPsi o rows cols t isZero (row, 0) .horizontal c else pure []

/-- the plaquettes between a row and the next (square_nnn_energy_solver.h:203-265;
bond_traversal_mixin.h:81-97) -/
def linkPart (pl : Plan T) (row : ℕ) (x : List (Visit T A H) × Ctr B C C2) :
    Except Fail (List (Visit T A H) × Ctr B C C2) :=
  if pl.links ∧ row + 1 < rows then do
    let c ← access (initBTen2 o.toOps rows cols .left row x.2)
    let c ← access (growFullBTen2 o.toOps rows cols t .right row 2 true c)
    (List.range (cols - 1)).foldlM (linkStep o rows cols t pl row) (x.1, c)
  else pure x

/-- the hook for off-diagonal correlations at the end of a row (bond_traversal_mixin.h:98-100) -/
def corrPart (pl : Plan T) (row : ℕ) (x : List (Visit T A H) × Ctr B C C2) :
    Except Fail (List (Visit T A H) × Ctr B C C2) :=
  match pl.corr row with
  | none => pure x
  | some x1 => do
    let y ← offDiagRow o rows cols t row x1 x.2
    pure (x.1 ++ y.1, y.2)

/-- one row (square_nnn_energy_solver.h:131-266; bond_traversal_mixin.h:65-100). -/
def traverseRow (pl : Plan T) (row : ℕ) (c : Ctr B C C2) :
    Except Fail (List (Visit T A H) × Ctr B C C2) := do
  let c ← access (initBTen o.toOps rows cols .left row c)
  let c ← access (growFullBTen o.toOps rows cols t .right row 1 true c)
  let ps ← psiPart o rows cols t isZero pl row c
  let x ← (List.range cols).foldlM (rowStep o rows cols t pl row) (ps, c)
  let x ← linkPart o rows cols t pl row x
  corrPart o rows cols t pl row x

/-- the loop over the rows with the move of the boundary-MPS window
(square_nnn_energy_solver.h:118-128; bond_traversal_mixin.h:101-103) -/
def rowLoop (pl : Plan T) (x : List (Visit T A H) × Ctr B C C2) (row : ℕ) :
    Except Fail (List (Visit T A H) × Ctr B C C2) := do
  let y ← traverseRow o rows cols t isZero pl row x.2
  if row + 1 < rows then
    let c ← access (shiftBMPSWindow o.toOps rows cols t .down y.2)
    pure (x.1 ++ y.1, c)
  else pure (x.1 ++ y.1, y.2)

/-- `TraverseHorizontalBonds` (bond_traversal_mixin.h:54-105) and
`CalHorizontalBondEnergyAndHolesImpl` (square_nnn_energy_solver.h:104-129). -/
def traverseHorizontal (pl : Plan T) (c : Ctr B C C2) :
    Except Fail (List (Visit T A H) × Ctr B C C2) := do
  let c ← access (generateApproach o.toOps rows cols t .up c)
  (List.range rows).foldlM (rowLoop o rows cols t isZero pl) ([], c)

/-- body of the loop over the rows of a column (bond_traversal_mixin.h:131-138). -/
def colStep (col : ℕ) (x : List (Visit T A H) × Ctr B C C2) (row : ℕ) :
    Except Fail (List (Visit T A H) × Ctr B C C2) := do
  let c := x.2
  let vs := x.1 ++ [.bond .vertical (row, col) (row + 1, col)
    (nnTrace o.toOps rows cols c (row, col) (row + 1, col) .vertical)]
  if row + 2 < rows then
    let c' ← access (shiftBTenWindow o.toOps rows cols t .down c)
    pure (vs, c')
  else pure (vs, c)

/-- body of the loop over vertical links of length √5
(spin_onehalf_triangle_heisenbergJ1J2_sqrpeps.h:427-443). -/
def link5Step (col : ℕ) (x : List (Visit T A H) × Ctr B C C2) (row : ℕ) :
    Except Fail (List (Visit T A H) × Ctr B C C2) := do
  let c := x.2
  let vs := x.1 ++ [.link5 .vertical (row + 2, col) (row, col + 1)
    (sq5Trace o rows cols t c (row, col) .vertical)]
  if row + 3 < rows then
    let c' ← access (shiftBTen2Window o.toOps rows cols t .down col c)
    pure (vs, c')
  else pure (vs, c)

/-- the vertical links of length √5 between a column and the next
(spin_onehalf_triangle_heisenbergJ1J2_sqrpeps.h:422-444) -/
def link5Part (pl : Plan T) (col : ℕ) (x : List (Visit T A H) × Ctr B C C2) :
    Except Fail (List (Visit T A H) × Ctr B C C2) :=
  if pl.links5 ∧ col + 1 < cols then do
    let c ← access (initBTen2 o.toOps rows cols .up col x.2)
    let c ← access (growFullBTen2 o.toOps rows cols t .down col 3 true c)
    (List.range (rows - 2)).foldlM (link5Step o rows cols t col) (x.1, c)
  else pure x

/-- one column (bond_traversal_mixin.h:121-138;
spin_onehalf_triangle_heisenbergJ1J2_sqrpeps.h:401-444). -/
def traverseCol (pl : Plan T) (col : ℕ) (c : Ctr B C C2) :
    Except Fail (List (Visit T A H) × Ctr B C C2) := do
  let c ← access (initBTen o.toOps rows cols .up col c)
  let c ← access (growFullBTen o.toOps rows cols t .down col 2 true c)
  let ps ← startPsi o rows cols t isZero (0, col) .vertical c
  let x ← (List.range (rows - 1)).foldlM (colStep o rows cols t col) (ps, c)
  link5Part o rows cols t pl col x

/-- the loop over the columns (bond_traversal_mixin.h:120-142) -/
def colLoop (pl : Plan T) (x : List (Visit T A H) × Ctr B C C2) (col : ℕ) :
    Except Fail (List (Visit T A H) × Ctr B C C2) := do
  let y ← traverseCol o rows cols t isZero pl col x.2
  if col + 1 < cols then
    let c ← access (shiftBMPSWindow o.toOps rows cols t .right y.2)
    pure (x.1 ++ y.1, c)
  else pure (x.1 ++ y.1, y.2)

/-- `TraverseVerticalBonds` (bond_traversal_mixin.h:112-143). -/
def traverseVertical (pl : Plan T) (c : Ctr B C C2) :
    Except Fail (List (Visit T A H) × Ctr B C C2) := do
  let c ← access (generateApproach o.toOps rows cols t .left c)
  (List.range cols).foldlM (colLoop o rows cols t isZero pl) ([], c)

/-- `TraverseAllBonds` (bond_traversal_mixin.h:32-46), `CalEnergyAndHolesImpl`
(square_nnn_energy_solver.h:79-102). -/
def traverseAll (pl : Plan T) (c : Ctr B C C2) :
    Except Fail (List (Visit T A H) × Ctr B C C2) := do
  let x ← traverseHorizontal o rows cols t isZero pl c
  let y ← traverseVertical o rows cols t isZero pl x.2
  pure (x.1 ++ y.1, y.2)

/-! ## The measurement of the triangular J1-J2 model -/

/-- spin_onehalf_triangle_heisenbergJ1J2_sqrpeps.h:174-191: first pass over the plaquettes, one
diagonal, no shift after the last. -/
def triLinkStep (row : ℕ) (x : List (Visit T A H) × Ctr B C C2) (col : ℕ) :
    Except Fail (List (Visit T A H) × Ctr B C C2) := do
  let c := x.2
  let vs := x.1 ++ [.link .leftDownToRightUp (row + 1, col) (row, col + 1)
    (nnnTrace o.toOps rows cols t c (row, col) .leftDownToRightUp)]
  if col + 2 < cols then
    let c' ← access (shiftBTen2Window o.toOps rows cols t .right row c)
    pure (vs, c')
  else pure (vs, c)

/-- spin_onehalf_triangle_heisenbergJ1J2_sqrpeps.h:142-158: correlations along the middle row,
with `TruncateBTen` instead of `EraseEnvsAfterUpdate` and without invalidation at the end. -/
def triCorr (row : ℕ) (x1 : T) (c : Ctr B C C2) :
    Except Fail (List (Visit T A H) × Ctr B C C2) := do
  let t' := Function.update t (row, cols / 4) x1
  let c := truncateBTen .left (cols / 4 + 1) c
  let c ← access (growBTenStep o.toOps rows cols t' .left c)
  let c ← access (growFullBTen o.toOps rows cols t' .right row (cols / 4 + 2) false c)
  (List.range (cols / 2)).foldlM (corrStep o rows cols t' row) ([], c)

/-- the correlations, in the middle row only (line 142) -/
def triCorrPart (flip : ℕ → T) (row : ℕ) (y : List (Visit T A H) × Ctr B C C2) :
    Except Fail (List (Visit T A H) × Ctr B C C2) :=
  if row = rows / 2 then do
    let z ← triCorr o rows cols t row (flip row) y.2
    pure (y.1 ++ z.1, z.2)
  else pure y

/-- the plaquettes of the measurement (lines 168-207): the amplitude is evaluated again at the
first bond of the row (line 172), and the other diagonal is visited in a second pass without
moving the window (lines 193-205). -/
def triLinkPart (row : ℕ) (y : List (Visit T A H) × Ctr B C C2) :
    Except Fail (List (Visit T A H) × Ctr B C C2) := do
  let c ← access (initBTen2 o.toOps rows cols .left row y.2)
  let c ← access (growFullBTen2 o.toOps rows cols t .right row 2 true c)
  let ps ← startPsi o rows cols t (fun _ => false) (row, 0) .horizontal c
  let z ← (List.range (cols - 1)).foldlM (triLinkStep o rows cols t row) (y.1 ++ ps, c)
  let vs : List (Visit T A H) := (List.range (cols - 1)).map fun col =>
    .link .leftUpToRightDown (row, col) (row + 1, col + 1)
      (nnnTrace o.toOps rows cols t z.2 (row, col) .leftUpToRightDown)
  let c ← access (shiftBMPSWindow o.toOps rows cols t .down z.2)
  pure (z.1 ++ vs, c)

/-- one row of the measurement (spin_onehalf_triangle_heisenbergJ1J2_sqrpeps.h:102-208) -/
def triRow (flip : ℕ → T) (x : List (Visit T A H) × Ctr B C C2) (row : ℕ) :
    Except Fail (List (Visit T A H) × Ctr B C C2) := do
  let y ← traverseRow o rows cols t (fun _ => false)
    ⟨true, false, false, false, false, fun _ => none⟩ row x.2
  let y ← triCorrPart o rows cols t flip row y
  let y ← if row + 1 < rows then triLinkPart o rows cols t row y else pure y
  pure (x.1 ++ y.1, y.2)

/-- the horizontal scan of the measurement
(spin_onehalf_triangle_heisenbergJ1J2_sqrpeps.h:100-209) -/
def triMeasureHorizontal (flip : ℕ → T) (c : Ctr B C C2) :
    Except Fail (List (Visit T A H) × Ctr B C C2) := do
  let c ← access (generateApproach o.toOps rows cols t .up c)
  (List.range rows).foldlM (triRow o rows cols t flip) ([], c)

end QLPeps.Contractor
