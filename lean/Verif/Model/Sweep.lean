import Mathlib.Data.List.Basic

/-!
# Model of the Monte-Carlo sweep drivers

Sources (under `/repo/include/qlpeps/`):
`vmc_basic/configuration_update_strategies/square_nn_updater.h`,
`vmc_basic/configuration_update_strategies/square_3site_updater.h`, `basic.h`.

The drivers are modelled over an arbitrary state `S` (wave function component,
contractor caches and random engine together) with the contractor operations and
the local update as parameters, in the order in which the C++ loops call them.
`size_t` is `ℕ`; `tn.cols() - 1` etc. is natural subtraction, which agrees with
`size_t` for lattices with at least one row and column (two resp. three for the
`- 2`/`- 3` tests, which are only reached for such sizes in the nearest
neighbour sweep).
-/

namespace QLPeps

/-- two_dim_tn/framework/site_idx.h: `SiteIdx {row, col}`. -/
abbrev Site := ℕ × ℕ

/-- basic.h:59-64 `BMPSPOSITION`. -/
inductive Pos | left | down | right | up
  deriving DecidableEq, Repr

/-- basic.h:19-22 `BondOrientation`. -/
inductive Orient | horizontal | vertical
  deriving DecidableEq, Repr

/-- vmc_basic/configuration.h: `Configuration` as a function of the site
(the shape is carried separately). -/
abbrev Config := Site → ℕ

namespace Sweep

/-- The contractor operations called by the sweep drivers
(bmps_contractor.h: `GenerateBMPSApproach`, `InitBTen`, `GrowFullBTen(.., init=true)`,
`ShiftBTenWindow`, `ShiftBMPSWindow`, `DeleteInnerBMPS`). -/
structure EnvOps (S : Type*) where
  generateBMPSApproach : Pos → S → S
  initBTen : Pos → ℕ → S → S
  growFullBTen : Pos → ℕ → ℕ → S → S
  shiftBTenWindow : Pos → S → S
  shiftBMPSWindow : Pos → S → S
  deleteInnerBMPS : Pos → S → S

variable {S : Type*}

/-- square_nn_updater.h:41-50, the inner loop over a row: `flip_accept_num` is the
second component. -/
def rowLoop (o : EnvOps S) (upd : Site → Site → Orient → S → S × Bool) (cols row : ℕ)
    (sn : S × ℕ) : S × ℕ :=
  (List.range (cols - 1)).foldl (fun sn col =>
    let r := upd (row, col) (row, col + 1) .horizontal sn.1
    let s := if col < cols - 2 then o.shiftBTenWindow .right r.1 else r.1
    (s, sn.2 + r.2.toNat)) sn

/-- square_nn_updater.h:38-54, the loop over rows. -/
def horizontalLoop (o : EnvOps S) (upd : Site → Site → Orient → S → S × Bool) (rows cols : ℕ)
    (sn : S × ℕ) : S × ℕ :=
  (List.range rows).foldl (fun sn row =>
    let s := o.initBTen .left row sn.1
    let s := o.growFullBTen .right row 2 s
    let r := rowLoop o upd cols row (s, sn.2)
    (if row < rows - 1 then o.shiftBMPSWindow .down r.1 else r.1, r.2)) sn

/-- square_nn_updater.h:63-72, the inner loop over a column. -/
def colLoop (o : EnvOps S) (upd : Site → Site → Orient → S → S × Bool) (rows col : ℕ)
    (sn : S × ℕ) : S × ℕ :=
  (List.range (rows - 1)).foldl (fun sn row =>
    let r := upd (row, col) (row + 1, col) .vertical sn.1
    let s := if row < rows - 2 then o.shiftBTenWindow .down r.1 else r.1
    (s, sn.2 + r.2.toNat)) sn

/-- square_nn_updater.h:60-76, the loop over columns. -/
def verticalLoop (o : EnvOps S) (upd : Site → Site → Orient → S → S × Bool) (rows cols : ℕ)
    (sn : S × ℕ) : S × ℕ :=
  (List.range cols).foldl (fun sn col =>
    let s := o.initBTen .up col sn.1
    let s := o.growFullBTen .down col 2 s
    let r := colLoop o upd rows col (s, sn.2)
    (if col < cols - 1 then o.shiftBMPSWindow .right r.1 else r.1, r.2)) sn

/-- square_nn_updater.h:29-81, `MCUpdateSquareNNUpdateBaseOBC::operator()`. Returns the
final state and `flip_accept_num`. -/
def obcSweep (o : EnvOps S) (upd : Site → Site → Orient → S → S × Bool) (rows cols : ℕ)
    (s : S) : S × ℕ :=
  let s := o.generateBMPSApproach .up s
  let r := horizontalLoop o upd rows cols (s, 0)
  let s := o.deleteInnerBMPS .left r.1
  let s := o.deleteInnerBMPS .right s
  let s := o.generateBMPSApproach .left s
  let r := verticalLoop o upd rows cols (s, r.2)
  (o.deleteInnerBMPS .up r.1, r.2)

/-- square_nn_updater.h:79, the denominator of the acceptance rate. -/
def obcBondNum (rows cols : ℕ) : ℕ := cols * (rows - 1) + rows * (cols - 1)

/-- square_nn_updater.h:94-128, `MCUpdateSquareNNUpdateBasePBC::operator()`. The draws
of `dist_row`, `dist_col`, `dist_dir` for the `i`-th step are `draw i`; the C++
distributions guarantee `draw i` is in range. Returns the state and the accept count. -/
def pbcSweep (upd : Site → Site → Orient → S → S × Bool) (rows cols : ℕ)
    (draw : ℕ → ℕ × ℕ × Orient) (s : S) : S × ℕ :=
  (List.range (rows * cols * 2)).foldl (fun sn i =>
    let r := (draw i).1
    let c := (draw i).2.1
    let dir := (draw i).2.2
    let s2 : Site := match dir with
      | .horizontal => (r, (c + 1) % cols)
      | .vertical => ((r + 1) % rows, c)
    let u := upd (r, c) s2 dir sn.1
    (u.1, sn.2 + u.2.toNat)) (s, 0)

/-- square_3site_updater.h:36-58, loop over rows. `refresh` is the assignment
`tps_component.amplitude = contractor.ReplaceTNNSiteTrace(...)` of lines 39-42. -/
def horizontalLoop3 (o : EnvOps S) (refresh : Site → Site → Site → Orient → S → S)
    (upd : Site → Site → Site → Orient → S → S × Bool) (rows cols : ℕ) (sn : S × ℕ) : S × ℕ :=
  (List.range rows).foldl (fun sn row =>
    let s := o.initBTen .left row sn.1
    let s := o.growFullBTen .right row 3 s
    let s := refresh (row, 0) (row, 1) (row, 2) .horizontal s
    let r := (List.range (cols - 2)).foldl (fun sn col =>
      let r := upd (row, col) (row, col + 1) (row, col + 2) .horizontal sn.1
      let s := if col < cols - 3 then o.shiftBTenWindow .right r.1 else r.1
      (s, sn.2 + r.2.toNat)) (s, sn.2)
    (if row < rows - 1 then o.shiftBMPSWindow .down r.1 else r.1, r.2)) sn

/-- square_3site_updater.h:64-86, loop over columns. -/
def verticalLoop3 (o : EnvOps S) (refresh : Site → Site → Site → Orient → S → S)
    (upd : Site → Site → Site → Orient → S → S × Bool) (rows cols : ℕ) (sn : S × ℕ) : S × ℕ :=
  (List.range cols).foldl (fun sn col =>
    let s := o.initBTen .up col sn.1
    let s := o.growFullBTen .down col 3 s
    let s := refresh (0, col) (1, col) (2, col) .vertical s
    let r := (List.range (rows - 2)).foldl (fun sn row =>
      let r := upd (row, col) (row + 1, col) (row + 2, col) .vertical sn.1
      let s := if row < rows - 3 then o.shiftBTenWindow .down r.1 else r.1
      (s, sn.2 + r.2.toNat)) (s, sn.2)
    (if col < cols - 1 then o.shiftBMPSWindow .right r.1 else r.1, r.2)) sn

/-- square_3site_updater.h:28-91, `MCUpdateSquareTNN3SiteUpdateBase::operator()`. -/
def obcSweep3 (o : EnvOps S) (refresh : Site → Site → Site → Orient → S → S)
    (upd : Site → Site → Site → Orient → S → S × Bool) (rows cols : ℕ) (s : S) : S × ℕ :=
  let s := o.generateBMPSApproach .up s
  let r := horizontalLoop3 o refresh upd rows cols (s, 0)
  let s := o.deleteInnerBMPS .left r.1
  let s := o.deleteInnerBMPS .right s
  let s := o.generateBMPSApproach .left s
  let r := verticalLoop3 o refresh upd rows cols (s, r.2)
  (o.deleteInnerBMPS .up r.1, r.2)

/-- square_3site_updater.h:89, the denominator of the acceptance rate. -/
def obcTripleNum (rows cols : ℕ) : ℕ := cols * (rows - 2) + rows * (cols - 2)

end Sweep
end QLPeps
