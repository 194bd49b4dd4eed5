import Verif.Spec.Contractor
import Verif.Model.Traversal

/-!
# Specification of the traversals

Environments from scratch, as in `Verif/Spec/Contractor`, for one site, none, a plaquette and a
link of length √5; and the list of everything a solver should see.
-/

namespace QLPeps.Contractor

universe u

variable {T E B C C2 A H : Type u}

section
variable (o : Ops T E B C C2 A H) (rows cols : ℕ) (t : Site → T)

/-- amplitude of the network evaluated at one site, within its row -/
def oneAmp (s : Site) : A :=
  o.one .horizontal (benv o rows cols t .left s.1 s.2)
    (facing o rows cols .up (beyond o rows cols t .up s.1) s.2)
    (facing o rows cols .down (beyond o rows cols t .down s.1) s.2) (t s)
    (benv o rows cols t .right s.1 (cols - 1 - s.2))

/-- everything but site `s` -/
def holeAt (s : Site) : H :=
  o.hole .horizontal (benv o rows cols t .left s.1 s.2)
    (facing o rows cols .up (beyond o rows cols t .up s.1) s.2)
    (facing o rows cols .down (beyond o rows cols t .down s.1) s.2)
    (benv o rows cols t .right s.1 (cols - 1 - s.2))

/-- of the two neighbouring rows (columns) `s`, `s + 1` the one nearer to side `q` -/
def nearer (q : Pos) (s : ℕ) : ℕ :=
  match q with
  | .up => s
  | .left => s
  | .down => s + 1
  | .right => s + 1

/-- boundary tensor of the two rows (columns) `s`, `s + 1` containing the `k` outermost sites of
both on side `p` together with everything above and below (left and right of) them -/
def benv2 (p : Pos) (s k : ℕ) : C2 :=
  (List.range k).foldl (fun x i =>
      o.bgrow2 p x
        (facing o rows cols (pre p) (beyond o rows cols t (pre p) (nearer (pre p) s))
          (along rows cols p i))
        (t (cell rows cols p (nearer (pre p) s) i))
        (t (cell rows cols p (nearer (next p) s) i))
        (facing o rows cols (next p) (beyond o rows cols t (next p) (nearer (next p) s))
          (along rows cols p i)))
    (o.bten20 p
      (facing o rows cols (pre p) (beyond o rows cols t (pre p) (nearer (pre p) s))
        (along rows cols p 0))
      (facing o rows cols (next p) (beyond o rows cols t (next p) (nearer (next p) s))
        (along rows cols p 0)))

/-- amplitude evaluated at the plaquette with upper left corner `s` -/
def plaquetteAmp (s : Site) : A :=
  o.nnn .horizontal (benv2 o rows cols t .left s.1 s.2)
    (facing o rows cols .up (beyond o rows cols t .up s.1) s.2)
    (facing o rows cols .up (beyond o rows cols t .up s.1) (s.2 + 1))
    (facing o rows cols .down (beyond o rows cols t .down (s.1 + 1)) s.2)
    (facing o rows cols .down (beyond o rows cols t .down (s.1 + 1)) (s.2 + 1))
    (t s) (t (s.1 + 1, s.2)) (t (s.1, s.2 + 1)) (t (s.1 + 1, s.2 + 1))
    (benv2 o rows cols t .right s.1 (cols - 1 - (s.2 + 1)))

/-- the tensors read at position `j` of the two rows (columns) `s`, `s + 1` -/
def column2 (d : Orient) (s j : ℕ) : E × E × T × T :=
  match d with
  | .horizontal => (facing o rows cols .up (beyond o rows cols t .up s) j,
      facing o rows cols .down (beyond o rows cols t .down (s + 1)) j, t (s, j), t (s + 1, j))
  | .vertical => (facing o rows cols .left (beyond o rows cols t .left s) j,
      facing o rows cols .right (beyond o rows cols t .right (s + 1)) j, t (j, s), t (j, s + 1))

end

/-- amplitude evaluated at the 2×3 (3×2) block with upper left corner `s` -/
def blockAmp (o : Ops5 T E B C C2 A H) (rows cols : ℕ) (t : Site → T) (d : Orient) (s : Site) :
    A :=
  match d with
  | .horizontal =>
    o.sq5 .horizontal (benv2 o.toOps rows cols t .left s.1 s.2)
      (column2 o.toOps rows cols t .horizontal s.1 s.2)
      (column2 o.toOps rows cols t .horizontal s.1 (s.2 + 1))
      (column2 o.toOps rows cols t .horizontal s.1 (s.2 + 2))
      (benv2 o.toOps rows cols t .right s.1 (cols - 1 - (s.2 + 2)))
  | .vertical =>
    o.sq5 .vertical (benv2 o.toOps rows cols t .up s.2 s.1)
      (column2 o.toOps rows cols t .vertical s.2 s.1)
      (column2 o.toOps rows cols t .vertical s.2 (s.1 + 1))
      (column2 o.toOps rows cols t .vertical s.2 (s.1 + 2))
      (benv2 o.toOps rows cols t .down s.2 (rows - 1 - (s.1 + 2)))

/-! ## What a solver should see -/

section
variable (o : Ops5 T E B C C2 A H) (rows cols : ℕ) (t : Site → T)

/-- the network with the tensors at `s1` and `s2` replaced -/
def replace2 (t : Site → T) (s1 s2 : Site) (x y : T) : Site → T :=
  Function.update (Function.update t s1 x) s2 y

/-- amplitude of the network with the two tensors of bond `s1 s2` replaced -/
def seeBond (d : Orient) (s1 s2 : Site) : Visit T A H :=
  .bond d s1 s2 fun x y => some (bondAmp o.toOps rows cols (replace2 t s1 s2 x y) d s1 s2)

/-- amplitude of the network with the two tensors of a diagonal of the plaquette `s` replaced -/
def seeLink (dd : Diag) (s s1 s2 : Site) : Visit T A H :=
  .link dd s1 s2 fun x y => some (plaquetteAmp o.toOps rows cols (replace2 t s1 s2 x y) s)

/-- amplitude of the network with the two ends of a link of length √5 of the block `s` replaced -/
def seeLink5 (d : Orient) (s s1 s2 : Site) : Visit T A H :=
  .link5 d s1 s2 fun x y => some (blockAmp o rows cols (replace2 t s1 s2 x y) d s)

/-- amplitude of the network with one tensor replaced -/
def seeSite (s : Site) : Visit T A H :=
  .site s fun x => some (oneAmp o.toOps rows cols (Function.update t s x) s)

/-- amplitude of the network with a tensor replaced at `s1` and one at `s2` -/
def seePair (s1 : Site) (x1 : T) (s2 : Site) : Visit T A H :=
  .pair s1 s2 fun y => some (oneAmp o.toOps rows cols (replace2 t s1 s2 x1 y) s2)

/-- the off-diagonal correlations of a row: the site `cols / 4` takes the tensor `x1`, and the
`cols / 2` sites to its right are looked at one after the other -/
def pairVisits (row : ℕ) : Option T → List (Visit T A H)
  | none => []
  | some x1 => (List.range (cols / 2)).map fun i =>
      seePair o rows cols t (row, cols / 4) x1 (row, cols / 4 + (i + 1))

/-- everything to be seen in row `row` -/
def rowVisits (pl : Plan T) (row : ℕ) : List (Visit T A H) :=
  (if pl.rowPsi then
    [.psi .horizontal (row, 0) (bondAmp o.toOps rows cols t .horizontal (row, 0) (row, 1))]
   else []) ++
  ((List.range cols).flatMap fun col =>
    (if pl.holes then [.hole (row, col) (holeAt o.toOps rows cols t (row, col))] else []) ++
    (if pl.sites then [seeSite o rows cols t (row, col)] else []) ++
    (if col + 1 < cols then [seeBond o rows cols t .horizontal (row, col) (row, col + 1)]
      else [])) ++
  (if pl.links ∧ row + 1 < rows then (List.range (cols - 1)).flatMap fun col =>
    [seeLink o rows cols t .leftUpToRightDown (row, col) (row, col) (row + 1, col + 1),
     seeLink o rows cols t .leftDownToRightUp (row, col) (row + 1, col) (row, col + 1)] ++
    (if pl.links5 ∧ col + 2 < cols then
      [seeLink5 o rows cols t .horizontal (row, col) (row + 1, col) (row, col + 2)] else [])
   else []) ++
  pairVisits o rows cols t row (pl.corr row)

/-- everything to be seen in column `col` -/
def colVisits (pl : Plan T) (col : ℕ) : List (Visit T A H) :=
  [.psi .vertical (0, col) (bondAmp o.toOps rows cols t .vertical (0, col) (1, col))] ++
  ((List.range (rows - 1)).map fun row =>
    seeBond o rows cols t .vertical (row, col) (row + 1, col)) ++
  (if pl.links5 ∧ col + 1 < cols then (List.range (rows - 2)).map fun row =>
    seeLink5 o rows cols t .vertical (row, col) (row + 2, col) (row, col + 1)
   else [])

/-- everything to be seen in a traversal: all rows, then all columns -/
def allVisits (pl : Plan T) : List (Visit T A H) :=
  (List.range rows).flatMap (rowVisits o rows cols t pl) ++
    (List.range cols).flatMap (colVisits o rows cols t pl)

end

/-- the two sites of a nearest-neighbour bond visit -/
def Visit.bondOf : Visit T A H → Option (Site × Site)
  | .psi .. => none
  | .hole .. => none
  | .site .. => none
  | .bond _ s1 s2 _ => some (s1, s2)
  | .link .. => none
  | .link5 .. => none
  | .pair .. => none

/-- the two sites of a diagonal visit -/
def Visit.linkOf : Visit T A H → Option (Site × Site)
  | .psi .. => none
  | .hole .. => none
  | .site .. => none
  | .bond .. => none
  | .link _ s1 s2 _ => some (s1, s2)
  | .link5 .. => none
  | .pair .. => none

/-- the two sites of a √5 visit -/
def Visit.link5Of : Visit T A H → Option (Site × Site)
  | .psi .. => none
  | .hole .. => none
  | .site .. => none
  | .bond .. => none
  | .link .. => none
  | .link5 _ s1 s2 _ => some (s1, s2)
  | .pair .. => none

/-- the site of a hole visit -/
def Visit.holeOf : Visit T A H → Option Site
  | .psi .. => none
  | .hole s _ => some s
  | .site .. => none
  | .bond .. => none
  | .link .. => none
  | .link5 .. => none
  | .pair .. => none

/-- inside the lattice -/
def inside (rows cols : ℕ) (s : Site) : Prop := s.1 < rows ∧ s.2 < cols

/-- `countingOps` with the √5 trace -/
def countingOps5 (M : Type u) [CommMonoid M] (rows cols : ℕ) : Ops5 M M (List M) M M M M where
  toOps := countingOps M rows cols
  sq5 _ l a b c r :=
    l * (a.1 * a.2.1 * a.2.2.1 * a.2.2.2) * (b.1 * b.2.1 * b.2.2.1 * b.2.2.2) *
      (c.1 * c.2.1 * c.2.2.1 * c.2.2.2) * r

end QLPeps.Contractor
