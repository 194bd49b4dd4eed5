import Verif.Model.Peps

/-!
# Model of the product-state initialisation of a PEPS

Source: `/repo/include/qlpeps/two_dim_tn/peps/square_lattice_peps_basic_impl.h:20-260`.

Besides shapes and elements, the quantum number of the first sector of every virtual index is kept:
it is what the function reads and writes. Quantum numbers are elements of a commutative group. The
loops run over `size_t`; zero rows or columns (an assertion) are excluded in the theorems.
-/

namespace QLPeps.Peps

open QLPeps.State (BC)

/-- a physical index: dimension, direction, and the quantum number of every basis state -/
structure Phys (Q : Type*) where
  dim : ℕ
  out : Bool
  qn : ℕ → Q

/-- a weight (`DTenT`) with the quantum number of the first sector of its indices; the second index is
the inverse of the first, with the same quantum number -/
structure QDiag (Q : Type*) where
  qn : Q
  d : Diag

/-- a site tensor with the quantum numbers of the first sectors of its virtual indices -/
structure QTn (Q 𝕜 : Type*) where
  west : Q
  south : Q
  east : Q
  north : Q
  phys : Phys Q
  t : Tn 𝕜

structure QPeps (Q 𝕜 : Type*) where
  rows : ℕ
  cols : ℕ
  bc : BC
  gamma : ℕ → ℕ → QTn Q 𝕜
  lamV : ℕ → ℕ → QDiag Q
  lamH : ℕ → ℕ → QDiag Q

variable {Q 𝕜 : Type*}

/-- the PEPS without quantum numbers -/
def QPeps.peps (p : QPeps Q 𝕜) : Peps 𝕜 :=
  ⟨p.rows, p.cols, p.bc, fun r c => (p.gamma r c).t, fun r c => (p.lamV r c).d, fun r c => (p.lamH r c).d⟩

/-- `for (i = 0; i < n; i++)` -/
def forN {S : Type*} : ℕ → (ℕ → S → S) → S → S
  | 0, _, s => s
  | n + 1, f, s => f n (forN n f s)

section
variable [AddCommGroup Q] [Zero 𝕜] [One 𝕜]

def QPeps.setGamma (p : QPeps Q 𝕜) (r c : ℕ) (t : QTn Q 𝕜) : QPeps Q 𝕜 :=
  { p with gamma := fun r' c' => if r' = r ∧ c' = c then t else p.gamma r' c' }

def QPeps.setV (p : QPeps Q 𝕜) (r c : ℕ) (d : QDiag Q) : QPeps Q 𝕜 :=
  { p with lamV := fun r' c' => if r' = r ∧ c' = c then d else p.lamV r' c' }

def QPeps.setH (p : QPeps Q 𝕜) (r c : ℕ) (d : QDiag Q) : QPeps Q 𝕜 :=
  { p with lamH := fun r' c' => if r' = r ∧ c' = c then d else p.lamH r' c' }

/-- `DTenT({InverseIndex(i), i})` with entry one, for an index `i` of dimension one -/
def oneDiag (q : Q) : QDiag Q := ⟨q, 1, fun _ => 1⟩

/-- the quantum number a basis state adds (lines 153-157, 185-189, 223-227) -/
def Phys.flux (i : Phys Q) (a : ℕ) : Q := if i.out then -i.qn a else i.qn a

/-- `TenT({index0, .., phy_idx})` with `({0, 0, 0, 0, a}) = 1.0`; the east index has dimension one -/
def oneTn (w s e n : Q) (dw ds dn : ℕ) (i : Phys Q) (a : ℕ) : QTn Q 𝕜 :=
  ⟨w, s, e, n, i, [dw, ds, 1, dn, i.dim], fun x => if x = [0, 0, 0, 0, a] then 1 else 0⟩

/-- lines 105-122 of `Initial`: the weights around the lattice -/
def initFrame (p : QPeps Q 𝕜) : QPeps Q 𝕜 :=
  let p := forN p.cols (fun c p => p.setV 0 c (oneDiag 0)) p
  let p := if p.bc = .obc then forN p.cols (fun c p => p.setV p.rows c (oneDiag 0)) p else p
  let p := forN p.rows (fun r p => p.setH r 0 (oneDiag 0)) p
  let p := if p.bc = .obc then forN p.rows (fun r p => p.setH r p.cols (oneDiag 0)) p else p
  forN (p.rows - 1) (fun r p => forN p.cols (fun c p => p.setH r c (oneDiag 0)) p) p

/-- one site of a row that is not the last (lines 142-162 and 174-194): the charge leaves to the south -/
def initSite (act : ℕ → ℕ → ℕ) (row c : ℕ) (p : QPeps Q 𝕜) : QPeps Q 𝕜 :=
  let i := (p.gamma row c).phys
  let w := (p.lamH row c).qn
  let n := (p.lamV row c).qn
  let s := w + n - 0 + i.flux (act row c)
  p.setGamma row c (oneTn w s 0 n (p.lamH row c).d.dim 1 (p.lamV row c).d.dim i (act row c))

/-- the weights above a row (lines 167-171 and 199-207) -/
def initAbove (row : ℕ) (p : QPeps Q 𝕜) : QPeps Q 𝕜 :=
  forN p.cols (fun c p => p.setV row c (oneDiag (p.gamma (row - 1) c).south)) p

/-- `GetLambdaVertSouth` (square_lattice_peps.h:232-246) -/
def QPeps.south (p : QPeps Q 𝕜) (r c : ℕ) : QDiag Q :=
  if p.bc = .obc then p.lamV (r + 1) c else p.lamV ((r + 1) % p.rows) c

/-- `GetLambdaHorizEast` (square_lattice_peps.h:257-270) -/
def QPeps.east (p : QPeps Q 𝕜) (r c : ℕ) : QDiag Q :=
  if p.bc = .obc then p.lamH r (c + 1) else p.lamH r ((c + 1) % p.cols)

/-- one site of the last row (lines 210-247): the charge leaves to the east -/
def initLast (act : ℕ → ℕ → ℕ) (c : ℕ) (p : QPeps Q 𝕜) : QPeps Q 𝕜 :=
  let row := p.rows - 1
  let i := (p.gamma row c).phys
  let w := (p.lamH row c).qn
  let n := (p.lamV row c).qn
  let s := (p.south row c).qn
  let e := w + n - s + i.flux (act row c)
  let e := if p.bc = .pbc ∧ c = p.cols - 1 then 0 else e
  let p := p.setGamma row c (oneTn w s e n (p.lamH row c).d.dim (p.south row c).d.dim
    (p.lamV row c).d.dim i (act row c))
  if c < p.cols - 1 then p.setH row (c + 1) (oneDiag e)
  else if p.bc = .obc then p.setH row (c + 1) (oneDiag e)
  else p

/-- `Initial(activates)` (square_lattice_peps_basic_impl.h:99-260); the warnings printed at the end are
omitted -/
def initial (act : ℕ → ℕ → ℕ) (p : QPeps Q 𝕜) : QPeps Q 𝕜 :=
  let p := initFrame p
  let p := forN p.cols (initSite act 0) p
  let p := forN (p.rows - 2) (fun k p =>
    let p := initAbove (k + 1) p
    forN p.cols (initSite act (k + 1)) p) p
  let p := if 1 < p.rows then initAbove (p.rows - 1) p else p
  forN p.cols (initLast act) p

end

end QLPeps.Peps
