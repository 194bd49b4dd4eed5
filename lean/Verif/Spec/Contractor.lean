import Verif.Model.Contractor

/-!
# Specification of the contractor: environments computed from scratch

Everything is a function of the site tensors `t` alone; there are no caches and no storage
conventions other than that a boundary MPS above or to the right of a window is stored reversed.
-/

namespace QLPeps.Contractor

variable {T E B C C2 A H : Type*}

/-- the `j`-th row (for up and down) or column (for left and right) counted from side `p` -/
def layer (rows cols : ℕ) (t : Site → T) (p : Pos) (j : ℕ) : List T :=
  match p with
  | .up => (List.range cols).map fun c => t (j, c)
  | .down => (List.range cols).map fun c => t (rows - 1 - j, c)
  | .left => (List.range rows).map fun r => t (r, j)
  | .right => (List.range rows).map fun r => t (r, cols - 1 - j)

/-- boundary MPS obtained by absorbing the `k` outermost layers of side `p` -/
def env (o : Ops T E B C C2 A H) (rows cols : ℕ) (t : Site → T) (p : Pos) (k : ℕ) : B :=
  (List.range k).foldl (fun b j => o.absorb p b (layer rows cols t p j)) (o.boundary p)

/-- number of rows (columns) strictly between side `p` and row (column) `i` -/
def depth (rows cols : ℕ) (p : Pos) (i : ℕ) : ℕ :=
  match p with
  | .up => i
  | .down => rows - 1 - i
  | .left => i
  | .right => cols - 1 - i

/-- boundary MPS made of all rows (columns) beyond row (column) `i` on side `p` -/
def beyond (o : Ops T E B C C2 A H) (rows cols : ℕ) (t : Site → T) (p : Pos) (i : ℕ) : B :=
  env o rows cols t p (depth rows cols p i)

/-- the tensor of a boundary MPS facing column (row) `j` -/
def facing (o : Ops T E B C C2 A H) (rows cols : ℕ) (p : Pos) (b : B) (j : ℕ) : E :=
  match p with
  | .up => o.get b (cols - 1 - j)
  | .right => o.get b (rows - 1 - j)
  | .down => o.get b j
  | .left => o.get b j

/-- position along slice of the `i`-th site counted from side `p` -/
def along (rows cols : ℕ) (p : Pos) (i : ℕ) : ℕ :=
  match p with
  | .left => i
  | .up => i
  | .right => cols - 1 - i
  | .down => rows - 1 - i

/-- the `i`-th site of row (left, right) or column (up, down) `s` counted from side `p` -/
def cell (rows cols : ℕ) (p : Pos) (s i : ℕ) : Site :=
  match p with
  | .left => (s, i)
  | .right => (s, cols - 1 - i)
  | .up => (i, s)
  | .down => (rows - 1 - i, s)

/-- boundary tensor of row (column) `s` containing its `k` outermost sites on side `p`
together with everything above and below (left and right of) them -/
def benv (o : Ops T E B C C2 A H) (rows cols : ℕ) (t : Site → T) (p : Pos) (s k : ℕ) : C :=
  (List.range k).foldl (fun x i =>
      o.bgrow p x
        (facing o rows cols (pre p) (beyond o rows cols t (pre p) s) (along rows cols p i))
        (t (cell rows cols p s i))
        (facing o rows cols (next p) (beyond o rows cols t (next p) s) (along rows cols p i)))
    (o.bten0 p
      (facing o rows cols (pre p) (beyond o rows cols t (pre p) s) (along rows cols p 0))
      (facing o rows cols (next p) (beyond o rows cols t (next p) s) (along rows cols p 0)))

/-- Amplitude of the tensor network `t` evaluated at the bond `(a, b)`, from scratch. -/
def bondAmp (o : Ops T E B C C2 A H) (rows cols : ℕ) (t : Site → T) (d : Orient) (a b : Site) : A :=
  match d with
  | .horizontal =>
    o.nn .horizontal (benv o rows cols t .left a.1 a.2)
      (facing o rows cols .up (beyond o rows cols t .up a.1) a.2)
      (facing o rows cols .down (beyond o rows cols t .down a.1) a.2) (t a)
      (facing o rows cols .up (beyond o rows cols t .up a.1) b.2)
      (facing o rows cols .down (beyond o rows cols t .down a.1) b.2) (t b)
      (benv o rows cols t .right a.1 (cols - 1 - b.2))
  | .vertical =>
    o.nn .vertical (benv o rows cols t .up a.2 a.1)
      (facing o rows cols .left (beyond o rows cols t .left a.2) a.1)
      (facing o rows cols .right (beyond o rows cols t .right a.2) a.1) (t a)
      (facing o rows cols .left (beyond o rows cols t .left a.2) b.1)
      (facing o rows cols .right (beyond o rows cols t .right a.2) b.1) (t b)
      (benv o rows cols t .down a.2 (rows - 1 - b.1))

/-- The same for three consecutive sites. -/
def tripleAmp (o : Ops T E B C C2 A H) (rows cols : ℕ) (t : Site → T) (d : Orient)
    (a b e : Site) : A :=
  match d with
  | .horizontal =>
    o.tnn .horizontal (benv o rows cols t .left a.1 a.2)
      (facing o rows cols .up (beyond o rows cols t .up a.1) a.2)
      (facing o rows cols .down (beyond o rows cols t .down a.1) a.2) (t a)
      (facing o rows cols .up (beyond o rows cols t .up a.1) b.2)
      (facing o rows cols .down (beyond o rows cols t .down a.1) b.2) (t b)
      (facing o rows cols .up (beyond o rows cols t .up a.1) e.2)
      (facing o rows cols .down (beyond o rows cols t .down a.1) e.2) (t e)
      (benv o rows cols t .right a.1 (cols - 1 - e.2))
  | .vertical =>
    o.tnn .vertical (benv o rows cols t .up a.2 a.1)
      (facing o rows cols .left (beyond o rows cols t .left a.2) a.1)
      (facing o rows cols .right (beyond o rows cols t .right a.2) a.1) (t a)
      (facing o rows cols .left (beyond o rows cols t .left a.2) b.1)
      (facing o rows cols .right (beyond o rows cols t .right a.2) b.1) (t b)
      (facing o rows cols .left (beyond o rows cols t .left a.2) e.1)
      (facing o rows cols .right (beyond o rows cols t .right a.2) e.1) (t e)
      (benv o rows cols t .down a.2 (rows - 1 - e.1))

/-- A contractor without caches: every replaced amplitude is computed from scratch from the
tensors of the configuration with the replaced local states. -/
def scratchContractor (o : Ops T E B C C2 A H) (rows cols : ℕ) (sitps : Site → ℕ → T) :
    Updaters.Contractor (Option A) Unit where
  nnTrace _ cfg s1 s2 d a b := some (bondAmp o rows cols
    (project sitps (Updaters.setSite (Updaters.setSite cfg s1 a) s2 b)) d s1 s2)
  tnnTrace _ cfg s1 s2 s3 d a b e := some (tripleAmp o rows cols
    (project sitps (Updaters.setSite (Updaters.setSite (Updaters.setSite cfg s1 a) s2 b) s3 e))
    d s1 s2 s3)
  erase _ _ e := e
  generateBMPSApproach _ _ e := e
  initBTen _ _ _ e := e
  growFullBTen _ _ _ _ e := e
  shiftBTenWindow _ _ e := e
  shiftBMPSWindow _ _ e := e
  deleteInnerBMPS _ _ e := e

/-- every boundary MPS in the cache is the one computed from scratch from the tensors `t`, and
no stack is empty or higher than the lattice -/
def Fresh (o : Ops T E B C C2 A H) (rows cols : ℕ) (t : Site → T) (c : Ctr B C C2) : Prop :=
  ∀ p, 1 ≤ (c.bmps p).length ∧ (c.bmps p).length ≤ span rows cols p ∧
    ∀ k b, (c.bmps p)[k]? = some b → b = env o rows cols t p k

end QLPeps.Contractor

namespace QLPeps.Contractor

open QLPeps.Updaters

/-- What a nearest-neighbour updater may base its decision on: the bond, the local states of its
two sites, the amplitude, the number of random numbers drawn so far, and the traces with the two
sites replaced. The result is `none` for undefined behaviour, otherwise the new number of draws
and, if the move is accepted, the new local states and amplitude. -/
abbrev Decision (A : Type*) :=
  Site → Site → Orient → ℕ → ℕ → A → ℕ → (ℕ → ℕ → A) → Option (ℕ × Option (ℕ × ℕ × A))

/-- the updater that takes the decision `dec` with the traces of contractor `C` -/
def moveBy {A Γ : Type*} (dec : Decision A) (C : Updaters.Contractor A Γ) (s1 s2 : Site)
    (d : Orient) (w : Walker A Γ) : Option (Walker A Γ × Bool) :=
  match dec s1 s2 d (w.config s1) (w.config s2) w.amp w.draws
      (C.nnTrace w.env w.config s1 s2 d) with
  | none => none
  | some (n, none) => some ({ w with draws := n }, false)
  | some (n, some (a, b, ψ)) =>
    some (updateLocal C ψ [(s1, a), (s2, b)] { w with draws := n }, true)

/-- The same for three consecutive sites. -/
abbrev Decision3 (A : Type*) :=
  Site → Site → Site → Orient → ℕ → ℕ → ℕ → A → ℕ → (ℕ → ℕ → ℕ → A) →
    Option (ℕ × Option (ℕ × ℕ × ℕ × A))

def moveBy3 {A Γ : Type*} (dec : Decision3 A) (C : Updaters.Contractor A Γ) (s1 s2 s3 : Site)
    (d : Orient) (w : Walker A Γ) : Option (Walker A Γ × Bool) :=
  match dec s1 s2 s3 d (w.config s1) (w.config s2) (w.config s3) w.amp w.draws
      (C.tnnTrace w.env w.config s1 s2 s3 d) with
  | none => none
  | some (n, none) => some ({ w with draws := n }, false)
  | some (n, some (a, b, e, ψ)) =>
    some (updateLocal C ψ [(s1, a), (s2, b), (s3, e)] { w with draws := n }, true)

end QLPeps.Contractor

namespace QLPeps.Contractor

variable {T E B C C2 A H : Type*}

/-! ## Histories of cache operations -/

/-- Everything a user of the contractor can do to it, including a change of one site tensor
followed by `EraseEnvsAfterUpdate` (the direct update path of the wave-function component). -/
inductive CacheOp (T : Type*)
  | init
  | growStep (p : Pos)
  | growFull (p : Pos)
  | growRow (row : ℕ)
  | growCol (col : ℕ)
  | generate (p : Pos)
  | shift (p : Pos)
  | deleteInner (p : Pos)
  | initBTen (p : Pos) (s : ℕ)
  | growFullBTen (p : Pos) (s remain : ℕ) (ini : Bool)
  | growBTenStep (p : Pos)
  | shiftBTen (p : Pos)
  | truncateBTen (p : Pos) (len : ℕ)
  | initBTen2 (p : Pos) (s : ℕ)
  | growFullBTen2 (p : Pos) (s remain : ℕ) (ini : Bool)
  | shiftBTen2 (p : Pos) (s : ℕ)
  | update (s : Site) (x : T)

/-- effect of one operation on the tensor network and the caches; `none` is an out-of-range access -/
def CacheOp.step (o : Ops T E B C C2 A H) (rows cols : ℕ) (st : (Site → T) × Ctr B C C2) :
    CacheOp T → Option ((Site → T) × Ctr B C C2)
  | .init => some (st.1, Contractor.init o st.2)
  | .growStep p => (growBMPSStep o rows cols st.1 p st.2).map (Prod.mk st.1)
  | .growFull p => (growFullBMPS o rows cols st.1 p st.2).map (Prod.mk st.1)
  | .growRow r => (growForRow o rows cols st.1 r st.2).map (Prod.mk st.1)
  | .growCol c => (growForCol o rows cols st.1 c st.2).map (Prod.mk st.1)
  | .generate p => (generateApproach o rows cols st.1 p st.2).map (Prod.mk st.1)
  | .shift p => (shiftBMPSWindow o rows cols st.1 p st.2).map (Prod.mk st.1)
  | .deleteInner p => some (st.1, Contractor.deleteInner p st.2)
  | .initBTen p s => (Contractor.initBTen o rows cols p s st.2).map (Prod.mk st.1)
  | .growFullBTen p s n i =>
      (Contractor.growFullBTen o rows cols st.1 p s n i st.2).map (Prod.mk st.1)
  | .growBTenStep p => (Contractor.growBTenStep o rows cols st.1 p st.2).map (Prod.mk st.1)
  | .shiftBTen p => (shiftBTenWindow o rows cols st.1 p st.2).map (Prod.mk st.1)
  | .truncateBTen p n => some (st.1, Contractor.truncateBTen p n st.2)
  | .initBTen2 p s => (Contractor.initBTen2 o rows cols p s st.2).map (Prod.mk st.1)
  | .growFullBTen2 p s n i =>
      (Contractor.growFullBTen2 o rows cols st.1 p s n i st.2).map (Prod.mk st.1)
  | .shiftBTen2 p s => (shiftBTen2Window o rows cols st.1 p s st.2).map (Prod.mk st.1)
  | .update s x =>
      if s.1 < rows ∧ s.2 < cols then
        some (Function.update st.1 s x, eraseEnvs rows cols s st.2)
      else none

/-- a whole history -/
def runOps (o : Ops T E B C C2 A H) (rows cols : ℕ) (ops : List (CacheOp T))
    (st : (Site → T) × Ctr B C C2) : Option ((Site → T) × Ctr B C C2) :=
  ops.foldlM (CacheOp.step o rows cols) st

/-- every cached boundary MPS is what one would compute from the tensors `t` -/
def Current (o : Ops T E B C C2 A H) (rows cols : ℕ) (t : Site → T) (c : Ctr B C C2) : Prop :=
  ∀ p k b, (c.bmps p)[k]? = some b → b = env o rows cols t p k

/-- the site lies in the `j`-th row or column counted from side `p` -/
def inLayer (rows cols : ℕ) (p : Pos) (j : ℕ) (s : Site) : Prop :=
  match p with
  | .up => s.1 = j
  | .down => s.1 = rows - 1 - j
  | .left => s.2 = j
  | .right => s.2 = cols - 1 - j

/-! ## A contraction that only counts -/

/-- Tensor operations in which every tensor is an element of a commutative monoid and every
contraction is multiplication. A boundary MPS is the list of its tensors in storage order. -/
def countingOps (M : Type*) [CommMonoid M] (rows cols : ℕ) : Ops M M (List M) M M M M where
  boundary p := List.replicate (width rows cols p) 1
  absorb p b mpo := List.zipWith (· * ·) b (match p with
    | .up => mpo.reverse
    | .right => mpo.reverse
    | .left => mpo
    | .down => mpo)
  get b i := b.getD i 1
  bten0 _ _ _ := 1
  bgrow _ x e t e' := x * e * t * e'
  bten20 _ _ _ := 1
  bgrow2 _ x e t t' e' := x * e * t * t' * e'
  nn _ l u d t u' d' t' r := l * u * d * t * u' * d' * t' * r
  tnn _ l u d t u' d' t' u'' d'' t'' r := l * u * d * t * u' * d' * t' * u'' * d'' * t'' * r
  one _ l u d t r := l * u * d * t * r
  hole _ l u d r := l * u * d * r
  nnn _ l u u' d d' t t' t'' t''' r := l * u * u' * d * d' * t * t' * t'' * t''' * r

end QLPeps.Contractor
