import Verif.Model.Sweep
import Verif.Model.NextPerm
import Mathlib.Data.Nat.Digits.Defs

/-!
# Model of `Configuration` (and of the matrix container below it)

Sources (under `/repo/include/qlpeps/`): `two_dim_tn/framework/duomatrix.h`,
`vmc_basic/configuration.h`, `algorithm/vmc_update/exact_summation_energy_evaluator.h`,
`algorithm/vmc_update/exact_summation_measurer.h`,
`algorithm/vmc_update/monte_carlo_peps_params.h`.

Undefined behaviour (null dereference, out-of-range index, integer division by zero) is `none`,
or `Outcome.ub` where exceptions are also possible.
-/

namespace QLPeps.Configuration

/-- result of a C++ call: a value, a C++ exception, or undefined behaviour -/
inductive Outcome (α : Type*) where
  | ok (a : α)
  | throws
  | ub
  deriving DecidableEq, Repr

/-- `DuoMatrix<size_t>` (duomatrix.h:31-49): `cell p = none` is a null pointer. -/
structure Conf where
  rows : ℕ
  cols : ℕ
  cell : Site → Option ℕ

/-- duomatrix.h:42: all pointers null. -/
def empty (rows cols : ℕ) : Conf := ⟨rows, cols, fun _ => none⟩

/-- `config({row, col}) = v` (duomatrix.h:161-168). -/
def write (p : Site) (v : ℕ) (c : Conf) : Option Conf :=
  if p.1 < c.rows ∧ p.2 < c.cols then
    some { c with cell := fun q => if q = p then some v else c.cell q }
  else none

/-- the `const` element getter (duomatrix.h:147-151). -/
def read (p : Site) (c : Conf) : Option ℕ :=
  if p.1 < c.rows ∧ p.2 < c.cols then c.cell p else none

/-- `for (row = 0; row < rows; row++) for (col = 0; col < cols; col++) f(row, col)`, the loop
shape used throughout configuration.h. -/
def forCells {S : Type*} (rows cols : ℕ) (f : ℕ → ℕ → S → S) (s : S) : S :=
  (List.range rows).foldl (fun s r => (List.range cols).foldl (fun s c => f r c s) s) s

/-! ## Iterator -/

/-- `Iterator::incrementPosition` (duomatrix.h:356-367). -/
def incrementPosition (rows cols : ℕ) (p : Site) : Site :=
  if p.2 < cols - 1 then (p.1, p.2 + 1)
  else if p.1 < rows - 1 then (p.1 + 1, 0)
  else (rows, cols)

/-- Positions visited by `for (x : *this)` from `p` on (duomatrix.h:375-384, 341-348); `none` if
`fuel` increments do not reach the end. -/
def iterFrom (rows cols : ℕ) : ℕ → Site → Option (List Site)
  | 0, p => if p = (rows, cols) then some [] else none
  | n + 1, p => if p = (rows, cols) then some []
    else (iterFrom rows cols n (incrementPosition rows cols p)).map (p :: ·)

/-- the range-for loop: starts at `begin() = (0, 0)` -/
def iterAll (rows cols fuel : ℕ) : Option (List Site) := iterFrom rows cols fuel (0, 0)

/-! ## Random configurations -/

/-- `size_t` arithmetic wraps modulo 2^64 -/
def wrap64 (n : ℕ) : ℕ := n % 2 ^ 64

/-- `SetFromList` (configuration.h:436-442); `.at` throws outside the list. -/
def setFromList (l : List ℕ) (c : Conf) : Outcome Conf :=
  forCells c.rows c.cols (fun r k o => match o with
    | .ok c' => match l[r * c.cols + k]? with
      | some v => match write (r, k) v c' with
        | some c'' => .ok c''
        | none => .ub
      | none => .throws
    | o => o) (.ok c)

/-- `std::fill(begin + offset, begin + offset + n, v)`; writing past the end is undefined. -/
def fill (l : List ℕ) (offset n v : ℕ) : Option (List ℕ) :=
  if offset + n ≤ l.length then some (l.take offset ++ List.replicate n v ++ l.drop (offset + n))
  else none

/-- The fill loops of configuration.h:147-152 and 203-208; `occ` are the remaining
(state, number) pairs. -/
def fillLoop : List (ℕ × ℕ) → ℕ → List ℕ → Option (List ℕ)
  | [], _, l => some l
  | (s, n) :: occ, offset, l => match fill l offset n s with
    | some l' => fillLoop occ (wrap64 (offset + n)) l'
    | none => none

/-- Common body of the two `Random` overloads with occupancies (configuration.h:127-164 and
182-218): `occ` lists (state, number) in the order of the loop, `shuffle` is `std::shuffle`. -/
def randomPairs (shuffle : List ℕ → List ℕ) (occ : List (ℕ × ℕ)) (c : Conf) : Outcome Conf :=
  let total := wrap64 (c.rows * c.cols)
  let sum := occ.foldl (fun s p => wrap64 (s + p.2)) 0
  if sum ≠ total then .throws
  else match fillLoop occ 0 (List.replicate total 0) with
    | none => .ub
    | some l => setFromList (shuffle l) c

/-- `Random(const OccupancyNum &)` (configuration.h:127-164). -/
def randomOccupancy (shuffle : List ℕ → List ℕ) (occ : List ℕ) (c : Conf) : Outcome Conf :=
  randomPairs shuffle (occ.mapIdx (fun i n => (i, n))) c

/-- `Random(const size_t dim)` (configuration.h:103-110): `draw p` is the draw for position `p`
of the iteration; the C++ distribution guarantees `draw p < dim` (`dim = 0` is undefined). -/
def randomDim (draw : Site → ℕ) (fuel : ℕ) (c : Conf) : Option Conf :=
  match iterAll c.rows c.cols fuel with
  | none => none
  | some ps => ps.foldl (fun o p => match o with
      | some c => write p (draw p) c
      | none => none) (some c)

/-- all elements in iteration order; reading a null pointer is undefined -/
def elems (fuel : ℕ) (c : Conf) : Option (List ℕ) :=
  match iterAll c.rows c.cols fuel with
  | none => none
  | some ps => ps.foldr (fun p o => match read p c, o with
      | some v, some l => some (v :: l)
      | _, _ => none) (some [])

/-- `CountOccupancy` (configuration.h:238-253). -/
def countOccupancy (fuel : ℕ) (c : Conf) : Option (List ℕ) :=
  if c.rows * c.cols = 0 then some []
  else match elems fuel c with
    | none => none
    | some l =>
      let maxState := l.foldl max 0
      some (l.foldl (fun occ e => occ.modify e (· + 1)) (List.replicate (maxState + 1) 0))

/-- `Sum` (configuration.h:222-228). -/
def sum (fuel : ℕ) (c : Conf) : Option ℕ :=
  (elems fuel c).map (fun l => l.foldl (fun s e => wrap64 (s + e)) 0)

/-! ## Text format -/

/-- decimal digit character -/
def digitChar (d : ℕ) : Char := Char.ofNat (48 + d)

/-- `os << n` for an unsigned integer -/
def natChars (n : ℕ) : List Char :=
  if n = 0 then ['0'] else (Nat.digits 10 n).reverse.map digitChar

/-- white space skipped by `>>` (blank, tab, newline, vertical tab, form feed, return) -/
def isWs (c : Char) : Bool := c.toNat == 32 || (9 ≤ c.toNat && c.toNat ≤ 13)

/-- decimal digits -/
def isDig (c : Char) : Bool := 48 ≤ c.toNat && c.toNat ≤ 57

/-- value of a string of decimal digits -/
def digitsValue (l : List Char) : ℕ := l.foldl (fun a c => 10 * a + (c.toNat - 48)) 0

/-- `is >> n` for `size_t`: skip white space, take the longest digit string; fails on an empty
string or when the value does not fit. Simplification: an explicit sign (`+`, `-`) is treated as
a failure. The second component is the rest of the stream. -/
def readNat (s : List Char) : Option ℕ × List Char :=
  let s := s.dropWhile isWs
  let ds := s.takeWhile isDig
  let rest := s.dropWhile isDig
  if ds = [] then (none, s)
  else if digitsValue ds < 2 ^ 64 then (some (digitsValue ds), rest) else (none, rest)

/-- `StreamWrite` (configuration.h:457-464); `none` for a null element. Written for `cols ≥ 1`
(for `cols = 0` the C++ bound `cols() - 1` wraps around and the loop is undefined). -/
def streamWrite (c : Conf) : Option (List Char) :=
  if c.cols = 0 ∧ 0 < c.rows then none
  else (List.range c.rows).foldl (fun o r =>
    let o := (List.range (c.cols - 1)).foldl (fun o k => match o, read (r, k) c with
      | some t, some v => some (t ++ natChars v ++ [' '])
      | _, _ => none) o
    match o, read (r, c.cols - 1) c with
    | some t, some v => some (t ++ natChars v ++ ['\n'])
    | _, _ => none) (some [])

/-- One step of `StreamRead` (configuration.h:446-455). State: (still good, stream, object).
A failed extraction stores 0 in the element (C++11) and throws. -/
def readStep (r k : ℕ) (st : Bool × List Char × Conf) : Bool × List Char × Conf :=
  if st.1 then
    match readNat st.2.1 with
    | (some v, rest) =>
      (true, rest, { st.2.2 with cell := fun q => if q = (r, k) then some v else st.2.2.cell q })
    | (none, rest) =>
      (false, rest, { st.2.2 with cell := fun q => if q = (r, k) then some 0 else st.2.2.cell q })
  else st

/-- `StreamRead` (configuration.h:446-455); `false` is the thrown exception. -/
def streamRead (s : List Char) (c : Conf) : Bool × List Char × Conf :=
  forCells c.rows c.cols readStep (true, s, c)

/-- the two files of one label: data and shape sidecar (absent = `none`) -/
structure Files where
  data : Option (List Char)
  shape : Option (List Char)
  deriving DecidableEq

/-- sidecar text (configuration.h:306) -/
def shapeText (c : Conf) : List Char := natChars c.rows ++ [' '] ++ natChars c.cols ++ ['\n']

/-- `Dump` (configuration.h:284-309) of an object whose text is `t`: every file-system state that
can be observed while it runs, in order. Opening truncates the file, then any prefix of the
contents may have reached the file. -/
def dumpStates (t : List Char) (c : Conf) (fs : Files) : List Files :=
  fs :: (t.inits.map fun p => { fs with data := some p })
    ++ ((shapeText c).inits.map fun p => { data := some t, shape := some p })

/-- the files after a completed `Dump` -/
def dump (t : List Char) (c : Conf) : Files := { data := some t, shape := some (shapeText c) }

/-- the sidecar check of `Load` (configuration.h:361-372) -/
def shapeOk (sh : Option (List Char)) (c : Conf) : Bool :=
  match sh with
  | none => true
  | some s => match readNat s with
    | (some r, rest) => match readNat rest with
      | (some k, _) => r == c.rows && k == c.cols
      | (none, _) => false
    | (none, _) => false

/-- `Load` (configuration.h:356-392): return value and the object afterwards. -/
def load (fs : Files) (c : Conf) : Bool × Conf :=
  if shapeOk fs.shape c then
    match fs.data with
    | none => (false, c)
    | some s =>
      let r := streamRead s c
      (r.1, r.2.2)
  else (false, c)

/-- `MonteCarloParams(.., config_file_path, ..)` (monte_carlo_peps_params.h:72-85): loads label 0
into the default-constructed (0 x 0) member `initial_config`. -/
def paramsFromFile (fs : Files) : Outcome Conf :=
  let r := load fs (empty 0 0)
  if r.1 then .ok r.2 else .throws

/-! ## MPI transfer -/

/-- flattening before a send (configuration.h:485-489, 529-533, 551-555): writes into an array
of `size()` elements, `none` if an index is outside or an element is null. -/
def flatten (c : Conf) : Option (List ℕ) :=
  forCells c.rows c.cols (fun r k o => match o, read (r, k) c with
    | some l, some v => if r * c.cols + k < l.length then some (l.set (r * c.cols + k) v) else none
    | _, _ => none) (some (List.replicate (c.rows * c.cols) 0))

/-- rebuilding after a receive (configuration.h:504-508, 538-542, 562-566). -/
def unflatten (l : List ℕ) (c : Conf) : Option Conf :=
  forCells c.rows c.cols (fun r k o => match o, l[r * c.cols + k]? with
    | some c', some v => write (r, k) v c'
    | _, _ => none) (some c)

/-! ## Exhaustive generators -/

/-- `Vec2Config` (exact_summation_energy_evaluator.h:48-58). -/
def vec2Config (v : List ℕ) (Lx Ly : ℕ) : Option Conf :=
  if Lx = 0 ∧ v ≠ [] then none   -- i / Lx
  else (v.zipIdx).foldl (fun o p => match o with
    | some c => write (p.2 / Lx, p.2 % Lx) p.1 c
    | none => none) (some (empty Ly Lx))

/-- the base vector of exact_summation_energy_evaluator.h:82-87 -/
def baseVector (counts : List ℕ) : List ℕ :=
  (counts.mapIdx (fun i n => List.replicate n i)).flatten

/-- all results, or `none` if one of them is undefined -/
def collect {α : Type*} : List (Option α) → Option (List α)
  | [] => some []
  | o :: l => match o, collect l with
    | some a, some l => some (a :: l)
    | _, _ => none

/-- `GenerateAllPermutationConfigs` (exact_summation_energy_evaluator.h:74-95); `fuel` bounds the
`do ... while` loop. -/
def generateAllPermutationConfigs (fuel : ℕ) (counts : List ℕ) (Lx Ly : ℕ) :
    Option (List Conf) :=
  match NextPerm.permLoop fuel (baseVector counts) with
  | none => none
  | some vs => collect (vs.map (fun v => vec2Config v Lx Ly))

/-- `GenerateAllBinaryConfigs` (exact_summation_measurer.h:40-59). -/
def generateAllBinaryConfigs (Lx Ly : ℕ) : Outcome (List Conf) :=
  if Ly ≠ 0 ∧ (2 ^ 64 - 1) / Ly < Lx then .throws
  else
    let N := Lx * Ly
    if 64 ≤ N then .throws
    else match collect ((List.range (2 ^ N)).map (fun i =>
        vec2Config ((List.range N).map (fun bit => (i >>> bit) % 2)) Lx Ly)) with
      | some l => .ok l
      | none => .ub

end QLPeps.Configuration
