import Verif.Model.StateIO

/-!
# Model of storing a weighted PEPS and a tensor product state on disk

Sources (under `/repo/include/qlpeps/`): `two_dim_tn/peps/square_lattice_peps_basic_impl.h:397-505`,
`two_dim_tn/tps/tps_impl.h:100-148`, `two_dim_tn/framework/ten_matrix.h:76-132`,
`two_dim_tn/framework/duomatrix.h:173-239`.

The serialisation of one tensor belongs to the tensor library and is a parameter: `enc`
(`operator<<`), `dec` (`operator>>`, `none` if the stream fails) and `dflt`, the tensor of the
default constructor. Which files cannot be opened or written is a parameter too. Reading a file that
exists always gives its contents.
-/

namespace QLPeps.PepsIO

open QLPeps.State (BC Bytes extract)
open QLPeps.Configuration (natChars)

/-- the file system takes several slashes in a row for one (POSIX path resolution) -/
def squeeze : List Char → List Char
  | [] => []
  | c :: cs => if c = '/' ∧ cs.head? = some '/' then squeeze cs else c :: squeeze cs

/-- contents of the files, by path -/
structure Disk where
  file : List Char → Option Bytes

/-- reading a file; `none` if it cannot be opened -/
def Disk.read (d : Disk) (f : List Char) : Option Bytes := d.file (squeeze f)

/-- the disk after a file was replaced -/
def Disk.write (d : Disk) (f : List Char) (b : Bytes) : Disk :=
  ⟨fun m => if m = squeeze f then some b else d.file m⟩

/-- how writing a file can fail: it cannot be opened, or only some bytes are written -/
inductive Fault
  | noOpen
  | short (left : Bytes)

/-- what the program knows about the outside: the tensor library and the faults of the disk -/
structure Env (T : Type*) where
  enc : T → Bytes
  dec : Bytes → Option T
  dflt : T
  fault : List Char → Option Fault

section Cells

variable {K T : Type*} [DecidableEq K]

/-- cells of a `TenMatrix`, `none` for a null pointer -/
abbrev Cells (K T : Type*) := K → Option T

/-- `DumpTen` of an object that may be changed (ten_matrix.h:118-132). The access allocates a default
tensor if there is none (duomatrix.h:173-180); opening comes before the access. Result: the cell, the
disk, the return value. -/
def dumpTen (env : Env T) (release : Bool) (x : Option T) (f : List Char) (d : Disk) :
    Option T × Disk × Bool :=
  match env.fault (squeeze f) with
  | some .noOpen => (x, d, false)
  | some (.short b) => (some (x.getD env.dflt), d.write f b, false)
  | none => (if release then none else some (x.getD env.dflt), d.write f (env.enc (x.getD env.dflt)),
      true)

/-- `DumpTen` of a constant object (ten_matrix.h:97-108); `none`: a null pointer is dereferenced -/
def dumpTenConst (env : Env T) (x : Option T) (f : List Char) (d : Disk) : Option (Disk × Bool) :=
  match env.fault (squeeze f) with
  | some .noOpen => some (d, false)
  | some (.short b) => x.map fun _ => (d.write f b, false)
  | none => x.map fun t => (d.write f (env.enc t), true)

/-- `LoadTen` (ten_matrix.h:76-88): the old tensor is deleted and a default one allocated first. What
a failing extraction leaves in the tensor is not modelled: it counts as the default tensor. -/
def loadTen (env : Env T) (f : List Char) (d : Disk) : Option T × Bool :=
  match d.read f with
  | none => (some env.dflt, false)
  | some b => match env.dec b with
    | none => (some env.dflt, false)
    | some t => (some t, true)

/-- assignment to a cell -/
def setCell (cells : Cells K T) (k : K) (x : Option T) : Cells K T :=
  fun k' => if k' = k then x else cells k'

/-- a loop that dumps cells and stops at the first failure (square_lattice_peps_basic_impl.h:437-445,
and the two like it) -/
def dumpLoop (env : Env T) (release : Bool) (name : K → List Char) :
    List K → Cells K T → Disk → Cells K T × Disk × Bool
  | [], cells, d => (cells, d, true)
  | k :: ks, cells, d =>
    let r := dumpTen env release (cells k) (name k) d
    if r.2.2 then dumpLoop env release name ks (setCell cells k r.1) r.2.1
    else (setCell cells k r.1, r.2.1, false)

/-- the same loop for a constant object (square_lattice_peps_basic_impl.h:400-408) -/
def dumpLoopConst (env : Env T) (name : K → List Char) (cells : Cells K T) :
    List K → Disk → Option (Disk × Bool)
  | [], d => some (d, true)
  | k :: ks, d =>
    match dumpTenConst env (cells k) (name k) d with
    | none => none
    | some (d', true) => dumpLoopConst env name cells ks d'
    | some (d', false) => some (d', false)

/-- a loop that dumps cells and ignores failures (tps_impl.h:113-118) -/
def dumpLoopIgnore (env : Env T) (release : Bool) (name : K → List Char) :
    List K → Cells K T → Disk → Cells K T × Disk
  | [], cells, d => (cells, d)
  | k :: ks, cells, d =>
    let r := dumpTen env release (cells k) (name k) d
    dumpLoopIgnore env release name ks (setCell cells k r.1) r.2.1

/-- a loop that loads cells and stops at the first failure
(square_lattice_peps_basic_impl.h:473-481, tps_impl.h:138-145) -/
def loadLoop (env : Env T) (name : K → List Char) (d : Disk) :
    List K → Cells K T → Cells K T × Bool
  | [], cells => (cells, true)
  | k :: ks, cells =>
    let r := loadTen env (name k) d
    if r.2 then loadLoop env name d ks (setCell cells k r.1) else (setCell cells k r.1, false)

end Cells

/-- the nested loops over rows and columns -/
def block (rows cols : ℕ) : List (ℕ × ℕ) :=
  (List.range rows).flatMap fun r => (List.range cols).map fun c => (r, c)

variable {T : Type*}

/-! ## the weighted PEPS -/

/-- the three arrays of a PEPS -/
inductive Part
  | gamma
  | lamV
  | lamH
  deriving DecidableEq

/-- a PEPS as far as storing it is concerned (square_lattice_peps.h:172-176, 352-355) -/
structure Peps (T : Type*) where
  rows : ℕ
  cols : ℕ
  bc : BC
  ten : Cells (Part × ℕ × ℕ) T

/-- size of the arrays: an open lattice has one more row of vertical and one more column of
horizontal weights (square_lattice_peps_basic_impl.h:24-36) -/
def Peps.extra (p : Peps T) : ℕ := if p.bc = .obc then 1 else 0

/-- order of the three loops (square_lattice_peps_basic_impl.h:437-466, 473-502) -/
def Peps.keys (p : Peps T) : List (Part × ℕ × ℕ) :=
  (block p.rows p.cols).map (fun k => (Part.gamma, k)) ++
  (block (p.rows + p.extra) p.cols).map (fun k => (Part.lamV, k)) ++
  (block p.rows (p.cols + p.extra)).map (fun k => (Part.lamH, k))

/-- first part of the file names -/
def Part.tag : Part → List Char
  | .gamma => ['g', 'a', 'm', 'm', 'a', '_', 't', 'e', 'n', '_']
  | .lamV => ['l', 'a', 'm', '_', 'v', '_']
  | .lamH => ['l', 'a', 'm', '_', 'h', '_']

/-- file names without the directory -/
def pepsName (k : Part × ℕ × ℕ) : List Char :=
  k.1.tag ++ natChars k.2.1 ++ ['-'] ++ natChars k.2.2 ++ ['.', 'q', 'l', 't', 'e', 'n']

/-- `path + "/gamma_ten_" …` (square_lattice_peps_basic_impl.h:439, 450, 461, 475, 486, 497) -/
def slashed (path : List Char) (k : Part × ℕ × ℕ) : List Char := path ++ '/' :: pepsName k

/-- `path + "gamma_ten_" …`, without a slash (square_lattice_peps_basic_impl.h:402, 413, 424) -/
def unslashed (path : List Char) (k : Part × ℕ × ℕ) : List Char := path ++ pepsName k

/-- `Dump(path, release_mem)` (square_lattice_peps_basic_impl.h:434-469): object, disk, return value.
This overload is chosen for every object that is not constant, also for `Dump(path)`. Creating the
directory is part of the faults: if that fails no file can be opened. -/
def Peps.dump (env : Env T) (release : Bool) (path : List Char) (p : Peps T) (d : Disk) :
    Peps T × Disk × Bool :=
  let r := dumpLoop env release (slashed path) p.keys p.ten d
  ({ p with ten := r.1 }, r.2)

/-- `Dump(path) const` (square_lattice_peps_basic_impl.h:397-432); `none`: undefined behaviour -/
def Peps.dumpConst (env : Env T) (path : List Char) (p : Peps T) (d : Disk) : Option (Disk × Bool) :=
  dumpLoopConst env (unslashed path) p.ten p.keys d

/-- `Load(path)` (square_lattice_peps_basic_impl.h:471-505) -/
def Peps.load (env : Env T) (path : List Char) (d : Disk) (p : Peps T) : Peps T × Bool :=
  let r := loadLoop env (slashed path) d p.keys p.ten
  ({ p with ten := r.1 }, r.2)

/-! ## the tensor product state -/

/-- a TPS as far as storing it is concerned -/
structure Tps (T : Type*) where
  rows : ℕ
  cols : ℕ
  bc : BC
  ten : Cells (ℕ × ℕ) T

/-- `GenTPSTenName` (tps.h:30-33) -/
def tpsFile (path : List Char) (k : ℕ × ℕ) : List Char :=
  path ++ '/' :: (['t', 'p', 's', '_', 't', 'e', 'n'] ++ natChars k.1 ++ ['_'] ++ natChars k.2
    ++ ['.', 'q', 'l', 't', 'e', 'n'])

/-- `tps_path + "/tps_meta.txt"` (tps_impl.h:105, 124) -/
def metaFile (path : List Char) : List Char :=
  path ++ '/' :: ['t', 'p', 's', '_', 'm', 'e', 't', 'a', '.', 't', 'x', 't']

/-- text of the metadata file (tps_impl.h:108) -/
def Tps.metaText (a : Tps T) : Bytes :=
  natChars a.rows ++ [' '] ++ natChars a.cols ++ [' '] ++ natChars a.bc.code ++ ['\n']

/-- writing the metadata (tps_impl.h:103-110); failures are not reported -/
def Tps.dumpMeta (env : Env T) (path : List Char) (a : Tps T) (d : Disk) : Disk :=
  match env.fault (squeeze (metaFile path)) with
  | some .noOpen => d
  | some (.short b) => d.write (metaFile path) b
  | none => d.write (metaFile path) a.metaText

/-- `Dump(tps_path, release_mem)` (tps_impl.h:100-119), which returns nothing -/
def Tps.dump (env : Env T) (release : Bool) (path : List Char) (a : Tps T) (d : Disk) :
    Tps T × Disk :=
  let r := dumpLoopIgnore env release (tpsFile path) (block a.rows a.cols) a.ten
    (a.dumpMeta env path d)
  ({ a with ten := r.1 }, r.2)

/-- `ifs >> r >> c >> bc_int; if (ifs)` (tps_impl.h:127-129) -/
def parseMeta (s : Bytes) : Option (ℕ × ℕ × BC) :=
  let x := extract (true, s)
  let y := extract x.2
  let z := extract y.2
  if z.2.1 then some (x.1, y.1, BC.ofCode z.1) else none

/-- effect of the metadata (tps_impl.h:123-136): another size means a new, empty object; the same size
only changes the boundary condition; without readable metadata nothing changes -/
def Tps.loadMeta (path : List Char) (d : Disk) (a : Tps T) : Tps T :=
  match d.read (metaFile path) with
  | none => a
  | some s => match parseMeta s with
    | none => a
    | some (r, c, bc) =>
      if r ≠ a.rows ∨ c ≠ a.cols then ⟨r, c, bc, fun _ => none⟩ else { a with bc := bc }

/-- `Load(tps_path)` (tps_impl.h:122-148) -/
def Tps.load (env : Env T) (path : List Char) (d : Disk) (a : Tps T) : Tps T × Bool :=
  let b := a.loadMeta path d
  let r := loadLoop env (tpsFile path) d (block b.rows b.cols) b.ten
  ({ b with ten := r.1 }, r.2)

end QLPeps.PepsIO
