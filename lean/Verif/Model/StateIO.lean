import Verif.Model.State
import Verif.Model.Configuration

/-!
# Model of storing and transferring a split-index tensor-product state

Sources (under `/repo/include/qlpeps/`): `two_dim_tn/tps/split_index_tps.h`,
`two_dim_tn/tps/split_index_tps_impl.h`, `consts.h`, `utility/filesystem_utils.h`.

The serialisation of a single tensor belongs to the tensor library and is a parameter: `enc`
(`operator<<`), `dec` (`operator>>`, `none` if the stream fails), `pack`/`unpack`
(`PackShellForMPI`/`UnpackShellForMPI`).
-/

namespace QLPeps.State

open QLPeps.Configuration (natChars readNat)

variable {Ten : Type*}

/-- contents of files, a character standing for a byte -/
abbrev Bytes := List Char

/-- the dump directory: does it exist, and which files does it hold -/
structure Disk where
  dir : Bool
  file : List Char → Option Bytes

/-- `GenSplitIndexTPSTenName` (split_index_tps.h:23-29) without the directory;
`kTpsTenBaseName = "tps_ten"` (consts.h:30), `kQLTenFileSuffix = "qlten"` (tensor library). -/
def tenName (r c i : ℕ) : List Char :=
  ['t', 'p', 's', '_', 't', 'e', 'n'] ++ natChars r ++ ['_'] ++ natChars c ++ ['_'] ++ natChars i
    ++ ['.', 'q', 'l', 't', 'e', 'n']

/-- `tps_meta.txt` (split_index_tps_impl.h:317) -/
def metaName : List Char :=
  ['t', 'p', 's', '_', 'm', 'e', 't', 'a', '.', 't', 'x', 't']

/-- metadata file of the old format (split_index_tps_impl.h:370) -/
def oldMetaName : List Char := ['p', 'h', 'y', 's', '_', 'd', 'i', 'm']

/-- `static_cast<int>(boundary_condition_)` -/
def BC.code : BC → ℕ
  | .obc => 0
  | .pbc => 1

/-- `static_cast<BoundaryCondition>(bc_int)`; a number other than 0 and 1 (never written) counts
as periodic. -/
def BC.ofCode (n : ℕ) : BC := if n = 0 then .obc else .pbc

/-- one step of writing to the disk -/
inductive Op
  | mkdir
  | create (name : List Char)
  | append (name : List Char) (b : Char)

/-- effect of one step -/
def Op.run (d : Disk) : Op → Disk
  | .mkdir => { d with dir := true }
  | .create n => { d with file := fun m => if m = n then some [] else d.file m }
  | .append n b => { d with file := fun m =>
      if m = n then (d.file m).map (fun x => x ++ [b]) else d.file m }

/-- opening a file for writing (which truncates it) and writing bytes -/
def writeOps (name : List Char) (b : Bytes) : List Op := .create name :: b.map (.append name)

/-- text of the metadata file (split_index_tps_impl.h:322) -/
def metaText (a : Sitps Ten) : Bytes :=
  natChars a.rows ++ [' '] ++ natChars a.cols ++ [' '] ++ natChars a.phys ++ [' ']
    ++ natChars a.bc.code

/-- the (site, component) triples of the loops of `Dump` and `Load`
(split_index_tps_impl.h:305-307, 409-412) -/
def triples (rows cols d : ℕ) : List (ℕ × ℕ × ℕ) :=
  (List.range rows).flatMap fun r => (List.range cols).flatMap fun c =>
    (List.range d).map fun i => (r, c, i)

/-- `Dump` (split_index_tps_impl.h:300-330) as the sequence of its steps. `fails` tells which
tensor files cannot be opened: `DumpTen` (267-282) then returns false, which `Dump` ignores.
`release_mem` only frees memory and is left out. -/
def dumpOps (enc : Option Ten → Bytes) (fails : ℕ × ℕ × ℕ → Bool) (a : Sitps Ten) : List Op :=
  .mkdir :: ((triples a.rows a.cols a.phys).flatMap fun t =>
      if fails t then [] else writeOps (tenName t.1 t.2.1 t.2.2) (enc (a.comp t.1 t.2.1 t.2.2)))
    ++ writeOps metaName (metaText a)

/-- the disk after a sequence of steps -/
def runOps (ops : List Op) (d : Disk) : Disk := ops.foldl Op.run d

/-- the disk after a completed `Dump` without failing writes -/
def dump (enc : Option Ten → Bytes) (a : Sitps Ten) (d : Disk) : Disk :=
  runOps (dumpOps enc (fun _ => false) a) d

/-- one extraction of a chain `ifs >> x >> y`: once one has failed the later ones do nothing.
A failed extraction stores 0 (out-of-range numbers, for which C++ stores the maximum, are never
written and are not distinguished). State: (good, rest of the stream). -/
def extract (s : Bool × List Char) : ℕ × Bool × List Char :=
  if s.1 then
    match readNat s.2 with
    | (some v, rest) => (v, true, rest)
    | (none, rest) => (0, false, rest)
  else (0, false, s.2)

/-- parsing of the metadata (split_index_tps_impl.h:345-353): rows, columns, physical dimension,
boundary condition. A missing boundary condition means open; `clear()` (351) makes the later test
of `fail()` (355) always false, so it is not modelled. -/
def parseMeta (s : List Char) : ℕ × ℕ × ℕ × BC :=
  let x := extract (true, s)
  let y := extract x.2
  let z := extract y.2
  let w := extract z.2
  (x.1, y.1, z.1, if w.2.1 then BC.ofCode w.1 else .obc)

/-- `(*this)({row, col})[i] = ten` -/
def setComp (a : Sitps Ten) (r c i : ℕ) (x : Option Ten) : Sitps Ten :=
  { a with comps := fun r' c' =>
      if (r', c') = (r, c) then (a.comps r c).set i x else a.comps r' c' }

/-- `(*this)({row, col}) = std::vector<Tensor>(phy_dim)` -/
def clearSite (a : Sitps Ten) (r c d : ℕ) : Sitps Ten :=
  { a with comps := fun r' c' =>
      if (r', c') = (r, c) then List.replicate d none else a.comps r' c' }

/-- one step of the loop over components (split_index_tps_impl.h:412-422, `LoadTen` 284-298); the
flag is false once `return false` was reached. What a failing extraction leaves in the tensor is
not modelled. -/
def loadStep (dec : Bytes → Option (Option Ten)) (d : Disk) (r c : ℕ)
    (s : Bool × Sitps Ten) (i : ℕ) : Bool × Sitps Ten :=
  if s.1 then
    match d.file (tenName r c i) with
    | none => (false, s.2)
    | some b => match dec b with
      | some x => (true, setComp s.2 r c i x)
      | none => (false, s.2)
  else s

/-- one site of the loop (split_index_tps_impl.h:411-422) -/
def loadSite (dec : Bytes → Option (Option Ten)) (d : Disk) (phy : ℕ)
    (s : Bool × Sitps Ten) (p : ℕ × ℕ) : Bool × Sitps Ten :=
  if s.1 then
    (List.range phy).foldl (loadStep dec d p.1 p.2) (true, clearSite s.2 p.1 p.2 phy)
  else s

/-- the tensor loop of `Load` (split_index_tps_impl.h:396-436) -/
def loadTensors (dec : Bytes → Option (Option Ten)) (d : Disk) (phy : ℕ) (a : Sitps Ten) :
    Bool × Sitps Ten :=
  if phy = 0 then (false, a)
  else ((List.range a.rows).flatMap fun r => (List.range a.cols).map fun c => (r, c)).foldl
    (loadSite dec d phy) (true, a)

/-- `Load` (split_index_tps_impl.h:332-437): return value and the object afterwards. -/
def load (dec : Bytes → Option (Option Ten)) (d : Disk) (a : Sitps Ten) : Bool × Sitps Ten :=
  if !d.dir then (false, a)
  else
    match d.file metaName with
    | some s =>
      let m := parseMeta s
      loadTensors dec d m.2.2.1 ⟨m.1, m.2.1, m.2.2.2, fun _ _ => []⟩
    | none =>
      match d.file oldMetaName with
      | none => (false, a)
      | some s =>
        match readNat s with
        | (none, _) => (false, a)
        | (some phy, _) => loadTensors dec d phy a

/-! ## Point-to-point transfer -/

/-- one MPI message: the header of four numbers or one tensor -/
inductive Msg (Ten : Type*)
  | header (rows cols phy bc : ℕ)
  | tensor (x : Option Ten)

/-- sites in the order of `for (auto &tens : v)` (row by row, `DuoMatrix` iterator) -/
def siteOrder (rows cols : ℕ) : List (ℕ × ℕ) :=
  (List.range rows).flatMap fun r => (List.range cols).map fun c => (r, c)

/-- `MPI_Send` (split_index_tps_impl.h:650-668): the messages, in order. All components of every
site are sent, whatever the header says. -/
def send (a : Sitps Ten) : List (Msg Ten) :=
  .header a.rows a.cols a.phys a.bc.code ::
    (siteOrder a.rows a.cols).flatMap fun p => (a.comps p.1 p.2).map .tensor

/-- receiving `n` tensors (split_index_tps_impl.h:714-719); `none` if the next message is not a
tensor (the receive would fail or block). -/
def recvTensors : ℕ → List (Msg Ten) → Option (List (Option Ten) × List (Msg Ten))
  | 0, ms => some ([], ms)
  | n + 1, .tensor x :: ms => (recvTensors n ms).map fun r => (x :: r.1, r.2)
  | _ + 1, _ => none

/-- receiving all sites -/
def recvSites (phy : ℕ) : List (ℕ × ℕ) → Sitps Ten → List (Msg Ten) →
    Option (Sitps Ten × List (Msg Ten))
  | [], a, ms => some (a, ms)
  | p :: ps, a, ms => match recvTensors phy ms with
    | none => none
    | some (xs, rest) => recvSites phy ps
        { a with comps := fun r c => if (r, c) = p then xs else a.comps r c } rest

/-- `MPI_Recv` (split_index_tps_impl.h:684-722): messages of one sender with one tag arrive in
order; the result is the state and the messages not consumed. -/
def recv : List (Msg Ten) → Option (Sitps Ten × List (Msg Ten))
  | .header rows cols phy bc :: ms =>
    recvSites phy (siteOrder rows cols) ⟨rows, cols, BC.ofCode bc, fun _ _ => []⟩ ms
  | _ => none

/-! ## Broadcast -/

/-- `append_u64` (split_index_tps_impl.h:785-788): eight bytes, least significant first. -/
def u64 (n : ℕ) : List ℕ := (List.range 8).map fun k => n / 256 ^ k % 256

/-- `read_u64` (split_index_tps_impl.h:789-798); `none` is the exception for a truncated field. -/
def readU64 (b : List ℕ) : Option (ℕ × List ℕ) :=
  if b.length < 8 then none
  else some (((List.range 8).map fun k => b.getD k 0 * 256 ^ k).sum, b.drop 8)

/-- payload of one collective call `MPI_Bcast` -/
inductive Call (Raw : Type*)
  | size (n : ℕ)
  | buffer (b : List ℕ)
  | raw (x : Raw)

section Bcast
variable {Shell Raw : Type*}

/-- the shell buffer packed by the root (split_index_tps_impl.h:809-824); a tensor is a pair of a
shell (`none` for a default tensor) and raw data. -/
def shellBuffer (pack : Option Shell → List ℕ) (a : Sitps (Shell × Raw)) : List ℕ :=
  u64 a.rows ++ u64 a.cols ++ u64 a.phys ++ u64 a.bc.code ++
    (siteOrder a.rows a.cols).flatMap fun p =>
      (a.comps p.1 p.2).flatMap fun x => pack (x.map Prod.fst)

/-- raw-data broadcasts of the root (split_index_tps_impl.h:871-877) -/
def rawCalls (a : Sitps (Shell × Raw)) : List (Call Raw) :=
  (siteOrder a.rows a.cols).flatMap fun p =>
    (a.comps p.1 p.2).filterMap fun x => x.map fun t => .raw t.2

/-- the collective calls of the root, in order (split_index_tps_impl.h:809-833, 871-877) -/
def rootCalls (pack : Option Shell → List ℕ) (a : Sitps (Shell × Raw)) : List (Call Raw) :=
  .size (shellBuffer pack a).length :: .buffer (shellBuffer pack a) :: rawCalls a

/-- unpacking the shells of one site (split_index_tps_impl.h:855-860) -/
def unpackSite (unpack : List ℕ → Option (Option Shell × List ℕ)) :
    ℕ → List ℕ → Option (List (Option Shell) × List ℕ)
  | 0, b => some ([], b)
  | n + 1, b => match unpack b with
    | none => none
    | some (x, rest) => (unpackSite unpack n rest).map fun r => (x :: r.1, r.2)

/-- unpacking all sites -/
def unpackSites (unpack : List ℕ → Option (Option Shell × List ℕ)) (phy : ℕ) :
    List (ℕ × ℕ) → Sitps Shell → List ℕ → Option (Sitps Shell × List ℕ)
  | [], a, b => some (a, b)
  | p :: ps, a, b => match unpackSite unpack phy b with
    | none => none
    | some (xs, rest) => unpackSites unpack phy ps
        { a with comps := fun r c => if (r, c) = p then xs else a.comps r c } rest

/-- rebuilding the shells on a receiver (split_index_tps_impl.h:836-866); `none` is an exception -/
def unpackShells (unpack : List ℕ → Option (Option Shell × List ℕ)) (buf : List ℕ) :
    Option (Sitps Shell) :=
  if buf.length < 32 then none
  else match readU64 buf with
    | none => none
    | some (rows, b1) => match readU64 b1 with
      | none => none
      | some (cols, b2) => match readU64 b2 with
        | none => none
        | some (phy, b3) => match readU64 b3 with
          | none => none
          | some (bc, b4) =>
            if 1 < bc then none
            else match unpackSites unpack phy (siteOrder rows cols)
                ⟨rows, cols, BC.ofCode bc, fun _ _ => []⟩ b4 with
              | none => none
              | some (a, rest) => if rest = [] then some a else none

/-- receiving the raw data of one site: one call per non-default tensor
(split_index_tps_impl.h:871-877) -/
def fillSite : List (Option Shell) → List (Call Raw) →
    Option (List (Option (Shell × Raw)) × List (Call Raw))
  | [], cs => some ([], cs)
  | none :: xs, cs => (fillSite xs cs).map fun r => (none :: r.1, r.2)
  | some s :: xs, .raw x :: cs => (fillSite xs cs).map fun r => (some (s, x) :: r.1, r.2)
  | some _ :: _, _ => none

/-- receiving the raw data of all sites -/
def fillSites (v : Sitps Shell) : List (ℕ × ℕ) → Sitps (Shell × Raw) → List (Call Raw) →
    Option (Sitps (Shell × Raw) × List (Call Raw))
  | [], a, cs => some (a, cs)
  | p :: ps, a, cs => match fillSite (v.comps p.1 p.2) cs with
    | none => none
    | some (xs, rest) => fillSites v ps
        { a with comps := fun r c => if (r, c) = p then xs else a.comps r c } rest

/-- `MPI_Bcast` on a receiver (split_index_tps_impl.h:826-877): the k-th collective call of the
receiver is matched with the k-th of the root. The result is the state and the calls of the root
the receiver did not take part in; `none` is an exception or a call of another kind. -/
def recvBcast (unpack : List ℕ → Option (Option Shell × List ℕ)) :
    List (Call Raw) → Option (Sitps (Shell × Raw) × List (Call Raw))
  | .size n :: .buffer b :: cs =>
    if b.length ≠ n then none
    else match unpackShells unpack b with
      | none => none
      | some v => fillSites v (siteOrder v.rows v.cols)
          ⟨v.rows, v.cols, v.bc, fun _ _ => []⟩ cs
  | _ => none

end Bcast

end QLPeps.State
