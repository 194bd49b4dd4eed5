import Verif.Lemmas.PepsIO

/-!
# C97, C98: storing a weighted PEPS and a tensor product state on disk
-/

namespace QLPeps.PepsIO

open QLPeps.State (BC Bytes)

variable {T : Type*}

/-! ## specification -/

/-- the positions of the three arrays of a PEPS: site tensors, vertical weights (one more row on an
open lattice), horizontal weights (one more column on an open lattice) -/
def Spec.Inside (rows cols : ℕ) (bc : BC) : Part × ℕ × ℕ → Prop
  | (.gamma, r, c) => r < rows ∧ c < cols
  | (.lamV, r, c) => (r < rows ∨ bc = .obc ∧ r = rows) ∧ c < cols
  | (.lamH, r, c) => r < rows ∧ (c < cols ∨ bc = .obc ∧ c = cols)

/-- nothing was released: every position holds a tensor -/
def Spec.Complete (p : Peps T) : Prop := ∀ k, Inside p.rows p.cols p.bc k → (p.ten k).isSome

/-- two PEPS are equal, in the sense of `operator==` -/
structure Spec.Same (p q : Peps T) : Prop where
  rows_eq : p.rows = q.rows
  cols_eq : p.cols = q.cols
  bc_eq : p.bc = q.bc
  ten_eq : ∀ k, Inside p.rows p.cols p.bc k → p.ten k = q.ten k

/-- two spellings of one directory, for example `"a"` and `"a/"` -/
def Spec.SameDir (path path' : List Char) : Prop := squeeze (path ++ ['/']) = squeeze (path' ++ ['/'])

/-- two disks hold the same files in a directory -/
def Spec.Agree (path : List Char) (d d' : Disk) : Prop :=
  ∀ n, '/' ∉ n → d.read (path ++ '/' :: n) = d'.read (path ++ '/' :: n)

/-- what was written can be read back -/
def Spec.Faithful (env : Env T) : Prop := ∀ t, env.dec (env.enc t) = some t

open Spec

theorem mem_keys (p : Peps T) (k : Part × ℕ × ℕ) : k ∈ p.keys ↔ Inside p.rows p.cols p.bc k := by
  obtain ⟨a, r, c⟩ := k
  unfold Peps.keys Peps.extra
  simp only [List.mem_append, List.mem_map, Prod.mk.injEq]
  cases a <;> simp only [Inside, reduceCtorEq, false_and, and_false, exists_false, or_false, false_or,
    true_and, exists_eq_right, mem_block] <;> split <;> simp_all <;> omega

/-! ## C97 -/

/-- **C97.** `Dump` returns true if, and only if, every file could be written. -/
theorem C97_dump_reports (env : Env T) (release : Bool) (path : List Char) (p : Peps T) (d : Disk) :
    (p.dump env release path d).2.2 = true ↔
      ∀ k, Inside p.rows p.cols p.bc k → env.fault (squeeze (slashed path k)) = none := by
  have := (dumpLoop_spec env release (slashed path) (fun _ _ => slashed_inj) p.keys (nodup_keys p)
    p.ten d).1
  simp only [Peps.dump]
  rw [this]
  exact ⟨fun h k hk => h k ((mem_keys p k).2 hk), fun h k hk => h k ((mem_keys p k).1 hk)⟩

/-- what a successful `Dump` leaves in the files, for any later spelling of the directory and any later
disk with the same files in that directory -/
theorem stored_after (env : Env T) (henv : Faithful env) (release : Bool) {path path' : List Char}
    (hp : SameDir path path') {p : Peps T} {d d' : Disk}
    (ht : (p.dump env release path d).2.2 = true) (hd : Agree path (p.dump env release path d).2.1 d')
    {k : Part × ℕ × ℕ} (hk : Inside p.rows p.cols p.bc k) :
    stored env d' (slashed path' k) = some ((p.ten k).getD env.dflt) := by
  have h3 := ((dumpLoop_spec env release (slashed path) (fun _ _ => slashed_inj) p.keys (nodup_keys p)
    p.ten d).2.2.1 ht k ((mem_keys p k).2 hk)).1
  have h4 := hd (pepsName k) (pepsName_plain k)
  have h5 : d'.read (slashed path' k) = d'.read (path ++ '/' :: pepsName k) := by
    unfold Disk.read
    rw [squeeze_slashed, squeeze_slash _ (pepsName_plain k)]
    rw [show squeeze (path' ++ ['/']) = squeeze (path ++ ['/']) from hp.symm]
  rw [stored, h5, ← h4]
  have h6 : (p.dump env release path d).2.1.read (path ++ '/' :: pepsName k) =
    some (env.enc ((p.ten k).getD env.dflt)) := h3
  rw [h6, Option.bind_some, henv]

/-- **C97.** Round trip: if `Dump` returned true, a later `Load` from the same directory into any PEPS
of the same size and boundary condition returns true and gives an equal PEPS, whatever that PEPS held
and whether or not the memory of the dumped one was released. -/
theorem C97_round_trip (env : Env T) (henv : Faithful env) (release : Bool) {path path' : List Char}
    (hp : SameDir path path') {p : Peps T} (hc : Complete p) {d d' : Disk}
    (ht : (p.dump env release path d).2.2 = true) (hd : Agree path (p.dump env release path d).2.1 d')
    (q : Peps T) (hr : q.rows = p.rows) (hcol : q.cols = p.cols) (hb : q.bc = p.bc) :
    (q.load env path' d').2 = true ∧ Same (q.load env path' d').1 p := by
  obtain ⟨h1, h2, -⟩ := loadLoop_spec env (slashed path') d' q.keys (nodup_keys q) q.ten
  have hin : ∀ k, Inside q.rows q.cols q.bc k ↔ Inside p.rows p.cols p.bc k := by
    intro k
    rw [hr, hcol, hb]
  have hst : ∀ k, Inside p.rows p.cols p.bc k → stored env d' (slashed path' k) = p.ten k := by
    intro k hk
    rw [stored_after env henv release hp ht hd hk]
    obtain ⟨t, e⟩ := Option.isSome_iff_exists.1 (hc k hk)
    rw [e]
    rfl
  have hok : (q.load env path' d').2 = true := h1.2 fun k hk => by
    have hk := (hin k).1 ((mem_keys q k).1 hk)
    rw [hst k hk]
    exact hc k hk
  refine ⟨hok, hr, hcol, hb, fun k hk => ?_⟩
  exact (h2 hok k ((mem_keys q k).2 hk)).trans (hst k ((hin k).1 hk))

/-- after a successful `Dump` that released the memory, the object itself is empty, and `Load` restores
it; without release it is unchanged -/
theorem C97_release_and_restore (env : Env T) (henv : Faithful env) (release : Bool)
    {path : List Char} {p : Peps T} (hc : Complete p) {d : Disk}
    (ht : (p.dump env release path d).2.2 = true) :
    (release = true → ∀ k, Inside p.rows p.cols p.bc k → (p.dump env release path d).1.ten k = none) ∧
    (release = false → Same (p.dump env release path d).1 p) ∧
    Same ((p.dump env release path d).1.load env path (p.dump env release path d).2.1).1 p := by
  have h3 := (dumpLoop_spec env release (slashed path) (fun _ _ => slashed_inj) p.keys (nodup_keys p)
    p.ten d).2.2.1 ht
  refine ⟨?_, ?_, ?_⟩
  · rintro rfl k hk
    exact (h3 k ((mem_keys p k).2 hk)).2
  · rintro rfl
    refine ⟨rfl, rfl, rfl, fun k hk => ?_⟩
    obtain ⟨t, e⟩ := Option.isSome_iff_exists.1 (hc k hk)
    have := (h3 k ((mem_keys p k).2 hk)).2
    rw [e] at this ⊢
    exact this
  · exact (C97_round_trip env henv release rfl hc ht (fun _ _ => rfl)
      (p.dump env release path d).1 rfl rfl rfl).2

/-- a second `Dump` to the same directory after the memory was released overwrites every file with the
default tensor and returns true -/
theorem C97_dump_after_release_destroys (env : Env T) (henv : Faithful env) {path : List Char}
    {p : Peps T} {d : Disk} (ht : (p.dump env true path d).2.2 = true) :
    let s := p.dump env true path d
    (s.1.dump env false path s.2.1).2.2 = true ∧ ∀ k, Inside p.rows p.cols p.bc k →
      stored env (s.1.dump env false path s.2.1).2.1 (slashed path k) = some env.dflt := by
  intro s
  have h2 : (s.1.dump env false path s.2.1).2.2 = true :=
    (C97_dump_reports env false path s.1 s.2.1).2 ((C97_dump_reports env true path p d).1 ht)
  refine ⟨h2, fun k hk => ?_⟩
  rw [stored_after env henv false rfl h2 (fun _ _ => rfl) (k := k) hk]
  have h3 := ((dumpLoop_spec env true (slashed path) (fun _ _ => slashed_inj) p.keys (nodup_keys p)
    p.ten d).2.2.1 ht k ((mem_keys p k).2 hk)).2
  rw [show s.1.ten k = none from h3]
  rfl

/-- **C97.** `Load` is exact: it returns true if, and only if, every file exists and can be read, and
then every tensor is the one of its file. If it returns false, the tensors before the first bad file
were replaced and the ones after it were not: the object is a mixture. -/
theorem C97_load_exact (env : Env T) (path : List Char) (d : Disk) (q : Peps T) :
    ((q.load env path d).2 = true ↔
      ∀ k, Inside q.rows q.cols q.bc k → (stored env d (slashed path k)).isSome) ∧
    ((q.load env path d).2 = true → ∀ k, Inside q.rows q.cols q.bc k →
      (q.load env path d).1.ten k = stored env d (slashed path k)) ∧
    ((q.load env path d).2 = false → ∃ k, Inside q.rows q.cols q.bc k ∧
      stored env d (slashed path k) = none ∧ ∀ j, Inside q.rows q.cols q.bc j → j ≠ k →
        (q.load env path d).1.ten j = stored env d (slashed path j) ∨
        (q.load env path d).1.ten j = q.ten j) ∧
    (q.load env path d).1.rows = q.rows ∧ (q.load env path d).1.cols = q.cols ∧
    (q.load env path d).1.bc = q.bc := by
  obtain ⟨h1, h2, -, h4⟩ := loadLoop_spec env (slashed path) d q.keys (nodup_keys q) q.ten
  refine ⟨?_, fun h k hk => h2 h k ((mem_keys q k).2 hk), fun h => ?_, rfl, rfl, rfl⟩
  · simp only [Peps.load]
    rw [h1]
    exact ⟨fun h k hk => h k ((mem_keys q k).2 hk), fun h k hk => h k ((mem_keys q k).1 hk)⟩
  · obtain ⟨l, k, l', e, hs, hl, hl'⟩ := h4 h
    refine ⟨k, (mem_keys q k).1 (e ▸ by simp), hs, fun j hj hjk => ?_⟩
    have := (mem_keys q j).2 hj
    rw [e, List.mem_append, List.mem_cons] at this
    rcases this with h | h | h
    · exact .inl (hl j h).2
    · exact absurd h hjk
    · exact .inr (hl' j h)

/-- dumps to different directories do not disturb each other -/
theorem C97_directories_independent (env : Env T) (release : Bool) {path path' : List Char}
    (hp : ¬ SameDir path path') (p q : Peps T) (d : Disk) :
    q.load env path' (p.dump env release path d).2.1 = q.load env path' d := by
  unfold Peps.load
  rw [loadLoop_congr env (slashed path') (slashed path') (p.dump env release path d).2.1 d]
  intro k _
  refine (dumpLoop_spec env release (slashed path) (fun _ _ => slashed_inj) p.keys (nodup_keys p)
    p.ten d).2.1 _ fun k' _ e => hp ?_
  rw [squeeze_slashed, squeeze_slashed] at e
  exact (dirs_eq (pepsName_plain _) (pepsName_plain _) e).1.symm

theorem unslashed_inj {path : List Char} (k k' : Part × ℕ × ℕ)
    (h : squeeze (unslashed path k) = squeeze (unslashed path k')) : k = k' := by
  by_cases hp : path.getLast? = some '/'
  · rw [List.getLast?_eq_some_iff] at hp
    obtain ⟨a, rfl⟩ := hp
    simp only [unslashed, List.append_assoc, List.cons_append, List.nil_append] at h
    exact slashed_inj h
  · unfold unslashed at h
    rw [squeeze_append hp (pepsName_plain k), squeeze_append hp (pepsName_plain k'),
      List.append_cancel_left_eq] at h
    exact pepsName_inj h

/-- **C97**, the exception. `Dump(path)` of a constant PEPS omits the slash between directory and file
name: whatever is dumped, a later `Load(path)` behaves as if nothing had been dumped (it fails, or
reads what an earlier dump left there). -/
theorem C97_const_dump_is_not_loaded (env : Env T) {path : List Char} (hp : path.getLast? ≠ some '/')
    {p : Peps T} (hc : Complete p) (d : Disk) (q : Peps T) :
    ∃ d' ok, p.dumpConst env path d = some (d', ok) ∧
      (ok = true ↔ ∀ k, Inside p.rows p.cols p.bc k → env.fault (squeeze (path ++ pepsName k)) = none) ∧
      q.load env path d' = q.load env path d := by
  obtain ⟨d', ok, h1, h2, h3, -⟩ := dumpLoopConst_spec env (unslashed path) unslashed_inj p.ten p.keys
    (nodup_keys p) d fun k hk => hc k ((mem_keys p k).1 hk)
  refine ⟨d', ok, h1, ?_, ?_⟩
  · rw [h2]
    exact ⟨fun h k hk => h k ((mem_keys p k).2 hk), fun h k hk => h k ((mem_keys p k).1 hk)⟩
  · unfold Peps.load
    rw [loadLoop_congr env (slashed path) (slashed path) d' d]
    intro k _
    refine h3 _ fun k' _ e => ?_
    rw [squeeze_slashed, squeeze_snoc hp, unslashed, squeeze_append hp (pepsName_plain k'),
      List.append_assoc, List.append_cancel_left_eq] at e
    exact pepsName_ne k' _ e.symm

/-- with a slash at the end of the path, the dump of a constant PEPS can be loaded, with or without
that slash -/
theorem C97_const_dump_round_trip_partial (env : Env T) (henv : Faithful env) {path path' : List Char}
    (hp : SameDir path path') {p : Peps T} (hc : Complete p)
    (hf : ∀ k, Inside p.rows p.cols p.bc k → env.fault (squeeze (path ++ '/' :: pepsName k)) = none)
    (d : Disk) (q : Peps T) (hr : q.rows = p.rows) (hcol : q.cols = p.cols) (hb : q.bc = p.bc) :
    ∃ d', p.dumpConst env (path ++ ['/']) d = some (d', true) ∧
      (q.load env path' d').2 = true ∧ Same (q.load env path' d').1 p := by
  have hname : unslashed (path ++ ['/']) = slashed path := by
    funext k
    simp [unslashed, slashed]
  obtain ⟨d', ok, h1, h2, -, h4⟩ := dumpLoopConst_spec env (unslashed (path ++ ['/'])) unslashed_inj
    p.ten p.keys (nodup_keys p) d fun k hk => hc k ((mem_keys p k).1 hk)
  rw [hname] at h2 h4
  have hok : ok = true := h2.2 fun k hk => hf k ((mem_keys p k).1 hk)
  subst hok
  have hst : ∀ k, Inside p.rows p.cols p.bc k → stored env d' (slashed path' k) = p.ten k := by
    intro k hk
    have := h4 rfl k ((mem_keys p k).2 hk)
    unfold stored Disk.read at *
    rw [squeeze_slashed] at this ⊢
    rw [← show squeeze (path ++ ['/']) = squeeze (path' ++ ['/']) from hp, this]
    obtain ⟨t, e⟩ := Option.isSome_iff_exists.1 (hc k hk)
    rw [e, Option.map_some, Option.bind_some, henv]
  obtain ⟨l1, l2, -⟩ := C97_load_exact env path' d' q
  rw [hr, hcol, hb] at l1 l2
  have hl := l1.2 fun k hk => by rw [hst k hk]; exact hc k hk
  refine ⟨d', h1, hl, hr, hcol, hb, fun k hk => ?_⟩
  have hk' : Inside p.rows p.cols p.bc k := by rwa [← hr, ← hcol, ← hb]
  rw [l2 hl k hk', hst k hk']

/-- there is no check of the size: a dump of a larger lattice (or of an open one, into a torus) is
loaded without complaint into a smaller one, which gets a part of the arrays -/
theorem C97_size_is_not_checked (env : Env T) (henv : Faithful env) (release : Bool)
    {path : List Char} {p : Peps T} (hc : Complete p) {d : Disk}
    (ht : (p.dump env release path d).2.2 = true) (q : Peps T)
    (hsub : ∀ k, Inside q.rows q.cols q.bc k → Inside p.rows p.cols p.bc k) :
    (q.load env path (p.dump env release path d).2.1).2 = true ∧
    ∀ k, Inside q.rows q.cols q.bc k →
      (q.load env path (p.dump env release path d).2.1).1.ten k = p.ten k := by
  obtain ⟨l1, l2, -⟩ := C97_load_exact env path (p.dump env release path d).2.1 q
  have hst : ∀ k, Inside p.rows p.cols p.bc k →
      stored env (p.dump env release path d).2.1 (slashed path k) = p.ten k := by
    intro k hk
    rw [stored_after env henv release rfl ht (fun _ _ => rfl) hk]
    obtain ⟨t, e⟩ := Option.isSome_iff_exists.1 (hc k hk)
    rw [e]
    rfl
  have hl := l1.2 fun k hk => by rw [hst k (hsub k hk)]; exact hc k (hsub k hk)
  exact ⟨hl, fun k hk => by rw [l2 hl k hk, hst k (hsub k hk)]⟩

/-! ## C98 -/

/-- two TPS are equal -/
structure Spec.SameTps (a b : Tps T) : Prop where
  rows_eq : a.rows = b.rows
  cols_eq : a.cols = b.cols
  bc_eq : a.bc = b.bc
  ten_eq : ∀ r < a.rows, ∀ c < a.cols, a.ten (r, c) = b.ten (r, c)

/-- no tensor was released -/
def Spec.CompleteTps (a : Tps T) : Prop := ∀ r < a.rows, ∀ c < a.cols, (a.ten (r, c)).isSome

theorem tps_files (env : Env T) (release : Bool) (path : List Char) (a : Tps T) (d : Disk) :
    (a.dump env release path d).2.read (metaFile path) = (a.dumpMeta env path d).read (metaFile path) ∧
    ∀ r < a.rows, ∀ c < a.cols, (a.dump env release path d).2.read (tpsFile path (r, c)) =
      (dumpTen env release (a.ten (r, c)) (tpsFile path (r, c)) d).2.1.read (tpsFile path (r, c)) := by
  obtain ⟨h1, h2, -⟩ := dumpLoopIgnore_spec env release (tpsFile path) (fun _ _ => tpsFile_inj)
    (block a.rows a.cols) (nodup_block _ _) a.ten (a.dumpMeta env path d)
  refine ⟨h1 _ fun k _ => (tpsFile_ne path k).symm, fun r hr c hc => ?_⟩
  have hd : (a.dumpMeta env path d).read (tpsFile path (r, c)) = d.read (tpsFile path (r, c)) := by
    unfold Tps.dumpMeta
    split
    · rfl
    · exact read_write_ne _ (tpsFile_ne _ _) _
    · exact read_write_ne _ (tpsFile_ne _ _) _
  have h3 := (h2 (r, c) (mem_block.2 ⟨hr, hc⟩)).1
  refine Eq.trans h3 ?_
  unfold dumpTen
  split
  · exact hd
  · rw [read_write_same _ rfl, read_write_same _ rfl]
  · rw [read_write_same _ rfl, read_write_same _ rfl]

/-- **C98.** Round trip of a tensor product state: if all files could be written, `Load` into any TPS,
of whatever size, boundary condition and contents, returns true and gives an equal TPS. -/
theorem C98_round_trip (env : Env T) (henv : Faithful env) (release : Bool) (path : List Char)
    {a : Tps T} (hc : CompleteTps a) (hrows : a.rows < 2 ^ 64) (hcols : a.cols < 2 ^ 64) (d : Disk)
    (hm : env.fault (squeeze (metaFile path)) = none)
    (hf : ∀ r < a.rows, ∀ c < a.cols, env.fault (squeeze (tpsFile path (r, c))) = none) (b : Tps T) :
    (b.load env path (a.dump env release path d).2).2 = true ∧
      SameTps (b.load env path (a.dump env release path d).2).1 a := by
  obtain ⟨h1, h2⟩ := tps_files env release path a d
  have hmeta : ∀ x : Tps T, (x.loadMeta path (a.dump env release path d).2).rows = a.rows ∧
      (x.loadMeta path (a.dump env release path d).2).cols = a.cols ∧
      (x.loadMeta path (a.dump env release path d).2).bc = a.bc := by
    intro x
    unfold Tps.loadMeta
    rw [h1, Tps.dumpMeta, hm]
    dsimp only
    rw [read_write_same _ rfl]
    dsimp only
    rw [parseMeta_text a hrows hcols]
    dsimp only
    split
    · exact ⟨rfl, rfl, rfl⟩
    · next h =>
      push Not at h
      exact ⟨h.1.symm, h.2.symm, rfl⟩
  obtain ⟨e1, e2, e3⟩ := hmeta b
  have hst : ∀ r < a.rows, ∀ c < a.cols,
      stored env (a.dump env release path d).2 (tpsFile path (r, c)) = a.ten (r, c) := by
    intro r hr c hc'
    obtain ⟨t, e⟩ := Option.isSome_iff_exists.1 (hc r hr c hc')
    rw [stored, h2 r hr c hc', dumpTen_ok _ _ _ _ _ (hf r hr c hc'), e]
    dsimp only
    rw [read_write_same _ rfl, Option.bind_some, henv]
    rfl
  obtain ⟨l1, l2, -⟩ := loadLoop_spec env (tpsFile path) (a.dump env release path d).2
    (block (b.loadMeta path (a.dump env release path d).2).rows
      (b.loadMeta path (a.dump env release path d).2).cols) (nodup_block _ _)
    (b.loadMeta path (a.dump env release path d).2).ten
  have hok : (b.load env path (a.dump env release path d).2).2 = true := by
    refine l1.2 fun k hk => ?_
    rw [e1, e2, mem_block] at hk
    rw [hst k.1 hk.1 k.2 hk.2]
    exact hc k.1 hk.1 k.2 hk.2
  refine ⟨hok, e1, e2, e3, fun r hr c hc' => ?_⟩
  refine (l2 hok (r, c) (mem_block.2 ⟨hr, hc'⟩)).trans (hst r ?_ c ?_)
  · exact lt_of_lt_of_eq hr e1
  · exact lt_of_lt_of_eq hc' e2

/-- **C98**, the exception. `Dump` of a TPS does not report files it could not open: a following `Load`
then uses, for those sites, the file an earlier dump left (if there is none it returns false). -/
theorem C98_unreported_failure (env : Env T) (henv : Faithful env) (release : Bool) (path : List Char)
    {a : Tps T} (hc : CompleteTps a) (hrows : a.rows < 2 ^ 64) (hcols : a.cols < 2 ^ 64) (d : Disk)
    (hm : env.fault (squeeze (metaFile path)) = none)
    (hf : ∀ r < a.rows, ∀ c < a.cols, env.fault (squeeze (tpsFile path (r, c))) = none ∨
      env.fault (squeeze (tpsFile path (r, c))) = some .noOpen) (b : Tps T) :
    let s := b.load env path (a.dump env release path d).2
    (s.2 = true ↔ ∀ r < a.rows, ∀ c < a.cols, env.fault (squeeze (tpsFile path (r, c))) = none ∨
      (stored env d (tpsFile path (r, c))).isSome) ∧
    (s.2 = true → ∀ r < a.rows, ∀ c < a.cols, s.1.ten (r, c) =
      if env.fault (squeeze (tpsFile path (r, c))) = none then a.ten (r, c)
      else stored env d (tpsFile path (r, c))) := by
  intro s
  obtain ⟨h1, h2⟩ := tps_files env release path a d
  have e12 : (b.loadMeta path (a.dump env release path d).2).rows = a.rows ∧
      (b.loadMeta path (a.dump env release path d).2).cols = a.cols := by
    unfold Tps.loadMeta
    rw [h1, Tps.dumpMeta, hm]
    dsimp only
    rw [read_write_same _ rfl]
    dsimp only
    rw [parseMeta_text a hrows hcols]
    dsimp only
    split
    · exact ⟨rfl, rfl⟩
    · next h =>
      push Not at h
      exact ⟨h.1.symm, h.2.symm⟩
  obtain ⟨e1, e2⟩ := e12
  have hst : ∀ r < a.rows, ∀ c < a.cols,
      (env.fault (squeeze (tpsFile path (r, c))) = none →
        stored env (a.dump env release path d).2 (tpsFile path (r, c)) = a.ten (r, c)) ∧
      (env.fault (squeeze (tpsFile path (r, c))) = some .noOpen →
        stored env (a.dump env release path d).2 (tpsFile path (r, c)) =
          stored env d (tpsFile path (r, c))) := by
    intro r hr c hc'
    constructor
    · intro h
      obtain ⟨t, e⟩ := Option.isSome_iff_exists.1 (hc r hr c hc')
      rw [stored, h2 r hr c hc', dumpTen_ok _ _ _ _ _ h, e]
      dsimp only
      rw [read_write_same _ rfl, Option.bind_some, henv]
      rfl
    · intro h
      rw [stored, h2 r hr c hc', dumpTen, h]
      rfl
  obtain ⟨l1, l2, -⟩ := loadLoop_spec env (tpsFile path) (a.dump env release path d).2
    (block (b.loadMeta path (a.dump env release path d).2).rows
      (b.loadMeta path (a.dump env release path d).2).cols) (nodup_block _ _)
    (b.loadMeta path (a.dump env release path d).2).ten
  refine ⟨l1.trans ?_, fun hs r hr c hc' => ?_⟩
  · rw [e1, e2]
    constructor
    · intro h r hr c hc'
      rcases hf r hr c hc' with h' | h'
      · exact .inl h'
      · right
        rw [← (hst r hr c hc').2 h']
        exact h (r, c) (mem_block.2 ⟨hr, hc'⟩)
    · rintro h ⟨r, c⟩ hk
      obtain ⟨hr, hc'⟩ := mem_block.1 hk
      by_cases h' : env.fault (squeeze (tpsFile path (r, c))) = none
      · rw [(hst r hr c hc').1 h']
        exact hc r hr c hc'
      · rw [(hst r hr c hc').2 ((hf r hr c hc').resolve_left h')]
        exact (h r hr c hc').resolve_left h'
  · refine (l2 hs (r, c) (mem_block.2 ⟨e1 ▸ hr, e2 ▸ hc'⟩)).trans ?_
    split
    · next h' => exact (hst r hr c hc').1 h'
    · next h' => exact (hst r hr c hc').2 ((hf r hr c hc').resolve_left h')

/-! ## the hypotheses can be met -/

/-- tensors are numbers here, written in decimal -/
def numEnv (fault : List Char → Option Fault) : Env ℕ :=
  ⟨Configuration.natChars, fun b => some (Configuration.digitsValue b), 0, fault⟩

theorem numEnv_faithful (fault : List Char → Option Fault) : Faithful (numEnv fault) := fun t => by
  simp [numEnv, Configuration.digitsValue_natChars]

/-- a 2×3 lattice with a different number at every position -/
def numPeps (bc : BC) : Peps ℕ := ⟨2, 3, bc, fun k => some (100 * (match k.1 with
  | .gamma => 1 | .lamV => 2 | .lamH => 3) + 10 * k.2.1 + k.2.2)⟩

/-- the empty disk -/
def emptyDisk : Disk := ⟨fun _ => none⟩

example : Complete (numPeps .obc) ∧
    ((numPeps .obc).dump (numEnv fun _ => none) true ['a'] emptyDisk).2.2 = true :=
  ⟨fun _ _ => rfl, (C97_dump_reports _ _ _ _ _).2 fun _ _ => rfl⟩

/-- `"a"`, `"a/"` and `"a//"` are the same directory, `"b"` is another one -/
example : SameDir ['a'] ['a', '/'] ∧ SameDir ['a'] ['a', '/', '/'] ∧ ¬ SameDir ['a'] ['b'] := by
  refine ⟨by unfold SameDir; rfl, by unfold SameDir; rfl, by unfold SameDir; decide⟩

/-- after the dump of a constant PEPS to a new directory `Load` fails -/
example : ∃ d', (numPeps .obc).dumpConst (numEnv fun _ => none) ['a'] emptyDisk = some (d', true) ∧
    ((numPeps .obc).load (numEnv fun _ => none) ['a'] d').2 = false := by
  obtain ⟨d', ok, h1, h2, h3⟩ := C97_const_dump_is_not_loaded (numEnv fun _ => none) (path := ['a'])
    (by decide) (p := numPeps .obc) (fun _ _ => rfl) emptyDisk (numPeps .obc)
  have : ok = true := h2.2 fun _ _ => rfl
  subst this
  refine ⟨d', h1, ?_⟩
  rw [h3, ← Bool.not_eq_true, (C97_load_exact _ _ _ _).1]
  intro h
  have := h (.gamma, 0, 0) ⟨by decide, by decide⟩
  simp [stored, Disk.read, emptyDisk] at this

/-- an open 2×3 dump fits a torus of the same size, and a smaller lattice -/
example : (∀ k, Inside 2 3 .pbc k → Inside 2 3 .obc k) ∧ ∀ k, Inside 1 2 .obc k → Inside 2 3 .obc k := by
  constructor <;> rintro ⟨a, r, c⟩ <;> cases a <;> simp only [Inside, reduceCtorEq, false_and, or_false,
    true_and] <;> omega

/-- a 2×2 TPS; one of its files cannot be opened -/
def numTps : Tps ℕ := ⟨2, 2, .pbc, fun k => some (10 * k.1 + k.2)⟩

example : CompleteTps numTps := fun _ _ _ _ => rfl

example : ∃ fault : List Char → Option Fault, fault (squeeze (metaFile ['a'])) = none ∧
    (∀ r < numTps.rows, ∀ c < numTps.cols, fault (squeeze (tpsFile ['a'] (r, c))) = none ∨
      fault (squeeze (tpsFile ['a'] (r, c))) = some .noOpen) ∧
    fault (squeeze (tpsFile ['a'] (1, 0))) = some .noOpen := by
  refine ⟨fun f => if f = squeeze (tpsFile ['a'] (1, 0)) then some .noOpen else none, ?_, ?_, ?_⟩
  · exact if_neg (tpsFile_ne _ _).symm
  · intro r _ c _
    dsimp only
    split
    · exact .inr rfl
    · exact .inl rfl
  · exact if_pos rfl

end QLPeps.PepsIO
