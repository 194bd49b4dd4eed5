import Verif.Lemmas.StateIO

/-!
# C82, C83: storing and transferring a tensor-product state
-/

namespace QLPeps.State

variable {Ten : Type*}

/-! ## C82: dump and load -/

/-- C82 (partial: completed dumps; for interrupted ones see the next theorems). A state dumped
without failing writes into any directory, whatever it held before, loads back unchanged (lattice,
boundary condition and all tensors) into any object. The tensor library must be able to read back
the tensors it wrote. -/
theorem C82_dump_load_partial (enc : Option Ten → Bytes) (dec : Bytes → Option (Option Ten))
    {d : ℕ} (a b : Sitps Ten) (ha : Uniform d a) (hd : 0 < d) (hr64 : a.rows < 2 ^ 64)
    (hc64 : a.cols < 2 ^ 64) (hd64 : d < 2 ^ 64)
    (hcodec : ∀ r < a.rows, ∀ c < a.cols, ∀ i < d,
      dec (enc (a.comp r c i)) = some (a.comp r c i)) (dk : Disk) :
    (load dec (dump enc a dk) b).1 = true ∧ Same (load dec (dump enc a dk) b).2 a := by
  have hm : (dump enc a dk).file metaName = some (metaText a) := by
    rw [dump, dumpOps_eq, runOps_append, runOps_write]
  refine load_same dec _ a b ha hd (metaText a) ?_ hm ?_ ?_
  · rw [dump, dumpOps_eq, runOps_append]
    exact runOps_dir _ _ (tensorOps_dir enc _ a dk)
  · have := parseMeta_full a.rows a.cols d a.bc hr64 hc64 hd64
    rw [metaText, ha.phys]
    exact this
  · intro r hr c hc i hi
    refine ⟨_, ?_, hcodec r hr c hc i hi⟩
    rw [dump, dumpOps_eq, runOps_append, meta_keeps _ _ _ (tenName_ne r c i).1, tensorOps_file,
      if_pos ⟨⟨hr, hc, by rw [ha.phys]; exact hi⟩, rfl⟩]

/-- C82 (partial: open boundary, fewer than ten components, no metadata in the directory before).
If the program dies at any point of a dump into a directory without metadata, a later load either
refuses or gives the dumped state. -/
theorem C82_interrupted_dump_partial (enc : Option Ten → Bytes)
    (dec : Bytes → Option (Option Ten)) {d : ℕ} (a b : Sitps Ten) (ha : Uniform d a) (hd : d < 10)
    (hr64 : a.rows < 2 ^ 64) (hc64 : a.cols < 2 ^ 64) (hbc : a.bc = .obc)
    (hcodec : ∀ r < a.rows, ∀ c < a.cols, ∀ i < d,
      dec (enc (a.comp r c i)) = some (a.comp r c i)) (dk : Disk)
    (hnew : dk.file metaName = none) (hold : dk.file oldMetaName = none) (k : ℕ) :
    (load dec (runOps ((dumpOps enc (fun _ => false) a).take k) dk) b).1 = false ∨
    ((load dec (runOps ((dumpOps enc (fun _ => false) a).take k) dk) b).1 = true ∧
      Same (load dec (runOps ((dumpOps enc (fun _ => false) a).take k) dk) b).2 a) := by
  rw [dumpOps_eq, List.take_append]
  rcases Nat.lt_or_ge (tensorOps enc (fun _ => false) a).length k with hk | hk
  · -- the metadata file has been opened
    rw [List.take_of_length_le hk.le]
    obtain ⟨j, hj⟩ : ∃ j, k - (tensorOps enc (fun _ => false) a).length = j + 1 :=
      ⟨k - (tensorOps enc (fun _ => false) a).length - 1, by omega⟩
    have ht : (writeOps metaName (metaText a)).take (j + 1)
        = writeOps metaName ((metaText a).take j) := by
      simp [writeOps, List.map_take]
    rw [hj, ht, runOps_append]
    have hdir : (runOps (writeOps metaName ((metaText a).take j))
        (runOps (tensorOps enc (fun _ => false) a) dk)).dir = true :=
      runOps_dir _ _ (tensorOps_dir enc _ a dk)
    have hm := runOps_write metaName ((metaText a).take j)
      (runOps (tensorOps enc (fun _ => false) a) dk)
    have hpre : (metaText a).take j <+: metaText a := List.take_prefix _ _
    rw [metaText, ha.phys] at hpre
    have hcases := parseMeta_prefix a.rows a.cols d a.bc hr64 hc64 hd _ hpre
    rw [hbc, or_self] at hcases
    have zero : (parseMeta ((metaText a).take j)).2.2.1 = 0 →
        (load dec (runOps (writeOps metaName ((metaText a).take j))
          (runOps (tensorOps enc (fun _ => false) a) dk)) b).1 = false := by
      intro h0
      simp [load, hdir, hm, loadTensors, h0]
    rw [metaText, ha.phys, hbc] at zero
    rw [hbc] at hpre
    rw [metaText, ha.phys, hbc] at hm hdir ⊢
    rcases hcases with h0 | h0
    · exact Or.inl (zero h0)
    · rcases Nat.eq_zero_or_pos d with hz | hz
      · exact Or.inl (zero (by rw [h0]; exact hz))
      · right
        refine load_same dec _ a b ha hz _ hdir hm (by rw [h0, hbc]) ?_
        intro r hr c hc i hi
        refine ⟨_, ?_, hcodec r hr c hc i hi⟩
        rw [meta_keeps _ _ _ (tenName_ne r c i).1, tensorOps_file,
          if_pos ⟨⟨hr, hc, by rw [ha.phys]; exact hi⟩, rfl⟩]
  · -- no metadata yet
    left
    have h0 : k - (tensorOps enc (fun _ => false) a).length = 0 := by omega
    rw [h0, List.take_zero, List.append_nil]
    have names : ∀ o ∈ (tensorOps enc (fun _ => false) a).take k,
        o.name ≠ some metaName ∧ o.name ≠ some oldMetaName :=
      fun o ho => tensorOps_names enc _ a o (List.mem_of_mem_take ho)
    have h1 := runOps_untouched _ metaName dk (fun o ho => (names o ho).1)
    have h2 := runOps_untouched _ oldMetaName dk (fun o ho => (names o ho).2)
    rw [hnew] at h1
    rw [hold] at h2
    unfold load
    split
    · rfl
    · simp only [h1, h2]

/-- C82, negation. For every periodic state there is a point at which an interrupted dump loads
successfully as an open-boundary state. -/
theorem C82_interrupted_dump_loses_boundary (enc : Option Ten → Bytes)
    (dec : Bytes → Option (Option Ten)) {d : ℕ} (a b : Sitps Ten) (ha : Uniform d a) (hd : 0 < d)
    (hr64 : a.rows < 2 ^ 64) (hc64 : a.cols < 2 ^ 64) (hd64 : d < 2 ^ 64) (hbc : a.bc = .pbc)
    (hcodec : ∀ r < a.rows, ∀ c < a.cols, ∀ i < d,
      dec (enc (a.comp r c i)) = some (a.comp r c i)) (dk : Disk) :
    ∃ k, (load dec (runOps ((dumpOps enc (fun _ => false) a).take k) dk) b).1 = true ∧
      (load dec (runOps ((dumpOps enc (fun _ => false) a).take k) dk) b).2.bc ≠ a.bc := by
  have hcut := parseMeta_cut a.rows a.cols d hr64 hc64 hd64
  set t := Configuration.natChars a.rows ++ [' '] ++ Configuration.natChars a.cols ++ [' ']
    ++ Configuration.natChars d with htdef
  have htext : metaText a = t ++ ([' '] ++ Configuration.natChars a.bc.code) := by
    rw [metaText, ha.phys, htdef]; simp
  refine ⟨(tensorOps enc (fun _ => false) a).length + (t.length + 1), ?_⟩
  have ht : (dumpOps enc (fun _ => false) a).take
      ((tensorOps enc (fun _ => false) a).length + (t.length + 1))
      = tensorOps enc (fun _ => false) a ++ writeOps metaName t := by
    rw [dumpOps_eq, List.take_append, List.take_of_length_le (by omega), Nat.add_sub_cancel_left]
    congr 1
    simp [writeOps, ← List.map_take, htext]
  rw [ht, runOps_append]
  have hdir : (runOps (writeOps metaName t)
      (runOps (tensorOps enc (fun _ => false) a) dk)).dir = true :=
    runOps_dir _ _ (tensorOps_dir enc _ a dk)
  have hm := runOps_write metaName t (runOps (tensorOps enc (fun _ => false) a) dk)
  obtain ⟨h1, h2⟩ := load_same dec _ { a with bc := .obc } b (d := d) ha hd t hdir hm hcut (by
    intro r hr c hc i hi
    refine ⟨_, ?_, hcodec r hr c hc i hi⟩
    rw [meta_keeps _ _ _ (tenName_ne r c i).1, tensorOps_file,
      if_pos ⟨⟨hr, hc, by rw [ha.phys]; exact hi⟩, rfl⟩])
  refine ⟨h1, ?_⟩
  rw [h2.2.2.1, hbc]
  exact BC.noConfusion

/-! ### concrete witnesses, with one-character tensors -/

/-- a codec for tensors that are single characters -/
def encC : Option Char → Bytes
  | some c => [c]
  | none => ['?', '?']

/-- its inverse -/
def decC : Bytes → Option (Option Char)
  | [c] => some (some c)
  | ['?', '?'] => some none
  | _ => none

/-- a 1 × 1 state with `d` components, all equal to `x` -/
def uni (d : ℕ) (x : Char) (bc : BC) : Sitps Char :=
  ⟨1, 1, bc, fun _ _ => List.replicate d (some x)⟩

theorem uni_uniform (d : ℕ) (x : Char) (bc : BC) : Uniform d (uni d x bc) :=
  ⟨Nat.one_pos, Nat.one_pos, fun _ _ _ _ => by simp [uni]⟩

theorem decC_encC (x : Option Char) : decC (encC x) = some x := by
  cases x <;> rfl

/-- an empty disk -/
def blank : Disk := ⟨false, fun _ => none⟩

/-- a freshly dumped state with two components per site meets the hypotheses of the theorems -/
example : Uniform 2 (uni 2 'a' .pbc) ∧ (uni 2 'a' .obc).bc = .obc ∧ blank.file metaName = none ∧
    (load decC (dump encC (uni 2 'a' .pbc) blank) (uni 1 'z' .obc)).1 = true ∧
    (load decC (dump encC (uni 2 'a' .pbc) blank) (uni 1 'z' .obc)).2.comps 0 0
      = [some 'a', some 'a'] := by
  refine ⟨uni_uniform _ _ _, rfl, rfl, ?_⟩
  obtain ⟨h1, h2⟩ := C82_dump_load_partial encC decC (uni 2 'a' .pbc) (uni 1 'z' .obc)
    (uni_uniform _ _ _) (by norm_num) (by decide) (by decide) (by norm_num)
    (fun _ _ _ _ _ _ => decC_encC _) blank
  exact ⟨h1, h2.2.2.2 0 (by rw [h2.1]; decide) 0 (by rw [h2.2.1]; decide)⟩

/-- C82, negation. For every state with ten or more components per site there is a point at which
an interrupted dump loads successfully with only a tenth of the components. -/
theorem C82_interrupted_dump_loses_components (enc : Option Ten → Bytes)
    (dec : Bytes → Option (Option Ten)) {d : ℕ} (a b : Sitps Ten) (ha : Uniform d a) (hd : 10 ≤ d)
    (hr64 : a.rows < 2 ^ 64) (hc64 : a.cols < 2 ^ 64) (hd64 : d < 2 ^ 64)
    (hcodec : ∀ r < a.rows, ∀ c < a.cols, ∀ i < d,
      dec (enc (a.comp r c i)) = some (a.comp r c i)) (dk : Disk) :
    ∃ k, (load dec (runOps ((dumpOps enc (fun _ => false) a).take k) dk) b).1 = true ∧
      ∀ r < a.rows, ∀ c < a.cols,
        ((load dec (runOps ((dumpOps enc (fun _ => false) a).take k) dk) b).2.comps r c).length
          = d / 10 := by
  obtain ⟨ch, hch⟩ := natChars_snoc d hd
  have hcut := parseMeta_cut a.rows a.cols (d / 10) hr64 hc64 (by omega)
  set t := Configuration.natChars a.rows ++ [' '] ++ Configuration.natChars a.cols ++ [' ']
    ++ Configuration.natChars (d / 10) with htdef
  have htext : metaText a = t ++ ([ch, ' '] ++ Configuration.natChars a.bc.code) := by
    rw [metaText, ha.phys, hch, htdef]; simp
  refine ⟨(tensorOps enc (fun _ => false) a).length + (t.length + 1), ?_⟩
  have ht : (dumpOps enc (fun _ => false) a).take
      ((tensorOps enc (fun _ => false) a).length + (t.length + 1))
      = tensorOps enc (fun _ => false) a ++ writeOps metaName t := by
    rw [dumpOps_eq, List.take_append, List.take_of_length_le (by omega), Nat.add_sub_cancel_left]
    congr 1
    simp [writeOps, ← List.map_take, htext]
  rw [ht, runOps_append]
  have hdir : (runOps (writeOps metaName t)
      (runOps (tensorOps enc (fun _ => false) a) dk)).dir = true :=
    runOps_dir _ _ (tensorOps_dir enc _ a dk)
  have hm := runOps_write metaName t (runOps (tensorOps enc (fun _ => false) a) dk)
  obtain ⟨h1, -, -, -, h2⟩ := load_comps dec _ a.rows a.cols (d / 10) .obc b a.comp (by omega) t
    hdir hm hcut (by
      intro r hr c hc i hi
      refine ⟨_, ?_, hcodec r hr c hc i (by omega)⟩
      rw [meta_keeps _ _ _ (tenName_ne r c i).1, tensorOps_file,
        if_pos ⟨⟨hr, hc, by rw [ha.phys]; omega⟩, rfl⟩])
  exact ⟨h1, fun r hr c hc => by rw [h2 r hr c hc]; simp⟩

/-- C82, negation. Dumping `new` over a complete dump of `old` (same shape) and dying after any
number `j` of tensor files: the load succeeds and gives a mixture, the first `j` tensors new and
the others old. -/
theorem C82_interrupted_overwrite_loads_a_mixture (enc : Option Ten → Bytes)
    (dec : Bytes → Option (Option Ten)) {d : ℕ} (old new b : Sitps Ten) (ho : Uniform d old)
    (hn : Uniform d new) (hd : 0 < d) (hr : new.rows = old.rows) (hc : new.cols = old.cols)
    (hr64 : old.rows < 2 ^ 64) (hc64 : old.cols < 2 ^ 64) (hd64 : d < 2 ^ 64)
    (hcodec : ∀ x, dec (enc x) = some x) (dk : Disk) (j : ℕ) :
    ∃ k, (load dec (runOps ((dumpOps enc (fun _ => false) new).take k) (dump enc old dk)) b).1
        = true ∧
      ∀ r < old.rows, ∀ c < old.cols, ∀ i < d,
        (load dec (runOps ((dumpOps enc (fun _ => false) new).take k) (dump enc old dk)) b).2.comp
          r c i = if (r, c, i) ∈ (triples old.rows old.cols d).take j then new.comp r c i
            else old.comp r c i := by
  let X : List Op := .mkdir :: ((triples new.rows new.cols new.phys).take j).flatMap fun t =>
    writeOps (tenName t.1 t.2.1 t.2.2) (enc (new.comp t.1 t.2.1 t.2.2))
  let Y : List Op := (((triples new.rows new.cols new.phys).drop j).flatMap fun t =>
    writeOps (tenName t.1 t.2.1 t.2.2) (enc (new.comp t.1 t.2.1 t.2.2)))
      ++ writeOps metaName (metaText new)
  have hX : dumpOps enc (fun _ => false) new = X ++ Y := by
    simp only [dumpOps, X, Y, Bool.false_eq_true, if_false, List.cons_append]
    rw [← List.append_assoc, ← List.flatMap_append, List.take_append_drop]
  refine ⟨X.length, ?_⟩
  rw [hX, List.take_left]
  have names : ∀ o ∈ X, o.name ≠ some metaName := by
    intro o ho
    have : o ∈ tensorOps enc (fun _ => false) new := by
      rcases List.mem_cons.1 ho with rfl | ho
      · exact List.mem_cons_self
      · obtain ⟨t, ht, ho⟩ := List.mem_flatMap.1 ho
        exact List.mem_cons_of_mem _ (List.mem_flatMap.2 ⟨t, List.mem_of_mem_take ht, by
          simpa using ho⟩)
    exact (tensorOps_names enc _ new o this).1
  have hdir : (runOps X (dump enc old dk)).dir = true := runOps_dir _ (Op.mkdir.run _) rfl
  have hm : (runOps X (dump enc old dk)).file metaName = some (metaText old) := by
    rw [runOps_untouched X metaName _ names, dump, dumpOps_eq, runOps_append, runOps_write]
  have hp := parseMeta_full old.rows old.cols d old.bc hr64 hc64 hd64
  rw [← ho.phys, ← metaText, ho.phys] at hp
  obtain ⟨h1, -, -, -, h2⟩ := load_comps dec _ old.rows old.cols d old.bc b
    (fun r c i => if (r, c, i) ∈ (triples old.rows old.cols d).take j then new.comp r c i
      else old.comp r c i) hd _ hdir hm hp (by
      intro r h1 c h2 i h3
      refine ⟨enc (if (r, c, i) ∈ (triples old.rows old.cols d).take j then new.comp r c i
        else old.comp r c i), ?_, hcodec _⟩
      have := triples_take_files enc new j (dump enc old dk) r c i
      rw [hr, hc, hn.phys] at this
      rw [show (runOps X (dump enc old dk)).file (tenName r c i) = _ by
        simp only [X, hr, hc, hn.phys]; exact this]
      split
      · rfl
      · rw [dump, dumpOps_eq, runOps_append, meta_keeps _ _ _ (tenName_ne r c i).1, tensorOps_file,
          if_pos ⟨⟨h1, h2, by rw [ho.phys]; exact h3⟩, rfl⟩])
  refine ⟨h1, fun r hr' c hc' i hi => ?_⟩
  rw [Sitps.comp, h2 r hr' c hc']
  exact comp_mapRange d _ i hi

/-- C82, negation. Tensor files that cannot be written go unnoticed: dumping `new` over a complete
dump of `old` (same shape) runs to its end, and a later load succeeds with the old tensors in
their place. -/
theorem C82_failed_write_unnoticed (enc : Option Ten → Bytes)
    (dec : Bytes → Option (Option Ten)) {d : ℕ} (old new b : Sitps Ten) (ho : Uniform d old)
    (hn : Uniform d new) (hd : 0 < d) (hr : new.rows = old.rows) (hc : new.cols = old.cols)
    (hr64 : old.rows < 2 ^ 64) (hc64 : old.cols < 2 ^ 64) (hd64 : d < 2 ^ 64)
    (hcodec : ∀ x, dec (enc x) = some x) (dk : Disk) (fails : ℕ × ℕ × ℕ → Bool) :
    (load dec (runOps (dumpOps enc fails new) (dump enc old dk)) b).1 = true ∧
      ∀ r < old.rows, ∀ c < old.cols, ∀ i < d,
        (load dec (runOps (dumpOps enc fails new) (dump enc old dk)) b).2.comp r c i
          = if fails (r, c, i) then old.comp r c i else new.comp r c i := by
  have hdir : (runOps (dumpOps enc fails new) (dump enc old dk)).dir = true :=
    runOps_dir _ (Op.mkdir.run _) rfl
  have hm : (runOps (dumpOps enc fails new) (dump enc old dk)).file metaName
      = some (metaText new) := by
    rw [dumpOps_eq, runOps_append, runOps_write]
  have hp := parseMeta_full old.rows old.cols d new.bc hr64 hc64 hd64
  rw [← hr, ← hc, ← hn.phys, ← metaText, hn.phys, hr, hc] at hp
  obtain ⟨h1, -, -, -, h2⟩ := load_comps dec _ old.rows old.cols d new.bc b
    (fun r c i => if fails (r, c, i) then old.comp r c i else new.comp r c i) hd _ hdir hm hp (by
      intro r h1 c h2 i h3
      refine ⟨enc (if fails (r, c, i) then old.comp r c i else new.comp r c i), ?_, hcodec _⟩
      rw [dumpOps_eq, runOps_append, meta_keeps _ _ _ (tenName_ne r c i).1, tensorOps_file]
      by_cases hf : fails (r, c, i) = true
      · rw [if_neg (by simp [hf]), if_pos hf, dump, dumpOps_eq, runOps_append,
          meta_keeps _ _ _ (tenName_ne r c i).1, tensorOps_file,
          if_pos ⟨⟨h1, h2, by rw [ho.phys]; exact h3⟩, rfl⟩]
      · rw [if_neg hf, if_pos ⟨⟨by omega, by omega, by rw [hn.phys]; exact h3⟩, by simpa using hf⟩])
  refine ⟨h1, fun r hr' c hc' i hi => ?_⟩
  rw [Sitps.comp, h2 r hr' c hc']
  exact comp_mapRange d _ i hi

/-- C82. A load that reports success has read every tensor file the metadata announces, and
returns exactly what those files hold: lattice and boundary from the metadata, and at every site
and component the decoded content of its own file. A missing or unreadable file makes it report
failure. -/
theorem C82_successful_load_read_everything (dec : Bytes → Option (Option Ten)) (dk : Disk)
    (b : Sitps Ten) (s : Bytes) (hm : dk.file metaName = some s)
    (h : (load dec dk b).1 = true) :
    (load dec dk b).2.rows = (parseMeta s).1 ∧ (load dec dk b).2.cols = (parseMeta s).2.1 ∧
    (load dec dk b).2.bc = (parseMeta s).2.2.2 ∧
    ∀ r < (parseMeta s).1, ∀ c < (parseMeta s).2.1, ∀ i < (parseMeta s).2.2.1,
      ∃ y, dk.file (tenName r c i) = some y ∧ dec y = some ((load dec dk b).2.comp r c i) := by
  have hdir : dk.dir = true := by
    by_contra hd
    have hd' : dk.dir = false := by simpa using hd
    rw [load, hd'] at h
    cases h
  have e : load dec dk b = loadTensors dec dk (parseMeta s).2.2.1
      ⟨(parseMeta s).1, (parseMeta s).2.1, (parseMeta s).2.2.2, fun _ _ => []⟩ := by
    simp [load, hdir, hm]
  have hd : 0 < (parseMeta s).2.2.1 := by
    rcases Nat.eq_zero_or_pos (parseMeta s).2.2.1 with h0 | h0
    · rw [e, loadTensors, if_pos h0] at h; cases h
    · exact h0
  have hfiles : ∀ r < (parseMeta s).1, ∀ c < (parseMeta s).2.1, ∀ i < (parseMeta s).2.2.1,
      ∃ y x, dk.file (tenName r c i) = some y ∧ dec y = some x := by
    intro r hr c hc
    rw [e, loadTensors, if_neg hd.ne'] at h
    exact (loadSites_flag dec dk _ _ _ h).2 (r, c) ((mem_grid _ _ r c).2 ⟨hr, hc⟩)
  let x : ℕ → ℕ → ℕ → Option Ten := fun r c i =>
    ((dk.file (tenName r c i)).bind dec).getD none
  have hx : ∀ r < (parseMeta s).1, ∀ c < (parseMeta s).2.1, ∀ i < (parseMeta s).2.2.1,
      ∃ y, dk.file (tenName r c i) = some y ∧ dec y = some (x r c i) := by
    intro r hr c hc i hi
    obtain ⟨y, z, h1, h2⟩ := hfiles r hr c hc i hi
    exact ⟨y, h1, by simp [x, h1, h2]⟩
  obtain ⟨-, h2, h3, h4, h5⟩ := load_comps dec dk _ _ _ _ b x hd s hdir hm rfl hx
  refine ⟨h2, h3, h4, fun r hr c hc i hi => ?_⟩
  obtain ⟨y, hy, hz⟩ := hx r hr c hc i hi
  refine ⟨y, hy, ?_⟩
  rw [Sitps.comp, h5 r hr c hc, hz]
  congr 1
  exact (comp_mapRange _ _ i hi).symm

/-- C82, negation. Sites with more components than site (0, 0): only the first ones are dumped,
and the load succeeds without the others. -/
theorem C82_nonuniform_components_lost (enc : Option Ten → Bytes)
    (dec : Bytes → Option (Option Ten)) (a b : Sitps Ten) (hd : 0 < a.phys)
    (hr64 : a.rows < 2 ^ 64) (hc64 : a.cols < 2 ^ 64) (hd64 : a.phys < 2 ^ 64)
    (hcodec : ∀ x, dec (enc x) = some x) (dk : Disk) :
    (load dec (dump enc a dk) b).1 = true ∧ ∀ r < a.rows, ∀ c < a.cols,
      ((load dec (dump enc a dk) b).2.comps r c).length = a.phys := by
  have hm : (dump enc a dk).file metaName = some (metaText a) := by
    rw [dump, dumpOps_eq, runOps_append, runOps_write]
  obtain ⟨h1, -, -, -, h2⟩ := load_comps dec (dump enc a dk) a.rows a.cols a.phys a.bc b a.comp hd
    (metaText a) (by
      rw [dump, dumpOps_eq, runOps_append]
      exact runOps_dir _ _ (tensorOps_dir enc _ a dk)) hm
    (parseMeta_full a.rows a.cols a.phys a.bc hr64 hc64 hd64) (by
      intro r hr c hc i hi
      refine ⟨_, ?_, hcodec _⟩
      rw [dump, dumpOps_eq, runOps_append, meta_keeps _ _ _ (tenName_ne r c i).1, tensorOps_file,
        if_pos ⟨⟨hr, hc, hi⟩, rfl⟩])
  exact ⟨h1, fun r hr c hc => by rw [h2 r hr c hc]; simp⟩

/-- the hypotheses of the mixture theorem are met by two different states -/
example : Uniform 2 (uni 2 'a' .obc) ∧ Uniform 2 (uni 2 'b' .obc) ∧
    (uni 2 'a' .obc).comp 0 0 1 ≠ (uni 2 'b' .obc).comp 0 0 1 ∧
    (0, 0, 0) ∈ (triples 1 1 2).take 1 ∧ (0, 0, 1) ∉ (triples 1 1 2).take 1 ∧
    Uniform 16 (uni 16 'a' .obc) := by
  refine ⟨uni_uniform _ _ _, uni_uniform _ _ _, by decide, by decide, by decide, uni_uniform _ _ _⟩

/-! ## C83: transfer between processes -/

/-- C83. What one process sends another receives: the same lattice, boundary condition and
tensors, default ones included, and no message of this state is left for the next receive. -/
theorem C83_send_receive {d : ℕ} (a : Sitps Ten) (ha : Uniform d a) (later : List (Msg Ten)) :
    ∃ a', recv (send a ++ later) = some (a', later) ∧ Same a' a := by
  refine ⟨_, ?_, patch_same a ha⟩
  simp only [send, List.cons_append, recv, ha.phys, BC.ofCode_code]
  exact recvSites_ok d a later (siteOrder a.rows a.cols) _ (by
    intro p hp
    obtain ⟨h1, h2⟩ := (siteOrder_mem _ _ _ _).1 hp
    exact ha.2.2 p.1 h1 p.2 h2)

/-- C83. In a broadcast every receiver ends with the state of the root, and takes part in exactly
the collective calls the root makes, in the same order. -/
theorem C83_broadcast {Shell Raw : Type*} (pack : Option Shell → List ℕ)
    (unpack : List ℕ → Option (Option Shell × List ℕ))
    (hpack : ∀ x rest, unpack (pack x ++ rest) = some (x, rest)) {d : ℕ}
    (a : Sitps (Shell × Raw)) (ha : Uniform d a) (hr : a.rows < 2 ^ 64) (hc : a.cols < 2 ^ 64)
    (hd : d < 2 ^ 64) (later : List (Call Raw)) :
    ∃ a', recvBcast unpack (rootCalls pack a ++ later) = some (a', later) ∧ Same a' a := by
  refine ⟨_, ?_, patch_same a ha⟩
  have hu := unpackShells_ok pack unpack hpack a ha hr hc hd
  rw [rootCalls, List.cons_append, List.cons_append, recvBcast_step unpack _ _ _ hu]
  exact fillSites_ok a _ later (siteOrder a.rows a.cols) _ (fun p hp => if_pos hp)

/-- C83, limit. With a site that has more components than site (0, 0) the receiver leaves a
message behind, and the next receive fails. -/
theorem C83_nonuniform_desynchronises :
    ∃ (a a' : Sitps Char) (rest : List (Msg Char)),
      recv (send a ++ send a) = some (a', rest) ∧ rest ≠ send a ∧ (recv rest).isNone = true := by
  refine ⟨⟨1, 2, .obc, fun _ c => if c = 0 then [some 'a'] else [some 'b', some 'c']⟩, _, _, rfl,
    ?_, rfl⟩
  simp [send, siteOrder]

/-- a state with a default tensor, for the transfer theorems -/
example : Uniform 2 (⟨1, 2, .pbc, fun _ c => if c = 0 then [some 'a', none] else
    [none, some 'b']⟩ : Sitps Char) := by
  refine ⟨Nat.one_pos, Nat.two_pos, fun r _ c _ => ?_⟩
  dsimp only; split <;> rfl

/-- a shell codec with the assumed property: one byte for a default tensor, two otherwise -/
example : ∃ (pack : Option ℕ → List ℕ) (unpack : List ℕ → Option (Option ℕ × List ℕ)),
    ∀ x rest, unpack (pack x ++ rest) = some (x, rest) := by
  refine ⟨fun x => match x with
    | none => [0]
    | some n => [1, n], fun l => match l with
    | 0 :: rest => some (none, rest)
    | 1 :: n :: rest => some (some n, rest)
    | _ => none, ?_⟩
  intro x rest
  cases x <;> rfl

end QLPeps.State
