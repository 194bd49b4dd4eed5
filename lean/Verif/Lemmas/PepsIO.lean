import Verif.Model.PepsIO
import Verif.Lemmas.StateIO

/-! # Lemmas on storing a PEPS and a TPS -/

namespace QLPeps.PepsIO

open QLPeps.State (BC Bytes extract extract_num split_dig)
open QLPeps.Configuration (natChars natChars_dig isDig)

/-! ## paths -/

theorem squeeze_plain {n : List Char} (h : '/' ∉ n) : squeeze n = n := by
  induction n with
  | nil => rfl
  | cons c cs ih =>
    simp only [List.mem_cons, not_or] at h
    rw [squeeze, if_neg (by tauto), ih h.2]

theorem squeeze_slash (a : List Char) {n : List Char} (h : '/' ∉ n) :
    squeeze (a ++ '/' :: n) = squeeze (a ++ ['/']) ++ n := by
  induction a with
  | nil =>
    simp only [List.nil_append, squeeze]
    rw [if_neg (fun hh => h (List.mem_of_mem_head? hh.2)), squeeze_plain h]
    simp
  | cons c cs ih =>
    have : (cs ++ '/' :: n).head? = (cs ++ ['/']).head? := by cases cs <;> rfl
    simp only [List.cons_append, squeeze, this, ih]
    split <;> rfl

theorem squeeze_append {a n : List Char} (ha : a.getLast? ≠ some '/') (h : '/' ∉ n) :
    squeeze (a ++ n) = squeeze a ++ n := by
  induction a with
  | nil => simp [squeeze, squeeze_plain h]
  | cons c cs ih =>
    cases cs with
    | nil =>
      have hc : c ≠ '/' := by simpa using ha
      simp [squeeze, hc, squeeze_plain h]
    | cons c' cs =>
      have := ih (by simpa [List.getLast?_cons] using ha)
      simp only [List.cons_append] at this ⊢
      rw [squeeze, this, squeeze.eq_def (c :: c' :: cs)]
      simp only [List.head?_cons]
      by_cases hh : c = '/' ∧ some c' = some '/' <;> simp only [hh, and_self, if_true, if_false, List.cons_append]

theorem squeeze_snoc {a : List Char} (ha : a.getLast? ≠ some '/') :
    squeeze (a ++ ['/']) = squeeze a ++ ['/'] := by
  induction a with
  | nil => rfl
  | cons c cs ih =>
    cases cs with
    | nil =>
      have hc : c ≠ '/' := by simpa using ha
      simp [squeeze, hc]
    | cons c' cs =>
      have := ih (by simpa [List.getLast?_cons] using ha)
      simp only [List.cons_append] at this ⊢
      rw [squeeze, this, squeeze.eq_def (c :: c' :: cs)]
      simp only [List.head?_cons]
      by_cases hh : c = '/' ∧ some c' = some '/' <;> simp only [hh, and_self, if_true, if_false, List.cons_append]

/-- a further slash at the end makes no difference -/
theorem squeeze_twice (a : List Char) : squeeze (a ++ ['/'] ++ ['/']) = squeeze (a ++ ['/']) := by
  induction a with
  | nil => rfl
  | cons c cs ih =>
    have : (cs ++ ['/'] ++ ['/']).head? = (cs ++ ['/']).head? := by cases cs <;> rfl
    simp only [List.cons_append, squeeze, this, ih]

theorem ends_slash (a : List Char) : ∃ b, squeeze (a ++ ['/']) = b ++ ['/'] := by
  induction a with
  | nil => exact ⟨[], rfl⟩
  | cons c cs ih =>
    obtain ⟨b, hb⟩ := ih
    simp only [List.cons_append, squeeze, hb]
    split
    · exact ⟨b, rfl⟩
    · exact ⟨c :: b, rfl⟩

theorem dirs_eq {a b n m : List Char} (hn : '/' ∉ n) (hm : '/' ∉ m)
    (h : squeeze (a ++ ['/']) ++ n = squeeze (b ++ ['/']) ++ m) :
    squeeze (a ++ ['/']) = squeeze (b ++ ['/']) ∧ n = m := by
  obtain ⟨a', ha⟩ := ends_slash a
  obtain ⟨b', hb⟩ := ends_slash b
  rw [ha, hb] at h ⊢
  rw [List.append_eq_append_iff] at h
  rcases h with ⟨x, h1, h2⟩ | ⟨x, h1, h2⟩
  · rcases List.eq_nil_or_concat x with rfl | ⟨y, z, rfl⟩
    · simp only [List.append_nil, List.nil_append] at h1 h2
      exact ⟨h1.symm, h2⟩
    · rw [List.concat_eq_append, ← List.append_assoc] at h1
      have := (List.append_inj' h1 rfl).2
      simp only [List.cons.injEq, and_true] at this
      exact absurd (by rw [h2, ← this]; simp) hn
  · rcases List.eq_nil_or_concat x with rfl | ⟨y, z, rfl⟩
    · simp only [List.append_nil, List.nil_append] at h1 h2
      exact ⟨h1, h2.symm⟩
    · rw [List.concat_eq_append, ← List.append_assoc] at h1
      have := (List.append_inj' h1 rfl).2
      simp only [List.cons.injEq, and_true] at this
      exact absurd (by rw [h2, ← this]; simp) hm

/-! ## names -/

theorem natChars_no (n : ℕ) {c : Char} (hc : isDig c = false) : c ∉ natChars n := fun h => by
  have := natChars_dig n c h
  rw [hc] at this
  exact Bool.false_ne_true this

theorem pepsName_plain (k : Part × ℕ × ℕ) : '/' ∉ pepsName k := by
  have h1 := natChars_no k.2.1 (c := '/') (by decide)
  have h2 := natChars_no k.2.2 (c := '/') (by decide)
  have h3 : '/' ∉ k.1.tag := by cases k.1 <;> decide
  simp [pepsName, h1, h2, h3]

theorem pepsName_inj {k k' : Part × ℕ × ℕ} (h : pepsName k = pepsName k') : k = k' := by
  obtain ⟨a, r, c⟩ := k
  obtain ⟨a', r', c'⟩ := k'
  have key : a = a' → (a, r, c) = (a', r', c') := by
    rintro rfl
    simp only [pepsName, List.append_assoc, List.append_cancel_left_eq, List.cons_append,
      List.nil_append] at h
    obtain ⟨h1, h⟩ := split_dig _ _ _ _ _ _ (by decide) (by decide) h
    rw [List.cons.injEq] at h
    obtain ⟨h2, -⟩ := split_dig _ _ _ _ _ _ (by decide) (by decide) h.2
    rw [h1, h2]
  have h0 := congrArg (fun l => l[0]?) h
  have h4 := congrArg (fun l => l[4]?) h
  cases a <;> cases a' <;> simp [pepsName, Part.tag] at h0 h4 <;> exact key rfl

theorem pepsName_ne (k : Part × ℕ × ℕ) (l : List Char) : pepsName k ≠ '/' :: l := by
  intro h
  have := congrArg List.head? h
  obtain ⟨a, r, c⟩ := k
  cases a <;> simp [pepsName, Part.tag] at this

theorem squeeze_slashed (path : List Char) (k : Part × ℕ × ℕ) :
    squeeze (slashed path k) = squeeze (path ++ ['/']) ++ pepsName k :=
  squeeze_slash _ (pepsName_plain k)

theorem slashed_inj {path : List Char} {k k' : Part × ℕ × ℕ}
    (h : squeeze (slashed path k) = squeeze (slashed path k')) : k = k' := by
  rw [squeeze_slashed, squeeze_slashed, List.append_cancel_left_eq] at h
  exact pepsName_inj h

/-- the name of a file of a TPS -/
def tpsName (k : ℕ × ℕ) : List Char :=
  ['t', 'p', 's', '_', 't', 'e', 'n'] ++ natChars k.1 ++ ['_'] ++ natChars k.2
    ++ ['.', 'q', 'l', 't', 'e', 'n']

/-- the name of the metadata file of a TPS -/
def tpsMeta : List Char := ['t', 'p', 's', '_', 'm', 'e', 't', 'a', '.', 't', 'x', 't']

theorem tpsName_plain (k : ℕ × ℕ) : '/' ∉ tpsName k := by
  have h1 := natChars_no k.1 (c := '/') (by decide)
  have h2 := natChars_no k.2 (c := '/') (by decide)
  simp [tpsName, h1, h2]

theorem tpsName_inj {k k' : ℕ × ℕ} (h : tpsName k = tpsName k') : k = k' := by
  obtain ⟨r, c⟩ := k
  obtain ⟨r', c'⟩ := k'
  simp only [tpsName, List.append_assoc, List.append_cancel_left_eq, List.cons_append,
    List.nil_append] at h
  simp only [List.cons.injEq, true_and] at h
  obtain ⟨h1, h⟩ := split_dig _ _ _ _ _ _ (by decide) (by decide) h
  rw [List.cons.injEq] at h
  obtain ⟨h2, -⟩ := split_dig _ _ _ _ _ _ (by decide) (by decide) h.2
  rw [h1, h2]

theorem tpsName_ne (k : ℕ × ℕ) : tpsName k ≠ tpsMeta := by
  intro h
  have := congrArg (fun l => l[4]?) h
  simp [tpsName, tpsMeta] at this

theorem squeeze_tpsFile (path : List Char) (k : ℕ × ℕ) :
    squeeze (tpsFile path k) = squeeze (path ++ ['/']) ++ tpsName k :=
  squeeze_slash _ (tpsName_plain k)

theorem squeeze_metaFile (path : List Char) :
    squeeze (metaFile path) = squeeze (path ++ ['/']) ++ tpsMeta :=
  squeeze_slash _ (by decide)

theorem tpsFile_inj {path : List Char} {k k' : ℕ × ℕ}
    (h : squeeze (tpsFile path k) = squeeze (tpsFile path k')) : k = k' := by
  rw [squeeze_tpsFile, squeeze_tpsFile, List.append_cancel_left_eq] at h
  exact tpsName_inj h

theorem tpsFile_ne (path : List Char) (k : ℕ × ℕ) :
    squeeze (tpsFile path k) ≠ squeeze (metaFile path) := by
  rw [squeeze_tpsFile, squeeze_metaFile, ne_eq, List.append_cancel_left_eq]
  exact tpsName_ne k

/-! ## keys -/

theorem mem_block {rows cols : ℕ} {k : ℕ × ℕ} : k ∈ block rows cols ↔ k.1 < rows ∧ k.2 < cols := by
  obtain ⟨r, c⟩ := k
  simp [block]

theorem nodup_block (rows cols : ℕ) : (block rows cols).Nodup := by
  unfold block
  rw [List.nodup_flatMap]
  refine ⟨fun r _ => ?_, ?_⟩
  · exact List.nodup_range.map fun c c' h => by simpa using h
  · refine List.nodup_range.imp ?_
    intro r r' h x h1 h2
    simp only [List.mem_map, List.mem_range] at h1 h2
    obtain ⟨c, -, rfl⟩ := h1
    obtain ⟨c', -, e⟩ := h2
    exact h (congrArg Prod.fst e).symm

variable {T : Type*}

theorem nodup_keys (p : Peps T) : p.keys.Nodup := by
  have hm : ∀ (a : Part) n m, ((block n m).map (fun k => (a, k))).Nodup := fun a n m =>
    (nodup_block n m).map fun x y h => by simpa using h
  unfold Peps.keys
  refine List.Nodup.append (List.Nodup.append (hm _ _ _) (hm _ _ _) ?_) (hm _ _ _) ?_
  · intro x h1 h2
    simp only [List.mem_map] at h1 h2
    obtain ⟨_, _, rfl⟩ := h1
    obtain ⟨_, _, e⟩ := h2
    simp at e
  · intro x h1 h2
    simp only [List.mem_append, List.mem_map] at h1 h2
    obtain ⟨_, _, rfl⟩ := h2
    rcases h1 with ⟨_, _, e⟩ | ⟨_, _, e⟩ <;> simp at e

/-! ## loops -/

theorem read_write_same (d : Disk) {f g : List Char} (h : squeeze g = squeeze f) (b : Bytes) :
    (d.write f b).read g = some b := by
  simp [Disk.read, Disk.write, h]

theorem read_write_ne (d : Disk) {f g : List Char} (h : squeeze g ≠ squeeze f) (b : Bytes) :
    (d.write f b).read g = d.read g := by
  simp [Disk.read, Disk.write, h]

section Loops

variable {K : Type*} [DecidableEq K]

theorem dumpTen_read (env : Env T) (release : Bool) (x : Option T) (f : List Char) (d : Disk)
    {g : List Char} (h : squeeze g ≠ squeeze f) :
    (dumpTen env release x f d).2.1.read g = d.read g := by
  unfold dumpTen
  split
  · rfl
  · exact read_write_ne d h _
  · exact read_write_ne d h _

theorem dumpTen_flag (env : Env T) (release : Bool) (x : Option T) (f : List Char) (d : Disk) :
    (dumpTen env release x f d).2.2 = true ↔ env.fault (squeeze f) = none := by
  unfold dumpTen
  split <;> simp_all

theorem dumpTen_ok (env : Env T) (release : Bool) (x : Option T) (f : List Char) (d : Disk)
    (h : env.fault (squeeze f) = none) : dumpTen env release x f d =
      (if release then none else some (x.getD env.dflt), d.write f (env.enc (x.getD env.dflt)), true)
    := by
  simp only [dumpTen, h]

/-- all about a dumping loop -/
theorem dumpLoop_spec (env : Env T) (release : Bool) (name : K → List Char)
    (hinj : ∀ k k', squeeze (name k) = squeeze (name k') → k = k') (ks : List K) (hn : ks.Nodup)
    (cells : Cells K T) (d : Disk) :
    ((dumpLoop env release name ks cells d).2.2 = true ↔
      ∀ k ∈ ks, env.fault (squeeze (name k)) = none) ∧
    (∀ f, (∀ k ∈ ks, squeeze f ≠ squeeze (name k)) →
      (dumpLoop env release name ks cells d).2.1.read f = d.read f) ∧
    ((dumpLoop env release name ks cells d).2.2 = true → ∀ k ∈ ks,
      (dumpLoop env release name ks cells d).2.1.read (name k) =
        some (env.enc ((cells k).getD env.dflt)) ∧
      (dumpLoop env release name ks cells d).1 k =
        if release then none else some ((cells k).getD env.dflt)) ∧
    ∀ k ∉ ks, (dumpLoop env release name ks cells d).1 k = cells k := by
  induction ks generalizing cells d with
  | nil => simp [dumpLoop]
  | cons k ks ih =>
    obtain ⟨hk, hks⟩ := List.nodup_cons.1 hn
    have hne : ∀ k' ∈ ks, squeeze (name k') ≠ squeeze (name k) := fun k' h' e =>
      hk (hinj _ _ e ▸ h')
    by_cases hf : env.fault (squeeze (name k)) = none
    · rw [dumpLoop, dumpTen_ok _ _ _ _ _ hf]
      dsimp only
      rw [if_pos rfl]
      obtain ⟨h1, h2, h3, h4⟩ := ih hks
        (setCell cells k (if release then none else some ((cells k).getD env.dflt)))
        (d.write (name k) (env.enc ((cells k).getD env.dflt)))
      refine ⟨?_, fun f h => ?_, fun ht k' hk' => ?_, fun k' hk' => ?_⟩
      · rw [h1]
        simp [hf]
      · rw [h2 f fun k' h' => h k' (List.mem_cons_of_mem _ h')]
        exact read_write_ne d (h k List.mem_cons_self) _
      · rcases List.mem_cons.1 hk' with rfl | hk'
        · rw [h2 _ fun k'' h' => (hne k'' h').symm, h4 _ hk]
          exact ⟨read_write_same d rfl _, by simp [setCell]⟩
        · have e : k' ≠ k := fun e => hk (e ▸ hk')
          have := h3 ht k' hk'
          simp only [setCell, if_neg e] at this
          exact this
      · rw [List.mem_cons, not_or] at hk'
        rw [h4 _ hk'.2, setCell, if_neg hk'.1]
    · have hfl : (dumpTen env release (cells k) (name k) d).2.2 = false := by
        rw [← Bool.not_eq_true, dumpTen_flag]
        exact hf
      rw [dumpLoop]
      rw [if_neg (by rw [hfl]; decide)]
      refine ⟨by simp [hf], fun f h => ?_, by simp, fun k' hk' => ?_⟩
      · exact dumpTen_read _ _ _ _ _ (h k List.mem_cons_self)
      · rw [List.mem_cons, not_or] at hk'
        simp [setCell, hk'.1]

/-- what a dumping loop that ignores failures does -/
theorem dumpLoopIgnore_spec (env : Env T) (release : Bool) (name : K → List Char)
    (hinj : ∀ k k', squeeze (name k) = squeeze (name k') → k = k') (ks : List K) (hn : ks.Nodup)
    (cells : Cells K T) (d : Disk) :
    (∀ f, (∀ k ∈ ks, squeeze f ≠ squeeze (name k)) →
      (dumpLoopIgnore env release name ks cells d).2.read f = d.read f) ∧
    (∀ k ∈ ks, (dumpLoopIgnore env release name ks cells d).2.read (name k) =
        (dumpTen env release (cells k) (name k) d).2.1.read (name k) ∧
      (dumpLoopIgnore env release name ks cells d).1 k =
        (dumpTen env release (cells k) (name k) d).1) ∧
    ∀ k ∉ ks, (dumpLoopIgnore env release name ks cells d).1 k = cells k := by
  induction ks generalizing cells d with
  | nil => simp [dumpLoopIgnore]
  | cons k ks ih =>
    obtain ⟨hk, hks⟩ := List.nodup_cons.1 hn
    have hne : ∀ k' ∈ ks, squeeze (name k') ≠ squeeze (name k) := fun k' h' e =>
      hk (hinj _ _ e ▸ h')
    rw [dumpLoopIgnore]
    obtain ⟨h2, h3, h4⟩ := ih hks
      (setCell cells k (dumpTen env release (cells k) (name k) d).1)
      (dumpTen env release (cells k) (name k) d).2.1
    refine ⟨fun f h => ?_, fun k' hk' => ?_, fun k' hk' => ?_⟩
    · rw [h2 f fun k' h' => h k' (List.mem_cons_of_mem _ h')]
      exact dumpTen_read _ _ _ _ _ (h k List.mem_cons_self)
    · rcases List.mem_cons.1 hk' with rfl | hk'
      · rw [h2 _ fun k'' h' => (hne k'' h').symm, h4 _ hk]
        exact ⟨rfl, by simp [setCell]⟩
      · have e : k' ≠ k := fun e => hk (e ▸ hk')
        have := h3 k' hk'
        simp only [setCell, if_neg e] at this
        rw [this.1, this.2]
        unfold dumpTen
        split
        · exact ⟨dumpTen_read _ _ _ _ _ (hne k' hk'), rfl⟩
        · exact ⟨by rw [read_write_same _ rfl, read_write_same _ rfl], rfl⟩
        · exact ⟨by rw [read_write_same _ rfl, read_write_same _ rfl], rfl⟩
    · rw [List.mem_cons, not_or] at hk'
      rw [h4 _ hk'.2, setCell, if_neg hk'.1]

/-- what a dumping loop of a constant object does -/
theorem dumpLoopConst_spec (env : Env T) (name : K → List Char)
    (hinj : ∀ k k', squeeze (name k) = squeeze (name k') → k = k') (cells : Cells K T) (ks : List K)
    (hn : ks.Nodup) (d : Disk) (hc : ∀ k ∈ ks, (cells k).isSome) :
    ∃ d' ok, dumpLoopConst env name cells ks d = some (d', ok) ∧
      (ok = true ↔ ∀ k ∈ ks, env.fault (squeeze (name k)) = none) ∧
      (∀ f, (∀ k ∈ ks, squeeze f ≠ squeeze (name k)) → d'.read f = d.read f) ∧
      (ok = true → ∀ k ∈ ks, d'.read (name k) = (cells k).map env.enc) := by
  induction ks generalizing d with
  | nil => exact ⟨d, true, rfl, by simp, by simp, by simp⟩
  | cons k ks ih =>
    obtain ⟨hk, hks⟩ := List.nodup_cons.1 hn
    have hne : ∀ k' ∈ ks, squeeze (name k') ≠ squeeze (name k) := fun k' h' e =>
      hk (hinj _ _ e ▸ h')
    obtain ⟨t, ht⟩ := Option.isSome_iff_exists.1 (hc k List.mem_cons_self)
    rcases hf : env.fault (squeeze (name k)) with _ | fa
    · obtain ⟨d', ok, h1, h2, h3, h4⟩ := ih hks (d.write (name k) (env.enc t))
        fun k' h' => hc k' (List.mem_cons_of_mem _ h')
      refine ⟨d', ok, ?_, ?_, fun f h => ?_, fun e k' hk' => ?_⟩
      · simp only [dumpLoopConst, dumpTenConst, hf, ht, Option.map_some]
        exact h1
      · rw [h2]
        simp [hf]
      · rw [h3 f fun k' h' => h k' (List.mem_cons_of_mem _ h')]
        exact read_write_ne d (h k List.mem_cons_self) _
      · rcases List.mem_cons.1 hk' with rfl | hk'
        · rw [h3 _ fun k'' h' => (hne k'' h').symm, read_write_same d rfl, ht]
          rfl
        · exact h4 e k' hk'
    · cases fa with
      | noOpen =>
        refine ⟨d, false, ?_, by simp [hf], fun _ _ => rfl, by simp⟩
        simp only [dumpLoopConst, dumpTenConst, hf]
      | short b =>
        refine ⟨d.write (name k) b, false, ?_, by simp [hf], fun f h => ?_, by simp⟩
        · simp only [dumpLoopConst, dumpTenConst, hf, ht, Option.map_some]
        · exact read_write_ne d (h k List.mem_cons_self) _

/-- the tensor in a file, if it can be read -/
def stored (env : Env T) (d : Disk) (f : List Char) : Option T := (d.read f).bind env.dec

theorem loadTen_eq (env : Env T) (f : List Char) (d : Disk) :
    loadTen env f d = (some ((stored env d f).getD env.dflt), (stored env d f).isSome) := by
  unfold loadTen stored
  cases d.read f with
  | none => rfl
  | some b =>
    dsimp only [Option.bind_some]
    cases env.dec b <;> rfl

/-- all about a loading loop -/
theorem loadLoop_spec (env : Env T) (name : K → List Char) (d : Disk) (ks : List K) (hn : ks.Nodup)
    (cells : Cells K T) :
    ((loadLoop env name d ks cells).2 = true ↔ ∀ k ∈ ks, (stored env d (name k)).isSome) ∧
    ((loadLoop env name d ks cells).2 = true → ∀ k ∈ ks,
      (loadLoop env name d ks cells).1 k = stored env d (name k)) ∧
    (∀ k ∉ ks, (loadLoop env name d ks cells).1 k = cells k) ∧
    ((loadLoop env name d ks cells).2 = false → ∃ l k l', ks = l ++ k :: l' ∧
      stored env d (name k) = none ∧
      (∀ j ∈ l, (stored env d (name j)).isSome ∧
        (loadLoop env name d ks cells).1 j = stored env d (name j)) ∧
      ∀ j ∈ l', (loadLoop env name d ks cells).1 j = cells j) := by
  induction ks generalizing cells with
  | nil => simp [loadLoop]
  | cons k ks ih =>
    obtain ⟨hk, hks⟩ := List.nodup_cons.1 hn
    rw [loadLoop, loadTen_eq]
    dsimp only
    cases hs : stored env d (name k) with
    | none =>
      simp only [Option.isSome_none, Bool.false_eq_true, if_false]
      refine ⟨by simp [hs], by simp, fun k' hk' => ?_, fun _ => ⟨[], k, ks, rfl, hs, by simp, ?_⟩⟩
      · rw [List.mem_cons, not_or] at hk'
        simp [setCell, hk'.1]
      · intro j hj
        exact if_neg fun (e : j = k) => hk (e ▸ hj)
    | some t =>
      simp only [Option.isSome_some, if_true, Option.getD_some]
      obtain ⟨h1, h2, h3, h4⟩ := ih hks (setCell cells k (some t))
      refine ⟨by rw [h1]; simp [hs], fun ht k' hk' => ?_, fun k' hk' => ?_, fun hfl => ?_⟩
      · rcases List.mem_cons.1 hk' with rfl | hk'
        · rw [h3 _ hk, setCell, if_pos rfl, hs]
        · exact h2 ht k' hk'
      · rw [List.mem_cons, not_or] at hk'
        rw [h3 _ hk'.2, setCell, if_neg hk'.1]
      · obtain ⟨l, k0, l', e, hs0, hl, hl'⟩ := h4 hfl
        refine ⟨k :: l, k0, l', by rw [e, List.cons_append], hs0, fun j hj => ?_, fun j hj => ?_⟩
        · rcases List.mem_cons.1 hj with rfl | hj
          · exact ⟨by rw [hs]; rfl, by rw [h3 _ hk, setCell, if_pos rfl, hs]⟩
          · exact hl j hj
        · rw [hl' j hj, setCell, if_neg]
          rintro rfl
          exact hk (e ▸ List.mem_append_right _ (List.mem_cons_of_mem _ hj))

theorem loadLoop_congr (env : Env T) (name name' : K → List Char) (d d' : Disk) (ks : List K)
    (cells : Cells K T) (h : ∀ k ∈ ks, d.read (name k) = d'.read (name' k)) :
    loadLoop env name d ks cells = loadLoop env name' d' ks cells := by
  induction ks generalizing cells with
  | nil => rfl
  | cons k ks ih =>
    have e : loadTen env (name k) d = loadTen env (name' k) d' := by
      rw [loadTen_eq, loadTen_eq, stored, stored, h k List.mem_cons_self]
    rw [loadLoop, loadLoop, e]
    rw [ih _ fun k' h' => h k' (List.mem_cons_of_mem _ h')]

end Loops

/-! ## metadata -/

theorem parseMeta_text (a : Tps T) (hr : a.rows < 2 ^ 64) (hc : a.cols < 2 ^ 64) :
    parseMeta a.metaText = some (a.rows, a.cols, a.bc) := by
  have e1 := extract_num [] a.rows ([' '] ++ natChars a.cols ++ [' '] ++ natChars a.bc.code ++ ['\n'])
    (by simp) hr (Or.inr ⟨_, _, rfl, by decide⟩)
  have e2 := extract_num [' '] a.cols ([' '] ++ natChars a.bc.code ++ ['\n']) (by simp; decide) hc
    (Or.inr ⟨_, _, rfl, by decide⟩)
  have e3 := extract_num [' '] a.bc.code ['\n'] (by simp; decide)
    (by cases a.bc <;> decide) (Or.inr ⟨_, _, rfl, by decide⟩)
  simp only [List.nil_append, List.append_assoc] at e1 e2 e3
  simp only [parseMeta, Tps.metaText, List.append_assoc, e1, e2, e3, if_true]
  cases a.bc <;> rfl

end QLPeps.PepsIO
