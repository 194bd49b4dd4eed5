import Verif.Lemmas.ConfigurationText
import Verif.Lemmas.ConfigurationGen

/-!
# Properties C14-C18, C57, C58, C64: configurations
-/

namespace QLPeps.Configuration

open QLPeps.Spec

/-! ## C64: iteration -/

/-- **C64**. A range-for loop over a matrix with at least one row and column visits every element
exactly once, in row-major order, whatever the shape. -/
theorem C64_iteration_complete (rows cols : ℕ) (hr : 0 < rows) (hc : 0 < cols) (fuel : ℕ)
    (hf : rows * cols ≤ fuel) :
    ∃ ps, iterAll rows cols fuel = some ps ∧ ps.Nodup ∧ (∀ p, p ∈ ps ↔ InLattice rows cols p) ∧
      ps.length = rows * cols ∧
      ps.Pairwise (fun p q => p.1 < q.1 ∨ (p.1 = q.1 ∧ p.2 < q.2)) := by
  refine ⟨_, iterAll_eq rows cols fuel hr hc hf, nodup_cellList _ _, mem_cellList _ _,
    length_cellList _ _, ?_⟩
  rw [cellList, List.pairwise_map]
  refine List.pairwise_lt_range.imp ?_
  intro i j hij
  rcases Nat.lt_or_ge (i / cols) (j / cols) with h | h
  · exact Or.inl h
  · have h2 : i / cols ≤ j / cols := Nat.div_le_div_right hij.le
    have h3 : i / cols = j / cols := by omega
    refine Or.inr ⟨h3, ?_⟩
    have h4 := Nat.div_add_mod i cols
    have h5 := Nat.div_add_mod j cols
    rw [h3] at h4
    simp only
    omega

example : iterAll 2 3 6 = some [(0, 0), (0, 1), (0, 2), (1, 0), (1, 1), (1, 2)] := by decide

/-- The loop over a matrix with rows but no columns does not terminate at its first test:
it dereferences an element that does not exist. -/
theorem C64_zero_columns_visits_outside (rows fuel : ℕ) (hr : 0 < rows) :
    (0, 0) ≠ ((rows, 0) : Site) ∧ (iterAll rows 0 (fuel + rows + 1)).all
      (fun ps => decide ((0, 0) ∈ ps)) = true := by
  have hne : ((0, 0) : Site) ≠ (rows, 0) := by
    intro h; rw [Prod.mk.injEq] at h; omega
  refine ⟨hne, ?_⟩
  unfold iterAll
  rw [iterFrom, if_neg hne]
  cases iterFrom rows 0 (fuel + rows) (incrementPosition rows 0 (0, 0)) <;> simp

/-! ## C14: random configurations -/

theorem random_pairs_spec (shuffle : List ℕ → List ℕ) (hsh : ∀ l, (shuffle l).Perm l)
    (oc : List (ℕ × ℕ)) (c : Conf) (hsum : (oc.map Prod.snd).sum < 2 ^ 64)
    (hN : c.rows * c.cols < 2 ^ 64) :
    ((oc.map Prod.snd).sum ≠ c.rows * c.cols → randomPairs shuffle oc c = .throws) ∧
    ((oc.map Prod.snd).sum = c.rows * c.cols → ∃ c', randomPairs shuffle oc c = .ok c' ∧
      c'.rows = c.rows ∧ c'.cols = c.cols ∧ Valid c' ∧ (Bounded c → Bounded c') ∧
      ∀ s, occ c' s = (oc.flatMap (fun p => List.replicate p.2 p.1)).count s) := by
  have hfold := foldl_wrap Prod.snd oc 0 (by norm_num)
  rw [Nat.zero_add] at hfold
  have h1 : wrap64 (oc.map Prod.snd).sum = (oc.map Prod.snd).sum := Nat.mod_eq_of_lt hsum
  have h2 : wrap64 (c.rows * c.cols) = c.rows * c.cols := Nat.mod_eq_of_lt hN
  unfold randomPairs
  simp only [hfold, h1, h2]
  constructor
  · intro hne
    rw [if_pos hne]
  · intro he
    have hl : (List.replicate (c.rows * c.cols) 0).length = c.rows * c.cols := by simp
    have hfill := fillLoop_eq oc 0 (List.replicate (c.rows * c.cols) 0)
      (by rw [hl]; omega) (by rw [hl]; exact hN)
    rw [Nat.zero_add, List.take_zero, List.nil_append, he,
      List.drop_eq_nil_of_le hl.le, List.append_nil] at hfill
    rw [if_neg (by simp [he]), hfill]
    simp only
    have hlen : (oc.flatMap (fun p => List.replicate p.2 p.1)).length = c.rows * c.cols := by
      rw [← he]
      clear hfill he hfold h1 h2 hsum
      induction oc with
      | nil => rfl
      | cons p oc ih => simp [List.flatMap_cons, ih]
    have hlen' : (shuffle (oc.flatMap (fun p => List.replicate p.2 p.1))).length
        = c.rows * c.cols := by rw [(hsh _).length_eq, hlen]
    refine ⟨_, setFromList_eq _ c hlen'.ge, ?_⟩
    obtain ⟨a1, a2, a3, a4, a5⟩ := setFromList_occ _ c _ hlen' (setFromList_eq _ c hlen'.ge)
    refine ⟨a1, a2, a3, a4, fun s => ?_⟩
    rw [a5 s, (hsh _).count_eq]

theorem map_snd_mapIdx (oc : List ℕ) (k : ℕ) :
    (oc.mapIdx (fun i n => (i + k, n))).map Prod.snd = oc := by
  apply List.ext_getElem
  · simp
  · intro i h1 h2; simp

/-- **C14**. `Random(occupancy)` throws when the occupancies do not sum to the number of sites;
otherwise it returns, whatever the shuffle does, a fully assigned configuration of the same shape
in which state `s` occurs exactly `occupancy[s]` times. -/
theorem C14_random_occupancy (shuffle : List ℕ → List ℕ) (hsh : ∀ l, (shuffle l).Perm l)
    (oc : List ℕ) (c : Conf) (hsum : oc.sum < 2 ^ 64) (hN : c.rows * c.cols < 2 ^ 64) :
    (oc.sum ≠ c.rows * c.cols → randomOccupancy shuffle oc c = .throws) ∧
    (oc.sum = c.rows * c.cols → ∃ c', randomOccupancy shuffle oc c = .ok c' ∧
      c'.rows = c.rows ∧ c'.cols = c.cols ∧ Valid c' ∧ ∀ s, occ c' s = oc.getD s 0) := by
  have hm : (oc.mapIdx (fun i n => (i, n))).map Prod.snd = oc := map_snd_mapIdx oc 0
  obtain ⟨h1, h2⟩ := random_pairs_spec shuffle hsh (oc.mapIdx (fun i n => (i, n))) c
    (by rw [hm]; exact hsum) hN
  rw [hm] at h1 h2
  refine ⟨h1, fun he => ?_⟩
  obtain ⟨c', a1, a2, a3, a4, -, a5⟩ := h2 he
  refine ⟨c', a1, a2, a3, a4, fun s => ?_⟩
  rw [a5 s, ← baseVector_count oc s]
  congr 1
  unfold baseVector
  rw [List.flatMap_def]
  congr 1
  apply List.ext_getElem
  · simp
  · intro i h1 h2; simp

/-- **C14** for the sparse overload: the map's entries are pairs (state, number) with distinct
states; each state occurs as often as prescribed and no other state occurs. -/
theorem C14_random_map (shuffle : List ℕ → List ℕ) (hsh : ∀ l, (shuffle l).Perm l)
    (oc : List (ℕ × ℕ)) (hkeys : (oc.map Prod.fst).Nodup) (c : Conf)
    (hsum : (oc.map Prod.snd).sum < 2 ^ 64) (hN : c.rows * c.cols < 2 ^ 64) :
    ((oc.map Prod.snd).sum ≠ c.rows * c.cols → randomPairs shuffle oc c = .throws) ∧
    ((oc.map Prod.snd).sum = c.rows * c.cols → ∃ c', randomPairs shuffle oc c = .ok c' ∧
      c'.rows = c.rows ∧ c'.cols = c.cols ∧ Valid c' ∧
      (∀ s n, (s, n) ∈ oc → occ c' s = n) ∧ (∀ s, s ∉ oc.map Prod.fst → occ c' s = 0)) := by
  obtain ⟨h1, h2⟩ := random_pairs_spec shuffle hsh oc c hsum hN
  refine ⟨h1, fun he => ?_⟩
  obtain ⟨c', a1, a2, a3, a4, -, a5⟩ := h2 he
  have habs : ∀ (oc : List (ℕ × ℕ)) s, s ∉ oc.map Prod.fst →
      (oc.flatMap (fun p => List.replicate p.2 p.1)).count s = 0 := by
    intro oc s hs
    rw [List.count_eq_zero]
    intro hmem
    obtain ⟨p, hp, hp2⟩ := List.mem_flatMap.1 hmem
    rw [List.mem_replicate] at hp2
    exact hs (List.mem_map.2 ⟨p, hp, hp2.2.symm⟩)
  refine ⟨c', a1, a2, a3, a4, ?_, fun s hs => by rw [a5 s, habs oc s hs]⟩
  intro s n hmem
  rw [a5 s]
  clear a5 a4 a1 h1 h2 he hsum
  induction oc with
  | nil => simp at hmem
  | cons p oc ih =>
    rw [List.map_cons, List.nodup_cons] at hkeys
    rw [List.flatMap_cons, List.count_append]
    rcases List.mem_cons.1 hmem with rfl | hmem
    · rw [habs oc s hkeys.1]; simp
    · have hne : p.1 ≠ s := by
        rintro rfl
        exact hkeys.1 (List.mem_map.2 ⟨_, hmem, rfl⟩)
      rw [ih hkeys.2 hmem, List.count_replicate]
      simp [hne]

/-- The check uses wrapping `size_t` arithmetic: occupancies whose true sum is not the number of
sites, but is modulo 2^64, pass it and overrun the buffer. -/
theorem C14_overflow_undefined :
    randomOccupancy id [2 ^ 63, 2 ^ 63, 4] (empty 2 2) = .ub ∧
    ([2 ^ 63, 2 ^ 63, 4] : List ℕ).sum ≠ 2 * 2 := by
  refine ⟨?_, by norm_num⟩
  unfold randomOccupancy randomPairs
  rw [foldl_wrap Prod.snd _ 0 (by norm_num)]
  simp [wrap64, fillLoop, fill, empty]

theorem foldl_max (l : List ℕ) (a : ℕ) :
    a ≤ l.foldl max a ∧ (∀ x ∈ l, x ≤ l.foldl max a) ∧
      (l.foldl max a = a ∨ l.foldl max a ∈ l) := by
  induction l generalizing a with
  | nil => simp
  | cons b l ih =>
    obtain ⟨h1, h2, h3⟩ := ih (max a b)
    rw [List.foldl_cons]
    refine ⟨(le_max_left _ _).trans h1, ?_, ?_⟩
    · intro x hx
      rcases List.mem_cons.1 hx with rfl | hx
      · exact (le_max_right _ _).trans h1
      · exact h2 x hx
    · rcases h3 with h3 | h3
      · rw [h3]
        rcases max_choice a b with h | h <;> rw [h] <;> simp
      · exact Or.inr (List.mem_cons_of_mem _ h3)

theorem foldl_modify (l acc : List ℕ) (h : ∀ x ∈ l, x < acc.length) :
    (l.foldl (fun oc e => oc.modify e (· + 1)) acc).length = acc.length ∧
    ∀ s, (l.foldl (fun oc e => oc.modify e (· + 1)) acc).getD s 0 = acc.getD s 0 + l.count s := by
  induction l generalizing acc with
  | nil => simp
  | cons e l ih =>
    have he := h e (by simp)
    obtain ⟨h1, h2⟩ := ih (acc.modify e (· + 1)) (fun x hx => by
      rw [List.length_modify]; exact h x (by simp [hx]))
    rw [List.foldl_cons]
    refine ⟨by rw [h1, List.length_modify], fun s => ?_⟩
    rw [h2 s, List.count_cons]
    simp only [List.getD_eq_getElem?_getD, List.getElem?_modify]
    by_cases hes : e = s
    · subst hes
      simp [List.getElem?_eq_getElem he]; omega
    · simp [hes]

/-- **C14**, converse direction: `CountOccupancy` returns the occupancies of every state, without
trailing zeros. -/
theorem C14_count_occupancy (c : Conf) (hv : Valid c) (hr : 0 < c.rows) (hc : 0 < c.cols)
    (fuel : ℕ) (hf : c.rows * c.cols ≤ fuel) :
    ∃ L, countOccupancy fuel c = some L ∧ (∀ s, L.getD s 0 = occ c s) ∧
      0 < L.getD (L.length - 1) 0 := by
  have hN : 0 < c.rows * c.cols := Nat.mul_pos hr hc
  unfold countOccupancy
  rw [if_neg (by omega), elems_eq fuel c hv hr hc hf]
  simp only
  set l := (cellList c.rows c.cols).map (fun p => (c.cell p).getD 0) with hl
  obtain ⟨m1, m2, m3⟩ := foldl_max l 0
  obtain ⟨h1, h2⟩ := foldl_modify l (List.replicate (l.foldl max 0 + 1) 0) (fun x hx => by
    have := m2 x hx; simp; omega)
  have h3 : ∀ s, (List.replicate (l.foldl max 0 + 1) 0).getD s 0 = 0 := by
    intro s
    by_cases hs : s < l.foldl max 0 + 1
    · simp [hs]
    · simp [hs]
  refine ⟨_, rfl, fun s => ?_, ?_⟩
  · rw [h2 s, h3 s, Nat.zero_add, occ_eq_count c hv s]
  · rw [h1, h2, h3, Nat.zero_add, List.length_replicate, Nat.add_sub_cancel]
    rw [List.count_pos_iff]
    rcases m3 with m3 | m3
    · have hlen : 0 < l.length := by rw [hl, List.length_map, length_cellList]; exact hN
      have h0 : l[0] ∈ l := List.getElem_mem hlen
      have := m2 _ h0
      rw [m3] at this ⊢
      have h0' : l[0] = 0 := by omega
      rw [← h0']; exact h0
    · exact m3

/-- **C14**, unrestricted random configurations: every site gets a state below the dimension. -/
theorem C14_random_dim (draw : Site → ℕ) (dim : ℕ) (hdraw : ∀ p, draw p < dim) (c : Conf)
    (hr : 0 < c.rows) (hc : 0 < c.cols) (fuel : ℕ) (hf : c.rows * c.cols ≤ fuel) :
    ∃ c', randomDim draw fuel c = some c' ∧ c'.rows = c.rows ∧ c'.cols = c.cols ∧ Valid c' ∧
      ∀ p, InLattice c.rows c.cols p → ∃ v, c'.cell p = some v ∧ v < dim := by
  have hw := foldl_write draw (cellList c.rows c.cols) c (fun p hp => (mem_cellList _ _ p).1 hp)
  have heq : randomDim draw fuel c = some (setCells c (cellList c.rows c.cols) draw) := by
    unfold randomDim
    rw [iterAll_eq _ _ _ hr hc hf]
    exact hw
  have hcell : ∀ p, InLattice c.rows c.cols p →
      (setCells c (cellList c.rows c.cols) draw).cell p = some (draw p) := by
    intro p hp
    simp only [setCells]
    rw [if_pos ((mem_cellList _ _ p).2 hp)]
  exact ⟨_, heq, rfl, rfl, fun p hp => ⟨_, hcell p hp⟩, fun p hp => ⟨_, hcell p hp, hdraw p⟩⟩

/-- Non-vacuity: 4 up and 2 down spins on a 2x3 lattice, shuffled by reversal. -/
example : ∃ c', randomOccupancy List.reverse [4, 2] (empty 2 3) = .ok c' ∧ occ c' 1 = 2 := by
  obtain ⟨c', h, -, -, -, h5⟩ := (C14_random_occupancy List.reverse (fun l => List.reverse_perm l)
    [4, 2] (empty 2 3) (by norm_num) (by simp [empty])).2 (by simp [empty])
  exact ⟨c', h, h5 1⟩

/-! ## C15: text roundtrip -/

theorem load_exact (c : Conf) (hv : Valid c) (hfit : Fits c) (sh : Option (List Char)) (c0 : Conf)
    (h1 : c0.rows = c.rows) (h2 : c0.cols = c.cols) (hsh : shapeOk sh c0 = true) :
    (load ⟨some ((cellList c.rows c.cols).flatMap
      (tok (fun p => (c.cell p).getD 0) (sepOf c.cols))), sh⟩ c0).1 = true ∧
    SameAs (load ⟨some ((cellList c.rows c.cols).flatMap
      (tok (fun p => (c.cell p).getD 0) (sepOf c.cols))), sh⟩ c0).2 c := by
  have hf : ∀ p ∈ cellList c.rows c.cols, (c.cell p).getD 0 < 2 ^ 64 := by
    intro p hp
    obtain ⟨v, h⟩ := hv p ((mem_cellList _ _ p).1 hp)
    rw [h]; exact hfit p v h
  obtain ⟨rest, hr⟩ := readAll_exact (fun p => (c.cell p).getD 0) (sepOf c.cols) (sepOf_ws _)
    (cellList c.rows c.cols) hf [] (by simp) c0
  rw [List.nil_append] at hr
  unfold load
  simp only [hsh, if_true, streamRead, h1, h2, forCells_eq, hr]
  refine ⟨trivial, h1, h2, ?_⟩
  intro p hp
  have hp : InLattice c.rows c.cols p := by
    have : InLattice c0.rows c0.cols p := hp
    rwa [h1, h2] at this
  simp only [setCells]
  rw [if_pos ((mem_cellList _ _ p).2 hp)]
  obtain ⟨v, h⟩ := hv p hp
  rw [h]; rfl

/-- **C15**. Loading a dumped configuration into any object of the same shape succeeds and
reproduces every site. -/
theorem C15_dump_load (c : Conf) (hv : Valid c) (hfit : Fits c) (hc : 0 < c.cols)
    (hr64 : c.rows < 2 ^ 64) (hc64 : c.cols < 2 ^ 64) (c0 : Conf)
    (h1 : c0.rows = c.rows) (h2 : c0.cols = c.cols) :
    ∃ t, streamWrite c = some t ∧ (load (dump t c) c0).1 = true ∧ SameAs (load (dump t c) c0).2 c := by
  refine ⟨_, streamWrite_eq c hv hc, ?_⟩
  exact load_exact c hv hfit _ c0 h1 h2 ((shapeOk_full c c0 hr64 hc64).2 ⟨h1, h2⟩)

/-- **C15**. With the sidecar present, an object of another shape refuses to load and is left
untouched. -/
theorem C15_wrong_shape_refused (c c0 : Conf) (t : List Char)
    (hr64 : c.rows < 2 ^ 64) (hc64 : c.cols < 2 ^ 64)
    (hne : c0.rows ≠ c.rows ∨ c0.cols ≠ c.cols) :
    load (dump t c) c0 = (false, c0) := by
  have : shapeOk (some (shapeText c)) c0 = false := by
    rw [← Bool.not_eq_true, shapeOk_full c c0 hr64 hc64]
    tauto
  simp [load, dump, this]

/-- a concrete 2x2 configuration -/
def sampleConf : Conf := ⟨2, 2, fun p => if p.1 < 2 ∧ p.2 < 2 then some (10 * p.1 + p.2) else none⟩

theorem sampleConf_valid : Valid sampleConf := by
  intro p hp
  have hp' : p.1 < 2 ∧ p.2 < 2 := hp
  exact ⟨_, by simp only [sampleConf]; rw [if_pos hp']⟩

/-- Non-vacuity: a 2x2 configuration with two-digit states meets the hypotheses, and its text is
what one expects. -/
example : Valid sampleConf ∧ Fits sampleConf ∧
    streamWrite sampleConf = some "0 1\n10 11\n".toList := by
  refine ⟨sampleConf_valid, ?_, by rw [streamWrite_eq _ sampleConf_valid (by decide)]; decide +kernel⟩
  intro p v h
  simp only [sampleConf] at h
  split_ifs at h with hp
  rw [Option.some.injEq] at h
  omega

/-! ## C16: interrupted dumps -/

/-- **C16** (partial: the state of the last site is a single digit). Whatever prefix of the dump
reached the files, a later `Load` into the dumped shape fails, or returns exactly the dumped
configuration, or acts on the files as they were before the dump began.
Missing: local states of two or more digits on the last site, for which the claim is false
(`C16_truncated_number_loads`). -/
theorem C16_interrupted_dump_partial (c : Conf) (hv : Valid c) (hfit : Fits c)
    (hr : 0 < c.rows) (hc : 0 < c.cols)
    (hlast : ∀ v, c.cell (c.rows - 1, c.cols - 1) = some v → v < 10)
    (t : List Char) (ht : streamWrite c = some t) (fs0 fs : Files) (hfs : fs ∈ dumpStates t c fs0)
    (c0 : Conf) (h1 : c0.rows = c.rows) (h2 : c0.cols = c.cols) :
    (load fs c0).1 = false ∨ ((load fs c0).1 = true ∧ SameAs (load fs c0).2 c) ∨ fs = fs0 := by
  rw [streamWrite_eq c hv hc, Option.some.injEq] at ht
  have hf : ∀ p ∈ cellList c.rows c.cols, (c.cell p).getD 0 < 2 ^ 64 := by
    intro p hp
    obtain ⟨v, h⟩ := hv p ((mem_cellList _ _ p).1 hp)
    rw [h]; exact hfit p v h
  have hN : 0 < c.rows * c.cols := Nat.mul_pos hr hc
  have hne : cellList c.rows c.cols ≠ [] := by
    intro h
    have := length_cellList c.rows c.cols
    rw [h] at this
    simp only [List.length_nil] at this
    omega
  have hlast' : ∀ p, (cellList c.rows c.cols).getLast? = some p → (c.cell p).getD 0 < 10 := by
    intro p hp
    have hp' : p = (c.rows - 1, c.cols - 1) := by
      rw [List.getLast?_eq_getElem?, length_cellList, cellList, List.getElem?_map,
        List.getElem?_range (by omega), Option.map_some, Option.some.injEq] at hp
      rw [← hp]
      have hin : InLattice c.rows c.cols (c.rows - 1, c.cols - 1) :=
        ⟨by simp only; omega, by simp only; omega⟩
      rw [← idx_divmod hin]
      have : (c.rows - 1) * c.cols + (c.cols - 1) = c.rows * c.cols - 1 := by
        obtain ⟨r, hr'⟩ : ∃ r, c.rows = r + 1 := ⟨c.rows - 1, by omega⟩
        rw [hr', Nat.succ_mul]
        simp only [Nat.add_sub_cancel]
        omega
      simp only [this]
    obtain ⟨v, h⟩ := hv p (by
      rw [hp']; exact ⟨by simp only; omega, by simp only; omega⟩)
    rw [h]
    rw [hp'] at h
    exact hlast v h
  -- a data file holding a prefix of the text
  have key : ∀ (s : List Char) (sh : Option (List Char)), s <+: t →
      (load ⟨some s, sh⟩ c0).1 = false ∨
        ((load ⟨some s, sh⟩ c0).1 = true ∧ SameAs (load ⟨some s, sh⟩ c0).2 c) := by
    intro s sh hs
    unfold load
    by_cases hsh : shapeOk sh c0 = true
    · simp only [hsh, if_true, streamRead, h1, h2, forCells_eq]
      rw [← ht] at hs
      rcases readAll_prefix (fun p => (c.cell p).getD 0) (sepOf c.cols) (sepOf_ws _)
        (cellList c.rows c.cols) hf hlast' [] (by simp) c0 s hs hne with h | ⟨rest, h⟩
      · exact Or.inl h
      · right
        rw [h]
        refine ⟨rfl, h1, h2, ?_⟩
        intro p hp
        have hp : InLattice c.rows c.cols p := by
          have : InLattice c0.rows c0.cols p := hp
          rwa [h1, h2] at this
        simp only [setCells]
        rw [if_pos ((mem_cellList _ _ p).2 hp)]
        obtain ⟨v, h⟩ := hv p hp
        rw [h]; rfl
    · left
      simp [hsh]
  simp only [dumpStates, List.cons_append, List.mem_cons, List.mem_append, List.mem_map,
    List.mem_inits] at hfs
  rcases hfs with rfl | ⟨s, hs, rfl⟩ | ⟨s, -, rfl⟩
  · exact Or.inr (Or.inr rfl)
  · rcases key s fs0.shape hs with h | h
    · exact Or.inl h
    · exact Or.inr (Or.inl h)
  · rcases key t (some s) (List.prefix_refl t) with h | h
    · exact Or.inl h
    · exact Or.inr (Or.inl h)

/-- The full C16 is false: a crash while the two-digit state `12` is being written leaves a file
that loads successfully as the state `1`. -/
theorem C16_truncated_number_loads :
    ∃ (c c0 : Conf) (t : List Char) (fs0 fs : Files), Valid c ∧ streamWrite c = some t ∧
      c0.rows = c.rows ∧ c0.cols = c.cols ∧ fs ∈ dumpStates t c fs0 ∧ fs0.data = none ∧
      (load fs c0).1 = true ∧ ¬ SameAs (load fs c0).2 c := by
  let c : Conf := ⟨1, 1, fun p => if p = (0, 0) then some 12 else none⟩
  have hv : Valid c := by
    intro p hp
    have hp' : p.1 < 1 ∧ p.2 < 1 := hp
    have : p = (0, 0) := by ext <;> simp only <;> omega
    exact ⟨12, by simp [c, this]⟩
  have hw : streamWrite c = some "12\n".toList := by
    rw [streamWrite_eq c hv (by decide)]; decide +kernel
  refine ⟨c, empty 1 1, "12\n".toList, ⟨none, none⟩, ⟨some ['1'], none⟩, hv, hw, rfl, rfl, ?_, rfl,
    ?_, ?_⟩
  · simp [dumpStates, List.mem_inits]
  · decide +kernel
  · intro h
    have := h.2.2 (0, 0) ⟨by decide +kernel, by decide +kernel⟩
    revert this
    decide +kernel

/-- Non-vacuity of the partial theorem: crash after three bytes of the sample dump. -/
example : (⟨some "0 1".toList, none⟩ : Files) ∈
    dumpStates "0 1\n".toList ⟨1, 2, fun p => if p = (0, 0) then some 0 else some 1⟩ ⟨none, none⟩ := by
  decide +kernel

/-! ## C17: parameters built from a file -/

/-- **C17** is false of the code: the constructor loads into a 0x0 object, so for every dumped
configuration with at least one row it throws instead of returning the configuration. -/
theorem C17_dumped_configuration_rejected (c : Conf) (t : List Char) (hr : 0 < c.rows)
    (hr64 : c.rows < 2 ^ 64) (hc64 : c.cols < 2 ^ 64) :
    paramsFromFile (dump t c) = .throws := by
  have := C15_wrong_shape_refused c (empty 0 0) t hr64 hc64 (Or.inl (by simp only [empty]; omega))
  unfold paramsFromFile
  rw [this]
  rfl

/-- **C17** (partial: what the constructor guarantees). It throws or produces the empty
configuration; it never produces a configuration of the wrong contents, but it never produces the
dumped one either. Missing: the dumped configuration. -/
theorem C17_result_partial (fs : Files) :
    paramsFromFile fs = .throws ∨ ∃ c, paramsFromFile fs = .ok c ∧ c.rows = 0 ∧ c.cols = 0 := by
  unfold paramsFromFile load
  by_cases h : shapeOk fs.shape (empty 0 0) = true
  · cases hd : fs.data with
    | none => left; simp [h]
    | some s =>
      right
      simp only [h, if_true]
      exact ⟨empty 0 0, by simp [streamRead, forCells, empty], rfl, rfl⟩
  · left; simp [h]

example : paramsFromFile (dump "0 1\n10 11\n".toList sampleConf) = .throws :=
  C17_dumped_configuration_rejected _ _ (by decide) (by decide) (by decide)

/-! ## C18: MPI transfer -/

theorem foldl_flat (c : Conf) (hv : Valid c) (L : List ℕ) (acc : List ℕ)
    (hL : ∀ i ∈ L, i < c.rows * c.cols) (hacc : acc.length = c.rows * c.cols) :
    L.foldl (fun o i => match o, read (i / c.cols, i % c.cols) c with
      | some l, some v => if i / c.cols * c.cols + i % c.cols < l.length
          then some (l.set (i / c.cols * c.cols + i % c.cols) v) else none
      | _, _ => none) (some acc)
    = some (L.foldl (fun l i => l.set i ((c.cell (i / c.cols, i % c.cols)).getD 0)) acc) := by
  induction L generalizing acc with
  | nil => rfl
  | cons i L ih =>
    have hi := hL i (by simp)
    have hin := divmod_in hi
    obtain ⟨v, h⟩ := hv _ hin
    have hread : read (i / c.cols, i % c.cols) c = some v := by
      have : (i / c.cols, i % c.cols).1 < c.rows ∧ (i / c.cols, i % c.cols).2 < c.cols := hin
      rw [read, if_pos this, h]
    rw [List.foldl_cons, List.foldl_cons, hread]
    simp only [Nat.div_add_mod', hacc, hi, if_true]
    rw [h]
    have := ih (acc.set i v) (fun j hj => hL j (by simp [hj])) (by simpa using hacc)
    simp only [Nat.div_add_mod'] at this
    exact this

theorem foldl_set_range (g : ℕ → ℕ) (n : ℕ) (acc : List ℕ) (hn : n ≤ acc.length) :
    (List.range n).foldl (fun l i => l.set i (g i)) acc = (List.range n).map g ++ acc.drop n := by
  induction n with
  | zero => simp
  | succ n ih =>
    rw [List.range_succ, List.foldl_append, ih (by omega), List.map_append]
    simp only [List.foldl_cons, List.foldl_nil, List.map_cons, List.map_nil]
    rw [List.set_append_right _ _ (by simp)]
    simp only [List.length_map, List.length_range, Nat.sub_self]
    rw [List.drop_eq_getElem_cons (show n < acc.length by omega), List.set_cons_zero,
      List.append_assoc]
    rfl

theorem flatten_eq (c : Conf) (hv : Valid c) : flatten c = some (rowMajor c) := by
  unfold flatten
  rw [forCells_eq, cellList, List.foldl_map]
  have h := foldl_flat c hv _ (List.replicate (c.rows * c.cols) 0)
    (fun i hi => List.mem_range.1 hi) (by simp)
  rw [foldl_set_range _ _ _ (by simp)] at h
  refine h.trans ?_
  simp [rowMajor]

/-- **C18**. A configuration flattened by the sender and rebuilt by a receiver of the same shape
is the same configuration; the message has `rows * cols` entries and no access is out of range. -/
theorem C18_transfer (c c0 : Conf) (hv : Valid c) (h1 : c0.rows = c.rows) (h2 : c0.cols = c.cols) :
    ∃ msg c', flatten c = some msg ∧ msg.length = c.rows * c.cols ∧
      unflatten msg c0 = some c' ∧ SameAs c' c := by
  refine ⟨rowMajor c, setCells c0 (cellList c0.rows c0.cols)
    (fun q => (rowMajor c).getD (q.1 * c0.cols + q.2) 0), flatten_eq c hv, length_rowMajor c, ?_, ?_⟩
  · unfold unflatten
    rw [forCells_eq, ← foldl_write _ _ _ (fun p hp => (mem_cellList _ _ p).1 hp)]
    suffices ∀ (L : List Site) (o : Option Conf), (∀ p ∈ L, InLattice c0.rows c0.cols p) →
        L.foldl (fun o p => match o, (rowMajor c)[p.1 * c0.cols + p.2]? with
          | some c', some v => write (p.1, p.2) v c'
          | _, _ => none) o
        = L.foldl (writeStep fun q => (rowMajor c).getD (q.1 * c0.cols + q.2) 0) o from
      this _ _ (fun p hp => (mem_cellList _ _ p).1 hp)
    intro L
    induction L with
    | nil => intro o _; rfl
    | cons p L ih =>
      intro o hL
      have hlt : p.1 * c0.cols + p.2 < (rowMajor c).length := by
        rw [length_rowMajor, ← h1, ← h2]; exact idx_lt (hL p (by simp))
      rw [List.foldl_cons, List.foldl_cons, ih _ (fun q hq => hL q (by simp [hq]))]
      congr 1
      unfold writeStep
      rw [List.getElem?_eq_getElem hlt]
      cases o <;> simp [List.getElem?_eq_getElem hlt]
  · refine ⟨h1, h2, ?_⟩
    intro p hp
    have hp0 : InLattice c0.rows c0.cols p := hp
    have hp1 : InLattice c.rows c.cols p := by rwa [h1, h2] at hp0
    obtain ⟨v, h⟩ := hv p hp1
    simp only [setCells]
    rw [if_pos ((mem_cellList _ _ p).2 hp0), h, h2]
    have hi := idx_lt hp1
    have hd := idx_divmod hp1
    simp only [rowMajor, List.getD_eq_getElem?_getD, List.getElem?_map, List.getElem?_range hi,
        Option.map_some, Option.getD_some, hd, h]

example : flatten sampleConf = some [0, 1, 10, 11] := by
  rw [flatten_eq _ sampleConf_valid]; decide

/-! ## C57: fixed-occupancy generator -/

/-- **C57**. If the occupancies sum to the number of sites, the generator terminates and returns,
without repetition, exactly the configurations of the `Ly x Lx` lattice in which state `s` occurs
`counts[s]` times. -/
theorem C57_permutation_configs (counts : List ℕ) (Lx Ly : ℕ) (hN : counts.sum = Lx * Ly) :
    (∃ fuel L, generateAllPermutationConfigs fuel counts Lx Ly = some L) ∧
    ∀ fuel L, generateAllPermutationConfigs fuel counts Lx Ly = some L →
      L.Nodup ∧ ∀ c : Conf, c ∈ L ↔ (c.rows = Ly ∧ c.cols = Lx ∧ Valid c ∧ Bounded c ∧
        ∀ s, occ c s = counts.getD s 0) := by
  have hlen : (baseVector counts).length = Ly * Lx := by
    rw [length_baseVector, hN, Nat.mul_comm]
  have hcollect : ∀ (vs : List (List ℕ)), (∀ v ∈ vs, v.Perm (baseVector counts)) →
      collect (vs.map (fun v => vec2Config v Lx Ly)) = some (vs.map (fun v => vecConf v Lx Ly)) := by
    intro vs hvs
    apply collect_map
    intro v hv
    exact vec2Config_eq v Lx Ly (by rw [(hvs v hv).length_eq, hlen])
  constructor
  · obtain ⟨vs, h1, h2, h3⟩ := NextPerm.permLoop_sorted _ (baseVector_sorted counts)
    refine ⟨(baseVector counts).length.factorial, vs.map (fun v => vecConf v Lx Ly), ?_⟩
    unfold generateAllPermutationConfigs
    rw [h1]
    exact hcollect vs (fun v hv => (h3 v).1 hv)
  · intro fuel L hL
    unfold generateAllPermutationConfigs at hL
    cases hp : NextPerm.permLoop fuel (baseVector counts) with
    | none => rw [hp] at hL; cases hL
    | some vs =>
      rw [hp] at hL
      simp only at hL
      obtain ⟨hsorted, hmem⟩ := NextPerm.permLoop_spec _ _ _ hp
      have hmem' : ∀ v, v ∈ vs ↔ v.Perm (baseVector counts) := fun v => by
        rw [hmem]
        exact ⟨fun h => h.1, fun h => ⟨h, NextPerm.sorted_min _ v (baseVector_sorted counts) h⟩⟩
      rw [hcollect vs (fun v hv => (hmem' v).1 hv), Option.some.injEq] at hL
      subst hL
      have hlv : ∀ v ∈ vs, v.length = Ly * Lx := fun v hv => by
        rw [((hmem' v).1 hv).length_eq, hlen]
      constructor
      · apply List.Nodup.map_on
        · intro v hv w hw h
          exact vecConf_inj v w Lx Ly (hlv v hv) (hlv w hw) h
        · exact hsorted.imp (fun h => ne_of_lt h)
      · intro c
        rw [List.mem_map]
        constructor
        · rintro ⟨v, hv, rfl⟩
          refine ⟨rfl, rfl, vecConf_valid _ _ _, vecConf_bounded _ _ _, fun s => ?_⟩
          rw [vecConf_occ v Lx Ly (hlv v hv), ((hmem' v).1 hv).count_eq, baseVector_count]
        · rintro ⟨h1, h2, h3, h4, h5⟩
          have hv := vecConf_rowMajor c h3 h4
          rw [h1, h2] at hv
          refine ⟨rowMajor c, ?_, hv⟩
          rw [hmem', List.perm_iff_count]
          intro s
          rw [baseVector_count, ← h5 s]
          conv_rhs => rw [← hv]
          rw [vecConf_occ _ _ _ (by rw [length_rowMajor, h1, h2])]

/-- Non-vacuity: two particles in state 0 and two in state 1 on a 2x2 lattice: 6 configurations. -/
example : (NextPerm.permLoop 24 (baseVector [2, 2])).map List.length = some 6 := by decide +kernel

/-! ## C58: binary generator -/

/-- **C58**. On a lattice of fewer than 64 sites the generator returns, without repetition, exactly
the `2^(Lx*Ly)` assignments of 0 or 1 to the sites. -/
theorem C58_binary_configs (Lx Ly : ℕ) (hN : Lx * Ly < 64) :
    ∃ L, generateAllBinaryConfigs Lx Ly = .ok L ∧ L.length = 2 ^ (Lx * Ly) ∧ L.Nodup ∧
      ∀ c : Conf, c ∈ L ↔ (c.rows = Ly ∧ c.cols = Lx ∧ Bounded c ∧
        ∀ p, InLattice Ly Lx p → c.cell p = some 0 ∨ c.cell p = some 1) := by
  have hlen : ∀ i, (bitList (Lx * Ly) i).length = Ly * Lx := fun i => by
    simp [bitList, Nat.mul_comm]
  have hov : ¬ (Ly ≠ 0 ∧ (2 ^ 64 - 1) / Ly < Lx) := by
    rintro ⟨h0, h⟩
    have h1 := (Nat.div_lt_iff_lt_mul (Nat.pos_of_ne_zero h0)).1 h
    omega
  refine ⟨(List.range (2 ^ (Lx * Ly))).map (fun i => vecConf (bitList (Lx * Ly) i) Lx Ly),
    ?_, by simp, ?_, ?_⟩
  · unfold generateAllBinaryConfigs
    rw [if_neg hov]
    simp only
    rw [if_neg (by omega)]
    have := collect_map (List.range (2 ^ (Lx * Ly)))
      (fun i => vec2Config ((List.range (Lx * Ly)).map (fun bit => (i >>> bit) % 2)) Lx Ly)
      (fun i => vecConf (bitList (Lx * Ly) i) Lx Ly)
      (fun i _ => vec2Config_eq _ Lx Ly (hlen i))
    rw [this]
  · apply List.Nodup.map_on
    · intro i hi j hj h
      exact bitList_inj _ i j (List.mem_range.1 hi) (List.mem_range.1 hj)
        (vecConf_inj _ _ Lx Ly (hlen i) (hlen j) h)
    · exact List.nodup_range
  · intro c
    rw [List.mem_map]
    constructor
    · rintro ⟨i, hi, rfl⟩
      refine ⟨rfl, rfl, vecConf_bounded _ _ _, fun p hp => ?_⟩
      rw [vecConf_cell _ _ _ p hp]
      have hi' := idx_lt hp
      rw [Nat.mul_comm Ly] at hi'
      have : (bitList (Lx * Ly) i).getD (p.1 * Lx + p.2) 0 = (i >>> (p.1 * Lx + p.2)) % 2 := by
        simp [bitList, List.getElem?_range hi']
      rw [this]
      rcases Nat.mod_two_eq_zero_or_one (i >>> (p.1 * Lx + p.2)) with h | h <;> rw [h] <;> simp
    · rintro ⟨h1, h2, h3, h4⟩
      have hval : Valid c := by
        intro p hp
        rw [h1, h2] at hp
        rcases h4 p hp with h | h <;> exact ⟨_, h⟩
      have hv := vecConf_rowMajor c hval h3
      rw [h1, h2] at hv
      obtain ⟨i, hi, hbit⟩ := bitList_surj (Lx * Ly) (rowMajor c)
        (by rw [length_rowMajor, h1, h2, Nat.mul_comm]) (by
          intro x hx
          simp only [rowMajor, List.mem_map, List.mem_range] at hx
          obtain ⟨j, hj, rfl⟩ := hx
          rw [h1, h2] at hj
          rw [h2]
          rcases h4 _ (divmod_in hj) with h | h <;> rw [h] <;> simp)
      exact ⟨i, List.mem_range.2 hi, by rw [hbit]; exact hv⟩

/-- **C58**, larger lattices are refused (including those whose site number overflows). -/
theorem C58_too_large_throws (Lx Ly : ℕ) (hN : 64 ≤ Lx * Ly) :
    generateAllBinaryConfigs Lx Ly = .throws := by
  unfold generateAllBinaryConfigs
  split_ifs with h
  · rfl
  · simp only
    rw [if_pos hN]

example : ∃ L, generateAllBinaryConfigs 3 2 = .ok L ∧ L.length = 64 := by
  obtain ⟨L, h1, h2, -⟩ := C58_binary_configs 3 2 (by norm_num)
  exact ⟨L, h1, by simpa using h2⟩

end QLPeps.Configuration
