import Verif.Lemmas.WalkerFrame
import Verif.Props.SolverRun
import Verif.Props.Traversal

/-!
# Structure factor

C127 and C128 of `properties.jsonl`.
-/

namespace QLPeps.Walker

open QLPeps.Contractor

universe u

/-! ## the pairs -/

/-- Every pair of a source and a target in a lower row occurs exactly once among `crossPairs`. -/
theorem crossPairs_complete (rows cols : ℕ) :
    (crossPairs rows cols).Nodup ∧ ∀ s1 s2, (s1, s2) ∈ crossPairs rows cols ↔
      inside rows cols s1 ∧ inside rows cols s2 ∧ s1.1 < s2.1 := by
  constructor
  · unfold crossPairs
    simp only [List.nodup_flatMap]
    refine ⟨fun y1 _ => ⟨fun x1 _ => ⟨fun y2 _ => ?_, ?_⟩, ?_⟩, ?_⟩
    · exact List.Nodup.map (fun a b h => by simpa using h) List.nodup_range
    · refine List.Pairwise.imp ?_ (List.nodup_range' (step := 1) (by omega))
      intro a b hab
      simp only [Function.onFun]
      intro x h1 h2
      simp only [List.mem_map] at h1 h2
      obtain ⟨c1, -, rfl⟩ := h1
      obtain ⟨c2, -, h⟩ := h2
      simp only [Prod.mk.injEq] at h
      exact hab h.2.1.symm
    · refine List.Pairwise.imp ?_ List.nodup_range
      intro a b hab
      simp only [Function.onFun]
      intro x h1 h2
      simp only [List.mem_flatMap, List.mem_map] at h1 h2
      obtain ⟨_, -, c1, -, rfl⟩ := h1
      obtain ⟨_, -, c2, -, h⟩ := h2
      simp only [Prod.mk.injEq] at h
      exact hab h.1.2.symm
    · refine List.Pairwise.imp ?_ List.nodup_range
      intro a b hab
      simp only [Function.onFun]
      intro x h1 h2
      simp only [List.mem_flatMap, List.mem_map] at h1 h2
      obtain ⟨_, -, _, -, c1, -, rfl⟩ := h1
      obtain ⟨_, -, _, -, c2, -, h⟩ := h2
      simp only [Prod.mk.injEq] at h
      exact hab h.1.1.symm
  · rintro ⟨y1, x1⟩ ⟨y2, x2⟩
    simp only [crossPairs, List.mem_flatMap, List.mem_map, List.mem_range, List.mem_range'_1,
      Prod.mk.injEq, inside]
    constructor
    · rintro ⟨a, ha, b, hb, c, hc, d, hd, ⟨rfl, rfl⟩, rfl, rfl⟩
      exact ⟨⟨by omega, by omega⟩, ⟨by omega, by omega⟩, by omega⟩
    · rintro ⟨⟨h1, h2⟩, ⟨h3, h4⟩, h5⟩
      exact ⟨y1, by omega, x1, by omega, y2, by omega, x2, by omega, ⟨rfl, rfl⟩, rfl, rfl⟩

/-! ## C127, C128: the structure factor -/

section
open QLPeps.Tps.Spec (Bond)
open QLPeps.Peps (Tn Lib)
open QLPeps.Bmps (tensorOps tensorOps5 idLib_lossless C99_one_site_trace_exact C99_bond_trace_exact)
open QLPeps.Bmps.Spec (Fits value Lossless)
open QLPeps.SolverRun.Spec (amplitude FitsAll)

variable {𝕜 : Type u} [RCLike 𝕜] {rows cols : ℕ} {lib : Lib 𝕜} {dim : Bond .obc rows cols → ℕ}
  {sitps : Site → ℕ → Tn 𝕜}

theorem flipped_lt (cfg : Config) (hcfg : ∀ s, cfg s < 2) (s1 s2 : Site) (s : Site) :
    flipped cfg s1 s2 s < 2 := by
  have := hcfg s
  simp only [flipped, Updaters.setSite]
  split_ifs <;> omega

/-- without skipped rows, the recorded value is the amplitude -/
theorem recorded_exact (hl : Lossless lib) (hf : FitsAll dim sitps 2) (cfg : Config)
    (hcfg : ∀ s, cfg s < 2) (h : ℕ) (s1 s2 : Site) (h1 : rows ≤ s1.1 + 1 + h) (h2 : inside rows cols s2)
    (h12 : s1.1 < s2.1) :
    recorded (tensorOps lib rows cols) rows cols h sitps cfg s1 s2
      = if acts cfg s1 s2 then amplitude dim sitps (flipped cfg s1 s2) else 0 := by
  have hm : rows - h - (s1.1 + 1) = 0 := by omega
  unfold recorded
  rw [hm]
  have hw : withoutRows s1.1 0 (project sitps (flipped cfg s1 s2)) = project sitps (flipped cfg s1 s2) := by
    funext q; unfold withoutRows; split_ifs <;> rfl
  rw [hw]
  by_cases ha : acts cfg s1 s2
  · rw [if_pos ⟨by omega, ha⟩, if_pos ha]
    exact (C99_one_site_trace_exact hl (hf _ (flipped_lt cfg hcfg s1 s2)) s2.1 s2.2 h2.1 h2.2).1
  · rw [if_neg (fun hh => ha hh.2), if_neg ha]

/-- **C128.** With the boundary MPS from below grown completely beforehand, which the method asks for, and
factorizations that truncate nothing, every pair of sites in different rows is recorded exactly once (see
`crossPairs_complete`), from the upper to the lower site and row by row, with the amplitude of the
configuration in which the upper spin is raised and the lower one lowered, and with zero if this is
impossible. No access is out of range and nothing is thrown, whatever is in the caches (if not out of
date). -/
theorem C128_structure_factor_with_lower_boundaries (hl : Lossless lib) (hf : FitsAll dim sitps 2)
    (hr : 1 ≤ rows) (hc : 1 ≤ cols) (cfg : Config) (hcfg : ∀ s, cfg s < 2)
    (c : Ctr (List (Tn 𝕜)) (Tn 𝕜) (Tn 𝕜))
    (hfr : Fresh (tensorOps lib rows cols) rows cols (project sitps cfg) c) :
    ∃ c', growFullBMPS (tensorOps lib rows cols) rows cols (project sitps cfg) .down c = some c' ∧
      measure (tensorOps lib rows cols) rows cols sitps cfg c'
        = some ((crossPairs rows cols).map fun p => (p.1, p.2,
            if acts cfg p.1 p.2 then amplitude dim sitps (flipped cfg p.1 p.2) else 0)) := by
  obtain ⟨n, hn, h1, h2⟩ := (good_iff_fresh _ _ _ _ _).2 hfr .down
  have e := growFull_fresh (tensorOps lib rows cols) rows cols (project sitps cfg) .down c n hn h1 h2
  refine ⟨_, e, ?_⟩
  have hg := ((good_iff_fresh _ _ _ _ _).2 hfr).setB _ _ _ .down rows hr (le_refl _)
  simp only [span]
  rw [measure_fresh sitps cfg _ ((good_iff_fresh _ _ _ _ _).1 hg) hc]
  congr 1
  refine List.map_congr_left fun p hp => ?_
  obtain ⟨i1, i2, i12⟩ := ((crossPairs_complete rows cols).2 p.1 p.2).1 hp
  rw [setB_same, stack_length]
  rw [recorded_exact hl hf cfg hcfg rows p.1 p.2 (by omega) i2 i12]

/-- **C127, what holds.** After the traversal that precedes it in the measurement of a sample, the method
records every pair of sites in different rows once, but only for targets in the last row anything but zero;
and from the last row but one to the last row the amplitude (not divided by the amplitude of the sample) of
the configuration in which the upper spin is raised and the lower one lowered. -/
theorem C127_structure_factor_after_traversal_partial (hl : Lossless lib) (hf : FitsAll dim sitps 2)
    (hr : 2 ≤ rows) (hc : 2 ≤ cols) (cfg : Config) (hcfg : ∀ s, cfg s < 2)
    (isZero : 𝕜 → Bool) (pl : Plan (Tn 𝕜)) (h5 : pl.links5 = true → 3 ≤ rows)
    (c c' : Ctr (List (Tn 𝕜)) (Tn 𝕜) (Tn 𝕜)) (vs : List (Visit (Tn 𝕜) 𝕜 (Tn 𝕜)))
    (hfr : Fresh (tensorOps lib rows cols) rows cols (project sitps cfg) c)
    (ht : traverseAll (tensorOps5 lib rows cols) rows cols (project sitps cfg) isZero pl c = .ok (vs, c')) :
    ∃ l, measure (tensorOps lib rows cols) rows cols sitps cfg c' = some l ∧
      l.map (fun e => (e.1, e.2.1)) = crossPairs rows cols ∧
      ∀ s1 s2 v, (s1, s2, v) ∈ l →
        (s2.1 + 1 < rows → v = 0) ∧ (¬ acts cfg s1 s2 → v = 0) ∧
        (s1.1 + 2 = rows → acts cfg s1 s2 → v = amplitude dim sitps (flipped cfg s1 s2)) := by
  have hlen := Frame.traverseAll_down (tensorOps5 lib rows cols) rows cols _ isZero pl (by omega) hc c hfr _ ht
  have hfr' : Fresh (tensorOps lib rows cols) rows cols (project sitps cfg) c' := by
    obtain ⟨a1, a2⟩ := C77_traversal_sees_current_amplitudes (tensorOps5 lib rows cols) rows cols _ isZero pl
      hr hc h5 c hfr
    by_cases hz : (pl.rowPsi = true ∧ ∃ row < rows, isZero (bondAmp (tensorOps5 lib rows cols).toOps rows cols
        (project sitps cfg) .horizontal (row, 0) (row, 1)) = true) ∨ ∃ col < cols,
        isZero (bondAmp (tensorOps5 lib rows cols).toOps rows cols
          (project sitps cfg) .vertical (0, col) (1, col)) = true
    · rw [a1 hz] at ht; cases ht
    · obtain ⟨c2, e2, f2⟩ := a2 (fun h => hz (Or.inl h)) (fun h => hz (Or.inr h))
      rw [e2] at ht
      cases ht
      exact f2
  refine ⟨_, measure_fresh sitps cfg c' hfr' (by omega), ?_, ?_⟩
  · rw [List.map_map]; exact List.map_id _
  · simp only at hlen
    intro s1 s2 v hv
    rw [hlen] at hv
    obtain ⟨⟨q1, q2⟩, hq, he⟩ := List.mem_map.1 hv
    obtain ⟨i1, i2, i12⟩ := ((crossPairs_complete rows cols).2 q1 q2).1 hq
    simp only [Prod.mk.injEq] at he
    obtain ⟨rfl, rfl, rfl⟩ := he
    refine ⟨fun h => ?_, fun h => ?_, fun h ha => ?_⟩
    · exact if_neg fun hh => by have := hh.1; omega
    · exact if_neg fun hh => h hh.2
    · rw [recorded_exact hl hf cfg hcfg 1 q1 q2 (by omega) i2 i12, if_pos ha]

/-- a state whose tensors have a single element `2` -/
def twos (_ : Site) (_ : ℕ) : Tn ℝ := ⟨[1, 1, 1, 1], fun _ => 2⟩

theorem twos_fits (d : ℕ) : FitsAll (rows := rows) (cols := cols) (fun _ => 1) twos d :=
  fun _ _ => ⟨fun _ => rfl, fun _ _ => rfl⟩

theorem twos_value : value (rows := rows) (cols := cols) (fun _ => 1) (fun _ => twos (0, 0) 0)
    = 2 ^ (rows * cols) := by
  simp [value, twos, Finset.prod_const, Finset.sum_const, Fintype.card_piFinset]

/-- **C127 fails.** On every lattice of at least three rows and two columns there are a state, all of whose
amplitudes are equal, and a configuration, such that the local estimators of pairs of the first row with the
second and the last are `1`, but what is recorded is `0` and `4 ^ cols`. -/
theorem C127_structure_factor_fails (hr : 3 ≤ rows) (hc : 2 ≤ cols)
    (c : Ctr (List (Tn ℝ)) (Tn ℝ) (Tn ℝ)) :
    let o := tensorOps (QLPeps.Peps.idLib : Lib ℝ) rows cols
    let cfg : Config := fun s => if s.1 = 0 then 0 else 1
    Fresh o rows cols (project twos cfg) c →
    (∀ cfg, amplitude (rows := rows) (cols := cols) (fun _ => 1) twos cfg = 2 ^ (rows * cols)) ∧
    acts cfg (0, 0) (1, 0) ∧ acts cfg (0, 0) (rows - 1, 0) ∧
    ∃ vs c' l, traverseAll (tensorOps5 QLPeps.Peps.idLib rows cols) rows cols (project twos cfg)
        (fun a => decide (a = 0)) ⟨true, false, false, false, false, fun _ => none⟩ c = .ok (vs, c') ∧
      measure o rows cols twos cfg c' = some l ∧
      ((0, 0), (1, 0), 0) ∈ l ∧ ((0, 0), (rows - 1, 0), 4 ^ cols) ∈ l := by
  intro o cfg hfr
  have hcfg : ∀ s, cfg s < 2 := fun s => by simp only [cfg]; split_ifs <;> omega
  have ha : ∀ y, 1 ≤ y → acts cfg (0, 0) (y, 0) := fun y hy => by
    simp only [acts, cfg, if_true, true_and]; exact if_neg (by omega)
  have hbond := C99_bond_trace_exact (idLib_lossless (𝕜 := ℝ)) (twos_fits (rows := rows) (cols := cols) 2 cfg hcfg)
  have hv : value (rows := rows) (cols := cols) (fun _ => 1) (project twos cfg) = 2 ^ (rows * cols) := twos_value
  have hpos : (2 : ℝ) ^ (rows * cols) ≠ 0 := by positivity
  obtain ⟨-, a2⟩ := C77_traversal_sees_current_amplitudes (tensorOps5 (QLPeps.Peps.idLib : Lib ℝ) rows cols) rows
    cols (project twos cfg) (fun a => decide (a = 0)) ⟨true, false, false, false, false, fun _ => none⟩
    (by omega) hc (by simp) c hfr
  obtain ⟨c', e, hf'⟩ := a2
    (by
      rintro ⟨-, row, hrow, hz⟩
      have h1 := (hbond row 0).1 hrow (by omega)
      rw [hv] at h1
      have : bondAmp (tensorOps5 (QLPeps.Peps.idLib : Lib ℝ) rows cols).toOps rows cols (project twos cfg)
        .horizontal (row, 0) (row, 1) = 2 ^ (rows * cols) := h1
      rw [this] at hz
      simp at hz)
    (by
      rintro ⟨col, hcol, hz⟩
      have h1 := (hbond 0 col).2 (by omega) hcol
      rw [hv] at h1
      have : bondAmp (tensorOps5 (QLPeps.Peps.idLib : Lib ℝ) rows cols).toOps rows cols (project twos cfg)
        .vertical (0, col) (1, col) = 2 ^ (rows * cols) := h1
      rw [this] at hz
      simp at hz)
  have hlen := Frame.traverseAll_down (tensorOps5 (QLPeps.Peps.idLib : Lib ℝ) rows cols) rows cols _ _ _ (by omega)
    hc c hfr _ e
  simp only at hlen
  refine ⟨fun cfg => twos_value, ha 1 le_rfl, ha (rows - 1) (by omega), _, c', _, e,
    measure_fresh twos cfg c' hf' (by omega), ?_, ?_⟩
  · refine List.mem_map.2 ⟨((0, 0), (1, 0)), ((crossPairs_complete rows cols).2 _ _).2
      ⟨⟨by simp only; omega, by simp only; omega⟩, ⟨by simp only; omega, by simp only; omega⟩, by simp⟩, ?_⟩
    rw [hlen]
    simp only [Prod.mk.injEq, true_and]
    exact if_neg fun hh => by have := hh.1; simp only at this; omega
  · refine List.mem_map.2 ⟨((0, 0), (rows - 1, 0)), ((crossPairs_complete rows cols).2 _ _).2
      ⟨⟨by simp only; omega, by simp only; omega⟩, ⟨by simp only; omega, by simp only; omega⟩,
        by simp only; omega⟩, ?_⟩
    rw [hlen]
    simp only [Prod.mk.injEq, true_and, recorded]
    rw [if_pos ⟨by omega, ha _ (by omega)⟩, show rows - (rows - 1 - (0 + 1)) = 2 by omega,
      show rows - 1 - (rows - 1 - (0 + 1)) = 1 by omega]
    have h1 := (C99_one_site_trace_exact (rows := 2) (cols := cols) (idLib_lossless (𝕜 := ℝ))
      (twos_fits (rows := 2) (cols := cols) 2 cfg hcfg) 1 0 (by omega) (by omega)).1
    have h2 : value (rows := 2) (cols := cols) (fun _ => 1) (project twos cfg) = 2 ^ (2 * cols) := twos_value
    rw [h2, pow_mul] at h1
    norm_num at h1
    rw [← h1]
    have hw : withoutRows 0 (rows - 1 - (0 + 1)) (project twos (flipped cfg (0, 0) (rows - 1, 0)))
      = project twos cfg := by
      funext q; unfold withoutRows; split_ifs <;> rfl
    rw [hw]
    rfl

/-! ## the hypotheses can be met -/

/-- a contractor right after `Init` -/
noncomputable def initial (rows cols : ℕ) : Ctr (List (Tn ℝ)) (Tn ℝ) (Tn ℝ) :=
  ⟨fun p => [(tensorOps (QLPeps.Peps.idLib : Lib ℝ) rows cols).boundary p], fun _ => [], fun _ => []⟩

theorem initial_fresh (t : Site → Tn ℝ) (hr : 1 ≤ rows) (hc : 1 ≤ cols) :
    Fresh (tensorOps (QLPeps.Peps.idLib : Lib ℝ) rows cols) rows cols t (initial rows cols) := by
  intro p
  refine ⟨le_rfl, by cases p <;> simpa [initial, span], fun k b h => ?_⟩
  rcases k with _ | k
  · simp only [initial, List.getElem?_cons_zero, Option.some.injEq] at h
    subst h; rfl
  · simp [initial] at h

example : ∃ c', growFullBMPS (tensorOps (QLPeps.Peps.idLib : Lib ℝ) 3 4) 3 4
      (project twos (fun s => if s.1 = 0 then 0 else 1)) .down (initial 3 4) = some c' ∧
    ∃ l, measure (tensorOps (QLPeps.Peps.idLib : Lib ℝ) 3 4) 3 4 twos (fun s => if s.1 = 0 then 0 else 1) c'
        = some l ∧ ((0, 1), (1, 2), 2 ^ (3 * 4)) ∈ l := by
  obtain ⟨c', e1, e2⟩ := C128_structure_factor_with_lower_boundaries (rows := 3) (cols := 4)
    (dim := fun _ => 1) (sitps := twos) (idLib_lossless (𝕜 := ℝ)) (twos_fits 2) (by omega) (by omega)
    (fun s => if s.1 = 0 then 0 else 1) (fun s => by split_ifs <;> omega) (initial 3 4)
    (initial_fresh _ (by omega) (by omega))
  refine ⟨c', e1, _, e2, List.mem_map.2 ⟨((0, 1), (1, 2)), by decide, ?_⟩⟩
  simp only [Prod.mk.injEq, true_and]
  rw [if_pos (by decide)]
  exact twos_value

example : ∃ vs c' l, traverseAll (tensorOps5 (QLPeps.Peps.idLib : Lib ℝ) 3 2) 3 2
      (project twos (fun s => if s.1 = 0 then 0 else 1)) (fun a => decide (a = 0))
      ⟨true, false, false, false, false, fun _ => none⟩ (initial 3 2) = .ok (vs, c') ∧
    measure (tensorOps (QLPeps.Peps.idLib : Lib ℝ) 3 2) 3 2 twos (fun s => if s.1 = 0 then 0 else 1) c'
      = some l ∧ ((0, 0), (1, 0), 0) ∈ l ∧ ((0, 0), (2, 0), 16) ∈ l := by
  obtain ⟨-, -, -, vs, c', l, e1, e2, h1, h2⟩ := C127_structure_factor_fails (rows := 3) (cols := 2) (by omega)
    (by omega) (initial 3 2) (initial_fresh _ (by omega) (by omega))
  refine ⟨vs, c', l, e1, e2, h1, ?_⟩
  norm_num at h2
  exact h2

example (vs) (c') (h : traverseAll (tensorOps5 (QLPeps.Peps.idLib : Lib ℝ) 3 2) 3 2
      (project twos (fun s => if s.1 = 0 then 0 else 1)) (fun a => decide (a = 0))
      ⟨true, false, false, false, false, fun _ => none⟩ (initial 3 2) = .ok (vs, c')) :
    ∃ l, measure (tensorOps (QLPeps.Peps.idLib : Lib ℝ) 3 2) 3 2 twos (fun s => if s.1 = 0 then 0 else 1) c'
      = some l ∧ l.length = 12 := by
  obtain ⟨l, e, hl, -⟩ := C127_structure_factor_after_traversal_partial (rows := 3) (cols := 2)
    (dim := fun _ => 1) (sitps := twos) (idLib_lossless (𝕜 := ℝ)) (twos_fits 2) (by omega) (by omega)
    (fun s => if s.1 = 0 then 0 else 1) (fun s => by split_ifs <;> omega) _ _ (by simp) (initial 3 2) c' vs
    (initial_fresh _ (by omega) (by omega)) h
  exact ⟨l, e, by
    have := congrArg List.length hl
    rw [List.length_map] at this
    rw [this]; decide⟩

end

end QLPeps.Walker
