import Verif.Lemmas.Replica
import Mathlib.Algebra.Order.BigOperators.Group.Finset

/-!
# Properties C137 and C138: the replica test

`start E w` is the beginning of the loop of `ReplicaTest` on `n + 1` processes with the engines `w`; a run
is a sequence of `Move`s, in any order allowed by MPI and with any messages buffered (`buf`).
-/

namespace QLPeps.Replica

open QLPeps.Configuration QLPeps.Spec Relation

variable {Ω : Type*} {n : ℕ}

/-- **C137** After the synchronization all processes hold the configuration of the master, whose engine
is unchanged. -/
theorem C137_synchronized (E : Env Ω) (hE : Sound E)
    (hb : ∀ x c, Valid c → c.rows = E.rows → c.cols = E.cols → SameAs (E.conf (E.rebuild x c)) c)
    (engs : Fin (n + 1) → Ω) :
    ∃ w : Fin (n + 1) → Ω, (∀ i, synchronize E engs i = some (w i)) ∧ w 0 = engs 0 ∧
      ∀ i, SameAs (E.conf (w i)) (E.conf (engs 0)) := by
  have key : ∀ i, ∃ x, synchronize E engs i = some x ∧ (i = 0 → x = engs 0) ∧
      SameAs (E.conf x) (E.conf (engs 0)) := by
    intro i
    obtain ⟨msg, c, h, -, hu, hs⟩ := C18_transfer (E.conf (engs 0)) (E.conf (engs i)) (hE.valid _)
      (by rw [hE.rows, hE.rows]) (by rw [hE.cols, hE.cols])
    unfold synchronize
    rw [h, Option.bind_some]
    by_cases hi : i = 0
    · rw [if_pos hi]
      exact ⟨_, rfl, fun _ => rfl, rfl, rfl, fun _ _ => rfl⟩
    · rw [if_neg hi, hu]
      have hv : Valid c := by
        intro p hp
        have hp' : InLattice (E.conf (engs 0)).rows (E.conf (engs 0)).cols p := by
          rw [← hs.1, ← hs.2.1]; exact hp
        rw [hs.2.2 p hp]
        exact hE.valid _ p hp'
      obtain ⟨a1, a2, a3⟩ := hb (engs i) c hv (by rw [hs.1, hE.rows]) (by rw [hs.2.1, hE.cols])
      refine ⟨_, rfl, fun h => absurd h hi, a1.trans hs.1, a2.trans hs.2.1, fun p hp => ?_⟩
      rw [a3 p hp]
      exact hs.2.2 p (by rw [← a1, ← a2]; exact hp)
  choose w h1 h2 h3 using key
  exact ⟨w, h1, h2 0 rfl, h3⟩

/-- **C137** When all processes have returned, the file of process `i` holds, for every sweep, the
overlap of its configuration after this sweep with that of the process before it in the ring after its
sweep of the same number; the dumped configuration is the last one. -/
theorem C137_overlaps (E : Env Ω) (hE : Sound E) (w : Fin (n + 1) → Ω) (buf : Fin (n + 1) → ℕ → Bool)
    (s : Sys Ω n) (hs : ReflTransGen (Move E buf) (start E w) s) (hd : s.done) (i : Fin (n + 1)) :
    (s.ranks i).file = some ((List.range E.samples).map (overlapAt E w i)) ∧
      (s.ranks i).dumped = (if E.dump then some (confAt E (w i) E.samples) else none) := by
  have h := (inv_reach hE hs).ranks i
  obtain ⟨h1, h2⟩ := h.file (hd i)
  have ho := h.overlaps
  have he := h.eng
  rw [hd i] at ho he
  rw [h1, h2, ho, he]
  exact ⟨rfl, rfl⟩

/-- **C137** At any time the overlaps a process has collected are the first ones of this list: no process
ever reads a configuration of another sweep. -/
theorem C137_overlaps_so_far (E : Env Ω) (hE : Sound E) (w : Fin (n + 1) → Ω)
    (buf : Fin (n + 1) → ℕ → Bool) (s : Sys Ω n) (hs : ReflTransGen (Move E buf) (start E w) s)
    (i : Fin (n + 1)) :
    ∃ d, (s.ranks i).overlaps = (List.range d).map (overlapAt E w i) :=
  ⟨_, ((inv_reach hE hs).ranks i).overlaps⟩

/-- **C138** (partial: not for one to nine samples, see `C138_few_samples_crash`) With ten samples or more,
or none, no process ever fails and some process can go on until
all have returned, even if MPI buffers nothing. -/
theorem C138_progress_partial (E : Env Ω) (hE : Sound E) (hn : 10 ≤ E.samples ∨ E.samples = 0)
    (w : Fin (n + 1) → Ω) (buf : Fin (n + 1) → ℕ → Bool) (s : Sys Ω n)
    (hs : ReflTransGen (Move E buf) (start E w) s) :
    (∀ i k, (s.ranks i).stage ≠ .crashed k) ∧ (s.done ∨ ∃ t, Move E buf s t) := by
  have h := inv_reach hE hs
  have hc : ∀ i k, (s.ranks i).stage ≠ .crashed k := by
    intro i k hst
    have := (h.ranks i).stage
    rw [hst] at this
    obtain ⟨h1, -, h2⟩ := this
    omega
  exact ⟨hc, progress buf h hc⟩

/-- **C138** refuted for few samples: with one to nine samples the test never finishes; the master divides
by zero, and no run ends otherwise. -/
theorem C138_few_samples_crash (E : Env Ω) (hE : Sound E) (hn : 0 < E.samples ∧ E.samples < 10)
    (w : Fin (n + 1) → Ω) (buf : Fin (n + 1) → ℕ → Bool) (s : Sys Ω n)
    (hs : ReflTransGen (Move E buf) (start E w) s) :
    ¬ s.done ∧ ((∀ t, ¬ Move E buf s t) → ∃ k, (s.ranks 0).stage = .crashed k) := by
  have h := inv_reach hE hs
  have hnd : ¬ s.done := by
    intro hd
    exact (h.ranks 0).live (by omega) (Or.inr (hd 0)) rfl (by omega)
  refine ⟨hnd, fun hno => ?_⟩
  by_contra hc
  push Not at hc
  have hc' : ∀ i k, (s.ranks i).stage ≠ .crashed k := by
    intro i k hst
    have := (h.ranks i).stage
    rw [hst] at this
    obtain ⟨-, rfl, -⟩ := this
    exact hc k hst
  rcases progress buf h hc' with hd | ⟨t, ht⟩
  · exact hnd hd
  · exact hno t ht

/-- how far a process is -/
def weight (S : ℕ) (st : Stage) : ℕ :=
  (cnt S st).p + (cnt S st).c + (cnt S st).d + match st with
    | .fin => 1
    | _ => 0

theorem weight_update {S : ℕ} (f : Fin (n + 1) → Rank Ω) (i : Fin (n + 1)) (r : Rank Ω)
    (h : weight S (f i).stage < weight S r.stage) :
    ∑ j, weight S (f j).stage < ∑ j, weight S (Function.update f i r j).stage := by
  refine Finset.sum_lt_sum (fun j _ => ?_) ⟨i, Finset.mem_univ _, ?_⟩
  · by_cases hj : j = i
    · subst hj; rw [Function.update_self]; exact h.le
    · rw [Function.update_of_ne hj]
  · rw [Function.update_self]; exact h

theorem weight_move {E : Env Ω} (hE : Sound E) {w : Fin (n + 1) → Ω} {buf : Fin (n + 1) → ℕ → Bool}
    {s t : Sys Ω n} (h : Inv E w s) (hm : Move E buf s t) :
    ∑ j, weight E.samples (s.ranks j).stage < ∑ j, weight E.samples (t.ranks j).stage := by
  cases hm with
  | post i k hs =>
    unfold post
    dsimp only
    split
    · refine weight_update _ _ _ ?_
      rw [hs]; simp only [weight, cnt]; omega
    · refine weight_update _ _ _ ?_
      rw [hs]; simp only [weight, cnt]; omega
  | receive i k msg rest hs hm =>
    refine weight_update _ _ _ ?_
    rw [hs]; simp only [weight, cnt]; omega
  | conclude i k msg hs hd =>
    refine weight_update _ _ _ ?_
    have hk : k < E.samples := by
      have := (h.ranks i).stage; rw [hs] at this; exact this.1
    rw [hs]
    unfold conclude
    split
    · simp [weight, cnt]
    · dsimp only
      split
      · simp [weight, cnt]
      · unfold enter
        dsimp only
        split
        · simp [weight, cnt]
        · simp [weight, cnt]; omega
  | barrier hs =>
    refine Finset.sum_lt_sum (fun j _ => ?_) ⟨0, Finset.mem_univ _, ?_⟩
    · rw [hs j]; simp [weight, cnt, write]
    · rw [hs 0]; simp [weight, cnt, write]

theorem weight_le {E : Env Ω} {w : Fin (n + 1) → Ω} {s : Sys Ω n} (h : Inv E w s) :
    ∑ j, weight E.samples (s.ranks j).stage ≤ (n + 1) * (3 * E.samples + 1) := by
  have : ∀ j ∈ (Finset.univ : Finset (Fin (n + 1))),
      weight E.samples (s.ranks j).stage ≤ 3 * E.samples + 1 := by
    intro j _
    have hj := (h.ranks j).stage
    match hst : (s.ranks j).stage with
    | .sweep k => rw [hst] at hj; simp only [StageOk] at hj; simp [weight, cnt]; omega
    | .wait k none => rw [hst] at hj; simp only [StageOk] at hj; simp [weight, cnt]; omega
    | .wait k (some m) => rw [hst] at hj; have := hj.1; simp [weight, cnt]; omega
    | .dirs => simp [weight, cnt]; omega
    | .fin => simp [weight, cnt]; omega
    | .crashed k => rw [hst] at hj; have := hj.1; simp [weight, cnt]; omega
  calc _ ≤ ∑ _j : Fin (n + 1), (3 * E.samples + 1) := Finset.sum_le_sum this
    _ = _ := by simp

/-- **C138** Every run ends: it has at most `(n + 1) * (3 * samples + 1)` moves. -/
theorem C138_terminates (E : Env Ω) (hE : Sound E) (w : Fin (n + 1) → Ω)
    (buf : Fin (n + 1) → ℕ → Bool) (k : ℕ) (s : Sys Ω n)
    (hp : Measurer.Path (Move E buf) k (start E w) s) : k ≤ (n + 1) * (3 * E.samples + 1) := by
  suffices ∀ k s, Measurer.Path (Move E buf) k (start E w) s →
      Inv E w s ∧ k ≤ ∑ j, weight E.samples (s.ranks j).stage from
    (this k s hp).2.trans (weight_le (this k s hp).1)
  intro k
  induction k with
  | zero =>
    intro s hp
    cases hp
    exact ⟨inv_start E w, Nat.zero_le _⟩
  | succ k ih =>
    intro s hp
    cases hp with
    | snoc h1 hm =>
      obtain ⟨hi, hk⟩ := ih _ h1
      exact ⟨inv_move hE hi hm, lt_of_le_of_lt hk (weight_move hE hi hm)⟩

theorem accumAt_eq (E : Env Ω) (w : Ω) (m : ℕ) (hl : ∀ x, (E.sweep x).2.length = m) (k : ℕ) :
    accumAt E w (k + 1)
      = (List.range m).map fun c => ∑ l ∈ Finset.range (k + 1), (ratesAt E w l).getD c 0 := by
  induction k with
  | zero =>
    rw [accumAt, Measurer.accumulate, if_pos rfl]
    refine List.ext_getElem (by simp [ratesAt, hl]) fun c h1 h2 => ?_
    simp [List.getElem?_eq_getElem h1]
  | succ k ih =>
    rw [accumAt, Measurer.accumulate, if_neg (by omega), ih]
    refine List.ext_getElem (by simp [ratesAt, hl]) fun c h1 h2 => ?_
    have h3 : c < (ratesAt E w (k + 1)).length := by
      rw [ratesAt, hl]; simpa using h2
    rw [List.getElem_zipWith, List.getElem_map, List.getElem_map, List.getElem_range,
      Finset.sum_range_succ _ (k + 1), List.getD_eq_getElem _ _ h3]

/-- **C137** The progress reports of the master: after every tenth of the samples, the average
acceptance rates of its sweeps so far. The other processes print none. -/
theorem C137_reports (E : Env Ω) (hE : Sound E) (w : Fin (n + 1) → Ω) (m : ℕ)
    (hl : ∀ x, (E.sweep x).2.length = m) (buf : Fin (n + 1) → ℕ → Bool)
    (s : Sys Ω n) (hs : ReflTransGen (Move E buf) (start E w) s) (hd : s.done) (i : Fin (n + 1)) :
    (s.ranks i).bars = if i = 0 then
        ((List.range' 1 E.samples).filter fun j => j % (E.samples / 10) = 0).map fun j =>
          (j, (List.range m).map (meanRate E (w 0) j))
      else [] := by
  have h := ((inv_reach hE hs).ranks i).bars (by rw [hd i]; intro _ h; cases h)
  rw [hd i] at h
  rw [h]
  have : (cnt E.samples Stage.fin).d = E.samples := rfl
  rw [this]
  have key : ∀ k, barsAt E (isMaster i) (w i) k = if i = 0 then
        ((List.range' 1 k).filter fun j => j % (E.samples / 10) = 0).map fun j =>
          (j, (List.range m).map (meanRate E (w 0) j))
      else [] := by
    intro k
    induction k with
    | zero => simp [barsAt]
    | succ k ih =>
      rw [barsAt, ih]
      by_cases hi : i = 0
      · subst hi
        rw [if_pos rfl, if_pos rfl, List.range'_concat, List.filter_append, List.map_append]
        congr 1
        have e : 1 + 1 * k = k + 1 := by omega
        rw [e, accumAt_eq E _ m hl, List.map_map]
        by_cases hk : (k + 1) % (E.samples / 10) = 0
        · rw [if_pos ⟨rfl, hk⟩]
          simp [hk, meanRate, Function.comp_def]
        · rw [if_neg (fun h => hk h.2)]
          simp [hk]
      · rw [if_neg hi, if_neg hi, if_neg (by simp [isMaster, hi])]
        rfl
  exact key _

/-- **C138** (partial: not for one to nine samples) With ten samples or more, or none, the test can be
carried through whatever MPI buffers. -/
theorem C138_finishes_partial (E : Env Ω) (hE : Sound E) (hn : 10 ≤ E.samples ∨ E.samples = 0)
    (w : Fin (n + 1) → Ω) (buf : Fin (n + 1) → ℕ → Bool) :
    ∃ s, ReflTransGen (Move E buf) (start E w) s ∧ s.done := by
  suffices ∀ d s, ReflTransGen (Move E buf) (start E w) s →
      (n + 1) * (3 * E.samples + 1) - ∑ j, weight E.samples (s.ranks j).stage ≤ d →
      ∃ t, ReflTransGen (Move E buf) (start E w) t ∧ t.done from
    this _ _ ReflTransGen.refl le_rfl
  intro d
  induction d with
  | zero =>
    intro s hs hd
    rcases (C138_progress_partial E hE hn w buf s hs).2 with h | ⟨t, ht⟩
    · exact ⟨s, hs, h⟩
    · exfalso
      have h1 := weight_move hE (inv_reach hE hs) ht
      have h2 := weight_le (inv_reach hE (hs.tail ht))
      omega
  | succ d ih =>
    intro s hs hd
    rcases (C138_progress_partial E hE hn w buf s hs).2 with h | ⟨t, ht⟩
    · exact ⟨s, hs, h⟩
    · refine ih t (hs.tail ht) ?_
      have h1 := weight_move hE (inv_reach hE hs) ht
      omega

/-! ## A case that meets the hypotheses -/

/-- two sites; a sweep moves on by one: the engine is a counter and the configuration its parity -/
noncomputable def parity (S : ℕ) : Env ℕ where
  samples := S
  rows := 1
  cols := 2
  sweep := fun x => (x + 1, [1 / 2, 1])
  conf := fun x => ⟨1, 2, fun p => some ((x + p.2) % 2)⟩
  rebuild := fun x _ => x
  overlap := fun c d => ((c.cell (0, 0)).getD 0 : ℝ)
    + 2 * ((if 0 < d.rows ∧ 0 < d.cols then d.cell (0, 0) else none).getD 0 : ℝ)
  dump := true

theorem parity_sound (S : ℕ) : Sound (parity S) where
  valid := fun x p _ => ⟨_, rfl⟩
  rows := fun _ => rfl
  cols := fun _ => rfl
  overlap := by
    rintro c d d' ⟨h1, h2, h3⟩
    simp only [parity]
    rw [← h1, ← h2]
    by_cases h : 0 < d.rows ∧ 0 < d.cols
    · rw [if_pos h, if_pos h, h3 (0, 0) ⟨h.1, h.2⟩]
    · rw [if_neg h, if_neg h]

theorem parity_engAt (S x k : ℕ) : engAt (parity S) x k = x + k := by
  induction k with
  | zero => rfl
  | succ k ih => rw [engAt_succ, ih]; rfl

/-- three processes with 20 samples and nothing buffered: the test ends, and the file of process 0 compares
it with process 2 (the weight 2 tells which configuration was received) -/
example : ∃ s : Sys ℕ 2, ReflTransGen (Move (parity 20) fun _ _ => false)
      (start (parity 20) fun i => 2 - i.val) s ∧ s.done ∧
    (s.ranks 1).file = some ((List.range 20).map fun k => if k % 2 = 0 then 2 else 1) := by
  obtain ⟨s, hs, hd⟩ := C138_finishes_partial (parity 20) (parity_sound 20) (Or.inl (by decide))
    (fun i : Fin 3 => 2 - i.val) fun _ _ => false
  refine ⟨s, hs, hd, ?_⟩
  rw [(C137_overlaps _ (parity_sound 20) _ _ s hs hd 1).1]
  congr 1
  refine List.map_congr_left fun k _ => ?_
  simp only [overlapAt, confAt, parity_engAt]
  rcases Nat.mod_two_eq_zero_or_one k with h | h
  · rw [if_pos h]
    have e1 : (1 + (k + 1)) % 2 = 0 := by omega
    have e2 : (k + 1) % 2 = 1 := by omega
    simp [parity, e1, e2]
  · rw [if_neg (by omega)]
    have e1 : (1 + (k + 1)) % 2 = 1 := by omega
    have e2 : (k + 1) % 2 = 0 := by omega
    simp [parity, e1, e2]

/-- with 9 samples no run ends -/
example (s : Sys ℕ 2) (hs : ReflTransGen (Move (parity 9) fun _ _ => true)
    (start (parity 9) fun i => i.val) s) : ¬ s.done :=
  (C138_few_samples_crash (parity 9) (parity_sound 9) (by decide) _ _ s hs).1

/-- the engine is a configuration of one site -/
noncomputable def oneSite : Env ℕ where
  samples := 10
  rows := 1
  cols := 1
  sweep := fun x => (x + 1, [])
  conf := fun x => ⟨1, 1, fun _ => some x⟩
  rebuild := fun _ c => (c.cell (0, 0)).getD 0
  overlap := fun _ _ => 0
  dump := false

/-- the synchronization gives the configuration of process 0 to all three processes -/
example : ∃ w : Fin 3 → ℕ, (∀ i, synchronize oneSite (fun i => i.val + 5) i = some (w i)) ∧
    w 0 = 5 ∧ ∀ i, SameAs (oneSite.conf (w i)) (oneSite.conf 5) :=
  C137_synchronized oneSite ⟨fun _ _ _ => ⟨_, rfl⟩, fun _ => rfl, fun _ => rfl, fun _ _ _ _ => rfl⟩
    (by
      intro x c hv h1 h2
      refine ⟨h1.symm, h2.symm, fun p hp => ?_⟩
      obtain ⟨h3, h4⟩ : p.1 < 1 ∧ p.2 < 1 := hp
      have hp0 : p = (0, 0) := Prod.ext (by omega) (by omega)
      subst hp0
      have h1 : c.rows = 1 := h1
      have h2 : c.cols = 1 := h2
      obtain ⟨v, hv⟩ := hv (0, 0) (by rw [h1, h2]; exact ⟨Nat.one_pos, Nat.one_pos⟩)
      simp [oneSite, hv])
    _

end QLPeps.Replica
