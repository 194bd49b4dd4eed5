import Verif.Lemmas.TrgRun

/-!
# Properties C108 and C109: the TRG contractor
-/

namespace QLPeps.Trg

open Spec

variable {T P I A : Type}

/-- **C108.** `Init` accepts exactly the periodic square networks of side `2 ^ k` or `3 * 2 ^ k`, whatever the
contractor was used for before; every other network ends in `std::invalid_argument`. In particular the internal
consistency checks never fire. -/
theorem C108_init (g : Trg T P I) (tn : Net T) :
    ((init g tn).2 = .ok () ↔ tn.periodic = true ∧ tn.rows = tn.cols ∧ ∃ k, tn.cols = 2 ^ k ∨ tn.cols = 3 * 2 ^ k) ∧
    ((init g tn).2 ≠ .ok () → (init g tn).2 = .error .invalid) := by
  by_cases hn : OkNet tn
  · obtain ⟨f, r, -, -, -, e⟩ := init_ok hn g
    rw [e]
    exact ⟨⟨fun _ => ⟨hn.periodic, hn.square, hn.size⟩, fun _ => rfl⟩, fun h => absurd rfl h⟩
  · have hbad : (init g tn).2 = .error .invalid := by
      unfold init
      dsimp only
      by_cases h1 : (!tn.periodic) = true
      · rw [if_pos h1]
      · rw [if_neg h1]
        by_cases h2 : tn.rows ≠ tn.cols
        · rw [if_pos h2]
        · rw [if_neg h2]
          have h3 : (!isPow2 tn.rows && !(tn.rows % 3 == 0 && isPow2 (tn.rows / 3))) = true := by
            rw [not_not] at h2
            have : ¬ Supported tn.cols := fun h => hn ⟨by simpa using h1, h2, h⟩
            rw [supported_iff, ← h2] at this
            simpa [Bool.or_eq_true, imp_iff_not_or] using this
          rw [if_pos h3]
    rw [hbad]
    refine ⟨⟨fun h => by simp at h, ?_⟩, fun _ => rfl⟩
    rintro ⟨h1, h2, h3⟩
    exact absurd ⟨h1, h2, h3⟩ hn

example : (init (blank 0 0 : Trg ℤ ℤ Unit) ⟨12, 12, true, fun _ _ => 0⟩).2 = .ok () :=
  (C108_init _ _).1.2 ⟨rfl, rfl, 2, Or.inr rfl⟩

example : (init (blank 0 0 : Trg ℤ ℤ Unit) ⟨5, 5, true, fun _ _ => 0⟩).2 = .error .invalid := by
  refine (C108_init _ _).2 fun h => ?_
  obtain ⟨-, -, k, h | h⟩ := (C108_init _ _).1.1 h
  · rcases k with _ | k
    · simp at h
    · dsimp only at h; omega
  · dsimp only at h; omega

/-- **C109.** After `Init` and `Trace`, on a contractor with any past, every amplitude that trials, evaluations and
further calls of `Trace` return is the amplitude a new contractor computes from scratch for the network asked
for, whatever trials were committed or dropped before, and no call fails. The splitting of a tensor may truncate in
any way. -/
theorem C109_history (o : Ops T P I A) (g : Trg T P I) (hp : g.hasParams = true) (tn : Net T)
    (hper : tn.periodic = true) (hsq : tn.rows = tn.cols) (hsup : Supported tn.cols)
    (cs : List (Call T)) (hc : ∀ c ∈ cs, c.InRange tn.rows tn.cols) :
    (init g tn).2 = .ok () ∧
    ∃ g' a as, trace o (init g tn).1 tn = .ok (g', a) ∧ fresh o tn = .ok a ∧
      run o g' tn cs = .ok as ∧ (asked tn cs).map (fresh o) = as.map .ok := by
  have hn : OkNet tn := ⟨hper, hsq, hsup⟩
  refine ⟨(C108_init g tn).1.2 ⟨hper, hsq, hsup⟩, ?_⟩
  obtain ⟨g', e, hg'⟩ := trace_ok o hn g hp
  refine ⟨g', _, _, e, fresh_ok o hn, run_ok o cs hn hg' hc, ?_⟩
  rw [List.map_map]
  refine List.map_congr_left fun tn' h => ?_
  have : OkNet tn' := by
    clear hc e hg' hper hsq hsup
    induction cs generalizing tn with
    | nil => simp [asked] at h
    | cons c cs ih =>
      rcases c with ⟨reps, acc⟩ | reps | _
      · rcases List.mem_cons.1 h with rfl | h
        · exact hn.sets reps
        · cases acc
          · exact ih tn hn h
          · exact ih _ (hn.sets reps) h
      · rcases List.mem_cons.1 h with rfl | h
        · exact hn.sets reps
        · exact ih tn hn h
      · rcases List.mem_cons.1 h with rfl | h
        · exact hn
        · exact ih tn hn h
  exact fresh_ok o this

/-- a toy instance: tensors are integers, splitting loses the last digit -/
def toyOps : Ops ℤ ℤ Unit ℤ where
  split b t := (if b then t / 10 else t / 10 + 1, t / 10)
  iso _ _ := ()
  plaq a b c d := a + 2 * b + 3 * c + 4 * d
  diam a b c d := a * b + c * d
  zero := 0
  fin1 t := t
  fin2 a b c d := a * d + b * c
  fin3 a b c _ _ _ _ _ _ := a + b * c

example : ∃ as, (∃ g' a, trace toyOps (init (blank 1 1) ⟨8, 8, true, fun r c => (r : ℤ) * 17 + c⟩).1
      ⟨8, 8, true, fun r c => (r : ℤ) * 17 + c⟩ = .ok (g', a) ∧
    run toyOps g' ⟨8, 8, true, fun r c => (r : ℤ) * 17 + c⟩
      [.trial [((0, 0), 99), ((7, 0), -5)] true, .evaluate [((3, 4), 1000)], .trial [((0, 0), 3)] false, .trace] =
      .ok as) ∧ as.length = 4 := by
  obtain ⟨-, g', a, as, h1, -, h2, h3⟩ := C109_history toyOps (blank 1 1) rfl
    ⟨8, 8, true, fun r c => (r : ℤ) * 17 + c⟩ rfl rfl ⟨3, Or.inl rfl⟩
    [.trial [((0, 0), 99), ((7, 0), -5)] true, .evaluate [((3, 4), 1000)], .trial [((0, 0), 3)] false, .trace]
    (by
      intro c hc
      simp only [List.mem_cons, List.not_mem_nil, or_false] at hc
      rcases hc with rfl | rfl | rfl | rfl
      · intro x hx
        simp only [List.mem_cons, List.not_mem_nil, or_false] at hx
        rcases hx with rfl | rfl <;> decide
      · intro x hx
        simp only [List.mem_cons, List.not_mem_nil, or_false] at hx
        subst hx; decide
      · intro x hx
        simp only [List.mem_cons, List.not_mem_nil, or_false] at hx
        subst hx; decide
      · trivial)
  refine ⟨as, ⟨g', a, h1, h2⟩, ?_⟩
  have := congrArg List.length h3
  rw [List.length_map, List.length_map] at this
  rw [← this]; rfl

/-- **C109** (refuted part). The documentation offers `ClearCache()` followed by `Trace(tn)` to reload a changed
network. `ClearCache` also drops the geometry, so that `Trace` writes into an empty vector: undefined behaviour, for
every contractor that had been initialised. -/
theorem C109_clear_then_trace_undefined (o : Ops T P I A) (g : Trg T P I) (hp : g.hasParams = true) (tn tn' : Net T)
    (hper : tn.periodic = true) (hsq : tn.rows = tn.cols) (hsup : Supported tn.cols) (hper' : tn'.periodic = true) :
    trace o (clearCache (init g tn).1) tn' = .error .ub := by
  obtain ⟨f, r, -, -, -, e⟩ := init_ok (⟨hper, hsq, hsup⟩ : OkNet tn) g
  rw [e]
  unfold clearCache trace
  dsimp only
  rw [if_neg (by simp), if_neg (by rw [hper']; simp), if_neg (by rw [hp]; simp), if_neg (by simp)]

/-- **C109** (limits). With the caches filled, `Trace` returns the amplitude of the network they were filled for,
whatever periodic network it is given. -/
theorem C109_trace_ignores_network (o : Ops T P I A) (g : Trg T P I) (hp : g.hasParams = true) (tn tn' : Net T)
    (hper : tn.periodic = true) (hsq : tn.rows = tn.cols) (hsup : Supported tn.cols) (hper' : tn'.periodic = true) :
    ∃ g' a, trace o (init g tn).1 tn = .ok (g', a) ∧ fresh o tn = .ok a ∧ trace o g' tn' = .ok (g', a) := by
  have hn : OkNet tn := ⟨hper, hsq, hsup⟩
  obtain ⟨g', e, hg'⟩ := trace_ok o hn g hp
  refine ⟨g', _, e, fresh_ok o hn, ?_⟩
  have := Holds.trace o hn hg'
  unfold trace at this ⊢
  rw [if_neg (by rw [hg'.periodic]; simp), if_neg (by rw [hper]; simp), if_neg (by rw [hg'.params]; simp),
    if_pos hg'.ready] at this
  rw [if_neg (by rw [hg'.periodic]; simp), if_neg (by rw [hper']; simp), if_neg (by rw [hg'.params]; simp),
    if_pos hg'.ready]
  exact this

/-- **C109** (limits). An `Init` that throws on a periodic network leaves the old caches in use: the next `Trace` of the
rejected network does not fail but returns the amplitude of the old one. -/
theorem C109_failed_init_keeps_old (o : Ops T P I A) (g : Trg T P I) (hp : g.hasParams = true) (tn tn' : Net T)
    (hper : tn.periodic = true) (hsq : tn.rows = tn.cols) (hsup : Supported tn.cols) (hper' : tn'.periodic = true)
    (hbad : tn'.rows ≠ tn'.cols) :
    ∃ g' a, trace o (init g tn).1 tn = .ok (g', a) ∧ fresh o tn = .ok a ∧
      (init g' tn').2 = .error .invalid ∧ (trace o (init g' tn').1 tn').map Prod.snd = .ok a := by
  obtain ⟨g', a, e, e', e''⟩ := C109_trace_ignores_network o g hp tn tn' hper hsq hsup hper'
  have hn : OkNet tn := ⟨hper, hsq, hsup⟩
  have hi : init g' tn' = ({ g' with periodic := true, rows := tn'.rows, cols := tn'.cols }, .error .invalid) := by
    unfold init
    dsimp only
    rw [hper', if_neg (by simp), if_pos hbad]
  refine ⟨g', a, e, e', by rw [hi], ?_⟩
  rw [hi]
  obtain ⟨g'', e2, hg'⟩ := trace_ok o hn g hp
  rw [e, Except.ok.injEq, Prod.mk.injEq] at e2
  obtain ⟨rfl, rfl⟩ := e2
  unfold trace at e'' ⊢
  rw [if_neg (by rw [hg'.periodic]; simp), if_neg (by rw [hper']; simp), if_neg (by rw [hg'.params]; simp),
    if_pos hg'.ready] at e''
  dsimp only
  rw [if_neg (by simp), if_neg (by rw [hper']; simp), if_neg (by rw [hg'.params]; simp),
    if_pos hg'.ready]
  rcases hf : finalAmp o g'.scales [] with e3 | a'
  · rw [hf] at e''; simp at e''
  · rw [hf] at e''
    dsimp only at e'' ⊢
    rw [Except.ok.injEq, Prod.mk.injEq] at e''
    rw [← e''.2]
    rfl

end QLPeps.Trg
