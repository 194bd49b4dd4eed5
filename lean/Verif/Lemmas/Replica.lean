import Verif.Spec.Replica
import Verif.Props.Configuration
import Mathlib.Data.List.GetD

/-!
# Invariant of the replica test
-/

namespace QLPeps.Replica

open QLPeps.Configuration Relation

variable {Ω : Type*} {n : ℕ}

theorem dest_eq (i : Fin (n + 1)) : dest i = i + 1 := by
  apply Fin.ext
  simp [dest, Fin.val_add]

theorem source_eq (i : Fin (n + 1)) : source i = i - 1 := by
  apply eq_sub_of_add_eq
  apply Fin.ext
  have hi := i.isLt
  rw [Fin.val_add]
  simp only [source]
  rcases Nat.eq_zero_or_pos n with rfl | hn
  · omega
  have h1 : ((1 : Fin (n + 1)) : ℕ) = 1 := by
    rw [Fin.val_one']; exact Nat.mod_eq_of_lt (by omega)
  rw [h1]
  rcases Nat.eq_zero_or_pos i.val with h0 | h0
  · rw [h0, show 0 + (n + 1) - 1 = n by omega, Nat.mod_eq_of_lt (by omega : n < n + 1), Nat.mod_self]
  · have : i.val + (n + 1) - 1 = i.val - 1 + (n + 1) := by omega
    rw [this, Nat.add_mod_right, Nat.mod_eq_of_lt (by omega : i.val - 1 < n + 1),
      Nat.mod_eq_of_lt (by omega)]
    omega

theorem engAt_succ (E : Env Ω) (w : Ω) (k : ℕ) : engAt E w (k + 1) = (E.sweep (engAt E w k)).1 := by
  simp only [engAt, Function.iterate_succ_apply']

/-- the message of a process after sweep `k` -/
def msgAt (E : Env Ω) (w : Ω) (k : ℕ) : List ℕ := rowMajor (confAt E w (k + 1))

/-- the accumulator after `k` sweeps -/
noncomputable def accumAt (E : Env Ω) (w : Ω) : ℕ → List ℝ
  | 0 => []
  | k + 1 => Measurer.accumulate k (accumAt E w k) (ratesAt E w k)

/-- the reports after `k` sweeps -/
noncomputable def barsAt (E : Env Ω) (master : Bool) (w : Ω) : ℕ → List (ℕ × List ℝ)
  | 0 => []
  | k + 1 => barsAt E master w k ++
    (if master = true ∧ (k + 1) % (E.samples / 10) = 0 then
      [(k + 1, (accumAt E w (k + 1)).map fun x => x / ((k + 1 : ℕ) : ℝ))] else [])

/-- numbers of sweeps sent, received and concluded by a process -/
structure Cnt where
  p : ℕ
  c : ℕ
  d : ℕ

/-- the numbers that belong to a stage -/
def cnt (S : ℕ) : Stage → Cnt
  | .sweep k => ⟨k, k, k⟩
  | .wait k none => ⟨k + 1, k, k⟩
  | .wait k (some _) => ⟨k + 1, k + 1, k⟩
  | .dirs => ⟨S, S, S⟩
  | .fin => ⟨S, S, S⟩
  | .crashed k => ⟨k + 1, k + 1, k + 1⟩

/-- what a stage says about a process -/
def StageOk (E : Env Ω) (w : Fin (n + 1) → Ω) (i : Fin (n + 1)) : Stage → Prop
  | .sweep k => k < E.samples
  | .wait k none => k < E.samples
  | .wait k (some m) => k < E.samples ∧ m = msgAt E (w (i - 1)) k
  | .dirs => True
  | .fin => True
  | .crashed k => k < E.samples ∧ i = 0 ∧ E.samples / 10 = 0

/-- the invariant of one process -/
structure RankOk (E : Env Ω) (w : Fin (n + 1) → Ω) (i : Fin (n + 1)) (r : Rank Ω) : Prop where
  stage : StageOk E w i r.stage
  eng : r.eng = engAt E (w i) (cnt E.samples r.stage).p
  accum : r.accum = accumAt E (w i) (cnt E.samples r.stage).p
  overlaps : r.overlaps = (List.range (cnt E.samples r.stage).d).map (overlapAt E w i)
  bars : (∀ k, r.stage ≠ .crashed k) →
    r.bars = barsAt E (isMaster i) (w i) (cnt E.samples r.stage).d
  live : E.samples ≠ 0 → r.stage = .dirs ∨ r.stage = .fin → i = 0 → E.samples / 10 ≠ 0
  file : r.stage = .fin → r.file = some r.overlaps ∧
    r.dumped = if E.dump then some (E.conf r.eng) else none
  nofile : r.stage ≠ .fin → r.file = none ∧ r.dumped = none

/-- the messages from `i` to its neighbour -/
def msgs (E : Env Ω) (w : Fin (n + 1) → Ω) (i : Fin (n + 1)) (c p : ℕ) : List (ℕ × List ℕ) :=
  (List.range' c (p - c)).map fun k => ((i + 1).val, msgAt E (w i) k)

/-- the invariant of all processes -/
structure Inv (E : Env Ω) (w : Fin (n + 1) → Ω) (s : Sys Ω n) : Prop where
  ranks : ∀ i, RankOk E w i (s.ranks i)
  le : ∀ i, (cnt E.samples (s.ranks (i + 1)).stage).c ≤ (cnt E.samples (s.ranks i).stage).p
  mail : ∀ i, s.mail i (i + 1)
    = msgs E w i (cnt E.samples (s.ranks (i + 1)).stage).c (cnt E.samples (s.ranks i).stage).p
  fin : (∃ i, (s.ranks i).stage = .fin) → s.done

theorem flatten_conf {E : Env Ω} (hE : Sound E) (w : Ω) (k : ℕ) :
    flatten (E.conf (engAt E w (k + 1))) = some (msgAt E w k) := flatten_eq _ (hE.valid _)

theorem unflatten_msg {E : Env Ω} (hE : Sound E) (w : Ω) (k : ℕ) (d : Conf) (h1 : d.rows = E.rows)
    (h2 : d.cols = E.cols) :
    ∃ c, unflatten (msgAt E w k) d = some c ∧ SameAs c (confAt E w (k + 1)) := by
  obtain ⟨msg, c, h, -, hu, hs⟩ := C18_transfer (confAt E w (k + 1)) d (hE.valid _)
    (by rw [h1]; exact (hE.rows _).symm) (by rw [h2]; exact (hE.cols _).symm)
  rw [confAt, flatten_conf hE] at h
  cases h
  exact ⟨c, hu, hs⟩

theorem inv_start (E : Env Ω) (w : Fin (n + 1) → Ω) : Inv E w (start E w) := by
  have key : ∀ i, (start E w).ranks i
      = ⟨w i, [], [], [], none, none, if 0 < E.samples then .sweep 0 else .dirs⟩ := fun i => rfl
  have hc : cnt E.samples (if 0 < E.samples then Stage.sweep 0 else .dirs) = ⟨0, 0, 0⟩ := by
    split
    · rfl
    · have : E.samples = 0 := by omega
      simp [cnt, this]
  refine ⟨fun i => ?_, fun i => ?_, fun i => ?_, ?_⟩
  · rw [key]
    refine ⟨?_, ?_, ?_, ?_, ?_, ?_, ?_, ?_⟩
    · dsimp only; split
      · assumption
      · trivial
    · dsimp only; rw [hc]; rfl
    · dsimp only; rw [hc]; rfl
    · dsimp only; rw [hc]; rfl
    · dsimp only; rw [hc]; intro _; rfl
    · dsimp only; intro h0
      rw [if_pos (by omega)]
      rintro (h | h) <;> cases h
    · dsimp only; split <;> (intro h; cases h)
    · exact fun _ => ⟨rfl, rfl⟩
  · rw [key, key]; dsimp only; rw [hc]
  · rw [key, key]; dsimp only; rw [hc]; rfl
  · rintro ⟨i, h⟩
    rw [key] at h
    dsimp only at h
    split at h <;> cases h

/-- updating one process keeps the counters of the others -/
theorem inv_update {E : Env Ω} {w : Fin (n + 1) → Ω} {s t : Sys Ω n} (h : Inv E w s) (i : Fin (n + 1))
    (r : Rank Ω) (ht : t.ranks = Function.update s.ranks i r) (hr : RankOk E w i r)
    (hp : (cnt E.samples (s.ranks i).stage).p ≤ (cnt E.samples r.stage).p)
    (hc : (cnt E.samples r.stage).c ≤ (cnt E.samples (s.ranks (i - 1)).stage).p)
    (hn : (s.ranks i).stage ≠ .fin) (hf : r.stage ≠ .fin)
    (hself : i + 1 = i → (cnt E.samples r.stage).c ≤ (cnt E.samples r.stage).p)
    (hm : ∀ j, t.mail j (j + 1) = msgs E w j (cnt E.samples (t.ranks (j + 1)).stage).c
      (cnt E.samples (t.ranks j).stage).p) : Inv E w t := by
  refine ⟨fun j => ?_, fun j => ?_, hm, ?_⟩
  · rw [ht]
    by_cases hj : j = i
    · subst hj; rwa [Function.update_self]
    · rw [Function.update_of_ne hj]; exact h.ranks j
  · rw [ht]
    by_cases hj : j = i
    · subst hj
      rw [Function.update_self]
      by_cases hj1 : j + 1 = j
      · rw [hj1, Function.update_self]; exact hself hj1
      · rw [Function.update_of_ne hj1]
        exact (h.le j).trans hp
    · rw [Function.update_of_ne hj]
      by_cases hj1 : j + 1 = i
      · rw [hj1, Function.update_self]
        have : i - 1 = j := by rw [← hj1]; simp
        rwa [this] at hc
      · rw [Function.update_of_ne hj1]; exact h.le j
  · rintro ⟨j, hj⟩
    exfalso
    rw [ht] at hj
    by_cases hji : j = i
    · subst hji; rw [Function.update_self] at hj; exact hf hj
    · rw [Function.update_of_ne hji] at hj
      exact hn (h.fin ⟨j, hj⟩ i)

theorem msgs_snoc (E : Env Ω) (w : Fin (n + 1) → Ω) (i : Fin (n + 1)) (c p : ℕ) (h : c ≤ p) :
    msgs E w i c (p + 1) = msgs E w i c p ++ [((i + 1).val, msgAt E (w i) p)] := by
  unfold msgs
  have : p + 1 - c = (p - c) + 1 := by omega
  rw [this, List.range'_concat, List.map_append]
  simp only [List.map_cons, List.map_nil]
  have : c + 1 * (p - c) = p := by omega
  rw [this]

theorem takeTag_msgs (E : Env Ω) (w : Fin (n + 1) → Ω) (i : Fin (n + 1)) (c p : ℕ) :
    takeTag (i + 1).val (msgs E w i c p)
      = if c < p then some (msgAt E (w i) c, msgs E w i (c + 1) p) else none := by
  unfold msgs
  split
  · rename_i h
    have : p - c = (p - (c + 1)) + 1 := by omega
    rw [this, List.range'_succ, List.map_cons, takeTag, if_pos rfl]
  · rename_i h
    have : p - c = 0 := by omega
    rw [this]; rfl

theorem mail_update (f : Fin (n + 1) → Fin (n + 1) → List (ℕ × List ℕ)) (i j : Fin (n + 1))
    (x : List (ℕ × List ℕ)) :
    Function.update f i (Function.update (f i) (i + 1) x) j (j + 1) = if j = i then x else f j (j + 1) := by
  by_cases h : j = i
  · subst h; rw [if_pos rfl, Function.update_self, Function.update_self]
  · rw [if_neg h, Function.update_of_ne h]

theorem inv_post {E : Env Ω} (hE : Sound E) {w : Fin (n + 1) → Ω} {s : Sys Ω n} (h : Inv E w s)
    (i : Fin (n + 1)) (k : ℕ) (hs : (s.ranks i).stage = .sweep k) : Inv E w (post E s i k) := by
  have hr := h.ranks i
  have hk : k < E.samples := by have := hr.stage; rw [hs] at this; exact this
  have heng : (s.ranks i).eng = engAt E (w i) k := by have := hr.eng; rw [hs] at this; exact this
  have hacc : (s.ranks i).accum = accumAt E (w i) k := by have := hr.accum; rw [hs] at this; exact this
  have hsw : swept E k (s.ranks i)
      = { s.ranks i with eng := engAt E (w i) (k + 1), accum := accumAt E (w i) (k + 1) } := by
    rw [swept, heng, hacc, engAt_succ, accumAt, ratesAt]
  have hpost : post E s i k =
      { ranks := Function.update s.ranks i { swept E k (s.ranks i) with stage := .wait k none }
        mail := Function.update s.mail i
          (Function.update (s.mail i) (i + 1) (s.mail i (i + 1) ++ [((i + 1).val, msgAt E (w i) k)])) } := by
    unfold post
    rw [hsw]
    dsimp only
    rw [flatten_conf hE, dest_eq]
  rw [hpost, hsw]
  refine inv_update h i _ rfl ?_ ?_ ?_ ?_ ?_ ?_ ?_
  · refine ⟨hk, rfl, rfl, ?_, ?_, ?_, ?_, ?_⟩
    · have := hr.overlaps; rw [hs] at this; exact this
    · intro _; have := hr.bars (by rw [hs]; intro _ h; cases h); rw [hs] at this; exact this
    · rintro _ (h | h) <;> cases h
    · intro h; cases h
    · intro _; exact hr.nofile (by rw [hs]; intro h; cases h)
  · rw [hs]; simp [cnt]
  · have := h.le (i - 1)
    rw [sub_add_cancel, hs] at this
    exact this
  · rw [hs]; intro h; cases h
  · intro h; cases h
  · intro _; simp [cnt]
  · intro j
    dsimp only
    rw [mail_update]
    split
    · rename_i hj
      subst hj
      have hle := h.le j
      rw [hs] at hle
      have hm := h.mail j
      rw [hs] at hm
      rw [Function.update_self]
      by_cases hj1 : j + 1 = j
      · rw [hj1] at hm hle ⊢
        rw [Function.update_self]
        rw [hs] at hm hle
        rw [show s.mail j j = _ from hm]
        have := msgs_snoc E w j k k le_rfl
        rw [hj1] at this
        exact this.symm
      · rw [Function.update_of_ne hj1, hm]
        exact (msgs_snoc E w j _ k hle).symm
    · rename_i hj
      rw [Function.update_of_ne hj, h.mail j]
      by_cases hj1 : j + 1 = i
      · rw [hj1, Function.update_self, hs]; rfl
      · rw [Function.update_of_ne hj1]

theorem inv_receive {E : Env Ω} {w : Fin (n + 1) → Ω} {s : Sys Ω n} (h : Inv E w s)
    (i : Fin (n + 1)) (k : ℕ) (msg : List ℕ) (rest : List (ℕ × List ℕ))
    (hs : (s.ranks i).stage = .wait k none)
    (hm : takeTag i.val (s.mail (source i) i) = some (msg, rest)) :
    Inv E w (receive s i k msg rest) := by
  have hr := h.ranks i
  have hk : k < E.samples := by have := hr.stage; rw [hs] at this; exact this
  obtain ⟨j, rfl⟩ : ∃ j, i = j + 1 := ⟨i - 1, by simp⟩
  have hsrc : source (j + 1) = j := by rw [source_eq]; simp
  rw [hsrc, h.mail j, takeTag_msgs, hs] at hm
  split at hm
  swap
  · cases hm
  rename_i hlt
  simp only [Option.some.injEq, Prod.mk.injEq] at hm
  obtain ⟨rfl, rfl⟩ := hm
  unfold receive
  rw [hsrc]
  refine inv_update h (j + 1) _ rfl ?_ ?_ ?_ ?_ ?_ ?_ ?_
  · refine ⟨⟨hk, ?_⟩, ?_, ?_, ?_, ?_, ?_, ?_, ?_⟩
    · rw [add_sub_cancel_right]; rfl
    · have := hr.eng; rw [hs] at this; exact this
    · have := hr.accum; rw [hs] at this; exact this
    · have := hr.overlaps; rw [hs] at this; exact this
    · intro _; have := hr.bars (by rw [hs]; intro _ h; cases h); rw [hs] at this; exact this
    · rintro _ (h | h) <;> cases h
    · intro h; cases h
    · intro _; exact hr.nofile (by rw [hs]; intro h; cases h)
  · rw [hs]; exact le_rfl
  · rw [add_sub_cancel_right]; exact hlt
  · rw [hs]; intro h; cases h
  · intro h; cases h
  · intro _; exact le_rfl
  · intro l
    dsimp only
    rw [mail_update]
    split
    · rename_i hl
      subst hl
      rw [Function.update_self]
      by_cases hl1 : l = l + 1
      · have hlt' : (cnt E.samples (s.ranks l).stage).p = k + 1 := by
          rw [congrArg s.ranks hl1, hs]; rfl
        rw [Function.update_apply, if_pos hl1, hlt']
        rfl
      · rw [Function.update_of_ne hl1]; rfl
    · rename_i hl
      have hl1 : l + 1 ≠ j + 1 := fun h => hl (add_right_cancel h)
      rw [Function.update_of_ne hl1, h.mail l]
      by_cases hl2 : l = j + 1
      · subst hl2; rw [Function.update_self, hs]; rfl
      · rw [Function.update_of_ne hl2]

theorem inv_conclude {E : Env Ω} (hE : Sound E) {w : Fin (n + 1) → Ω} {s : Sys Ω n} (h : Inv E w s)
    (i : Fin (n + 1)) (k : ℕ) (msg : List ℕ) (hs : (s.ranks i).stage = .wait k (some msg)) :
    Inv E w { s with ranks := Function.update s.ranks i (conclude E (isMaster i) k msg (s.ranks i)) } := by
  have hr := h.ranks i
  obtain ⟨hk, rfl⟩ : k < E.samples ∧ msg = msgAt E (w (i - 1)) k := by
    have := hr.stage; rw [hs] at this; exact this
  have heng : (s.ranks i).eng = engAt E (w i) (k + 1) := by have := hr.eng; rw [hs] at this; exact this
  have hacc : (s.ranks i).accum = accumAt E (w i) (k + 1) := by
    have := hr.accum; rw [hs] at this; exact this
  have hov : (s.ranks i).overlaps = (List.range k).map (overlapAt E w i) := by
    have := hr.overlaps; rw [hs] at this; exact this
  have hbar : (s.ranks i).bars = barsAt E (isMaster i) (w i) k := by
    have := hr.bars (by rw [hs]; intro _ h; cases h); rw [hs] at this; exact this
  have hno := hr.nofile (by rw [hs]; intro h; cases h)
  obtain ⟨c, hu, hc⟩ := unflatten_msg hE (w (i - 1)) k (empty E.rows E.cols) rfl rfl
  have hov' : (s.ranks i).overlaps ++ [E.overlap (E.conf (s.ranks i).eng) c]
      = (List.range (k + 1)).map (overlapAt E w i) := by
    rw [List.range_succ, List.map_append, hov, heng, hE.overlap _ _ _ hc]
    rfl
  have hcount : ∀ st, cnt E.samples st = ⟨k + 1, k + 1, k + 1⟩ → st ≠ .fin →
      ∀ r : Rank Ω, r.stage = st → RankOk E w i r →
      Inv E w { s with ranks := Function.update s.ranks i r } := by
    intro st hst hfin r hrs hok
    refine inv_update h i r rfl hok ?_ ?_ ?_ ?_ ?_ ?_
    · rw [hs, hrs, hst]; exact le_rfl
    · have := h.le (i - 1)
      rw [sub_add_cancel, hs] at this
      rw [hrs, hst]
      exact this
    · rw [hs]; intro h; cases h
    · rw [hrs]; exact hfin
    · intro _; rw [hrs, hst]
    · intro j
      dsimp only
      rw [h.mail j]
      have key : ∀ l, (cnt E.samples (Function.update s.ranks i r l).stage).p
            = (cnt E.samples (s.ranks l).stage).p ∧
          (cnt E.samples (Function.update s.ranks i r l).stage).c
            = (cnt E.samples (s.ranks l).stage).c := by
        intro l
        by_cases hl : l = i
        · subst hl; rw [Function.update_self, hrs, hst, hs]; exact ⟨rfl, rfl⟩
        · rw [Function.update_of_ne hl]; exact ⟨rfl, rfl⟩
      rw [(key j).1, (key (j + 1)).2]
  unfold conclude
  rw [hu]
  dsimp only
  rw [hov']
  by_cases hm : isMaster i = true ∧ E.samples / 10 = 0
  · rw [if_pos hm]
    refine hcount (.crashed k) rfl (by intro h; cases h) _ rfl
      ⟨⟨hk, ?_, hm.2⟩, heng, hacc, rfl, ?_, ?_, ?_, ?_⟩
    · simpa [isMaster] using hm.1
    · intro h; exact absurd rfl (h k)
    · rintro _ (h | h) <;> cases h
    · intro h; cases h
    · intro _; exact hno
  · rw [if_neg hm]
    have hrep : report E (isMaster i) k
          { s.ranks i with overlaps := (List.range (k + 1)).map (overlapAt E w i) }
        = { s.ranks i with
            overlaps := (List.range (k + 1)).map (overlapAt E w i)
            bars := barsAt E (isMaster i) (w i) (k + 1) } := by
      unfold report
      dsimp only
      rw [barsAt]
      split
      · rename_i h1
        rw [hbar, hacc]
      · rename_i h1
        rw [List.append_nil, ← hbar]
    rw [hrep]
    have hst : cnt E.samples (if k + 1 < E.samples then Stage.sweep (k + 1) else .dirs)
        = ⟨k + 1, k + 1, k + 1⟩ := by
      split
      · rfl
      · have : E.samples = k + 1 := by omega
        rw [cnt, this]
    have hfin : (if k + 1 < E.samples then Stage.sweep (k + 1) else .dirs) ≠ .fin := by
      split <;> (intro h; cases h)
    refine hcount _ hst hfin _ rfl ?_
    unfold enter
    refine ⟨?_, ?_, ?_, ?_, ?_, ?_, ?_, ?_⟩
    · dsimp only
      split
      · assumption
      · trivial
    · dsimp only; rw [hst]; exact heng
    · dsimp only; rw [hst]; exact hacc
    · dsimp only; rw [hst]
    · dsimp only; rw [hst]; intro _; rfl
    · intro _ _ hi h0
      exact hm ⟨by simp [isMaster, hi], h0⟩
    · intro h; exact absurd h hfin
    · intro _; exact hno

theorem inv_barrier {E : Env Ω} {w : Fin (n + 1) → Ω} {s : Sys Ω n} (h : Inv E w s)
    (hs : ∀ i, (s.ranks i).stage = .dirs) :
    Inv E w { s with ranks := fun i => write E (s.ranks i) } := by
  have hc : ∀ i, cnt E.samples (s.ranks i).stage = cnt E.samples (write E (s.ranks i)).stage := by
    intro i; rw [hs i]; rfl
  refine ⟨fun i => ?_, fun i => ?_, fun i => ?_, fun _ i => rfl⟩
  · have hr := h.ranks i
    have hno := hr.nofile (by rw [hs i]; intro h; cases h)
    refine ⟨trivial, ?_, ?_, ?_, ?_, ?_, ?_, ?_⟩
    · have := hr.eng; rw [hc i] at this; exact this
    · have := hr.accum; rw [hc i] at this; exact this
    · have := hr.overlaps; rw [hc i] at this; exact this
    · intro _; have := hr.bars (by rw [hs i]; intro _ h; cases h); rw [hc i] at this; exact this
    · intro h0 _ hi; exact hr.live h0 (Or.inl (hs i)) hi
    · intro _
      refine ⟨rfl, ?_⟩
      simp only [write, hno.2]
    · intro h; exact absurd rfl h
  · have := h.le i; rw [hc i, hc (i + 1)] at this; exact this
  · have := h.mail i; rw [hc i, hc (i + 1)] at this; exact this

theorem inv_move {E : Env Ω} (hE : Sound E) {w : Fin (n + 1) → Ω} {buf : Fin (n + 1) → ℕ → Bool}
    {s t : Sys Ω n} (h : Inv E w s) (hm : Move E buf s t) : Inv E w t := by
  cases hm with
  | post i k hs => exact inv_post hE h i k hs
  | receive i k msg rest hs hm => exact inv_receive h i k msg rest hs hm
  | conclude i k msg hs hd => exact inv_conclude hE h i k msg hs
  | barrier hs => exact inv_barrier h hs

theorem inv_reach {E : Env Ω} (hE : Sound E) {w : Fin (n + 1) → Ω} {buf : Fin (n + 1) → ℕ → Bool}
    {s : Sys Ω n} (h : ReflTransGen (Move E buf) (start E w) s) : Inv E w s := by
  induction h with
  | refl => exact inv_start E w
  | tail _ hm ih => exact inv_move hE ih hm

/-- a process that has not begun, is waiting, or has left the loop -/
theorem progress {E : Env Ω} {w : Fin (n + 1) → Ω} (buf : Fin (n + 1) → ℕ → Bool)
    {s : Sys Ω n} (h : Inv E w s) (hc : ∀ i k, (s.ranks i).stage ≠ .crashed k) :
    s.done ∨ ∃ t, Move E buf s t := by
  by_contra hno
  push Not at hno
  obtain ⟨hnd, hno⟩ := hno
  have hnf : ∀ i, (s.ranks i).stage ≠ .fin := fun i hi => hnd (h.fin ⟨i, hi⟩)
  have hcls : ∀ i, (∃ k g, (s.ranks i).stage = .wait k g) ∨ (s.ranks i).stage = .dirs := by
    intro i
    match hst : (s.ranks i).stage with
    | .sweep k => exact absurd (Move.post s i k hst) (hno _)
    | .wait k g => exact Or.inl ⟨k, g, rfl⟩
    | .dirs => exact Or.inr rfl
    | .fin => exact absurd hst (hnf i)
    | .crashed k => exact absurd hst (hc i k)
  -- a process that can receive would
  have hrecv : ∀ i k, (s.ranks (i + 1)).stage = .wait k none →
      (cnt E.samples (s.ranks i).stage).p ≤ k := by
    intro i k hst
    by_contra hlt
    push Not at hlt
    refine hno _ (Move.receive s (i + 1) k (msgAt E (w i) k)
      (msgs E w i (k + 1) (cnt E.samples (s.ranks i).stage).p) hst ?_)
    have hsrc : source (i + 1) = i := by rw [source_eq]; simp
    rw [hsrc, h.mail i, takeTag_msgs, hst]
    exact if_pos hlt
  obtain ⟨i, -, hi⟩ := Finset.exists_min_image Finset.univ
    (fun i => (cnt E.samples (s.ranks i).stage).d) ⟨0, Finset.mem_univ _⟩
  have hi : ∀ j, (cnt E.samples (s.ranks i).stage).d ≤ (cnt E.samples (s.ranks j).stage).d :=
    fun j => hi j (Finset.mem_univ _)
  have hle : ∀ j, (cnt E.samples (s.ranks j).stage).d ≤ E.samples := by
    intro j
    have hj := (h.ranks j).stage
    rcases hcls j with ⟨k, g, hg⟩ | hg
    · rw [hg] at hj ⊢
      cases g with
      | none => exact le_of_lt hj
      | some m => exact le_of_lt hj.1
    · rw [hg]; exact le_rfl
  rcases hcls i with ⟨k, g, hg⟩ | hg
  swap
  · -- all at the barrier
    refine hno _ (Move.barrier s fun j => ?_)
    rcases hcls j with ⟨k, g, hgj⟩ | hgj
    · exfalso
      have h1 := hi j
      have hj := (h.ranks j).stage
      rw [hg, hgj] at h1
      rw [hgj] at hj
      cases g with
      | none => exact absurd hj (not_lt.2 h1)
      | some m => exact absurd hj.1 (not_lt.2 h1)
    · exact hgj
  -- every process has sent the message of sweep `k`
  have hk : k < E.samples := by
    have := (h.ranks i).stage
    rw [hg] at this
    cases g with
    | none => exact this
    | some m => exact this.1
  have hd : (cnt E.samples (s.ranks i).stage).d = k := by rw [hg]; cases g <;> rfl
  have hsent : ∀ j, k + 1 ≤ (cnt E.samples (s.ranks j).stage).p := by
    intro j
    have h1 := hi j
    rw [hd] at h1
    rcases hcls j with ⟨l, g', hgj⟩ | hgj
    · rw [hgj] at h1 ⊢
      cases g' <;> exact Nat.succ_le_succ h1
    · rw [hgj]; exact hk
  cases g with
  | none =>
    have := hrecv (i - 1) k (by rw [sub_add_cancel]; exact hg)
    have := hsent (i - 1)
    omega
  | some m =>
    by_cases hmail : s.mail i (i + 1) = []
    · exact hno _ (Move.conclude s i k m hg (Or.inr (by rw [dest_eq]; exact hmail)))
    · rw [h.mail i, hg] at hmail
      have hlt : (cnt E.samples (s.ranks (i + 1)).stage).c < k + 1 := by
        by_contra hge
        apply hmail
        unfold msgs
        have : (cnt E.samples (Stage.wait k (some m))).p
          - (cnt E.samples (s.ranks (i + 1)).stage).c = 0 := by
          have : (cnt E.samples (Stage.wait k (some m))).p = k + 1 := rfl
          omega
        rw [this]; rfl
      have h1 := hi (i + 1)
      rw [hd] at h1
      rcases hcls (i + 1) with ⟨l, g', hgj⟩ | hgj
      · rw [hgj] at h1 hlt
        cases g' with
        | none =>
          have h1 : k ≤ l := h1
          have hlt : l < k + 1 := hlt
          have hkl : l = k := by omega
          subst hkl
          have := hrecv i l hgj
          have := hsent i
          omega
        | some m' =>
          have h1 : k ≤ l := h1
          have hlt : l + 1 < k + 1 := hlt
          omega
      · rw [hgj] at hlt
        have hlt : E.samples < k + 1 := hlt
        omega

end QLPeps.Replica
