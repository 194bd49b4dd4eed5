import Verif.Model.SR
import Mathlib.Tactic

/-! Helper lemmas for the MinSR ring exchange. -/

set_option linter.unusedSectionVars false

namespace QLPeps.SR

variable {𝕜 : Type*} [RCLike 𝕜] {V : Type*} [NormedAddCommGroup V] [InnerProductSpace 𝕜 V]

/-- the samples of process `r` as a list -/
def batch (o : ℕ → ℕ → V) (B r : ℕ) : List V := (List.range B).map (o r)

/-- process whose samples `r` holds after `t` rounds -/
def org (P r t : ℕ) : ℕ := (r + P - t) % P

theorem org_lt {P r t : ℕ} (hP : 0 < P) : org P r t < P := Nat.mod_lt _ hP

theorem org_zero {P r : ℕ} (hr : r < P) : org P r 0 = r := by
  unfold org; rw [Nat.sub_zero, Nat.add_mod_right, Nat.mod_eq_of_lt hr]

theorem org_next {P r t : ℕ} (hr : r < P) (ht : t + 1 ≤ P) : org P (nextRank P r) (t + 1) = org P r t := by
  unfold org nextRank
  by_cases h : r + 1 < P
  · rw [Nat.mod_eq_of_lt h]; congr 1; omega
  · have : r + 1 = P := by omega
    rw [this, Nat.mod_self]
    have h1 : r + P - t = (0 + P - (t + 1)) + P := by omega
    rw [h1, Nat.add_mod_right]

theorem nextRank_lt {P r : ℕ} (hr : r < P) : nextRank P r < P := Nat.mod_lt _ (by omega)

theorem org_eq_iff {P r s t : ℕ} (hr : r < P) (hs : s < P) (ht : t < P) : s = org P r t ↔ (r + P - s) % P = t := by
  unfold org
  by_cases h : t ≤ r
  · have h1 : (r + P - t) % P = r - t := by
      have : r + P - t = (r - t) + P := by omega
      rw [this, Nat.add_mod_right, Nat.mod_eq_of_lt (by omega)]
    rw [h1]
    by_cases h2 : s ≤ r
    · have : r + P - s = (r - s) + P := by omega
      rw [this, Nat.add_mod_right, Nat.mod_eq_of_lt (by omega)]
      omega
    · rw [Nat.mod_eq_of_lt (by omega)]; omega
  · have h1 : (r + P - t) % P = r + P - t := Nat.mod_eq_of_lt (by omega)
    rw [h1]
    by_cases h2 : s ≤ r
    · have : r + P - s = (r - s) + P := by omega
      rw [this, Nat.add_mod_right, Nat.mod_eq_of_lt (by omega)]
      omega
    · rw [Nat.mod_eq_of_lt (by omega)]; omega

theorem sourceRank_eq {P r t : ℕ} (hr : r < P) (ht : t < P) : sourceRank P r t = org P r t := by
  unfold sourceRank org
  have hP : (0 : ℤ) < P := by omega
  by_cases h : t ≤ r
  · have h1 : ((r : ℤ) - t).tmod P = r - t := by
      rw [Int.tmod_eq_emod_of_nonneg (by omega), Int.emod_eq_of_lt (by omega) (by omega)]
    have h2 : ((r : ℤ) - t + P).tmod P = r - t := by
      rw [Int.tmod_eq_emod_of_nonneg (by omega), Int.add_emod_right, Int.emod_eq_of_lt (by omega) (by omega)]
    rw [h1, h2]
    have : r + P - t = (r - t) + P := by omega
    rw [this, Nat.add_mod_right, Nat.mod_eq_of_lt (by omega)]
    omega
  · have h1 : ((r : ℤ) - t).tmod P = r - t := by
      have : ((r : ℤ) - t) = -((t : ℤ) - r) := by ring
      rw [this, Int.neg_tmod, Int.tmod_eq_emod_of_nonneg (by omega), Int.emod_eq_of_lt (by omega) (by omega)]
    have h2 : ((r : ℤ) - t + P).tmod P = r - t + P := by
      rw [Int.tmod_eq_emod_of_nonneg (by omega), Int.emod_eq_of_lt (by omega) (by omega)]
    rw [h1, h2, Nat.mod_eq_of_lt (by omega)]
    omega

/-- `m`-th message process `r` ever sends -/
def msg (o : ℕ → ℕ → V) (P B r m : ℕ) : V := o (org P r (m / B)) (m % B)

/-- messages sent / received so far -/
def Rank.S (B : ℕ) (s : Rank V 𝕜) : ℕ := s.t * B + s.sent
def Rank.R (B : ℕ) (s : Rank V 𝕜) : ℕ := s.t * B + s.recvd

/-- invariant of one process -/
structure RkInv (ip : V → V → 𝕜) (P B : ℕ) (o : ℕ → ℕ → V) (r : ℕ) (s : Rank V 𝕜) : Prop where
  tle : s.t ≤ P - 1
  sle : s.sent ≤ B
  rle : s.recvd ≤ B
  fin : s.t = P - 1 → s.sent = 0 ∧ s.recvd = 0
  last : r = P - 1 → s.sent < B → s.recvd = 0
  other : r ≠ P - 1 → s.recvd < B → s.sent = 0
  sbuf : s.sendBuf = batch o B (org P r s.t)
  rbuf : s.recvBuf = (batch o B (org P r (s.t + 1))).take s.recvd
  blk : ∀ i q j, i < B → q < P → j < B → (r + P - q) % P ≤ s.t → s.block i (q * B + j) = ip (o r i) (o q j)
  sum : ∀ i, i < B → s.rowSum i =
    ∑ u ∈ Finset.range (s.t + 1), ∑ j ∈ Finset.range B, ip (o r i) (o (org P r u) j)

/-- invariant of the ring -/
structure RInv (ip : V → V → 𝕜) (P B : ℕ) (o : ℕ → ℕ → V) (g : Ring V 𝕜) : Prop where
  rk : ∀ r < P, RkInv ip P B o r (g.rank r)
  le : ∀ r < P, (g.rank (nextRank P r)).R B ≤ (g.rank r).S B
  ch : ∀ r < P, g.chan r = (List.range ((g.rank r).S B - (g.rank (nextRank P r)).R B)).map
    fun k => msg o P B r ((g.rank (nextRank P r)).R B + k)

theorem batch_get {o : ℕ → ℕ → V} {B r i : ℕ} (hi : i < B) : (batch o B r)[i]? = some (o r i) := by
  unfold batch; simp [hi]

theorem batch_get_none {o : ℕ → ℕ → V} {B r i : ℕ} (hi : ¬ i < B) : (batch o B r)[i]? = none := by
  unfold batch; simp; omega

theorem writeBlock_hit (ip : V → V → 𝕜) (o : ℕ → ℕ → V) (B r q i j : ℕ) (blk : ℕ → ℕ → 𝕜) (hi : i < B) (hj : j < B) :
    writeBlock ip (batch o B r) (batch o B q) (q * B) blk i (q * B + j) = ip (o r i) (o q j) := by
  unfold writeBlock
  rw [batch_get hi, if_pos (by omega), show q * B + j - q * B = j by omega, batch_get hj]

theorem writeBlock_miss (ip : V → V → 𝕜) (o : ℕ → ℕ → V) (B r q q' i j : ℕ) (blk : ℕ → ℕ → 𝕜) (hj : j < B)
    (hq : q' ≠ q) : writeBlock ip (batch o B r) (batch o B q) (q * B) blk i (q' * B + j) = blk i (q' * B + j) := by
  unfold writeBlock
  have h : (if q * B ≤ q' * B + j then (batch o B q)[q' * B + j - q * B]? else none) = none := by
    split_ifs with h1
    · apply batch_get_none
      intro h2
      have h3 : q' * B + j < (q + 1) * B := by
        have : (q + 1) * B = q * B + B := by ring
        omega
      rcases Nat.lt_or_gt_of_ne hq with h4 | h4
      · have : (q' + 1) * B ≤ q * B := Nat.mul_le_mul_right _ h4
        have h5 : (q' + 1) * B = q' * B + B := by ring
        omega
      · have : (q + 1) * B ≤ q' * B := Nat.mul_le_mul_right _ h4
        omega
    · rfl
  rw [h]
  split <;> simp_all

theorem foldl_batch_sum (f : V → 𝕜) (l : List V) (a : 𝕜) : l.foldl (fun acc b => acc + f b) a = a + (l.map f).sum := by
  induction l generalizing a with
  | nil => simp
  | cons b l ih => simp [ih, add_assoc]

theorem sum_map_range (f : ℕ → 𝕜) (n : ℕ) : ((List.range n).map f).sum = ∑ j ∈ Finset.range n, f j := by
  induction n with
  | zero => simp
  | succ n ih => rw [List.range_succ, List.map_append, List.sum_append, ih, Finset.sum_range_succ]; simp

theorem addSums_eq (ip : V → V → 𝕜) (o : ℕ → ℕ → V) (B r q i : ℕ) (sums : ℕ → 𝕜) (hi : i < B) :
    addSums ip (batch o B r) (batch o B q) sums i = sums i + ∑ j ∈ Finset.range B, ip (o r i) (o q j) := by
  unfold addSums
  rw [batch_get hi]
  dsimp only
  rw [foldl_batch_sum (fun b => ip (o r i) b)]
  unfold batch
  rw [List.map_map, ← sum_map_range]
  rfl

theorem init_rk (ip : V → V → 𝕜) {P B : ℕ} (o : ℕ → ℕ → V) {r : ℕ} (hr : r < P) :
    RkInv ip P B o r (Rank.init ip B r (batch o B r)) := by
  refine ⟨Nat.zero_le _, Nat.zero_le _, Nat.zero_le _, fun _ => ⟨rfl, rfl⟩, fun _ _ => rfl, fun _ _ => rfl, ?_, ?_, ?_, ?_⟩
  · simp [Rank.init, org_zero hr]
  · simp [Rank.init]
  · intro i q j hi hq hj h
    have h0 : (r + P - q) % P = 0 := by simpa [Rank.init] using h
    have : q = r := by rw [(org_eq_iff hr hq (by omega)).2 h0, org_zero hr]
    subst this
    simp only [Rank.init]
    exact writeBlock_hit ip o B q q i j _ hi hj
  · intro i hi
    simp only [Rank.init]
    rw [addSums_eq ip o B r r i _ hi]
    simp [org_zero hr]

theorem init_inv (ip : V → V → 𝕜) {P B : ℕ} (o : ℕ → ℕ → V) : RInv ip P B o (Ring.init ip B (batch o B)) := by
  refine ⟨fun r hr => init_rk ip o hr, fun r _ => ?_, fun r _ => ?_⟩
  · simp [Ring.init, Rank.init, Rank.R, Rank.S]
  · simp [Ring.init, Rank.init, Rank.R, Rank.S]

/-! #### effect of a step on one process -/

theorem rk_compute {ip : V → V → 𝕜} {P B : ℕ} {o : ℕ → ℕ → V} {r : ℕ} {s : Rank V 𝕜} (hr : r < P)
    (h : RkInv ip P B o r s) (hop : nextOp P B r s = .compute) :
    RkInv ip P B o r (s.compute ip P B r (batch o B r)) ∧ (s.compute ip P B r (batch o B r)).S B = s.S B ∧
      (s.compute ip P B r (batch o B r)).R B = s.R B := by
  have hfull : s.t < P - 1 ∧ s.sent = B ∧ s.recvd = B := by
    unfold nextOp at hop
    have := h.sle; have := h.rle
    split_ifs at hop <;> (refine ⟨by omega, by omega, by omega⟩)
  obtain ⟨ht, hs, hv⟩ := hfull
  have hbuf : s.recvBuf = batch o B (org P r (s.t + 1)) := by
    rw [h.rbuf, hv, List.take_of_length_le]; simp [batch]
  refine ⟨⟨?_, Nat.zero_le _, Nat.zero_le _, fun _ => ⟨rfl, rfl⟩, fun _ _ => rfl, fun _ _ => rfl, hbuf, ?_, ?_, ?_⟩, ?_, ?_⟩
  · show s.t + 1 ≤ P - 1; omega
  · simp [Rank.compute]
  · intro i q j hi hq hj hle
    simp only [Rank.compute] at hle ⊢
    rw [hbuf, sourceRank_eq hr (by omega)]
    by_cases hqe : q = org P r (s.t + 1)
    · rw [← hqe]; exact writeBlock_hit ip o B r q i j _ hi hj
    · rw [writeBlock_miss ip o B r _ q i j _ hj hqe]
      apply h.blk i q j hi hq hj
      have : (r + P - q) % P ≠ s.t + 1 := fun h' => hqe ((org_eq_iff hr hq (by omega)).2 h')
      omega
  · intro i hi
    simp only [Rank.compute]
    rw [hbuf, addSums_eq ip o B r _ i _ hi, h.sum i hi]
    rw [Finset.sum_range_succ (n := s.t + 1)]
  · simp only [Rank.compute, Rank.S, hs]; ring
  · simp only [Rank.compute, Rank.R, hv]; ring

theorem rk_send {ip : V → V → 𝕜} {P B : ℕ} {o : ℕ → ℕ → V} {r : ℕ} {s : Rank V 𝕜}
    (h : RkInv ip P B o r s) (hop : nextOp P B r s = .send) :
    s.t < P - 1 ∧ s.sent < B ∧ (r = P - 1 → s.recvd = 0) ∧ (r ≠ P - 1 → s.recvd = B) ∧
    s.sendBuf[s.sent]? = some (msg o P B r (s.S B)) ∧
    RkInv ip P B o r { s with sent := s.sent + 1 } := by
  have hfull : s.t < P - 1 ∧ s.sent < B ∧ (r = P - 1 → s.recvd = 0) ∧ (r ≠ P - 1 → s.recvd = B) := by
    unfold nextOp at hop
    have := h.sle; have := h.rle; have := h.last
    split_ifs at hop <;> (refine ⟨by omega, by omega, fun h' => ?_, fun h' => ?_⟩ <;> first | omega | (exact h.last h' (by omega)))
  obtain ⟨ht, hs, hl, ho⟩ := hfull
  refine ⟨ht, hs, hl, ho, ?_, ⟨h.tle, by show s.sent + 1 ≤ B; omega, h.rle, fun h' => ?_, fun h1 h2 => hl h1, fun h1 h2 => ?_, h.sbuf, h.rbuf, h.blk, h.sum⟩⟩
  · rw [h.sbuf, batch_get hs]
    unfold msg Rank.S
    have h1 : (s.t * B + s.sent) / B = s.t := by
      rw [mul_comm, Nat.mul_add_div (by omega), Nat.div_eq_of_lt hs, add_zero]
    have h2 : (s.t * B + s.sent) % B = s.sent := by
      rw [mul_comm, Nat.mul_add_mod, Nat.mod_eq_of_lt hs]
    rw [h1, h2]
  · have : s.t = P - 1 := h'; omega
  · have := ho h1
    have h2' : s.recvd < B := h2
    omega

theorem rk_recv {ip : V → V → 𝕜} {P B : ℕ} {o : ℕ → ℕ → V} {r : ℕ} {s : Rank V 𝕜} (hr : r < P)
    (h : RkInv ip P B o (nextRank P r) s) (hop : nextOp P B (nextRank P r) s = .recv) :
    s.t < P - 1 ∧ s.recvd < B ∧ (nextRank P r = P - 1 → s.sent = B) ∧ (nextRank P r ≠ P - 1 → s.sent = 0) ∧
    RkInv ip P B o (nextRank P r)
      { s with recvd := s.recvd + 1, recvBuf := s.recvBuf ++ [msg o P B r (s.R B)] } := by
  have hfull : s.t < P - 1 ∧ s.recvd < B ∧ (nextRank P r = P - 1 → s.sent = B) ∧ (nextRank P r ≠ P - 1 → s.sent = 0) := by
    unfold nextOp at hop
    have := h.sle; have := h.rle
    split_ifs at hop <;> (refine ⟨by omega, by omega, fun h' => ?_, fun h' => ?_⟩ <;> first | omega | (exact h.other h' (by omega)))
  obtain ⟨ht, hs, hl, ho⟩ := hfull
  refine ⟨ht, hs, hl, ho, ⟨h.tle, h.sle, by show s.recvd + 1 ≤ B; omega, fun h' => ?_, fun h1 h2 => ?_, fun h1 _ => ho h1, h.sbuf, ?_, h.blk, h.sum⟩⟩
  · have : s.t = P - 1 := h'; omega
  · have := hl h1
    have h2' : s.sent < B := h2
    omega
  · dsimp only
    rw [h.rbuf, List.take_add_one, batch_get hs]
    have h1 : (s.t * B + s.recvd) / B = s.t := by
      rw [mul_comm, Nat.mul_add_div (by omega), Nat.div_eq_of_lt hs, add_zero]
    have h2 : (s.t * B + s.recvd) % B = s.recvd := by
      rw [mul_comm, Nat.mul_add_mod, Nat.mod_eq_of_lt hs]
    unfold msg Rank.R
    rw [h1, h2, org_next hr (by omega)]
    rfl

/-! #### the ring invariant is preserved -/

theorem nextRank_inj {P r q : ℕ} (hr : r < P) (hq : q < P) (h : nextRank P r = nextRank P q) : r = q := by
  unfold nextRank at h
  by_cases h1 : r + 1 < P <;> by_cases h2 : q + 1 < P
  · rw [Nat.mod_eq_of_lt h1, Nat.mod_eq_of_lt h2] at h; omega
  · have : q + 1 = P := by omega
    rw [Nat.mod_eq_of_lt h1, this, Nat.mod_self] at h; omega
  · have : r + 1 = P := by omega
    rw [Nat.mod_eq_of_lt h2, this, Nat.mod_self] at h; omega
  · omega

theorem must_inv {ip : V → V → 𝕜} {P B : ℕ} {o : ℕ → ℕ → V} {g g' : Ring V 𝕜}
    (hI : RInv ip P B o g) (hs : Must ip P B (batch o B) g g') : RInv ip P B o g' := by
  cases hs with
  | compute r hr h =>
    obtain ⟨h1, h2, h3⟩ := rk_compute hr (hI.rk r hr) h
    have hS : ∀ q, (Function.update g.rank r ((g.rank r).compute ip P B r (batch o B r)) q).S B = (g.rank q).S B := by
      intro q; by_cases hq : q = r
      · subst hq; simpa using h2
      · simp [hq]
    have hR : ∀ q, (Function.update g.rank r ((g.rank r).compute ip P B r (batch o B r)) q).R B = (g.rank q).R B := by
      intro q; by_cases hq : q = r
      · subst hq; simpa using h3
      · simp [hq]
    refine ⟨fun q hq => ?_, fun q hq => ?_, fun q hq => ?_⟩
    · by_cases hqr : q = r
      · subst hqr; simpa using h1
      · simpa [hqr] using hI.rk q hq
    · dsimp only; rw [hS, hR]; exact hI.le q hq
    · dsimp only; rw [hS, hR]; exact hI.ch q hq
  | recv r hr x rest h hc =>
    set n := nextRank P r with hn
    obtain ⟨h1, h2, h3, h4, h5⟩ := rk_recv hr (hI.rk n (nextRank_lt hr)) h
    have hch := hI.ch r hr
    have hle := hI.le r hr
    rw [hc] at hch
    have hlt : (g.rank n).R B < (g.rank r).S B := by
      by_contra hcon
      have : (g.rank r).S B - (g.rank n).R B = 0 := by omega
      rw [← hn, this] at hch
      simp at hch
    obtain ⟨d, hd⟩ : ∃ d, (g.rank r).S B - (g.rank n).R B = d + 1 := ⟨(g.rank r).S B - (g.rank n).R B - 1, by omega⟩
    rw [← hn, hd, List.range_succ_eq_map, List.map_cons, List.map_map, List.cons.injEq] at hch
    obtain ⟨hx, hrest⟩ := hch
    rw [add_zero] at hx
    subst hx
    have hS : ∀ q, (Function.update g.rank n { g.rank n with recvd := (g.rank n).recvd + 1, recvBuf := (g.rank n).recvBuf ++ [msg o P B r ((g.rank n).R B)] } q).S B = (g.rank q).S B := by
      intro q; by_cases hq : q = n
      · subst hq; simp [Rank.S]
      · simp [hq]
    have hRn : ∀ q, q ≠ n → (Function.update g.rank n { g.rank n with recvd := (g.rank n).recvd + 1, recvBuf := (g.rank n).recvBuf ++ [msg o P B r ((g.rank n).R B)] } q).R B = (g.rank q).R B := by
      intro q hq; simp [hq]
    have hRn' : (Function.update g.rank n { g.rank n with recvd := (g.rank n).recvd + 1, recvBuf := (g.rank n).recvBuf ++ [msg o P B r ((g.rank n).R B)] } n).R B = (g.rank n).R B + 1 := by
      simp [Rank.R, add_assoc]
    refine ⟨fun q hq => ?_, fun q hq => ?_, fun q hq => ?_⟩
    · by_cases hqr : q = n
      · subst hqr; simpa using h5
      · simpa [hqr] using hI.rk q hq
    · dsimp only; rw [hS]
      by_cases hqr : q = r
      · subst hqr; rw [← hn, hRn']; omega
      · have : nextRank P q ≠ n := fun h' => hqr (nextRank_inj hq hr h')
        rw [hRn _ this]; exact hI.le q hq
    · dsimp only; rw [hS]
      by_cases hqr : q = r
      · subst hqr
        rw [← hn, hRn', Function.update_self]
        have : (g.rank q).S B - ((g.rank n).R B + 1) = d := by omega
        rw [this, hrest]
        apply List.map_congr_left
        intro k _
        simp only [Function.comp]
        congr 1; omega
      · have : nextRank P q ≠ n := fun h' => hqr (nextRank_inj hq hr h')
        rw [hRn _ this, Function.update_of_ne hqr]; exact hI.ch q hq
  | rendezvous r hr x hne hs h hc hx =>
    set n := nextRank P r with hn
    obtain ⟨h1, h2, h3, h4, h5⟩ := rk_recv hr (hI.rk n (nextRank_lt hr)) h
    obtain ⟨s1, s2, s3, s4, s5, s6⟩ := rk_send (hI.rk r hr) hs
    have hch := hI.ch r hr
    have hle := hI.le r hr
    rw [hc] at hch
    have heq : (g.rank n).R B = (g.rank r).S B := by
      have : (g.rank r).S B - (g.rank n).R B = 0 := by
        have := congrArg List.length hch; simpa using this.symm
      rw [← hn] at hle
      omega
    rw [s5] at hx
    have hxe : x = msg o P B r ((g.rank n).R B) := by rw [heq]; exact (Option.some.inj hx).symm
    subst hxe
    set rk' := Function.update (Function.update g.rank r { g.rank r with sent := (g.rank r).sent + 1 }) n
      { g.rank n with recvd := (g.rank n).recvd + 1, recvBuf := (g.rank n).recvBuf ++ [msg o P B r ((g.rank n).R B)] } with hrk
    have e1 : rk' n = { g.rank n with recvd := (g.rank n).recvd + 1, recvBuf := (g.rank n).recvBuf ++ [msg o P B r ((g.rank n).R B)] } := by
      rw [hrk]; simp
    have e2 : rk' r = { g.rank r with sent := (g.rank r).sent + 1 } := by
      rw [hrk, Function.update_of_ne (Ne.symm hne), Function.update_self]
    have e3 : ∀ q, q ≠ n → q ≠ r → rk' q = g.rank q := by
      intro q h1 h2; rw [hrk, Function.update_of_ne h1, Function.update_of_ne h2]
    have hSr : (rk' r).S B = (g.rank r).S B + 1 := by rw [e2]; simp [Rank.S, add_assoc]
    have hS : ∀ q, q ≠ r → (rk' q).S B = (g.rank q).S B := by
      intro q hq; by_cases hqn : q = n
      · subst hqn; rw [e1]; simp [Rank.S]
      · rw [e3 q hqn hq]
    have hRn : (rk' n).R B = (g.rank n).R B + 1 := by rw [e1]; simp [Rank.R, add_assoc]
    have hR : ∀ q, q ≠ n → (rk' q).R B = (g.rank q).R B := by
      intro q hq; by_cases hqn : q = r
      · subst hqn; rw [e2]; simp [Rank.R]
      · rw [e3 q hq hqn]
    refine ⟨fun q hq => ?_, fun q hq => ?_, fun q hq => ?_⟩
    · by_cases hqn : q = n
      · subst hqn; dsimp only; rw [e1]; exact h5
      · by_cases hqr : q = r
        · subst hqr; dsimp only; rw [e2]; exact s6
        · dsimp only; rw [e3 q hqn hqr]; exact hI.rk q hq
    · dsimp only
      by_cases hqr : q = r
      · subst hqr; rw [← hn, hRn, hSr]; omega
      · have : nextRank P q ≠ n := fun h' => hqr (nextRank_inj hq hr h')
        rw [hR _ this, hS q hqr]; exact hI.le q hq
    · dsimp only
      by_cases hqr : q = r
      · subst hqr; rw [← hn, hRn, hSr, hc]
        have : (g.rank q).S B + 1 - ((g.rank n).R B + 1) = 0 := by omega
        rw [this]; rfl
      · have : nextRank P q ≠ n := fun h' => hqr (nextRank_inj hq hr h')
        rw [hR _ this, hS q hqr]; exact hI.ch q hq

theorem step_inv {ip : V → V → 𝕜} {P B : ℕ} {o : ℕ → ℕ → V} {g g' : Ring V 𝕜}
    (hI : RInv ip P B o g) (hs : Step ip P B (batch o B) g g') : RInv ip P B o g' := by
  cases hs with
  | must h => exact must_inv hI h
  | buffered r hr x hs hx =>
    obtain ⟨s1, s2, s3, s4, s5, s6⟩ := rk_send (hI.rk r hr) hs
    rw [s5] at hx
    have hxe : x = msg o P B r ((g.rank r).S B) := (Option.some.inj hx).symm
    subst hxe
    set rk' := Function.update g.rank r { g.rank r with sent := (g.rank r).sent + 1 } with hrk
    have e2 : rk' r = { g.rank r with sent := (g.rank r).sent + 1 } := by rw [hrk, Function.update_self]
    have e3 : ∀ q, q ≠ r → rk' q = g.rank q := by
      intro q h1; rw [hrk, Function.update_of_ne h1]
    have hSr : (rk' r).S B = (g.rank r).S B + 1 := by rw [e2]; simp [Rank.S, add_assoc]
    have hR : ∀ q, (rk' q).R B = (g.rank q).R B := by
      intro q; by_cases hqn : q = r
      · subst hqn; rw [e2]; simp [Rank.R]
      · rw [e3 q hqn]
    have hle := hI.le r hr
    refine ⟨fun q hq => ?_, fun q hq => ?_, fun q hq => ?_⟩
    · by_cases hqr : q = r
      · subst hqr; dsimp only; rw [e2]; exact s6
      · dsimp only; rw [e3 q hqr]; exact hI.rk q hq
    · dsimp only; rw [hR]
      by_cases hqr : q = r
      · subst hqr; rw [hSr]; omega
      · rw [e3 q hqr]; exact hI.le q hq
    · dsimp only; rw [hR]
      by_cases hqr : q = r
      · subst hqr
        rw [hSr, Function.update_self, hI.ch q hq]
        have : (g.rank q).S B + 1 - (g.rank (nextRank P q)).R B = ((g.rank q).S B - (g.rank (nextRank P q)).R B) + 1 := by omega
        rw [this, List.range_succ, List.map_append, List.map_cons, List.map_nil]
        congr 3
        omega
      · rw [Function.update_of_ne hqr, e3 q hqr]; exact hI.ch q hq

/-! #### progress -/

theorem op_cases (P B r : ℕ) (s : Rank V 𝕜) :
    nextOp P B r s = .send ∨ nextOp P B r s = .recv ∨ nextOp P B r s = .compute ∨ nextOp P B r s = .done := by
  cases nextOp P B r s <;> simp

theorem done_iff {P B r : ℕ} {s : Rank V 𝕜} (h : nextOp P B r s = .done) : P - 1 ≤ s.t := by
  unfold nextOp at h; split_ifs at h; assumption

theorem ring_progress {ip : V → V → 𝕜} {P B : ℕ} {o : ℕ → ℕ → V} {g : Ring V 𝕜} (hP : 0 < P)
    (hI : RInv ip P B o g) : (∀ r < P, nextOp P B r (g.rank r) = .done) ∨ ∃ g', Must ip P B (batch o B) g g' := by
  by_contra hcon
  push Not at hcon
  obtain ⟨⟨r0, hr0, hnd⟩, hno⟩ := hcon
  have hncomp : ∀ r < P, nextOp P B r (g.rank r) ≠ .compute := fun r hr h => hno _ (Must.compute g r hr h)
  -- P ≥ 2, otherwise process 0 is done
  have hP2 : 2 ≤ P := by
    by_contra h
    apply hnd
    unfold nextOp
    rw [if_pos (by omega)]
  have hnext : ∀ r < P, nextRank P r ≠ r := by
    intro r hr h
    unfold nextRank at h
    by_cases h1 : r + 1 < P
    · rw [Nat.mod_eq_of_lt h1] at h; omega
    · have : r + 1 = P := by omega
      rw [this, Nat.mod_self] at h; omega
  have hrecv : ∀ r < P, nextOp P B (nextRank P r) (g.rank (nextRank P r)) = .recv →
      (g.rank r).S B = (g.rank (nextRank P r)).R B ∧ nextOp P B r (g.rank r) ≠ .send := by
    intro r hr h
    have hle := hI.le r hr
    have hch := hI.ch r hr
    have hempty : g.chan r = [] := by
      cases hc : g.chan r with
      | nil => rfl
      | cons x rest => exact absurd (Must.recv g r hr x rest h hc) (hno _)
    have h0 : (g.rank r).S B - (g.rank (nextRank P r)).R B = 0 := by
      rw [hempty] at hch
      have := congrArg List.length hch; simpa using this.symm
    refine ⟨by omega, fun hs => ?_⟩
    obtain ⟨_, _, _, _, s5, _⟩ := rk_send (hI.rk r hr) hs
    exact hno _ (Must.rendezvous g r hr _ (hnext r hr) hs h hempty s5)
  have hS_lt : ∀ r < P, nextOp P B r (g.rank r) = .send → (g.rank r).S B < (P - 1) * B := by
    intro r hr h
    obtain ⟨s1, s2, _⟩ := rk_send (hI.rk r hr) h
    unfold Rank.S
    calc (g.rank r).t * B + (g.rank r).sent < (g.rank r).t * B + B := by omega
      _ = ((g.rank r).t + 1) * B := by ring
      _ ≤ (P - 1) * B := Nat.mul_le_mul_right _ (by omega)
  have hSle : ∀ r < P, (g.rank r).S B ≤ (P - 1) * B := by
    intro r hr
    have h1 := (hI.rk r hr).tle
    rcases Nat.lt_or_eq_of_le h1 with h | h
    · have := (hI.rk r hr).sle
      unfold Rank.S
      calc (g.rank r).t * B + (g.rank r).sent ≤ (g.rank r).t * B + B := by omega
        _ = ((g.rank r).t + 1) * B := by ring
        _ ≤ (P - 1) * B := Nat.mul_le_mul_right _ (by omega)
    · have := ((hI.rk r hr).fin h).1
      unfold Rank.S; rw [h, this]; omega
  have hdoneR : ∀ r < P, nextOp P B r (g.rank r) = .done → (g.rank r).R B = (P - 1) * B ∧ (g.rank r).S B = (P - 1) * B := by
    intro r hr h
    have h1 := done_iff h
    have h2 : (g.rank r).t = P - 1 := le_antisymm (hI.rk r hr).tle h1
    obtain ⟨h3, h4⟩ := (hI.rk r hr).fin h2
    unfold Rank.R Rank.S; rw [h2, h3, h4]; simp
  have hR_lt : ∀ r < P, nextOp P B (nextRank P r) (g.rank (nextRank P r)) = .recv →
      (g.rank (nextRank P r)).R B < (P - 1) * B := by
    intro r hr h
    obtain ⟨s1, s2, _⟩ := rk_recv hr (hI.rk _ (nextRank_lt hr)) h
    unfold Rank.R
    calc (g.rank (nextRank P r)).t * B + (g.rank (nextRank P r)).recvd < (g.rank (nextRank P r)).t * B + B := by omega
      _ = ((g.rank (nextRank P r)).t + 1) * B := by ring
      _ ≤ (P - 1) * B := Nat.mul_le_mul_right _ (by omega)
  have hsend_next : ∀ r < P, nextOp P B r (g.rank r) = .send →
      nextOp P B (nextRank P r) (g.rank (nextRank P r)) = .send := by
    intro r hr h
    rcases op_cases P B (nextRank P r) (g.rank (nextRank P r)) with h1 | h1 | h1 | h1
    · exact h1
    · exact absurd h (hrecv r hr h1).2
    · exact absurd h1 (hncomp _ (nextRank_lt hr))
    · have := (hdoneR _ (nextRank_lt hr) h1).1
      have h2 := hI.le r hr
      have := hS_lt r hr h
      omega
  have hrecv_prev : ∀ r < P, nextOp P B (nextRank P r) (g.rank (nextRank P r)) = .recv →
      nextOp P B r (g.rank r) = .recv := by
    intro r hr h
    rcases op_cases P B r (g.rank r) with h1 | h1 | h1 | h1
    · exact absurd h1 (hrecv r hr h).2
    · exact h1
    · exact absurd h1 (hncomp r hr)
    · have h2 := (hdoneR r hr h1).2
      have h3 := (hrecv r hr h).1
      have := hR_lt r hr h
      omega
  have hnx : ∀ r, r + 1 < P → nextRank P r = r + 1 := fun r h => Nat.mod_eq_of_lt h
  have hnxL : nextRank P (P - 1) = 0 := by
    unfold nextRank; rw [show P - 1 + 1 = P by omega, Nat.mod_self]
  rcases op_cases P B r0 (g.rank r0) with h | h | h | h
  · -- everybody sends
    have hup : ∀ d, r0 + d < P → nextOp P B (r0 + d) (g.rank (r0 + d)) = .send := by
      intro d
      induction d with
      | zero => intro _; exact h
      | succ d ih =>
        intro hd
        have := hsend_next (r0 + d) (by omega) (ih (by omega))
        rw [hnx _ (by omega)] at this
        exact this
    have hL : nextOp P B (P - 1) (g.rank (P - 1)) = .send := by
      have := hup (P - 1 - r0) (by omega)
      rwa [show r0 + (P - 1 - r0) = P - 1 by omega] at this
    have h0 : nextOp P B 0 (g.rank 0) = .send := by
      have := hsend_next (P - 1) (by omega) hL
      rwa [hnxL] at this
    have hall : ∀ r < P, nextOp P B r (g.rank r) = .send := by
      intro r
      induction r with
      | zero => intro _; exact h0
      | succ r ih =>
        intro hr
        have := hsend_next r (by omega) (ih (by omega))
        rwa [hnx r hr] at this
    -- S_r < R_0 for every r below the last
    have hlt : ∀ r, r < P - 1 → (g.rank r).S B < (g.rank 0).R B := by
      intro r
      induction r with
      | zero =>
        intro hr
        obtain ⟨_, s2, _, s4, _⟩ := rk_send (hI.rk 0 (by omega)) h0
        have := s4 (by omega)
        unfold Rank.S Rank.R; omega
      | succ r ih =>
        intro hr
        obtain ⟨_, s2, _, s4, _⟩ := rk_send (hI.rk (r + 1) (by omega)) (hall (r + 1) (by omega))
        have h1 := s4 (by omega)
        have h2 := hI.le r (by omega)
        rw [hnx r (by omega)] at h2
        have h3 := ih (by omega)
        have h4 : (g.rank (r + 1)).S B < (g.rank (r + 1)).R B := by unfold Rank.S Rank.R; omega
        omega
    have h1 := hlt (P - 2) (by omega)
    have h2 := hI.le (P - 2) (by omega)
    rw [hnx (P - 2) (by omega), show P - 2 + 1 = P - 1 by omega] at h2
    have h3 := hI.le (P - 1) (by omega)
    rw [hnxL] at h3
    obtain ⟨_, l2, l3, _⟩ := rk_send (hI.rk (P - 1) (by omega)) hL
    have l4 := l3 rfl
    obtain ⟨_, z2, _, z4, _⟩ := rk_send (hI.rk 0 (by omega)) h0
    have z5 := z4 (by omega)
    unfold Rank.S Rank.R at *
    rw [z5] at h3 h1
    rw [l4, add_zero] at h2
    have h6 : ((g.rank 0).t + 1) * B < ((g.rank (P - 1)).t + 1) * B := by
      have e1 : ((g.rank 0).t + 1) * B = (g.rank 0).t * B + B := by ring
      have e2 : ((g.rank (P - 1)).t + 1) * B = (g.rank (P - 1)).t * B + B := by ring
      omega
    have h7 : (g.rank 0).t + 1 < (g.rank (P - 1)).t + 1 := lt_of_mul_lt_mul_right h6 (Nat.zero_le _)
    have h8 : ((g.rank 0).t + 1) * B ≤ (g.rank (P - 1)).t * B := Nat.mul_le_mul_right _ (by omega)
    have e1 : ((g.rank 0).t + 1) * B = (g.rank 0).t * B + B := by ring
    omega
  · -- everybody receives
    have hdown : ∀ d, d ≤ r0 → nextOp P B (r0 - d) (g.rank (r0 - d)) = .recv := by
      intro d
      induction d with
      | zero => intro _; exact h
      | succ d ih =>
        intro hd
        have h1 := ih (by omega)
        have e : nextRank P (r0 - (d + 1)) = r0 - d := by rw [hnx _ (by omega)]; omega
        exact hrecv_prev (r0 - (d + 1)) (by omega) (by rw [e]; exact h1)
    have h0 : nextOp P B 0 (g.rank 0) = .recv := by
      have := hdown r0 (le_refl _); rwa [Nat.sub_self] at this
    have hL : nextOp P B (P - 1) (g.rank (P - 1)) = .recv := hrecv_prev (P - 1) (by omega) (by rw [hnxL]; exact h0)
    have hall : ∀ d, d ≤ P - 1 → nextOp P B (P - 1 - d) (g.rank (P - 1 - d)) = .recv := by
      intro d
      induction d with
      | zero => intro _; exact hL
      | succ d ih =>
        intro hd
        have e : nextRank P (P - 1 - (d + 1)) = P - 1 - d := by rw [hnx _ (by omega)]; omega
        exact hrecv_prev (P - 1 - (d + 1)) (by omega) (by rw [e]; exact ih (by omega))
    have hall' : ∀ r < P, nextOp P B r (g.rank r) = .recv := by
      intro r hr
      have := hall (P - 1 - r) (by omega)
      rwa [show P - 1 - (P - 1 - r) = r by omega] at this
    have hloc : ∀ r < P, (g.rank r).recvd < B ∧ (r = P - 1 → (g.rank r).sent = B) ∧ (r ≠ P - 1 → (g.rank r).sent = 0) := by
      intro r hr
      -- r is the successor of its predecessor
      obtain ⟨q, hq, hqr⟩ : ∃ q < P, nextRank P q = r := by
        rcases Nat.eq_zero_or_pos r with h1 | h1
        · exact ⟨P - 1, by omega, by rw [hnxL, h1]⟩
        · exact ⟨r - 1, by omega, by rw [hnx _ (by omega)]; omega⟩
      have hr' := hall' r hr
      rw [← hqr] at hr' ⊢
      obtain ⟨_, h2, h3, h4, _⟩ := rk_recv hq (hI.rk _ (nextRank_lt hq)) hr'
      exact ⟨h2, h3, h4⟩
    have hEq : ∀ r < P, (g.rank r).S B = (g.rank (nextRank P r)).R B := fun r hr =>
      (hrecv r hr (hall' _ (nextRank_lt hr))).1
    -- all S below the last equal S of the last
    have hconst : ∀ r, r < P - 1 → (g.rank r).S B = (g.rank (P - 1)).S B := by
      intro r
      induction r with
      | zero =>
        intro hr
        have h1 := hEq (P - 1) (by omega)
        rw [hnxL] at h1
        obtain ⟨a1, _, a3⟩ := hloc 0 (by omega)
        obtain ⟨_, b2, _⟩ := hloc (P - 1) (by omega)
        have b3 := b2 rfl
        have a4 := a3 (by omega)
        rw [h1]
        unfold Rank.S Rank.R at *
        rw [b3] at h1
        -- (tL+1)B = t0 B + recvd0, recvd0 < B
        have e1 : ((g.rank (P - 1)).t + 1) * B = (g.rank 0).t * B + (g.rank 0).recvd := by
          rw [← h1]; ring
        have e2 : (g.rank 0).recvd = 0 := by
          have := congrArg (· % B) e1
          simp only [Nat.mul_mod_left] at this
          rw [Nat.add_mod, Nat.mul_mod_left, Nat.zero_add, Nat.mod_mod, Nat.mod_eq_of_lt a1] at this
          exact this.symm
        omega
      | succ r ih =>
        intro hr
        have h1 := ih (by omega)
        have h2 := hEq r (by omega)
        rw [hnx r (by omega)] at h2
        obtain ⟨a1, _, a3⟩ := hloc (r + 1) (by omega)
        obtain ⟨_, b2, _⟩ := hloc (P - 1) (by omega)
        have b3 := b2 rfl
        have a4 := a3 (by omega)
        rw [← h1, h2]
        rw [h1] at h2
        unfold Rank.S Rank.R at *
        rw [b3] at h2
        have e1 : ((g.rank (P - 1)).t + 1) * B = (g.rank (r + 1)).t * B + (g.rank (r + 1)).recvd := by
          rw [← h2]; ring
        have e2 : (g.rank (r + 1)).recvd = 0 := by
          have := congrArg (· % B) e1
          simp only [Nat.mul_mod_left] at this
          rw [Nat.add_mod, Nat.mul_mod_left, Nat.zero_add, Nat.mod_mod, Nat.mod_eq_of_lt a1] at this
          exact this.symm
        omega
    have h1 := hconst (P - 2) (by omega)
    have h2 := hEq (P - 2) (by omega)
    rw [hnx (P - 2) (by omega), show P - 2 + 1 = P - 1 by omega] at h2
    obtain ⟨a1, a2, _⟩ := hloc (P - 1) (by omega)
    have a3 := a2 rfl
    rw [h1] at h2
    unfold Rank.S Rank.R at h2
    omega
  · exact hncomp r0 hr0 h
  · exact hnd h

/-! #### termination -/

/-- work left on a process -/
def Rank.left (P B : ℕ) (s : Rank V 𝕜) : ℕ := (P - 1 - s.t) * (2 * B + 1) - s.sent - s.recvd

/-- work left in the ring -/
def Ring.left (P B : ℕ) (g : Ring V 𝕜) : ℕ := ∑ r ∈ Finset.range P, (g.rank r).left P B

theorem left_compute {ip : V → V → 𝕜} {P B : ℕ} {o : ℕ → ℕ → V} {r : ℕ} {s : Rank V 𝕜}
    (h : RkInv ip P B o r s) (hop : nextOp P B r s = .compute) (mine : List V) :
    (s.compute ip P B r mine).left P B < s.left P B := by
  have hfull : s.t < P - 1 ∧ s.sent = B ∧ s.recvd = B := by
    unfold nextOp at hop
    have := h.sle; have := h.rle
    split_ifs at hop <;> (refine ⟨by omega, by omega, by omega⟩)
  obtain ⟨ht, hs, hv⟩ := hfull
  simp only [Rank.left, Rank.compute, hs, hv]
  obtain ⟨d, hd⟩ : ∃ d, P - 1 - s.t = d + 1 := ⟨P - 1 - s.t - 1, by omega⟩
  have : P - 1 - (s.t + 1) = d := by omega
  rw [hd, this]
  have : (d + 1) * (2 * B + 1) = d * (2 * B + 1) + (2 * B + 1) := by ring
  omega

theorem left_lt {P B : ℕ} {s s' : Rank V 𝕜} (ht : s.t < P - 1) (htt : s'.t = s.t)
    (hle : s'.sent + s'.recvd ≤ 2 * B) (hlt : s.sent + s.recvd < s'.sent + s'.recvd) : s'.left P B < s.left P B := by
  simp only [Rank.left, htt]
  obtain ⟨d, hd⟩ : ∃ d, P - 1 - s.t = d + 1 := ⟨P - 1 - s.t - 1, by omega⟩
  rw [hd]
  have : (d + 1) * (2 * B + 1) = d * (2 * B + 1) + (2 * B + 1) := by ring
  omega

theorem sum_update_lt {P B : ℕ} {rk : ℕ → Rank V 𝕜} {r : ℕ} {s : Rank V 𝕜} (hr : r < P)
    (h : s.left P B < (rk r).left P B) :
    ∑ q ∈ Finset.range P, (Function.update rk r s q).left P B < ∑ q ∈ Finset.range P, (rk q).left P B := by
  apply Finset.sum_lt_sum
  · intro q _
    by_cases hq : q = r
    · subst hq; simpa using h.le
    · simp [hq]
  · exact ⟨r, by simpa using hr, by simpa using h⟩

theorem step_left {ip : V → V → 𝕜} {P B : ℕ} {o : ℕ → ℕ → V} {g g' : Ring V 𝕜}
    (hI : RInv ip P B o g) (hs : Step ip P B (batch o B) g g') : g'.left P B < g.left P B := by
  have hsend : ∀ r < P, nextOp P B r (g.rank r) = .send →
      Rank.left P B { g.rank r with sent := (g.rank r).sent + 1 } < (g.rank r).left P B := by
    intro r hr h
    obtain ⟨h1, h2, _⟩ := rk_send (hI.rk r hr) h
    have := (hI.rk r hr).rle
    refine left_lt (s' := ?_) h1 ?_ ?_ ?_
    · rfl
    · dsimp only; omega
    · dsimp only; omega
  have hrecv : ∀ r < P, ∀ l, nextOp P B (nextRank P r) (g.rank (nextRank P r)) = .recv →
      Rank.left P B { g.rank (nextRank P r) with recvd := (g.rank (nextRank P r)).recvd + 1, recvBuf := l }
        < (g.rank (nextRank P r)).left P B := by
    intro r hr l h
    obtain ⟨h1, h2, _⟩ := rk_recv hr (hI.rk _ (nextRank_lt hr)) h
    have := (hI.rk _ (nextRank_lt hr)).sle
    refine left_lt (s' := ?_) h1 ?_ ?_ ?_
    · rfl
    · dsimp only; omega
    · dsimp only; omega
  cases hs with
  | must h =>
    cases h with
    | compute r hr h => exact sum_update_lt hr (left_compute (hI.rk r hr) h _)
    | recv r hr x rest h hc => exact sum_update_lt (nextRank_lt hr) (hrecv r hr _ h)
    | rendezvous r hr x hne hs h hc hx =>
      refine lt_trans (sum_update_lt (nextRank_lt hr) ?_) (sum_update_lt hr (hsend r hr hs))
      rw [Function.update_of_ne hne]
      exact hrecv r hr _ h
  | buffered r hr x hs hx => exact sum_update_lt hr (hsend r hr hs)

end QLPeps.SR
