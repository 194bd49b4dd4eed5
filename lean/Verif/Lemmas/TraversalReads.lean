import Verif.Lemmas.Traversal

/-! # Reading amplitudes inside a line or a pair of lines -/

namespace QLPeps.Contractor

universe u

variable {T E B C C2 A H : Type u}
variable (o : Ops T E B C C2 A H) (rows cols : ℕ)

theorem width_opposite (p : Pos) : width rows cols (opposite p) = width rows cols p := by
  cases p <;> rfl

/-- what the row at site `i` reads, for any network differing at that site only -/
theorem row_reads (t t' : Site → T) (s i far : ℕ) (c : Ctr B C C2) (hs : s < rows) (hi : i < cols)
    (hfar : cols - i ≤ far) (h : Line o rows cols t .left s i far c)
    (ht : ∀ q, q ≠ (s, i) → t q = t' q) :
    bmpsAt rows cols c .up s = some (beyond o rows cols t' .up s) ∧
    bmpsAt rows cols c .down s = some (beyond o rows cols t' .down s) ∧
    (c.bten .left)[i]? = some (benv o rows cols t' .left s i) ∧
    btenAt rows cols c .right i = some (benv o rows cols t' .right s (cols - 1 - i)) := by
  obtain ⟨-, hw, hb1, hb2⟩ := h
  have hbe := hw.beside o rows cols t hs
  obtain ⟨e1, e2⟩ := beyond_congr o rows cols t t' .left s hs fun q hq => ht q (hq i hi)
  have b1 : benv o rows cols t .left s i = benv o rows cols t' .left s i :=
    benv_congr o rows cols t t' .left s hs i (by simp only [span]; omega) fun q hq =>
      ht q (hq i (le_refl i) hi)
  have b2 : benv o rows cols t .right s (cols - 1 - i)
      = benv o rows cols t' .right s (cols - 1 - i) := by
    refine benv_congr o rows cols t t' .right s hs _ (by simp only [span]; omega)
      fun q hq => ht q ?_
    have := hq (cols - 1 - i) (le_refl _) (by simp only [span]; omega)
    have e : cell rows cols .right s (cols - 1 - i) = (s, i) := cell_opposite rows cols .left s i hi
    rwa [e] at this
  refine ⟨hbe.1.trans (congrArg some e1), hbe.2.trans (congrArg some e2), ?_, ?_⟩
  · rw [hb1, bstack_get _ _ _ _ _ _ _ _ (by omega), b1]
  · rw [btenAt_fresh o rows cols t c .right s i far hb2 hi (by simp only [depth]; omega), ← b2]
    rfl

theorem oneTrace_fresh (t t' : Site → T) (s i far : ℕ) (c : Ctr B C C2) (hs : s < rows)
    (hi : i < cols) (hfar : cols - i ≤ far) (h : Line o rows cols t .left s i far c)
    (ht : ∀ q, q ≠ (s, i) → t q = t' q) :
    oneTrace o rows cols c (s, i) .horizontal (t' (s, i))
      = some (oneAmp o rows cols t' (s, i)) := by
  obtain ⟨h1, h2, h3, h4⟩ := row_reads o rows cols t t' s i far c hs hi hfar h ht
  have f1 := fun b i => atLogical_facing o rows cols b .up i
  have f2 := fun b i => atLogical_facing o rows cols b .down i
  simp only [width] at f1 f2
  simp only [oneTrace, h1, h2, h3, h4, Option.bind_some]
  rw [f1 _ _ hi, f2 _ _ hi]
  rfl

theorem punchHole_fresh (t t' : Site → T) (s i far : ℕ) (c : Ctr B C C2) (hs : s < rows)
    (hi : i < cols) (hfar : cols - i ≤ far) (h : Line o rows cols t .left s i far c)
    (ht : ∀ q, q ≠ (s, i) → t q = t' q) :
    punchHole o rows cols c (s, i) .horizontal = some (holeAt o rows cols t' (s, i)) := by
  obtain ⟨h1, h2, h3, h4⟩ := row_reads o rows cols t t' s i far c hs hi hfar h ht
  have f1 := fun b i => atLogical_facing o rows cols b .up i
  have f2 := fun b i => atLogical_facing o rows cols b .down i
  simp only [width] at f1 f2
  simp only [punchHole, h1, h2, h3, h4, Option.bind_some]
  rw [f1 _ _ hi, f2 _ _ hi]
  rfl

/-! ## two lines -/

/-- state at position `i` of the lines `s`, `s + 1` -/
def Line2 (t : Site → T) (p : Pos) (s i far : ℕ) (c : Ctr B C C2) : Prop :=
  Window o rows cols t c p s ∧
  c.bten2 p = bstack2 o rows cols t p s (i + 1) ∧
  c.bten2 (opposite p) = bstack2 o rows cols t (opposite p) s far

theorem bten2At_fresh (t : Site → T) (c : Ctr B C C2) (p : Pos) (s i n : ℕ)
    (hc : c.bten2 p = bstack2 o rows cols t p s n) (hi : i < span rows cols p)
    (h : depth rows cols p i < n) :
    bten2At rows cols c p i = some (benv2 o rows cols t p s (depth rows cols p i)) := by
  unfold bten2At
  rw [stackIdx_depth rows cols p i hi]
  simp only [Option.bind_some]
  rw [hc, bstack2_get _ _ _ _ _ _ _ _ h]

/-- what the pair of lines reads from position `i` to `i + k`, for any network differing only
there -/
theorem line2_reads (t t' : Site → T) (p : Pos) (s i k far : ℕ) (c : Ctr B C C2)
    (hs : s + 1 < width rows cols p)
    (hi : i + k < span rows cols p) (hfar : span rows cols p - (i + k) ≤ far)
    (hd : depth rows cols (opposite p) (i + k) = span rows cols p - 1 - (i + k))
    (h : Line2 o rows cols t p s i far c)
    (ht : ∀ q, (∀ j ≤ k, q ≠ cell rows cols p s (i + j) ∧ q ≠ cell rows cols p (s + 1) (i + j)) →
      t q = t' q) :
    bmpsAt rows cols c (pre p) (nearer (pre p) s)
      = some (beyond o rows cols t' (pre p) (nearer (pre p) s)) ∧
    bmpsAt rows cols c (next p) (nearer (next p) s)
      = some (beyond o rows cols t' (next p) (nearer (next p) s)) ∧
    (c.bten2 p)[i]? = some (benv2 o rows cols t' p s i) ∧
    bten2At rows cols c (opposite p) (i + k)
      = some (benv2 o rows cols t' (opposite p) s (span rows cols p - 1 - (i + k))) := by
  obtain ⟨hw, hb1, hb2⟩ := h
  have hbe := hw.beside2 o rows cols t hs
  obtain ⟨e1, e2⟩ := beyond_congr2 o rows cols t t' p s hs fun q hq =>
    ht q fun j hj => hq (i + j) (by omega)
  have b1 : benv2 o rows cols t p s i = benv2 o rows cols t' p s i :=
    benv2_congr o rows cols t t' p s hs i (by omega) fun q hq =>
      ht q fun j hj => hq (i + j) (by omega) (by omega)
  have b2 : benv2 o rows cols t (opposite p) s (span rows cols p - 1 - (i + k))
      = benv2 o rows cols t' (opposite p) s (span rows cols p - 1 - (i + k)) := by
    refine benv2_congr o rows cols t t' (opposite p) s (by rw [width_opposite]; exact hs) _
      (by rw [span_opposite]; omega) fun q hq => ht q fun j hj => ?_
    rw [← cell_opposite rows cols p s (i + j) (by omega),
      ← cell_opposite rows cols p (s + 1) (i + j) (by omega)]
    exact hq _ (by omega) (by rw [span_opposite]; omega)
  refine ⟨hbe.1.trans (by rw [e1]), hbe.2.trans (by rw [e2]), ?_, ?_⟩
  · rw [hb1, bstack2_get _ _ _ _ _ _ _ _ (by omega), b1]
  · rw [bten2At_fresh o rows cols t c (opposite p) s (i + k) far hb2
      (by rw [span_opposite]; exact hi) (by rw [hd]; omega), hd, ← b2]

/-- both replaced traces of a plaquette -/
theorem nnnTrace_fresh (t t' : Site → T) (dd : Diag) (s i far : ℕ) (c : Ctr B C C2)
    (hs : s + 1 < rows) (hi : i + 1 < cols) (hfar : cols - 1 - i ≤ far)
    (h : Line2 o rows cols t .left s i far c) (s1 s2 : Site)
    (hd : match dd with
      | .leftUpToRightDown => s1 = (s, i) ∧ s2 = (s + 1, i + 1)
      | .leftDownToRightUp => s1 = (s + 1, i) ∧ s2 = (s, i + 1))
    (ht : ∀ q, q ≠ s1 → q ≠ s2 → t q = t' q) :
    nnnTrace o rows cols t c (s, i) dd (t' s1) (t' s2)
      = some (plaquetteAmp o rows cols t' (s, i)) := by
  have ht' : ∀ q : Site, (∀ j ≤ 1, q ≠ cell rows cols .left s (i + j) ∧
      q ≠ cell rows cols .left (s + 1) (i + j)) → t q = t' q := by
    intro q hq
    have q0 := hq 0 (by omega)
    have q1 := hq 1 (le_refl 1)
    simp only [cell, Nat.add_zero] at q0 q1
    cases dd
    · obtain ⟨rfl, rfl⟩ := hd; exact ht q q0.1 q1.2
    · obtain ⟨rfl, rfl⟩ := hd; exact ht q q0.2 q1.1
  obtain ⟨h1, h2, h3, h4⟩ := line2_reads o rows cols t t' .left s i 1 far c hs hi
    (by simp only [span]; omega) rfl h ht'
  simp only [pre, next, nearer, opposite, span] at h1 h2 h3 h4
  have f1 := fun b i => atLogical_facing o rows cols b .up i
  have f2 := fun b i => atLogical_facing o rows cols b .down i
  simp only [width] at f1 f2
  have g : ∀ r j, r < rows → j < cols → site? rows cols t (r, j) = some (t (r, j)) :=
    fun r j hr hj => if_pos ⟨hr, hj⟩
  simp only [nnnTrace, h1, h2, h3, h4, Option.bind_some]
  rw [f1 _ _ (by omega), f2 _ _ (by omega), f2 _ _ hi, f1 _ _ hi]
  simp only [Option.bind_some]
  cases dd
  · obtain ⟨rfl, rfl⟩ := hd
    simp only
    rw [g _ _ hs (by omega), g _ _ (by omega) hi,
      ht (s + 1, i) (by simp) (by simp), ht (s, i + 1) (by simp) (by simp)]
    rfl
  · obtain ⟨rfl, rfl⟩ := hd
    simp only
    rw [g _ _ (by omega) (by omega), g _ _ hs hi,
      ht (s, i) (by simp) (by simp), ht (s + 1, i + 1) (by simp) (by simp)]
    rfl

end QLPeps.Contractor

namespace QLPeps.Contractor

universe u

variable {T E B C C2 A H : Type u}
variable (o : Ops5 T E B C C2 A H) (rows cols : ℕ)

theorem sq5_horizontal (t t' : Site → T) (s i far : ℕ) (c : Ctr B C C2)
    (hs : s + 1 < rows) (hi : i + 2 < cols) (hfar : cols - 2 - i ≤ far)
    (h : Line2 o.toOps rows cols t .left s i far c)
    (ht : ∀ q, q ≠ (s + 1, i) → q ≠ (s, i + 2) → t q = t' q) :
    sq5Trace o rows cols t c (s, i) .horizontal (t' (s + 1, i)) (t' (s, i + 2))
      = some (blockAmp o rows cols t' .horizontal (s, i)) := by
  have ht' : ∀ q : Site, (∀ j ≤ 2, q ≠ cell rows cols .left s (i + j) ∧
      q ≠ cell rows cols .left (s + 1) (i + j)) → t q = t' q := by
    intro q hq
    have q0 := hq 0 (by omega)
    have q1 := hq 2 (le_refl 2)
    simp only [cell, Nat.add_zero] at q0 q1
    exact ht q q0.2 q1.1
  obtain ⟨h1, h2, h3, h4⟩ := line2_reads o.toOps rows cols t t' .left s i 2 far c hs hi
    (by simp only [span]; omega) rfl h ht'
  simp only [pre, next, nearer, opposite, span] at h1 h2 h3 h4
  have f1 := fun b i => atLogical_facing o.toOps rows cols b .up i
  have f2 := fun b i => atLogical_facing o.toOps rows cols b .down i
  simp only [width] at f1 f2
  have g : ∀ r j, r < rows → j < cols → site? rows cols t (r, j) = some (t (r, j)) :=
    fun r j hr hj => if_pos ⟨hr, hj⟩
  simp only [sq5Trace, h1, h2, h3, h4, Option.bind_some]
  rw [f1 _ _ (by omega), f2 _ _ (by omega), f1 _ _ (by omega), f2 _ _ (by omega), f1 _ _ hi,
    f2 _ _ hi, g _ _ (by omega) (by omega), g _ _ hs hi, g _ _ (by omega) (by omega),
    g _ _ hs (by omega)]
  simp only [Option.bind_some]
  rw [ht (s, i) (by simp) (by simp), ht (s + 1, i + 2) (by simp) (by simp),
    ht (s, i + 1) (by simp) (by simp), ht (s + 1, i + 1) (by simp) (by simp)]
  rfl

theorem sq5_vertical (t t' : Site → T) (s i far : ℕ) (c : Ctr B C C2)
    (hs : s + 1 < cols) (hi : i + 2 < rows) (hfar : rows - 2 - i ≤ far)
    (h : Line2 o.toOps rows cols t .up s i far c)
    (ht : ∀ q, q ≠ (i + 2, s) → q ≠ (i, s + 1) → t q = t' q) :
    sq5Trace o rows cols t c (i, s) .vertical (t' (i + 2, s)) (t' (i, s + 1))
      = some (blockAmp o rows cols t' .vertical (i, s)) := by
  have ht' : ∀ q : Site, (∀ j ≤ 2, q ≠ cell rows cols .up s (i + j) ∧
      q ≠ cell rows cols .up (s + 1) (i + j)) → t q = t' q := by
    intro q hq
    have q0 := hq 0 (by omega)
    have q1 := hq 2 (le_refl 2)
    simp only [cell, Nat.add_zero] at q0 q1
    exact ht q q1.1 q0.2
  obtain ⟨h1, h2, h3, h4⟩ := line2_reads o.toOps rows cols t t' .up s i 2 far c hs hi
    (by simp only [span]; omega) rfl h ht'
  simp only [pre, next, nearer, opposite, span] at h1 h2 h3 h4
  have f1 := fun b i => atLogical_facing o.toOps rows cols b .left i
  have f2 := fun b i => atLogical_facing o.toOps rows cols b .right i
  simp only [width] at f1 f2
  have g : ∀ r j, r < rows → j < cols → site? rows cols t (r, j) = some (t (r, j)) :=
    fun r j hr hj => if_pos ⟨hr, hj⟩
  simp only [sq5Trace, h1, h2, h3, h4, Option.bind_some]
  rw [f1 _ _ hi, f2 _ _ hi, f1 _ _ (by omega), f2 _ _ (by omega), f1 _ _ (by omega),
    f2 _ _ (by omega), g _ _ (by omega) (by omega), g _ _ (by omega) hs, g _ _ hi hs,
    g _ _ (by omega) (by omega)]
  simp only [Option.bind_some]
  rw [ht (i + 1, s) (by simp) (by simp), ht (i + 1, s + 1) (by simp) (by simp),
    ht (i + 2, s + 1) (by simp) (by simp), ht (i, s) (by simp) (by simp)]
  rfl

end QLPeps.Contractor
