import Verif.Lemmas.ContractorCount

/-! # Three-site sweeps with the caching contractor -/

namespace QLPeps.Contractor

open QLPeps.Sweep QLPeps.Updaters

variable {T E B C C2 A H : Type*}
variable (o : Ops T E B C C2 A H) (rows cols : ℕ)

/-- a replaced three-site trace inside a line is the amplitude from scratch -/
theorem tnnTrace_fresh (t t' : Site → T) (p : Pos) (hp : p = .left ∨ p = .up) (s i far : ℕ)
    (c : Ctr B C C2) (hs : s < width rows cols p) (hi : i + 2 < span rows cols p)
    (hfar : span rows cols p - 2 - i ≤ far)
    (h : Line o rows cols t p s i far c)
    (ht : ∀ q, q ≠ cell rows cols p s i → q ≠ cell rows cols p s (i + 1) →
      q ≠ cell rows cols p s (i + 2) → t q = t' q) :
    tnnTrace o rows cols c (cell rows cols p s i) (dirOf p)
        (t' (cell rows cols p s i)) (t' (cell rows cols p s (i + 1)))
        (t' (cell rows cols p s (i + 2)))
      = some (tripleAmp o rows cols t' (dirOf p) (cell rows cols p s i)
          (cell rows cols p s (i + 1)) (cell rows cols p s (i + 2))) := by
  obtain ⟨-, hw, hb1, hb2⟩ := h
  have hbe := hw.beside o rows cols t hs
  obtain ⟨e1, e2⟩ := beyond_congr o rows cols t t' p s hs fun q hq =>
    ht q (hq i (by omega)) (hq (i + 1) (by omega)) (hq (i + 2) hi)
  have b1 : benv o rows cols t p s i = benv o rows cols t' p s i :=
    benv_congr o rows cols t t' p s hs i (by omega) fun q hq =>
      ht q (hq i (le_refl i) (by omega)) (hq (i + 1) (by omega) (by omega))
        (hq (i + 2) (by omega) hi)
  have b2 : benv o rows cols t (opposite p) s (span rows cols p - 3 - i)
      = benv o rows cols t' (opposite p) s (span rows cols p - 3 - i) := by
    have hw' : s < width rows cols (opposite p) := by
      revert hs; cases p <;> exact id
    refine benv_congr o rows cols t t' (opposite p) s hw' _ (by rw [span_opposite]; omega)
      fun q hq => ht q ?_ ?_ ?_
    · rw [← cell_opposite rows cols p s i (by omega)]
      exact hq _ (by omega) (by rw [span_opposite]; omega)
    · rw [← cell_opposite rows cols p s (i + 1) (by omega)]
      exact hq _ (by omega) (by rw [span_opposite]; omega)
    · rw [← cell_opposite rows cols p s (i + 2) (by omega)]
      exact hq _ (by omega) (by rw [span_opposite]; omega)
  rcases hp with rfl | rfl
  · simp only [pre, next, opposite, span, width, Beside, cell, dirOf, tnnTrace, tripleAmp] at *
    rw [hbe.1, hbe.2]
    simp only [Option.bind_some]
    have f1 := fun b i => atLogical_facing o rows cols b .up i
    have f2 := fun b i => atLogical_facing o rows cols b .down i
    simp only [width] at f1 f2
    rw [f1 _ _ (by omega), f2 _ _ (by omega), f1 _ _ (by omega), f2 _ _ (by omega), f1 _ _ hi,
      f2 _ _ hi, hb1, bstack_get _ _ _ _ _ _ _ _ (by omega),
      btenAt_fresh o rows cols t c .right s (i + 2) far hb2 hi (by simp only [depth]; omega)]
    simp only [Option.bind_some, e1, e2, b1, depth]
    rw [show cols - 1 - (i + 2) = cols - 3 - i by omega, b2]
  · simp only [pre, next, opposite, span, width, Beside, cell, dirOf, tnnTrace, tripleAmp] at *
    rw [hbe.1, hbe.2]
    simp only [Option.bind_some]
    have f1 := fun b i => atLogical_facing o rows cols b .left i
    have f2 := fun b i => atLogical_facing o rows cols b .right i
    simp only [width] at f1 f2
    rw [f1 _ _ (by omega), f2 _ _ (by omega), f1 _ _ (by omega), f2 _ _ (by omega), f1 _ _ hi,
      f2 _ _ hi, hb1, bstack_get _ _ _ _ _ _ _ _ (by omega),
      btenAt_fresh o rows cols t c .down s (i + 2) far hb2 hi (by simp only [depth]; omega)]
    simp only [Option.bind_some, e1, e2, b1, depth]
    rw [show rows - 1 - (i + 2) = rows - 3 - i by omega, b2]

variable (sitps : Site → ℕ → T)

/-- the traces of both contractors agree inside a line -/
theorem tnn_agree (p : Pos) (hp : p = .left ∨ p = .up) (s i : ℕ) (hs : s < width rows cols p)
    (hi : i + 2 < span rows cols p) (cfg : Config) (c : Ctr B C C2) (u : Unit)
    (h : Line o rows cols (project sitps cfg) p s i (span rows cols p - 2 - i) c) :
    (bmpsContractor o rows cols sitps).tnnTrace (some c) cfg (cell rows cols p s i)
        (cell rows cols p s (i + 1)) (cell rows cols p s (i + 2)) (dirOf p)
      = (scratchContractor o rows cols sitps).tnnTrace u cfg (cell rows cols p s i)
        (cell rows cols p s (i + 1)) (cell rows cols p s (i + 2)) (dirOf p) := by
  funext a b e
  have h12 : cell rows cols p s i ≠ cell rows cols p s (i + 1) := fun he => by
    have := cell_inj rows cols p s i (i + 1) (by omega) (by omega) he; omega
  have h13 : cell rows cols p s i ≠ cell rows cols p s (i + 2) := fun he => by
    have := cell_inj rows cols p s i (i + 2) (by omega) (by omega) he; omega
  have h23 : cell rows cols p s (i + 1) ≠ cell rows cols p s (i + 2) := fun he => by
    have := cell_inj rows cols p s (i + 1) (i + 2) (by omega) (by omega) he; omega
  simp only [bmpsContractor, scratchContractor, Option.bind_some]
  have := tnnTrace_fresh o rows cols (project sitps cfg)
    (project sitps (setSite (setSite (setSite cfg (cell rows cols p s i) a)
      (cell rows cols p s (i + 1)) b) (cell rows cols p s (i + 2)) e)) p hp s i _ c hs hi
    (le_refl _) h (fun q hq1 hq2 hq3 => by
      simp only [project, setSite]
      rw [if_neg hq3, if_neg hq2, if_neg hq1])
  rw [← this]
  congr 1
  · simp only [project, setSite]
    rw [if_neg h13, if_neg h12, if_pos trivial]
  · simp only [project, setSite]
    rw [if_neg h23, if_pos trivial]
  · simp only [project, setSite]
    rw [if_pos trivial]

/-- one three-site update, accepted or not -/
theorem Rel.move3 (dec : Decision3 (Option A)) (p : Pos) (hp : p = .left ∨ p = .up) (s i : ℕ)
    (hs : s < width rows cols p) (hi : i + 2 < span rows cols p) {x y}
    (h : Rel (A := A) sitps
      (fun t => Line o rows cols t p s i (span rows cols p - 2 - i)) x y) :
    let s1 := cell rows cols p s i
    let s2 := cell rows cols p s (i + 1)
    let s3 := cell rows cols p s (i + 2)
    let r := liftUpd (moveBy3 dec (bmpsContractor o rows cols sitps) s1 s2 s3 (dirOf p)) x.1
    let r' := liftUpd (moveBy3 dec (scratchContractor o rows cols sitps) s1 s2 s3 (dirOf p)) y.1
    r.2 = r'.2 ∧ Rel sitps
      (fun t => Line o rows cols t p s i (span rows cols p - 2 - i)) (r.1, x.2) (r'.1, y.2) := by
  intro s1 s2 s3 r r'
  obtain ⟨h1, h2⟩ := h
  rcases h2 with ⟨h2, h3⟩ | ⟨w, w', a1, a2, a3, a4, a5, c, a6, a7⟩
  · simp only [r, r', h2, h3, liftUpd]
    exact ⟨trivial, h1, Or.inl ⟨rfl, rfl⟩⟩
  · have hq : (bmpsContractor o rows cols sitps).tnnTrace w.env w.config s1 s2 s3 (dirOf p)
        = (scratchContractor o rows cols sitps).tnnTrace w'.env w'.config s1 s2 s3 (dirOf p) := by
      rw [a6, ← a3]
      exact tnn_agree o rows cols sitps p hp s i hs hi w.config c _ a7
    simp only [r, r', a1, a2, liftUpd, moveBy3]
    rw [hq, ← a3, ← a4, ← a5]
    cases hd : dec s1 s2 s3 (dirOf p) (w.config s1) (w.config s2) (w.config s3) w.amp w.draws
        ((scratchContractor o rows cols sitps).tnnTrace w'.env w.config s1 s2 s3 (dirOf p)) with
    | none => exact ⟨rfl, h1, Or.inl ⟨rfl, rfl⟩⟩
    | some m =>
      obtain ⟨n, m⟩ := m
      cases m with
      | none =>
        simp only
        exact ⟨trivial, h1, Or.inr ⟨_, _, rfl, rfl, rfl, rfl, rfl, c, a6, a7⟩⟩
      | some m =>
        obtain ⟨a, b, e, ψ⟩ := m
        simp only
        refine ⟨trivial, h1, Or.inr ⟨_, _, rfl, rfl, ?_, rfl, rfl, ?_⟩⟩
        · simp [updateLocal, updateSingleSite, a3]
        · simp only [updateLocal, updateSingleSite, List.foldl_cons, List.foldl_nil,
            bmpsContractor, a6, Option.map_some]
          refine ⟨_, rfl, ?_⟩
          have l1 := erase_line o rows cols (project sitps w.config)
            (project sitps (setSite w.config s1 a)) p s i _ i c hs (by omega) (le_refl i)
            (by omega) a7 (fun q hq => by simp only [project, setSite]; rw [if_neg hq])
          have l2 := erase_line o rows cols _
            (project sitps (setSite (setSite w.config s1 a) s2 b)) p s i _ (i + 1) _ hs
            (by omega) (by omega) (by omega) l1
            (fun q hq => by simp only [project, setSite]; rw [if_neg hq])
          exact erase_line o rows cols _
            (project sitps (setSite (setSite (setSite w.config s1 a) s2 b) s3 e)) p s i _ (i + 2)
            _ hs hi (by omega) (by omega) l2
            (fun q hq => by simp only [project, setSite]; rw [if_neg hq])

/-- the refreshed amplitude at the start of a line -/
theorem Rel.refresh (p : Pos) (hp : p = .left ∨ p = .up) (s : ℕ)
    (hs : s < width rows cols p) (hN : 3 ≤ span rows cols p) {x y}
    (h : Rel (A := A) sitps
      (fun t => Line o rows cols t p s 0 (span rows cols p - 2)) x y) :
    Rel sitps (fun t => Line o rows cols t p s 0 (span rows cols p - 2))
      (x.1.map (refresh3 (bmpsContractor o rows cols sitps) (cell rows cols p s 0)
        (cell rows cols p s 1) (cell rows cols p s 2) (dirOf p)), x.2)
      (y.1.map (refresh3 (scratchContractor o rows cols sitps) (cell rows cols p s 0)
        (cell rows cols p s 1) (cell rows cols p s 2) (dirOf p)), y.2) := by
  obtain ⟨h1, h2⟩ := h
  rcases h2 with ⟨h2, h3⟩ | ⟨w, w', a1, a2, a3, a4, a5, c, a6, a7⟩
  · rw [h2, h3]; exact ⟨h1, Or.inl ⟨rfl, rfl⟩⟩
  · rw [a1, a2]
    refine ⟨h1, Or.inr ⟨_, _, rfl, rfl, a3, ?_, a5, c, a6, a7⟩⟩
    have := tnn_agree o rows cols sitps p hp s 0 hs (by omega) w.config c w'.env a7
    simp only [refresh3, a6, ← a3, this]

/-- the inner loop over a row or column -/
def lineLoop3 {S : Type*} (ops : EnvOps S)
    (upd : Site → Site → Site → Orient → S → S × Bool) (p : Pos) (s : ℕ) (sn : S × ℕ) : S × ℕ :=
  (List.range (span rows cols p - 2)).foldl (fun sn i =>
    let r := upd (cell rows cols p s i) (cell rows cols p s (i + 1)) (cell rows cols p s (i + 2))
      (dirOf p) sn.1
    let st := if i < span rows cols p - 3 then ops.shiftBTenWindow (opposite p) r.1 else r.1
    (st, sn.2 + r.2.toNat)) sn

/-- the loop over rows or columns -/
def phaseLoop3 {S : Type*} (ops : EnvOps S) (refresh : Site → Site → Site → Orient → S → S)
    (upd : Site → Site → Site → Orient → S → S × Bool) (p : Pos) (sn : S × ℕ) : S × ℕ :=
  (List.range (width rows cols p)).foldl (fun sn s =>
    let st := ops.initBTen p s sn.1
    let st := ops.growFullBTen (opposite p) s 3 st
    let st := refresh (cell rows cols p s 0) (cell rows cols p s 1) (cell rows cols p s 2)
      (dirOf p) st
    let r := lineLoop3 rows cols ops upd p s (st, sn.2)
    (if s < width rows cols p - 1 then ops.shiftBMPSWindow (decSide p) r.1 else r.1, r.2)) sn

theorem horizontalLoop3_eq {S : Type*} (ops : EnvOps S)
    (refresh : Site → Site → Site → Orient → S → S)
    (upd : Site → Site → Site → Orient → S → S × Bool) (sn : S × ℕ) :
    horizontalLoop3 ops refresh upd rows cols sn = phaseLoop3 rows cols ops refresh upd .left sn :=
  rfl

theorem verticalLoop3_eq {S : Type*} (ops : EnvOps S)
    (refresh : Site → Site → Site → Orient → S → S)
    (upd : Site → Site → Site → Orient → S → S × Bool) (sn : S × ℕ) :
    verticalLoop3 ops refresh upd rows cols sn = phaseLoop3 rows cols ops refresh upd .up sn :=
  rfl

/-- one line -/
theorem Rel.line3 (dec : Decision3 (Option A)) (p : Pos) (hp : p = .left ∨ p = .up) (s : ℕ)
    (hs : s < width rows cols p) (hN : 3 ≤ span rows cols p) {x y}
    (h : Rel (A := A) sitps
      (fun t => Line o rows cols t p s 0 (span rows cols p - 2)) x y) :
    Rel sitps (fun t c => Good o rows cols t c ∧ Window o rows cols t c p s)
      (lineLoop3 rows cols (opsB o rows cols sitps)
        (fun a b e d => liftUpd (moveBy3 dec (bmpsContractor o rows cols sitps) a b e d)) p s x)
      (lineLoop3 rows cols (opsS o rows cols sitps)
        (fun a b e d => liftUpd (moveBy3 dec (scratchContractor o rows cols sitps) a b e d))
        p s y) := by
  have key := foldl_rel (fun i x y => Rel (A := A) sitps
      (fun t => Line o rows cols t p s (min i (span rows cols p - 3))
        (span rows cols p - 2 - min i (span rows cols p - 3))) x y)
    (fun sn i =>
      let r := liftUpd (moveBy3 dec (bmpsContractor o rows cols sitps) (cell rows cols p s i)
        (cell rows cols p s (i + 1)) (cell rows cols p s (i + 2)) (dirOf p)) sn.1
      let st := if i < span rows cols p - 3 then
        (opsB o rows cols sitps).shiftBTenWindow (opposite p) r.1 else r.1
      (st, sn.2 + r.2.toNat))
    (fun sn i =>
      let r := liftUpd (moveBy3 dec (scratchContractor o rows cols sitps) (cell rows cols p s i)
        (cell rows cols p s (i + 1)) (cell rows cols p s (i + 2)) (dirOf p)) sn.1
      let st := if i < span rows cols p - 3 then
        (opsS o rows cols sitps).shiftBTenWindow (opposite p) r.1 else r.1
      (st, sn.2 + r.2.toNat))
    (span rows cols p - 2) x y (by simpa using h) (by
      intro i hi x y hxy
      rw [min_eq_left (by omega)] at hxy
      obtain ⟨hflag, hrel⟩ := Rel.move3 o rows cols sitps dec p hp s i hs (by omega) hxy
      simp only at hflag hrel ⊢
      rw [hflag]
      by_cases hlt : i < span rows cols p - 3
      · rw [if_pos hlt, if_pos hlt, min_eq_left (by omega)]
        have h2 := Rel.op (A := A) sitps
          (Q := fun t => Line o rows cols t p s (i + 1) (span rows cols p - 2 - (i + 1))) hrel
          (fun cfg e => (bmpsContractor o rows cols sitps).shiftBTenWindow cfg (opposite p) e)
          ((opsS o rows cols sitps).shiftBTenWindow (opposite p))
          (fun y => map_id' _ (fun _ => rfl) y) (by
            intro cfg c ⟨hg, hw, hb1, hb2⟩
            refine ⟨_, shiftBTen_fresh o rows cols (project sitps cfg) c p s (i + 1)
              (span rows cols p - 2 - i) hw hs (by omega) (by omega) (by omega) hb1 hb2, hg, hw,
              by simp, ?_⟩
            rw [setT_ne _ _ _ _ (opposite_ne p), setT_same]
            congr 1)
        exact ⟨by simpa using h2.1, h2.2⟩
      · rw [if_neg hlt, if_neg hlt]
        rw [show min (i + 1) (span rows cols p - 3) = i by omega]
        exact ⟨by simpa using hrel.1, hrel.2⟩)
  exact Rel.mono sitps key fun t c hl => ⟨hl.1, hl.2.1⟩

/-- one phase of the sweep: all lines from side `p` -/
theorem Rel.phase3 (dec : Decision3 (Option A)) (p : Pos) (hp : p = .left ∨ p = .up)
    (hN : 3 ≤ span rows cols p) (hL : 1 ≤ width rows cols p) {x y}
    (h : Rel (A := A) sitps
      (fun t c => Good o rows cols t c ∧ Window o rows cols t c p 0) x y) :
    Rel sitps (fun t c => Good o rows cols t c ∧
        Window o rows cols t c p (width rows cols p - 1))
      (phaseLoop3 rows cols (opsB o rows cols sitps)
        (fun a b e d => Option.map (refresh3 (bmpsContractor o rows cols sitps) a b e d))
        (fun a b e d => liftUpd (moveBy3 dec (bmpsContractor o rows cols sitps) a b e d)) p x)
      (phaseLoop3 rows cols (opsS o rows cols sitps)
        (fun a b e d => Option.map (refresh3 (scratchContractor o rows cols sitps) a b e d))
        (fun a b e d => liftUpd (moveBy3 dec (scratchContractor o rows cols sitps) a b e d))
        p y) := by
  have key := foldl_rel (fun s x y => Rel (A := A) sitps
      (fun t c => Good o rows cols t c ∧
        Window o rows cols t c p (min s (width rows cols p - 1))) x y)
    (fun sn s =>
      let st := (opsB o rows cols sitps).initBTen p s sn.1
      let st := (opsB o rows cols sitps).growFullBTen (opposite p) s 3 st
      let st := Option.map (refresh3 (bmpsContractor o rows cols sitps) (cell rows cols p s 0)
        (cell rows cols p s 1) (cell rows cols p s 2) (dirOf p)) st
      let r := lineLoop3 rows cols (opsB o rows cols sitps)
        (fun a b e d => liftUpd (moveBy3 dec (bmpsContractor o rows cols sitps) a b e d)) p s
        (st, sn.2)
      (if s < width rows cols p - 1 then
        (opsB o rows cols sitps).shiftBMPSWindow (decSide p) r.1 else r.1, r.2))
    (fun sn s =>
      let st := (opsS o rows cols sitps).initBTen p s sn.1
      let st := (opsS o rows cols sitps).growFullBTen (opposite p) s 3 st
      let st := Option.map (refresh3 (scratchContractor o rows cols sitps) (cell rows cols p s 0)
        (cell rows cols p s 1) (cell rows cols p s 2) (dirOf p)) st
      let r := lineLoop3 rows cols (opsS o rows cols sitps)
        (fun a b e d => liftUpd (moveBy3 dec (scratchContractor o rows cols sitps) a b e d)) p s
        (st, sn.2)
      (if s < width rows cols p - 1 then
        (opsS o rows cols sitps).shiftBMPSWindow (decSide p) r.1 else r.1, r.2))
    (width rows cols p) x y (by simpa using h) (by
      intro s hs x y hxy
      rw [min_eq_left (by omega)] at hxy
      simp only
      have h1 := Rel.op (A := A) sitps
        (Q := fun t => Line o rows cols t p s 0 (span rows cols p - 2)) hxy
        (fun cfg e => (bmpsContractor o rows cols sitps).growFullBTen cfg (opposite p) s 3
          ((bmpsContractor o rows cols sitps).initBTen cfg p s e))
        (fun y => (opsS o rows cols sitps).growFullBTen (opposite p) s 3
          ((opsS o rows cols sitps).initBTen p s y))
        (fun y => by
          show Option.map _ (Option.map _ y) = y
          cases y <;> rfl) (by
          intro cfg c ⟨hg, hw⟩
          obtain ⟨c1, c2, e1, e2, e3, e4, e5⟩ := prepare_line o rows cols (project sitps cfg) p s 3
            hs (by omega) hN c hg hw
          refine ⟨c2, ?_, ?_⟩
          · simp only [bmpsContractor, Option.bind_some]
            rw [e1]; exact e4
          · rw [show span rows cols p - 2 = span rows cols p - 3 + 1 by omega]; exact e5)
      have hst : (opsB o rows cols sitps).growFullBTen (opposite p) s 3
          ((opsB o rows cols sitps).initBTen p s x.1)
          = x.1.map (onEnv (fun cfg e =>
            (bmpsContractor o rows cols sitps).growFullBTen cfg (opposite p) s 3
              ((bmpsContractor o rows cols sitps).initBTen cfg p s e))) := by
        show Option.map _ (Option.map _ x.1) = _
        rw [Option.map_map]; rfl
      rw [hst]
      have h1' := Rel.refresh o rows cols sitps p hp s hs hN h1
      have h2 := Rel.line3 o rows cols sitps dec p hp s hs hN h1'
      by_cases hlt : s < width rows cols p - 1
      · rw [if_pos hlt, if_pos hlt, min_eq_left (by omega)]
        exact Rel.op (A := A) sitps
          (Q := fun t c => Good o rows cols t c ∧ Window o rows cols t c p (s + 1)) h2
          (fun cfg e => (bmpsContractor o rows cols sitps).shiftBMPSWindow cfg (decSide p) e)
          ((opsS o rows cols sitps).shiftBMPSWindow (decSide p))
          (fun y => map_id' _ (fun _ => rfl) y) (by
            intro cfg c ⟨hg, hw⟩
            exact shift_window o rows cols (project sitps cfg) p hp s (by omega) c hg hw)
      · rw [if_neg hlt, if_neg hlt]
        rw [show min (s + 1) (width rows cols p - 1) = s by omega]
        exact h2)
  exact Rel.mono sitps key fun t c hl => by
    rw [show min (width rows cols p) (width rows cols p - 1) = width rows cols p - 1 by omega] at hl
    exact hl

/-- a whole three-site sweep -/
theorem Rel.sweep3 (dec : Decision3 (Option A)) (hr : 3 ≤ rows) (hc : 3 ≤ cols)
    {x : Option (Walker (Option A) (Option (Ctr B C C2)))} {y : Option (Walker (Option A) Unit)}
    (h : Rel sitps (Good o rows cols) (x, 0) (y, 0)) :
    Rel sitps (Good o rows cols)
      (obcSweep3 (opsB o rows cols sitps)
        (fun a b e d => Option.map (refresh3 (bmpsContractor o rows cols sitps) a b e d))
        (fun a b e d => liftUpd (moveBy3 dec (bmpsContractor o rows cols sitps) a b e d))
        rows cols x)
      (obcSweep3 (opsS o rows cols sitps)
        (fun a b e d => Option.map (refresh3 (scratchContractor o rows cols sitps) a b e d))
        (fun a b e d => liftUpd (moveBy3 dec (scratchContractor o rows cols sitps) a b e d))
        rows cols y) := by
  unfold obcSweep3
  simp only [horizontalLoop3_eq, verticalLoop3_eq]
  have h1 := Rel.op (A := A) sitps
    (Q := fun t c => Good o rows cols t c ∧ Window o rows cols t c .left 0) h
    (fun cfg e => (bmpsContractor o rows cols sitps).generateBMPSApproach cfg .up e)
    ((opsS o rows cols sitps).generateBMPSApproach .up) (fun y => map_id' _ (fun _ => rfl) y)
    (fun cfg c hg => generate_window o rows cols (project sitps cfg) .left (by simp) c hg
      (by simp only [width]; omega))
  have h2 := Rel.phase3 o rows cols sitps dec .left (by simp) (by simp only [span]; omega)
    (by simp only [width]; omega) h1
  have h3 := Rel.op (A := A) sitps (Q := Good o rows cols) h2
    (fun cfg e => (bmpsContractor o rows cols sitps).deleteInnerBMPS cfg .left e)
    ((opsS o rows cols sitps).deleteInnerBMPS .left) (fun y => map_id' _ (fun _ => rfl) y)
    (fun cfg c hg => ⟨_, rfl, deleteInner_good o rows cols _ .left c hg.1⟩)
  have h4 := Rel.op (A := A) sitps (Q := Good o rows cols) h3
    (fun cfg e => (bmpsContractor o rows cols sitps).deleteInnerBMPS cfg .right e)
    ((opsS o rows cols sitps).deleteInnerBMPS .right) (fun y => map_id' _ (fun _ => rfl) y)
    (fun cfg c hg => ⟨_, rfl, deleteInner_good o rows cols _ .right c hg⟩)
  have h5 := Rel.op (A := A) sitps
    (Q := fun t c => Good o rows cols t c ∧ Window o rows cols t c .up 0) h4
    (fun cfg e => (bmpsContractor o rows cols sitps).generateBMPSApproach cfg .left e)
    ((opsS o rows cols sitps).generateBMPSApproach .left) (fun y => map_id' _ (fun _ => rfl) y)
    (fun cfg c hg => generate_window o rows cols (project sitps cfg) .up (by simp) c hg
      (by simp only [width]; omega))
  have h6 := Rel.phase3 o rows cols sitps dec .up (by simp) (by simp only [span]; omega)
    (by simp only [width]; omega) h5
  exact Rel.op (A := A) sitps (Q := Good o rows cols) h6
    (fun cfg e => (bmpsContractor o rows cols sitps).deleteInnerBMPS cfg .up e)
    ((opsS o rows cols sitps).deleteInnerBMPS .up) (fun y => map_id' _ (fun _ => rfl) y)
    (fun cfg c hg => ⟨_, rfl, deleteInner_good o rows cols _ .up c hg.1⟩)

/-! ## counting -/

theorem triple_count {M : Type*} [CommMonoid M] (t : Site → M) (p : Pos)
    (hp : p = .left ∨ p = .up) (s i : ℕ) (hs : s < width rows cols p)
    (hi : i + 2 < span rows cols p) :
    tripleAmp (countingOps M rows cols) rows cols t (dirOf p) (cell rows cols p s i)
        (cell rows cols p s (i + 1)) (cell rows cols p s (i + 2))
      = ∏ r ∈ Finset.range rows, ∏ c ∈ Finset.range cols, t (r, c) := by
  have key : tripleAmp (countingOps M rows cols) rows cols t (dirOf p) (cell rows cols p s i)
        (cell rows cols p s (i + 1)) (cell rows cols p s (i + 2))
      = ∏ j ∈ Finset.range (span rows cols p), crossProd rows cols t p j := by
    have hw : s < width rows cols (opposite p) := by revert hs; cases p <;> exact id
    have c1 := cross_count rows cols t p s i hs (by omega)
    have c2 := cross_count rows cols t p s (i + 1) hs (by omega)
    have c3 := cross_count rows cols t p s (i + 2) hs hi
    have b1 := benv_count rows cols t p s i hs (by omega)
    have b2 := benv_count rows cols t (opposite p) s (span rows cols p - 1 - (i + 2)) hw
      (by rw [span_opposite]; omega)
    have ps := prod_split (span rows cols p) (i + 2) hi (crossProd rows cols t p)
    rw [Finset.prod_range_succ, Finset.prod_range_succ] at ps
    rw [← ps]
    rcases hp with rfl | rfl <;>
      simp only [pre, next, opposite, span, width, cell, dirOf, tripleAmp, crossProd, along,
        layerSite] at *
    · rw [← c1, ← c2, ← c3, ← b1, ← b2]
      simp only [countingOps]
      ac_rfl
    · rw [← c1, ← c2, ← c3, ← b1, ← b2]
      simp only [countingOps]
      ac_rfl
  rw [key]
  rcases hp with rfl | rfl
  · simp only [crossProd, span]; rw [Finset.prod_comm]
  · simp only [crossProd, span]

/-! ## the three-site updater as a decision -/

/-- decision of `tnn3Exchange` -/
def tnn3Dec {A K : Type*} [Field K] [LinearOrder K] (ab : A → K) (ξ : ℕ → K) : Decision3 A :=
  fun _ _ _ _ a b c amp n tr =>
    if a = b ∧ b = c then some (n, none)
    else
      match permutations3 a b c with
      | none => none
      | some perms =>
        let init := perms.findIdx (fun p => p == [a, b, c])
        let psis := perms.mapIdx (fun i p =>
          if i ≠ init then tr (p.getD 0 0) (p.getD 1 0) (p.getD 2 0) else amp)
        let psiMax := psis.foldl (fun m p => max m (ab p)) 0
        match normWeights ab psis psiMax with
        | none => none
        | some ws => match SuwaTodo.suwaTodo ws init (ξ n) with
          | none => none
          | some fin =>
            if fin = init then some (n + 1, none)
            else match perms[fin]?, psis[fin]? with
              | some v, some psi =>
                some (n + 1, some (v.getD 0 0, v.getD 1 0, v.getD 2 0, psi))
              | _, _ => none

theorem zip3 {α : Type*} (s1 s2 s3 : α) (v : List ℕ) (h : v.length = 3) :
    [s1, s2, s3].zip v = [(s1, v.getD 0 0), (s2, v.getD 1 0), (s3, v.getD 2 0)] := by
  obtain ⟨a, b, c, rfl⟩ := List.length_eq_three.1 h
  rfl

theorem tnn3_moveBy {A K Γ : Type*} [Field K] [LinearOrder K] (ab : A → K) (ξ : ℕ → K)
    (C : Updaters.Contractor A Γ) (s1 s2 s3 : Site) (d : Orient) (w : Walker A Γ)
    (hl : ∀ x y z L, permutations3 x y z = some L → ∀ v ∈ L, v.length = 3) :
    moveBy3 (tnn3Dec ab ξ) C s1 s2 s3 d w = tnn3Exchange C ab ξ s1 s2 s3 d w := by
  unfold moveBy3 tnn3Dec tnn3Exchange
  dsimp only
  by_cases h : w.config s1 = w.config s2 ∧ w.config s2 = w.config s3
  · simp only [if_pos h]
  · simp only [if_neg h]
    cases hp : permutations3 (w.config s1) (w.config s2) (w.config s3) with
    | none => rfl
    | some perms =>
      have hlen := hl _ _ _ _ hp
      simp only [suwaTodoTail]
      generalize perms.mapIdx (fun i p =>
        if i ≠ perms.findIdx (fun p => p == [w.config s1, w.config s2, w.config s3]) then
          C.tnnTrace w.env w.config s1 s2 s3 d (p.getD 0 0) (p.getD 1 0) (p.getD 2 0)
        else w.amp) = psis
      generalize perms.findIdx (fun p => p == [w.config s1, w.config s2, w.config s3]) = ini
      cases normWeights ab psis (psis.foldl (fun m p => max m (ab p)) 0) with
      | none => rfl
      | some ws =>
        dsimp only
        cases SuwaTodo.suwaTodo ws ini (ξ w.draws) with
        | none => rfl
        | some fin =>
          dsimp only
          by_cases hf : fin = ini
          · simp only [if_pos hf]
          · simp only [if_neg hf]
            cases h1 : perms[fin]? with
            | none => rfl
            | some v =>
              cases h2 : psis[fin]? with
              | none => rfl
              | some psi =>
                dsimp only
                rw [zip3 s1 s2 s3 v (hlen v (List.mem_of_getElem? h1))]

/-! ## lines with fewer than three sites -/

theorem Broken.upd3 {x : Option (Walker (Option A) (Option (Ctr B C C2)))} (h : Broken x)
    (dec : Decision3 (Option A)) (a b e : Site) (d : Orient) :
    Broken (liftUpd (moveBy3 dec (bmpsContractor o rows cols sitps) a b e d) x).1 := by
  intro w hw
  cases x with
  | none => cases hw
  | some v =>
    have hv := h v rfl
    simp only [liftUpd] at hw
    unfold moveBy3 at hw
    cases hd : dec a b e d (v.config a) (v.config b) (v.config e) v.amp v.draws
      ((bmpsContractor o rows cols sitps).tnnTrace v.env v.config a b e d) with
    | none => rw [hd] at hw; cases hw
    | some r =>
      obtain ⟨n, r⟩ := r
      rw [hd] at hw
      cases r with
      | none => cases hw; exact hv
      | some r =>
        obtain ⟨r1, r2, r3, ψ⟩ := r
        cases hw
        simp [updateLocal, updateSingleSite, bmpsContractor, hv]

theorem Broken.line3 {sn : Option (Walker (Option A) (Option (Ctr B C C2))) × ℕ}
    (h : Broken sn.1) (dec : Decision3 (Option A)) (p : Pos) (s : ℕ) :
    Broken (lineLoop3 rows cols (opsB o rows cols sitps)
      (fun a b e d => liftUpd (moveBy3 dec (bmpsContractor o rows cols sitps) a b e d))
      p s sn).1 := by
  unfold lineLoop3
  refine List.foldlRecOn
    (motive := fun x : Option (Walker (Option A) (Option (Ctr B C C2))) × ℕ => Broken x.1) _ _ h
    fun x hx i _ => ?_
  dsimp only
  have h1 := Broken.upd3 o rows cols sitps hx dec (cell rows cols p s i) (cell rows cols p s (i + 1))
    (cell rows cols p s (i + 2)) (dirOf p)
  split_ifs
  · exact h1.onEnv (fun cfg e => (bmpsContractor o rows cols sitps).shiftBTenWindow cfg _ e)
      (fun _ => rfl)
  · exact h1

theorem Broken.refresh3 {x : Option (Walker (Option A) (Option (Ctr B C C2)))} (h : Broken x)
    (a b e : Site) (d : Orient) :
    Broken (x.map (Updaters.refresh3 (bmpsContractor o rows cols sitps) a b e d)) := by
  intro w hw
  cases x with
  | none => cases hw
  | some v => cases hw; exact h v rfl

theorem Broken.phaseStep3 {sn : Option (Walker (Option A) (Option (Ctr B C C2))) × ℕ}
    (dec : Decision3 (Option A)) (p : Pos) (s : ℕ)
    (h : Broken ((opsB o rows cols sitps).growFullBTen (opposite p) s 3
      ((opsB o rows cols sitps).initBTen p s sn.1))) :
    let r := lineLoop3 rows cols (opsB o rows cols sitps)
      (fun a b e d => liftUpd (moveBy3 dec (bmpsContractor o rows cols sitps) a b e d)) p s
      (Option.map (Updaters.refresh3 (bmpsContractor o rows cols sitps) (cell rows cols p s 0)
        (cell rows cols p s 1) (cell rows cols p s 2) (dirOf p))
        ((opsB o rows cols sitps).growFullBTen (opposite p) s 3
          ((opsB o rows cols sitps).initBTen p s sn.1)), sn.2)
    Broken (if s < width rows cols p - 1 then
      (opsB o rows cols sitps).shiftBMPSWindow (decSide p) r.1 else r.1) := by
  intro r
  have h1 : Broken r.1 := Broken.line3 o rows cols sitps (sn := (_, sn.2))
    (Broken.refresh3 o rows cols sitps h _ _ _ _) dec p s
  split_ifs
  · exact h1.onEnv (fun cfg e => (bmpsContractor o rows cols sitps).shiftBMPSWindow cfg _ e)
      (fun _ => rfl)
  · exact h1

theorem Broken.phase3 {sn : Option (Walker (Option A) (Option (Ctr B C C2))) × ℕ}
    (h : Broken sn.1) (dec : Decision3 (Option A)) (p : Pos) :
    Broken (phaseLoop3 rows cols (opsB o rows cols sitps)
      (fun a b e d => Option.map (Updaters.refresh3 (bmpsContractor o rows cols sitps) a b e d))
      (fun a b e d => liftUpd (moveBy3 dec (bmpsContractor o rows cols sitps) a b e d))
      p sn).1 := by
  unfold phaseLoop3
  refine List.foldlRecOn
    (motive := fun x : Option (Walker (Option A) (Option (Ctr B C C2))) × ℕ => Broken x.1) _ _ h
    fun x hx i _ => ?_
  refine Broken.phaseStep3 o rows cols sitps (sn := x) dec p i ?_
  exact (hx.onEnv (fun cfg e => (bmpsContractor o rows cols sitps).initBTen cfg _ _ e)
    (fun _ => rfl)).onEnv
    (fun cfg e => (bmpsContractor o rows cols sitps).growFullBTen cfg _ _ _ e) (fun _ => rfl)

theorem Broken.phase_short3 {sn : Option (Walker (Option A) (Option (Ctr B C C2))) × ℕ}
    (dec : Decision3 (Option A)) (p : Pos) (h1 : span rows cols p < 3)
    (h2 : 1 ≤ width rows cols p) :
    Broken (phaseLoop3 rows cols (opsB o rows cols sitps)
      (fun a b e d => Option.map (Updaters.refresh3 (bmpsContractor o rows cols sitps) a b e d))
      (fun a b e d => liftUpd (moveBy3 dec (bmpsContractor o rows cols sitps) a b e d))
      p sn).1 := by
  unfold phaseLoop3
  obtain ⟨n, hn⟩ : ∃ n, width rows cols p = n + 1 := ⟨width rows cols p - 1, by omega⟩
  rw [hn, List.range_succ, List.foldl_append, ← hn]
  simp only [List.foldl_cons, List.foldl_nil]
  refine Broken.phaseStep3 o rows cols sitps dec p n ?_
  exact Broken.short o rows cols sitps _ _ n 3 (by rw [span_opposite]; exact h1)

theorem Broken.sweep3 (dec : Decision3 (Option A)) (hr : 1 ≤ rows) (hc : 1 ≤ cols)
    (h : rows < 3 ∨ cols < 3) (x : Option (Walker (Option A) (Option (Ctr B C C2)))) :
    Broken (obcSweep3 (opsB o rows cols sitps)
      (fun a b e d => Option.map (Updaters.refresh3 (bmpsContractor o rows cols sitps) a b e d))
      (fun a b e d => liftUpd (moveBy3 dec (bmpsContractor o rows cols sitps) a b e d))
      rows cols x).1 := by
  unfold obcSweep3
  simp only [horizontalLoop3_eq, verticalLoop3_eq]
  refine Broken.onEnv ?_ (fun cfg e => (bmpsContractor o rows cols sitps).deleteInnerBMPS cfg _ e)
    (fun _ => rfl)
  rcases h with h | h
  · exact Broken.phase_short3 o rows cols sitps dec .up (by simp only [span]; omega)
      (by simp only [width]; omega)
  · refine Broken.phase3 o rows cols sitps ?_ dec .up
    refine Broken.onEnv (Broken.onEnv (Broken.onEnv ?_
      (fun cfg e => (bmpsContractor o rows cols sitps).deleteInnerBMPS cfg _ e) (fun _ => rfl))
      (fun cfg e => (bmpsContractor o rows cols sitps).deleteInnerBMPS cfg _ e) (fun _ => rfl))
      (fun cfg e => (bmpsContractor o rows cols sitps).generateBMPSApproach cfg _ e)
      (fun _ => rfl)
    exact Broken.phase_short3 o rows cols sitps dec .left (by simp only [span]; omega)
      (by simp only [width]; omega)

end QLPeps.Contractor
