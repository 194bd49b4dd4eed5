import Verif.Lemmas.ContractorBTen

/-! # The sweep with caches follows the sweep without caches -/

namespace QLPeps.Contractor

open QLPeps.Sweep QLPeps.Updaters

variable {T E B C C2 A H : Type*}
variable (o : Ops T E B C C2 A H) (rows cols : ℕ)

/-- all boundary MPS are fresh, no stack is empty or too high -/
def Good (t : Site → T) (c : Ctr B C C2) : Prop :=
  ∀ q, ∃ n, c.bmps q = stack o rows cols t q n ∧ 1 ≤ n ∧ n ≤ span rows cols q

theorem good_iff_fresh (t : Site → T) (c : Ctr B C C2) :
    Good o rows cols t c ↔ Fresh o rows cols t c := by
  constructor
  · intro h q
    obtain ⟨n, hn, h1, h2⟩ := h q
    rw [hn, stack_length]
    refine ⟨h1, h2, fun k b hb => ?_⟩
    by_cases hk : k < n
    · rw [stack_get _ _ _ _ _ _ _ hk] at hb; exact (Option.some.inj hb).symm
    · rw [List.getElem?_eq_none (by simp; omega)] at hb; cases hb
  · intro h q
    exact ⟨_, eq_stack o rows cols t q _ (h q).2.2, (h q).1, (h q).2.1⟩

/-- the orientation of the lines traversed from side `p` -/
def dirOf : Pos → Orient
  | .left => .horizontal
  | .right => .horizontal
  | .up => .vertical
  | .down => .vertical

/-- state at site `i` of line `s` in a traversal starting on side `p`: `far` boundary tensors are
cached from the other end -/
def Line (t : Site → T) (p : Pos) (s i far : ℕ) (c : Ctr B C C2) : Prop :=
  Good o rows cols t c ∧ Window o rows cols t c p s ∧
  c.bten p = bstack o rows cols t p s (i + 1) ∧
  c.bten (opposite p) = bstack o rows cols t (opposite p) s far

theorem btenAt_fresh (t : Site → T) (c : Ctr B C C2) (p : Pos) (s i n : ℕ)
    (hc : c.bten p = bstack o rows cols t p s n) (hi : i < span rows cols p)
    (h : depth rows cols p i < n) :
    btenAt rows cols c p i = some (benv o rows cols t p s (depth rows cols p i)) := by
  unfold btenAt
  rw [stackIdx_depth rows cols p i hi]
  simp only [Option.bind_some]
  rw [hc, bstack_get _ _ _ _ _ _ _ _ h]

theorem atLogical_facing (b : B) (p : Pos) (i : ℕ) (hi : i < width rows cols p) :
    atLogical o (width rows cols p) p b i = some (facing o rows cols p b i) := by
  cases p <;> simp only [atLogical, facing, width] at *
  · exact if_pos hi
  · exact if_pos hi
  · rw [sub?_of_le (by omega)]
    simp only [Option.bind_some, raw?]
    rw [if_pos (by omega)]; congr 2; omega
  · rw [sub?_of_le (by omega)]
    simp only [Option.bind_some, raw?]
    rw [if_pos (by omega)]; congr 2; omega

/-- a replaced trace inside a line is the amplitude from scratch of the replaced network -/
theorem nnTrace_fresh (t t' : Site → T) (p : Pos) (hp : p = .left ∨ p = .up) (s i far : ℕ)
    (c : Ctr B C C2) (hs : s < width rows cols p) (hi : i + 1 < span rows cols p)
    (hfar : span rows cols p - 1 - i ≤ far)
    (h : Line o rows cols t p s i far c)
    (ht : ∀ q, q ≠ cell rows cols p s i → q ≠ cell rows cols p s (i + 1) → t q = t' q) :
    nnTrace o rows cols c (cell rows cols p s i) (cell rows cols p s (i + 1)) (dirOf p)
        (t' (cell rows cols p s i)) (t' (cell rows cols p s (i + 1)))
      = some (bondAmp o rows cols t' (dirOf p) (cell rows cols p s i)
          (cell rows cols p s (i + 1))) := by
  obtain ⟨-, hw, hb1, hb2⟩ := h
  have hbe := hw.beside o rows cols t hs
  obtain ⟨e1, e2⟩ := beyond_congr o rows cols t t' p s hs fun q hq =>
    ht q (hq i (by omega)) (hq (i + 1) hi)
  have b1 : benv o rows cols t p s i = benv o rows cols t' p s i :=
    benv_congr o rows cols t t' p s hs i (by omega) fun q hq =>
      ht q (hq i (le_refl i) (by omega)) (hq (i + 1) (by omega) hi)
  have b2 : benv o rows cols t (opposite p) s (span rows cols p - 2 - i)
      = benv o rows cols t' (opposite p) s (span rows cols p - 2 - i) := by
    have hw' : s < width rows cols (opposite p) := by
      revert hs; cases p <;> exact id
    refine benv_congr o rows cols t t' (opposite p) s hw' _ (by rw [span_opposite]; omega)
      fun q hq => ht q ?_ ?_
    · rw [← cell_opposite rows cols p s i (by omega)]
      exact hq _ (by omega) (by rw [span_opposite]; omega)
    · rw [← cell_opposite rows cols p s (i + 1) (by omega)]
      exact hq _ (by omega) (by rw [span_opposite]; omega)
  rcases hp with rfl | rfl
  · simp only [pre, next, opposite, span, width, Beside, cell, dirOf, nnTrace, bondAmp] at *
    rw [hbe.1, hbe.2]
    simp only [Option.bind_some]
    have f1 := fun b i => atLogical_facing o rows cols b .up i
    have f2 := fun b i => atLogical_facing o rows cols b .down i
    simp only [width] at f1 f2
    rw [f1 _ _ (by omega), f2 _ _ (by omega), f1 _ _ hi, f2 _ _ hi, hb1,
      bstack_get _ _ _ _ _ _ _ _ (by omega),
      btenAt_fresh o rows cols t c .right s (i + 1) far hb2 hi (by simp only [depth]; omega)]
    simp only [Option.bind_some, e1, e2, b1, depth]
    rw [show cols - 1 - (i + 1) = cols - 2 - i by omega, b2]
  · simp only [pre, next, opposite, span, width, Beside, cell, dirOf, nnTrace, bondAmp] at *
    rw [hbe.1, hbe.2]
    simp only [Option.bind_some]
    have f1 := fun b i => atLogical_facing o rows cols b .left i
    have f2 := fun b i => atLogical_facing o rows cols b .right i
    simp only [width] at f1 f2
    rw [f1 _ _ (by omega), f2 _ _ (by omega), f1 _ _ hi, f2 _ _ hi, hb1,
      bstack_get _ _ _ _ _ _ _ _ (by omega),
      btenAt_fresh o rows cols t c .down s (i + 1) far hb2 hi (by simp only [depth]; omega)]
    simp only [Option.bind_some, e1, e2, b1, depth]
    rw [show rows - 1 - (i + 1) = rows - 2 - i by omega, b2]

/-- changing a site of the line and erasing keeps the line state -/
theorem erase_line (t t' : Site → T) (p : Pos) (s i far j : ℕ) (c : Ctr B C C2)
    (hs : s < width rows cols p) (hj : j < span rows cols p) (hij : i ≤ j)
    (hfar : far + j ≤ span rows cols p)
    (h : Line o rows cols t p s i far c)
    (ht : ∀ q, q ≠ cell rows cols p s j → t q = t' q) :
    Line o rows cols t' p s i far (eraseEnvs rows cols (cell rows cols p s j) c) := by
  obtain ⟨hg, hw, hb1, hb2⟩ := h
  obtain ⟨hr, hc⟩ := cell_row rows cols p s j hs hj
  refine ⟨fun q => ?_, ⟨?_, ?_⟩, ?_, ?_⟩
  · obtain ⟨n, hn, h1, h2⟩ := hg q
    refine ⟨min (keep rows cols q (cell rows cols p s j)) n, ?_, ?_, ?_⟩
    · simp only [eraseEnvs]
      rw [hn, stack_take]
      apply stack_congr o rows cols t t' q (cell rows cols p s j) hr hc ht
      rw [keep_eq rows cols q _ hr hc]; omega
    · rw [keep_eq rows cols q _ hr hc]; omega
    · omega
  · simp only [eraseEnvs]
    rw [hw.1, stack_take, keep_eq rows cols _ _ hr hc, siteDepth_pre, Nat.min_self]
    exact stack_congr o rows cols t t' _ _ hr hc ht _ (by rw [siteDepth_pre])
  · simp only [eraseEnvs]
    rw [hw.2, stack_take, keep_eq rows cols _ _ hr hc, siteDepth_next, Nat.min_self]
    exact stack_congr o rows cols t t' _ _ hr hc ht _ (by rw [siteDepth_next])
  · simp only [eraseEnvs]
    rw [hb1, bstack_take, keep_eq rows cols _ _ hr hc, siteDepth_self rows cols p s j hj,
      min_eq_right (by omega)]
    refine List.map_congr_left fun k hk => ?_
    have := List.mem_range.1 hk
    exact benv_congr o rows cols t t' p s hs k (by omega) fun q hq => ht q (hq j (by omega) hj)
  · simp only [eraseEnvs]
    rw [hb2, bstack_take, keep_eq rows cols _ _ hr hc, siteDepth_opposite rows cols p s j hj,
      min_eq_right (by omega)]
    refine List.map_congr_left fun k hk => ?_
    have := List.mem_range.1 hk
    have hw' : s < width rows cols (opposite p) := by revert hs; cases p <;> exact id
    refine benv_congr o rows cols t t' (opposite p) s hw' k (by rw [span_opposite]; omega)
      fun q hq => ht q ?_
    rw [← cell_opposite rows cols p s j hj]
    exact hq _ (by omega) (by rw [span_opposite]; omega)

/-! ## relating walkers -/

variable (sitps : Site → ℕ → T)

/-- a walker with caches and one without agree; the caches satisfy `P` -/
def Rel (P : (Site → T) → Ctr B C C2 → Prop)
    (x : Option (Walker (Option A) (Option (Ctr B C C2))) × ℕ)
    (y : Option (Walker (Option A) Unit) × ℕ) : Prop :=
  x.2 = y.2 ∧ ((x.1 = none ∧ y.1 = none) ∨ ∃ w w', x.1 = some w ∧ y.1 = some w' ∧
    w.config = w'.config ∧ w.amp = w'.amp ∧ w.draws = w'.draws ∧
    ∃ c, w.env = some c ∧ P (project sitps w.config) c)

theorem Rel.mono {P Q : (Site → T) → Ctr B C C2 → Prop} {x y} (h : Rel (A := A) sitps P x y)
    (hPQ : ∀ t c, P t c → Q t c) : Rel sitps Q x y := by
  obtain ⟨h1, h2⟩ := h
  refine ⟨h1, h2.imp id ?_⟩
  rintro ⟨w, w', a1, a2, a3, a4, a5, c, a6, a7⟩
  exact ⟨w, w', a1, a2, a3, a4, a5, c, a6, hPQ _ _ a7⟩

/-- a cache operation on the walker -/
def onEnv (f : Config → Option (Ctr B C C2) → Option (Ctr B C C2))
    (w : Walker (Option A) (Option (Ctr B C C2))) : Walker (Option A) (Option (Ctr B C C2)) :=
  { w with env := f w.config w.env }

theorem Rel.op {P Q : (Site → T) → Ctr B C C2 → Prop} {x y} (h : Rel (A := A) sitps P x y)
    (f : Config → Option (Ctr B C C2) → Option (Ctr B C C2))
    (g : Option (Walker (Option A) Unit) → Option (Walker (Option A) Unit)) (hg : ∀ y, g y = y)
    (hf : ∀ cfg c, P (project sitps cfg) c → ∃ c', f cfg (some c) = some c' ∧
      Q (project sitps cfg) c') :
    Rel sitps Q (x.1.map (onEnv f), x.2) (g y.1, y.2) := by
  obtain ⟨h1, h2⟩ := h
  refine ⟨h1, ?_⟩
  rw [hg]
  rcases h2 with ⟨h2, h3⟩ | ⟨w, w', a1, a2, a3, a4, a5, c, a6, a7⟩
  · left; simp [h2, h3]
  · right
    obtain ⟨c', hc', hQ⟩ := hf w.config c a7
    refine ⟨onEnv f w, w', by simp [a1], a2, a3, a4, a5, c', ?_, hQ⟩
    simp [onEnv, a6, hc']

theorem map_id' {α : Type*} (f : α → α) (hf : ∀ x, f x = x) (y : Option α) : y.map f = y := by
  cases y <;> simp [hf]

/-- one local update, accepted or not -/
theorem Rel.move (dec : Decision (Option A)) (p : Pos) (hp : p = .left ∨ p = .up) (s i : ℕ)
    (hs : s < width rows cols p) (hi : i + 1 < span rows cols p) {x y}
    (h : Rel (A := A) sitps
      (fun t => Line o rows cols t p s i (span rows cols p - 1 - i)) x y) :
    let s1 := cell rows cols p s i
    let s2 := cell rows cols p s (i + 1)
    let r := liftUpd (moveBy dec (bmpsContractor o rows cols sitps) s1 s2 (dirOf p)) x.1
    let r' := liftUpd (moveBy dec (scratchContractor o rows cols sitps) s1 s2 (dirOf p)) y.1
    r.2 = r'.2 ∧ Rel sitps
      (fun t => Line o rows cols t p s i (span rows cols p - 1 - i)) (r.1, x.2) (r'.1, y.2) := by
  intro s1 s2 r r'
  obtain ⟨h1, h2⟩ := h
  rcases h2 with ⟨h2, h3⟩ | ⟨w, w', a1, a2, a3, a4, a5, c, a6, a7⟩
  · simp only [r, r', h2, h3, liftUpd]
    exact ⟨trivial, h1, Or.inl ⟨rfl, rfl⟩⟩
  · have hq : (bmpsContractor o rows cols sitps).nnTrace w.env w.config s1 s2 (dirOf p)
        = (scratchContractor o rows cols sitps).nnTrace w'.env w'.config s1 s2 (dirOf p) := by
      funext a b
      simp only [bmpsContractor, scratchContractor, a6, Option.bind_some, ← a3]
      have hne : s2 ≠ s1 := fun he => by
        have := cell_inj rows cols p s (i + 1) i hi (by omega) he; omega
      have := nnTrace_fresh o rows cols (project sitps w.config)
        (project sitps (setSite (setSite w.config s1 a) s2 b)) p hp s i _ c hs hi (le_refl _) a7
        (fun q hq1 hq2 => by
          simp only [project, setSite]
          rw [if_neg hq2, if_neg hq1])
      rw [← this]
      congr 1
      · simp only [project, setSite]
        rw [if_neg (fun he => hne he.symm), if_pos rfl]
      · simp only [project, setSite]
        rw [if_pos rfl]
    simp only [r, r', a1, a2, liftUpd, moveBy]
    rw [hq, ← a3, ← a4, ← a5]
    cases hd : dec s1 s2 (dirOf p) (w.config s1) (w.config s2) w.amp w.draws
        ((scratchContractor o rows cols sitps).nnTrace w'.env w.config s1 s2 (dirOf p)) with
    | none => exact ⟨rfl, h1, Or.inl ⟨rfl, rfl⟩⟩
    | some m =>
      obtain ⟨n, m⟩ := m
      cases m with
      | none =>
        simp only
        exact ⟨trivial, h1, Or.inr ⟨_, _, rfl, rfl, rfl, rfl, rfl, c, a6, a7⟩⟩
      | some m =>
        obtain ⟨a, b, ψ⟩ := m
        simp only
        refine ⟨trivial, h1, Or.inr ⟨_, _, rfl, rfl, ?_, rfl, rfl, ?_⟩⟩
        · simp [updateLocal, updateSingleSite, a3]
        · simp only [updateLocal, updateSingleSite, List.foldl_cons, List.foldl_nil,
            bmpsContractor, a6, Option.map_some]
          refine ⟨_, rfl, ?_⟩
          have l1 := erase_line o rows cols (project sitps w.config)
            (project sitps (setSite w.config s1 a)) p s i _ i c hs (by omega) (le_refl i)
            (by omega) a7 (fun q hq => by simp only [project, setSite]; rw [if_neg hq])
          exact erase_line o rows cols _
            (project sitps (setSite (setSite w.config s1 a) s2 b)) p s i _ (i + 1) _ hs hi
            (by omega) (by omega) l1 (fun q hq => by simp only [project, setSite]; rw [if_neg hq])

/-! ## loops -/

theorem foldl_rel {α β : Type*} (R : ℕ → α → β → Prop) (f : α → ℕ → α) (g : β → ℕ → β) (n : ℕ)
    (a : α) (b : β) (h0 : R 0 a b)
    (hs : ∀ i < n, ∀ a b, R i a b → R (i + 1) (f a i) (g b i)) :
    R n ((List.range n).foldl f a) ((List.range n).foldl g b) := by
  induction n with
  | zero => simpa using h0
  | succ n ih =>
    rw [List.range_succ, List.foldl_append, List.foldl_append]
    exact hs n (by omega) _ _ (ih fun i hi => hs i (by omega))

/-- `rowLoop` and `colLoop` at once -/
def lineLoop {S : Type*} (ops : EnvOps S) (upd : Site → Site → Orient → S → S × Bool) (p : Pos)
    (s : ℕ) (sn : S × ℕ) : S × ℕ :=
  (List.range (span rows cols p - 1)).foldl (fun sn i =>
    let r := upd (cell rows cols p s i) (cell rows cols p s (i + 1)) (dirOf p) sn.1
    let st := if i < span rows cols p - 2 then ops.shiftBTenWindow (opposite p) r.1 else r.1
    (st, sn.2 + r.2.toNat)) sn

/-- the side on which layers are removed while the window advances -/
def decSide (p : Pos) : Pos := match p with
  | .left => .down
  | .right => .down
  | .up => .right
  | .down => .right

/-- `horizontalLoop` and `verticalLoop` at once -/
def phaseLoop {S : Type*} (ops : EnvOps S) (upd : Site → Site → Orient → S → S × Bool) (p : Pos)
    (sn : S × ℕ) : S × ℕ :=
  (List.range (width rows cols p)).foldl (fun sn s =>
    let st := ops.initBTen p s sn.1
    let st := ops.growFullBTen (opposite p) s 2 st
    let r := lineLoop rows cols ops upd p s (st, sn.2)
    (if s < width rows cols p - 1 then ops.shiftBMPSWindow (decSide p) r.1 else r.1, r.2)) sn

theorem horizontalLoop_eq {S : Type*} (ops : EnvOps S)
    (upd : Site → Site → Orient → S → S × Bool) (sn : S × ℕ) :
    horizontalLoop ops upd rows cols sn = phaseLoop rows cols ops upd .left sn := rfl

theorem verticalLoop_eq {S : Type*} (ops : EnvOps S)
    (upd : Site → Site → Orient → S → S × Bool) (sn : S × ℕ) :
    verticalLoop ops upd rows cols sn = phaseLoop rows cols ops upd .up sn := rfl

theorem Good.setB {t : Site → T} {c : Ctr B C C2} (h : Good o rows cols t c) (p : Pos) (n : ℕ)
    (h1 : 1 ≤ n) (h2 : n ≤ span rows cols p) :
    Good o rows cols t (setB c p (stack o rows cols t p n)) := by
  intro q
  by_cases hq : q = p
  · subst hq; exact ⟨n, by simp, h1, h2⟩
  · rw [setB_ne _ _ _ _ hq]; exact h q

/-- the two contractors as operations on possibly failed executions -/
abbrev opsB := envOpsOption (bmpsContractor o rows cols sitps)
abbrev opsS := envOpsOption (scratchContractor o rows cols sitps)

/-- one line -/
theorem Rel.line (dec : Decision (Option A)) (p : Pos) (hp : p = .left ∨ p = .up) (s : ℕ)
    (hs : s < width rows cols p) (hN : 2 ≤ span rows cols p) {x y}
    (h : Rel (A := A) sitps
      (fun t => Line o rows cols t p s 0 (span rows cols p - 1)) x y) :
    Rel sitps (fun t c => Good o rows cols t c ∧ Window o rows cols t c p s)
      (lineLoop rows cols (opsB o rows cols sitps)
        (fun a b d => liftUpd (moveBy dec (bmpsContractor o rows cols sitps) a b d)) p s x)
      (lineLoop rows cols (opsS o rows cols sitps)
        (fun a b d => liftUpd (moveBy dec (scratchContractor o rows cols sitps) a b d)) p s y) := by
  have key := foldl_rel (fun i x y => Rel (A := A) sitps
      (fun t => Line o rows cols t p s (min i (span rows cols p - 2))
        (span rows cols p - 1 - min i (span rows cols p - 2))) x y)
    (fun sn i =>
      let r := liftUpd (moveBy dec (bmpsContractor o rows cols sitps) (cell rows cols p s i)
        (cell rows cols p s (i + 1)) (dirOf p)) sn.1
      let st := if i < span rows cols p - 2 then
        (opsB o rows cols sitps).shiftBTenWindow (opposite p) r.1 else r.1
      (st, sn.2 + r.2.toNat))
    (fun sn i =>
      let r := liftUpd (moveBy dec (scratchContractor o rows cols sitps) (cell rows cols p s i)
        (cell rows cols p s (i + 1)) (dirOf p)) sn.1
      let st := if i < span rows cols p - 2 then
        (opsS o rows cols sitps).shiftBTenWindow (opposite p) r.1 else r.1
      (st, sn.2 + r.2.toNat))
    (span rows cols p - 1) x y (by simpa using h) (by
      intro i hi x y hxy
      rw [min_eq_left (by omega)] at hxy
      obtain ⟨hflag, hrel⟩ := Rel.move o rows cols sitps dec p hp s i hs (by omega) hxy
      simp only at hflag hrel ⊢
      rw [hflag]
      by_cases hlt : i < span rows cols p - 2
      · rw [if_pos hlt, if_pos hlt, min_eq_left (by omega)]
        have h2 := Rel.op (A := A) sitps
          (Q := fun t => Line o rows cols t p s (i + 1) (span rows cols p - 1 - (i + 1))) hrel
          (fun cfg e => (bmpsContractor o rows cols sitps).shiftBTenWindow cfg (opposite p) e)
          ((opsS o rows cols sitps).shiftBTenWindow (opposite p))
          (fun y => map_id' _ (fun _ => rfl) y) (by
            intro cfg c ⟨hg, hw, hb1, hb2⟩
            refine ⟨_, shiftBTen_fresh o rows cols (project sitps cfg) c p s (i + 1)
              (span rows cols p - 1 - i) hw hs (by omega) (by omega) (by omega) hb1 hb2, hg, hw,
              by simp, ?_⟩
            rw [setT_ne _ _ _ _ (opposite_ne p), setT_same]
            congr 1)
        exact ⟨by simpa using h2.1, h2.2⟩
      · rw [if_neg hlt, if_neg hlt]
        rw [show min (i + 1) (span rows cols p - 2) = i by omega]
        exact ⟨by simpa using hrel.1, hrel.2⟩)
  exact Rel.mono sitps key fun t c hl => ⟨hl.1, hl.2.1⟩

theorem dec_cases (p : Pos) (hp : p = .left ∨ p = .up) :
    decSide p = pre p ∧ opposite (decSide p) = next p ∨
    decSide p = next p ∧ opposite (decSide p) = pre p := by
  rcases hp with rfl | rfl
  · exact Or.inr ⟨rfl, rfl⟩
  · exact Or.inl ⟨rfl, rfl⟩

/-- moving the window by one line -/
theorem shift_window (t : Site → T) (p : Pos) (hp : p = .left ∨ p = .up) (s : ℕ)
    (hs : s + 1 < width rows cols p) (c : Ctr B C C2) (hg : Good o rows cols t c)
    (hw : Window o rows cols t c p s) :
    ∃ c', shiftBMPSWindow o rows cols t (decSide p) c = some c' ∧ Good o rows cols t c' ∧
      Window o rows cols t c' p (s + 1) := by
  rcases hp with rfl | rfl
  · simp only [Window, pre, next, depth, decSide, width] at *
    have := shift_fresh o rows cols t .down c _ _ hw.2 (by omega) hw.1 (by omega)
      (by simp only [span]; omega)
    refine ⟨_, this, ?_, ?_, ?_⟩
    · refine Good.setB o rows cols (Good.setB o rows cols hg .down _ (by omega) ?_) .up _
        (by omega) ?_ <;> simp only [span] <;> omega
    · simp [opposite]
    · simp only [opposite]
      rw [setB_ne _ _ _ _ (by decide), setB_same]
      congr 1; omega
  · simp only [Window, pre, next, depth, decSide, width] at *
    have := shift_fresh o rows cols t .right c _ _ hw.1 (by omega) hw.2 (by omega)
      (by simp only [span]; omega)
    refine ⟨_, this, ?_, ?_, ?_⟩
    · refine Good.setB o rows cols (Good.setB o rows cols hg .right _ (by omega) ?_) .left _
        (by omega) ?_ <;> simp only [span] <;> omega
    · simp only [opposite]
      rw [setB_ne _ _ _ _ (by decide), setB_same]
      congr 1; omega
    · simp [opposite]

/-- preparing the boundary tensors of a line -/
theorem prepare_line (t : Site → T) (p : Pos) (s remain : ℕ) (hs : s < width rows cols p)
    (hr : 1 ≤ remain) (hN : remain ≤ span rows cols p) (c : Ctr B C C2)
    (hg : Good o rows cols t c) (hw : Window o rows cols t c p s) :
    ∃ c1 c2, initBTen o rows cols p s c = some c1 ∧ Good o rows cols t c1 ∧
      Window o rows cols t c1 p s ∧
      growFullBTen o rows cols t (opposite p) s remain true c1 = some c2 ∧
      Line o rows cols t p s 0 (span rows cols p - remain + 1) c2 := by
  have hw' : s < width rows cols (opposite p) := by revert hs; cases p <;> exact id
  have h1 := initBTen_fresh o rows cols t c p s (hw.beside o rows cols t hs) (by omega)
  refine ⟨_, _, h1, hg, hw, growFullBTen_fresh o rows cols t _ (opposite p) s remain ?_ hw' hr
    (by rw [span_opposite]; exact hN), hg, hw, ?_, ?_⟩
  · exact (Window.opposite o rows cols t (c := setT c p (bstack o rows cols t p s 1)) hw).beside
      o rows cols t hw'
  · rw [setT_ne _ _ _ _ (opposite_ne p).symm, setT_same]
  · rw [setT_same, span_opposite]

/-- one phase of the sweep: all lines from side `p` -/
theorem Rel.phase (dec : Decision (Option A)) (p : Pos) (hp : p = .left ∨ p = .up)
    (hN : 2 ≤ span rows cols p) (hL : 1 ≤ width rows cols p) {x y}
    (h : Rel (A := A) sitps
      (fun t c => Good o rows cols t c ∧ Window o rows cols t c p 0) x y) :
    Rel sitps (fun t c => Good o rows cols t c ∧
        Window o rows cols t c p (width rows cols p - 1))
      (phaseLoop rows cols (opsB o rows cols sitps)
        (fun a b d => liftUpd (moveBy dec (bmpsContractor o rows cols sitps) a b d)) p x)
      (phaseLoop rows cols (opsS o rows cols sitps)
        (fun a b d => liftUpd (moveBy dec (scratchContractor o rows cols sitps) a b d)) p y) := by
  have key := foldl_rel (fun s x y => Rel (A := A) sitps
      (fun t c => Good o rows cols t c ∧
        Window o rows cols t c p (min s (width rows cols p - 1))) x y)
    (fun sn s =>
      let st := (opsB o rows cols sitps).initBTen p s sn.1
      let st := (opsB o rows cols sitps).growFullBTen (opposite p) s 2 st
      let r := lineLoop rows cols (opsB o rows cols sitps)
        (fun a b d => liftUpd (moveBy dec (bmpsContractor o rows cols sitps) a b d)) p s (st, sn.2)
      (if s < width rows cols p - 1 then
        (opsB o rows cols sitps).shiftBMPSWindow (decSide p) r.1 else r.1, r.2))
    (fun sn s =>
      let st := (opsS o rows cols sitps).initBTen p s sn.1
      let st := (opsS o rows cols sitps).growFullBTen (opposite p) s 2 st
      let r := lineLoop rows cols (opsS o rows cols sitps)
        (fun a b d => liftUpd (moveBy dec (scratchContractor o rows cols sitps) a b d)) p s
        (st, sn.2)
      (if s < width rows cols p - 1 then
        (opsS o rows cols sitps).shiftBMPSWindow (decSide p) r.1 else r.1, r.2))
    (width rows cols p) x y (by simpa using h) (by
      intro s hs x y hxy
      rw [min_eq_left (by omega)] at hxy
      simp only
      have h1 := Rel.op (A := A) sitps
        (Q := fun t => Line o rows cols t p s 0 (span rows cols p - 1)) hxy
        (fun cfg e => (bmpsContractor o rows cols sitps).growFullBTen cfg (opposite p) s 2
          ((bmpsContractor o rows cols sitps).initBTen cfg p s e))
        (fun y => (opsS o rows cols sitps).growFullBTen (opposite p) s 2
          ((opsS o rows cols sitps).initBTen p s y))
        (fun y => by
          show Option.map _ (Option.map _ y) = y
          cases y <;> rfl) (by
          intro cfg c ⟨hg, hw⟩
          obtain ⟨c1, c2, e1, e2, e3, e4, e5⟩ := prepare_line o rows cols (project sitps cfg) p s 2
            hs (by omega) hN c hg hw
          refine ⟨c2, ?_, ?_⟩
          · simp only [bmpsContractor, Option.bind_some]
            rw [e1]; exact e4
          · rw [show span rows cols p - 1 = span rows cols p - 2 + 1 by omega]; exact e5)
      have hst : (opsB o rows cols sitps).growFullBTen (opposite p) s 2
          ((opsB o rows cols sitps).initBTen p s x.1)
          = x.1.map (onEnv (fun cfg e =>
            (bmpsContractor o rows cols sitps).growFullBTen cfg (opposite p) s 2
              ((bmpsContractor o rows cols sitps).initBTen cfg p s e))) := by
        show Option.map _ (Option.map _ x.1) = _
        rw [Option.map_map]; rfl
      rw [hst]
      have h2 := Rel.line o rows cols sitps dec p hp s hs hN h1
      by_cases hlt : s < width rows cols p - 1
      · rw [if_pos hlt, if_pos hlt, min_eq_left (by omega)]
        exact Rel.op (A := A) sitps
          (Q := fun t c => Good o rows cols t c ∧ Window o rows cols t c p (s + 1)) h2
          (fun cfg e => (bmpsContractor o rows cols sitps).shiftBMPSWindow cfg (decSide p) e)
          ((opsS o rows cols sitps).shiftBMPSWindow (decSide p))
          (fun y => map_id' _ (fun _ => rfl) y) (by
            intro cfg c ⟨hg, hw⟩
            obtain ⟨c', e1, e2, e3⟩ := shift_window o rows cols (project sitps cfg) p hp s
              (by omega) c hg hw
            exact ⟨c', e1, e2, e3⟩)
      · rw [if_neg hlt, if_neg hlt, show min (s + 1) (width rows cols p - 1) = s by omega]
        exact h2)
  rw [min_eq_right (by omega)] at key
  exact key

end QLPeps.Contractor
