import Verif.Lemmas.TraversalReads

/-! # A traversal sees what it should -/

namespace QLPeps.Contractor

universe u

section
variable {α β γ : Type u}

theorem access_some (a : α) : access (some a) = .ok a := rfl
theorem access_none : (access none : Except Fail α) = .error .outOfRange := rfl
theorem ok_bind (a : α) (f : α → Except Fail β) : (Except.ok a >>= f) = f a := rfl
theorem error_bind (e : Fail) (f : α → Except Fail β) : (Except.error e >>= f) = .error e := rfl
theorem pure_ok (a : α) : (pure a : Except Fail α) = .ok a := rfl

/-- a loop that appends `v i` at step `i` and keeps an invariant, unless step `i` fails -/
theorem foldlM_visits (f : List α × γ → ℕ → Except Fail (List α × γ)) (v : ℕ → List α)
    (I : ℕ → γ → Prop) (z : ℕ → Prop) (n : ℕ) (l : List α) (c : γ) (h0 : I 0 c)
    (hstep : ∀ i < n, ∀ l c, I i c → (z i → f (l, c) i = .error .zeroAmplitude) ∧
      (¬ z i → ∃ c', f (l, c) i = .ok (l ++ v i, c') ∧ I (i + 1) c')) :
    ((∃ i < n, z i) → (List.range n).foldlM f (l, c) = .error .zeroAmplitude) ∧
    ((∀ i < n, ¬ z i) → ∃ c', (List.range n).foldlM f (l, c)
      = .ok (l ++ (List.range n).flatMap v, c') ∧ I n c') := by
  induction n with
  | zero =>
    refine ⟨fun ⟨i, hi, _⟩ => absurd hi (Nat.not_lt_zero i), fun _ => ⟨c, ?_, h0⟩⟩
    simp; rfl
  | succ n ih =>
    obtain ⟨ih1, ih2⟩ := ih fun i hi => hstep i (by omega)
    rw [List.range_succ, List.foldlM_append, List.flatMap_append]
    by_cases hz : ∃ i < n, z i
    · refine ⟨fun _ => ?_, fun h => ?_⟩
      · rw [ih1 hz]; rfl
      · obtain ⟨i, hi, hzi⟩ := hz; exact absurd hzi (h i (by omega))
    · obtain ⟨c', hc', hI⟩ := ih2 fun i hi hzi => hz ⟨i, hi, hzi⟩
      obtain ⟨s1, s2⟩ := hstep n (Nat.lt_succ_self n) (l ++ (List.range n).flatMap v) c' hI
      rw [hc']
      refine ⟨fun h => ?_, fun h => ?_⟩
      · obtain ⟨i, hi, hzi⟩ := h
        have : i = n := by
          by_contra hne
          exact hz ⟨i, by omega, hzi⟩
        subst this
        simp only [List.foldlM_cons, List.foldlM_nil]
        show (f (_, c') i >>= _) = _
        rw [s1 hzi]; rfl
      · obtain ⟨c'', h1, h2⟩ := s2 (h n (Nat.lt_succ_self n))
        refine ⟨c'', ?_, h2⟩
        simp only [List.foldlM_cons, List.foldlM_nil, List.flatMap_cons, List.flatMap_nil,
          List.append_nil]
        show (f (_, c') n >>= _) = _
        rw [h1, List.append_assoc]; rfl

/-- the same for a loop that cannot fail -/
theorem foldlM_visits' (f : List α × γ → ℕ → Except Fail (List α × γ)) (v : ℕ → List α)
    (I : ℕ → γ → Prop) (n : ℕ) (l : List α) (c : γ) (h0 : I 0 c)
    (hstep : ∀ i < n, ∀ l c, I i c → ∃ c', f (l, c) i = .ok (l ++ v i, c') ∧ I (i + 1) c') :
    ∃ c', (List.range n).foldlM f (l, c) = .ok (l ++ (List.range n).flatMap v, c') ∧ I n c' :=
  (foldlM_visits f v I (fun _ => False) n l c h0 fun i hi l c h =>
    ⟨False.elim, fun _ => hstep i hi l c h⟩).2 fun _ _ h => h

end

variable {T E B C C2 A H : Type u}
variable (o : Ops5 T E B C C2 A H) (rows cols : ℕ) (t : Site → T) (isZero : A → Bool)

/-! ## replaced networks -/

theorem replace2_eq (s1 s2 q : Site) (x y : T) (h1 : q ≠ s1) (h2 : q ≠ s2) :
    t q = replace2 t s1 s2 x y q := by
  simp [replace2, h1, h2]

theorem replace2_fst (s1 s2 : Site) (x y : T) (h : s1 ≠ s2) : replace2 t s1 s2 x y s1 = x := by
  simp [replace2, h]

theorem replace2_snd (s1 s2 : Site) (x y : T) : replace2 t s1 s2 x y s2 = y := by
  simp [replace2]

theorem bond_read (p : Pos) (hp : p = .left ∨ p = .up) (s i far : ℕ)
    (c : Ctr B C C2) (hs : s < width rows cols p) (hi : i + 1 < span rows cols p)
    (hfar : span rows cols p - 1 - i ≤ far)
    (h : Line o.toOps rows cols t p s i far c) :
    (.bond (dirOf p) (cell rows cols p s i) (cell rows cols p s (i + 1))
      (nnTrace o.toOps rows cols c (cell rows cols p s i) (cell rows cols p s (i + 1)) (dirOf p))
      : Visit T A H)
      = seeBond o rows cols t (dirOf p) (cell rows cols p s i) (cell rows cols p s (i + 1)) := by
  have hne : cell rows cols p s i ≠ cell rows cols p s (i + 1) := fun he => by
    have := cell_inj rows cols p s i (i + 1) (by omega) hi he; omega
  unfold seeBond
  congr 1
  funext x y
  have := nnTrace_fresh o.toOps rows cols t
    (replace2 t (cell rows cols p s i) (cell rows cols p s (i + 1)) x y) p hp s i far c hs hi hfar h
    fun q h1 h2 => replace2_eq t _ _ q x y h1 h2
  rwa [replace2_fst _ _ _ _ _ hne, replace2_snd] at this

theorem startPsi_fresh (p : Pos) (hp : p = .left ∨ p = .up) (s far : ℕ)
    (c : Ctr B C C2) (hs : s < width rows cols p) (hi : 1 < span rows cols p)
    (hfar : span rows cols p - 1 ≤ far)
    (h : Line o.toOps rows cols t p s 0 far c) :
    startPsi o rows cols t isZero (cell rows cols p s 0) (dirOf p) c
      = if isZero (bondAmp o.toOps rows cols t (dirOf p) (cell rows cols p s 0)
          (cell rows cols p s 1)) then .error .zeroAmplitude
        else .ok [.psi (dirOf p) (cell rows cols p s 0)
          (bondAmp o.toOps rows cols t (dirOf p) (cell rows cols p s 0) (cell rows cols p s 1))] := by
  have := nnTrace_fresh o.toOps rows cols t t p hp s 0 far c hs (by omega) (by omega) h
    fun _ _ _ => rfl
  have hr : trace o.toOps rows cols t c (cell rows cols p s 0) (dirOf p)
      = some (bondAmp o.toOps rows cols t (dirOf p) (cell rows cols p s 0)
          (cell rows cols p s 1)) := by
    rw [← this]
    have g : ∀ r j, r < rows → j < cols → site? rows cols t (r, j) = some (t (r, j)) :=
      fun r j hr hj => if_pos ⟨hr, hj⟩
    unfold trace
    rcases hp with rfl | rfl <;> simp only [dirOf, cell, width, span] at * <;>
      rw [g _ _ (by omega) (by omega), g _ _ (by omega) (by omega)] <;> rfl
  unfold startPsi
  rw [hr]
  simp only [access]
  show (if _ then _ else _) = _
  split <;> rfl

/-! ## rows -/

/-- a line step: shift of the boundary-tensor window -/
theorem shift_line (p : Pos) (s i far : ℕ) (c : Ctr B C C2)
    (hs : s < width rows cols p) (hi : i < span rows cols p) (hf : 1 ≤ far)
    (h : Line o.toOps rows cols t p s i far c) :
    ∃ c', shiftBTenWindow o.toOps rows cols t (opposite p) c = some c' ∧
      Line o.toOps rows cols t p s (i + 1) (far - 1) c' ∧ c'.bten2 = c.bten2 := by
  obtain ⟨hg, hw, hb1, hb2⟩ := h
  refine ⟨_, shiftBTen_fresh o.toOps rows cols t c p s (i + 1) far hw hs (by omega) (by omega) hf
    hb1 hb2, ⟨hg, hw, ?_, ?_⟩, rfl⟩
  · rw [setT_same]
  · rw [setT_ne _ _ _ _ (opposite_ne p), setT_same]

theorem shift_line2 (p : Pos) (s i far : ℕ) (c : Ctr B C C2)
    (hs : s + 1 < width rows cols p) (hi : i < span rows cols p) (hf : 1 ≤ far)
    (h : Line2 o.toOps rows cols t p s i far c) :
    ∃ c', shiftBTen2Window o.toOps rows cols t (opposite p) s c = some c' ∧
      Line2 o.toOps rows cols t p s (i + 1) (far - 1) c' ∧ c'.bten = c.bten ∧ c'.bmps = c.bmps := by
  obtain ⟨hw, hb1, hb2⟩ := h
  refine ⟨_, shiftBTen2_fresh o.toOps rows cols t c p s (i + 1) far
    (hw.beside2 o.toOps rows cols t hs) hs (by omega) (by omega) hf
    hb1 hb2, ⟨hw, ?_, ?_⟩, rfl, rfl⟩
  · rw [setT2_same]
  · rw [setT2_ne _ _ _ _ (opposite_ne p), setT2_same]

/-- what a row step appends -/
def rowStepVisits (pl : Plan T) (row col : ℕ) : List (Visit T A H) :=
  (if pl.holes then [.hole (row, col) (holeAt o.toOps rows cols t (row, col))] else []) ++
    (if pl.sites then [seeSite o rows cols t (row, col)] else []) ++
    (if col + 1 < cols then [seeBond o rows cols t .horizontal (row, col) (row, col + 1)] else [])

/-- the state before column `col` -/
def RowInv (row col : ℕ) (c : Ctr B C C2) : Prop :=
  Line o.toOps rows cols t .left row (min col (cols - 1)) (cols - min col (cols - 1)) c

theorem rowStep_fresh (pl : Plan T) (row : ℕ) (hr : row < rows) (col : ℕ) (hc : col < cols)
    (l : List (Visit T A H)) (c : Ctr B C C2) (h : RowInv o rows cols t row col c) :
    ∃ c', rowStep o rows cols t pl row (l, c) col
        = .ok (l ++ rowStepVisits o rows cols t pl row col, c') ∧
      RowInv o rows cols t row (col + 1) c' := by
  unfold RowInv at h
  rw [min_eq_left (by omega)] at h
  have hhole := punchHole_fresh o.toOps rows cols t t row col _ c hr hc (le_refl _) h
    fun _ _ => rfl
  have hsite : (.site (row, col) (oneTrace o.toOps rows cols c (row, col) .horizontal)
      : Visit T A H) = seeSite o rows cols t (row, col) := by
    unfold seeSite
    congr 1
    funext x
    have := oneTrace_fresh o.toOps rows cols t (Function.update t (row, col) x) row col _ c hr hc
      (le_refl _) h fun q hq => by simp [hq]
    rwa [Function.update_self] at this
  by_cases hl : col + 1 < cols
  · have hbond := bond_read o rows cols t .left (Or.inl rfl) row col _ c hr hl
      (by simp only [span]; omega) h
    obtain ⟨c', hs, hline, -⟩ := shift_line o rows cols t .left row col _ c hr hc (by omega) h
    refine ⟨c', ?_, ?_⟩
    · unfold rowStep rowStepVisits
      simp only [hl, if_true]
      simp only [opposite] at hs
      simp only [dirOf, cell] at hbond
      rw [hs, hhole, hsite, hbond]
      cases pl.holes <;> cases pl.sites <;> simp [access] <;> rfl
    · unfold RowInv
      rw [min_eq_left (by omega), show cols - (col + 1) = cols - col - 1 by omega]
      exact hline
  · refine ⟨c, ?_, ?_⟩
    · unfold rowStep rowStepVisits
      simp only [hl, if_false]
      rw [hhole, hsite]
      cases pl.holes <;> cases pl.sites <;> simp [access] <;> rfl
    · unfold RowInv
      rw [min_eq_right (by omega), show cols - 1 = col by omega]
      exact h

/-- what a plaquette step appends -/
def linkStepVisits (pl : Plan T) (row col : ℕ) : List (Visit T A H) :=
  [seeLink o rows cols t .leftUpToRightDown (row, col) (row, col) (row + 1, col + 1),
   seeLink o rows cols t .leftDownToRightUp (row, col) (row + 1, col) (row, col + 1)] ++
  (if pl.links5 ∧ col + 2 < cols then
    [seeLink5 o rows cols t .horizontal (row, col) (row + 1, col) (row, col + 2)] else [])

/-- the state before plaquette `col` -/
def LinkInv (row col : ℕ) (c : Ctr B C C2) : Prop :=
  Line o.toOps rows cols t .left row (cols - 1) 1 c ∧
  Line2 o.toOps rows cols t .left row col (cols - 1 - col) c

theorem link_read (dd : Diag) (s i far : ℕ) (c : Ctr B C C2)
    (hs : s + 1 < rows) (hi : i + 1 < cols) (hfar : cols - 1 - i ≤ far)
    (h : Line2 o.toOps rows cols t .left s i far c) (s1 s2 : Site)
    (hd : match dd with
      | .leftUpToRightDown => s1 = (s, i) ∧ s2 = (s + 1, i + 1)
      | .leftDownToRightUp => s1 = (s + 1, i) ∧ s2 = (s, i + 1)) :
    (.link dd s1 s2 (nnnTrace o.toOps rows cols t c (s, i) dd) : Visit T A H)
      = seeLink o rows cols t dd (s, i) s1 s2 := by
  have hne : s1 ≠ s2 := by
    cases dd <;> obtain ⟨rfl, rfl⟩ := hd <;> simp
  unfold seeLink
  congr 1
  funext x y
  have := nnnTrace_fresh o.toOps rows cols t (replace2 t s1 s2 x y) dd s i far c hs hi hfar h s1 s2
    hd fun q h1 h2 => replace2_eq t _ _ q x y h1 h2
  rwa [replace2_fst _ _ _ _ _ hne, replace2_snd] at this

theorem linkStep_fresh (pl : Plan T) (row : ℕ) (hr : row + 1 < rows) (col : ℕ)
    (hc : col < cols - 1) (l : List (Visit T A H)) (c : Ctr B C C2)
    (h : LinkInv o rows cols t row col c) :
    ∃ c', linkStep o rows cols t pl row (l, c) col
        = .ok (l ++ linkStepVisits o rows cols t pl row col, c') ∧
      LinkInv o rows cols t row (col + 1) c' := by
  obtain ⟨h1, h2⟩ := h
  obtain ⟨c', hs, hline, hb, hm⟩ := shift_line2 o rows cols t .left row col _ c hr
    (by simp only [span]; omega) (by omega) h2
  have e1 := link_read o rows cols t .leftUpToRightDown row col _ c hr (by omega) (le_refl _) h2
    _ _ ⟨rfl, rfl⟩
  have e2 := link_read o rows cols t .leftDownToRightUp row col _ c hr (by omega) (le_refl _) h2
    _ _ ⟨rfl, rfl⟩
  have e3 : col + 2 < cols → (.link5 .horizontal (row + 1, col) (row, col + 2)
      (sq5Trace o rows cols t c (row, col) .horizontal) : Visit T A H)
      = seeLink5 o rows cols t .horizontal (row, col) (row + 1, col) (row, col + 2) := by
    intro h3
    unfold seeLink5
    congr 1
    funext x y
    have := sq5_horizontal o rows cols t (replace2 t (row + 1, col) (row, col + 2) x y) row col _ c
      hr h3 (by omega) h2 fun q h1 h2 => replace2_eq t _ _ q x y h1 h2
    rwa [replace2_fst _ _ _ _ _ (by simp), replace2_snd] at this
  refine ⟨c', ?_, ⟨?_, ?_, ?_, ?_⟩, ?_⟩
  · unfold linkStep linkStepVisits
    simp only [opposite] at hs
    simp only
    rw [hs, e1, e2]
    by_cases h3 : pl.links5 ∧ col + 2 < cols
    · rw [if_pos h3, if_pos h3, e3 h3.2]; simp [access]
    · rw [if_neg h3, if_neg h3]; simp [access]
  · intro q; rw [hm]; exact h1.1 q
  · unfold Window; rw [hm]; exact h1.2.1
  · rw [hb]; exact h1.2.2.1
  · rw [hb]; exact h1.2.2.2
  · rw [show cols - 1 - (col + 1) = cols - 1 - col - 1 by omega]; exact hline

/-- preparing the two-line boundary tensors -/
theorem prepare_line2 (p : Pos) (s remain : ℕ) (hs : s + 1 < width rows cols p)
    (hr : 1 ≤ remain) (hN : remain ≤ span rows cols p) (c : Ctr B C C2)
    (hw : Window o.toOps rows cols t c p s) :
    ∃ c1 c2, initBTen2 o.toOps rows cols p s c = some c1 ∧
      growFullBTen2 o.toOps rows cols t (opposite p) s remain true c1 = some c2 ∧
      Line2 o.toOps rows cols t p s 0 (span rows cols p - remain + 1) c2 ∧
      c2.bten = c.bten ∧ c2.bmps = c.bmps := by
  have hw' : s + 1 < width rows cols (opposite p) := by rw [width_opposite]; exact hs
  have h1 := initBTen2_fresh o.toOps rows cols t c p s (hw.beside2 o.toOps rows cols t hs)
    (by omega)
  refine ⟨_, _, h1, growFullBTen2_fresh o.toOps rows cols t _ (opposite p) s remain ?_ hw' hr
    (by rw [span_opposite]; exact hN), ⟨hw, ?_, ?_⟩, rfl, rfl⟩
  · exact (Window.opposite o.toOps rows cols t
      (c := setT2 c p (bstack2 o.toOps rows cols t p s 1)) hw).beside2 o.toOps rows cols t hw'
  · rw [setT2_ne _ _ _ _ (opposite_ne p).symm, setT2_same]
  · rw [setT2_same, span_opposite]

/-! ## off-diagonal correlations along a row -/

/-- changing a site of the line and erasing, from any position -/
theorem erase_any (t t' : Site → T) (p : Pos) (s n m j : ℕ) (c : Ctr B C C2)
    (hs : s < width rows cols p) (hj : j < span rows cols p)
    (hg : Good o.toOps rows cols t c) (hw : Window o.toOps rows cols t c p s)
    (hb1 : c.bten p = bstack o.toOps rows cols t p s n)
    (hb2 : c.bten (opposite p) = bstack o.toOps rows cols t (opposite p) s m)
    (ht : ∀ q, q ≠ cell rows cols p s j → t q = t' q) :
    let c' := eraseEnvs rows cols (cell rows cols p s j) c
    Good o.toOps rows cols t' c' ∧ Window o.toOps rows cols t' c' p s ∧
    c'.bten p = bstack o.toOps rows cols t' p s (min (j + 1) n) ∧
    c'.bten (opposite p)
      = bstack o.toOps rows cols t' (opposite p) s (min (span rows cols p - j) m) := by
  intro c'
  obtain ⟨hr, hc⟩ := cell_row rows cols p s j hs hj
  refine ⟨fun q => ?_, ⟨?_, ?_⟩, ?_, ?_⟩
  · obtain ⟨n, hn, h1, h2⟩ := hg q
    refine ⟨min (keep rows cols q (cell rows cols p s j)) n, ?_, ?_, ?_⟩
    · simp only [c', eraseEnvs]
      rw [hn, stack_take]
      apply stack_congr o.toOps rows cols t t' q (cell rows cols p s j) hr hc ht
      rw [keep_eq rows cols q _ hr hc]; omega
    · rw [keep_eq rows cols q _ hr hc]; omega
    · omega
  · simp only [c', eraseEnvs]
    rw [hw.1, stack_take, keep_eq rows cols _ _ hr hc, siteDepth_pre, Nat.min_self]
    exact stack_congr o.toOps rows cols t t' _ _ hr hc ht _ (by rw [siteDepth_pre])
  · simp only [c', eraseEnvs]
    rw [hw.2, stack_take, keep_eq rows cols _ _ hr hc, siteDepth_next, Nat.min_self]
    exact stack_congr o.toOps rows cols t t' _ _ hr hc ht _ (by rw [siteDepth_next])
  · simp only [c', eraseEnvs]
    rw [hb1, bstack_take, keep_eq rows cols _ _ hr hc, siteDepth_self rows cols p s j hj]
    refine List.map_congr_left fun k hk => ?_
    have := List.mem_range.1 hk
    exact benv_congr o.toOps rows cols t t' p s hs k (by omega) fun q hq =>
      ht q (hq j (by omega) hj)
  · simp only [c', eraseEnvs]
    rw [hb2, bstack_take, keep_eq rows cols _ _ hr hc, siteDepth_opposite rows cols p s j hj,
      show span rows cols p - 1 - j + 1 = span rows cols p - j by omega]
    refine List.map_congr_left fun k hk => ?_
    have := List.mem_range.1 hk
    refine benv_congr o.toOps rows cols t t' (opposite p) s (by rw [width_opposite]; exact hs) k
      (by rw [span_opposite]; omega) fun q hq => ht q ?_
    rw [← cell_opposite rows cols p s j hj]
    exact hq _ (by omega) (by rw [span_opposite]; omega)

/-- `GrowFullBTen` without re-initialisation -/
theorem growFullBTen_resume (c : Ctr B C C2) (p : Pos) (s remain n : ℕ)
    (hc : Beside o.toOps rows cols t c p s) (hs : s < width rows cols p) (h1 : 1 ≤ n)
    (hr : n + remain ≤ span rows cols p + 1)
    (hb : c.bten p = bstack o.toOps rows cols t p s n) (hr1 : remain ≤ span rows cols p) :
    growFullBTen o.toOps rows cols t p s remain false c
      = some (setT c p (bstack o.toOps rows cols t p s (span rows cols p - remain + 1))) := by
  unfold growFullBTen
  simp only [Bool.false_eq_true, if_false, Option.bind_some]
  rw [hc.1, hc.2, sub?_of_le hr1]
  simp only [Option.bind_some, hb, bstack_length]
  rw [sub?_of_le h1]
  simp only [upTo]
  have := btenSteps_fresh o.toOps rows cols t p s hs (span rows cols p - remain - (n - 1)) c n h1
    (by omega) hb
  rw [this]
  congr 3; omega

/-- the state before the `i`th second site -/
def CorrInv (t' : Site → T) (row i : ℕ) (c : Ctr B C C2) : Prop :=
  Line o.toOps rows cols t' .left row (cols / 4 + (i + 1)) (cols - (cols / 4 + (i + 1))) c

theorem corrStep_fresh (row : ℕ) (x1 : T) (hr : row < rows) (hc : 2 ≤ cols) (i : ℕ)
    (hi : i < cols / 2) (l : List (Visit T A H)) (c : Ctr B C C2)
    (h : CorrInv o rows cols (Function.update t (row, cols / 4) x1) row i c) :
    ∃ c', corrStep o rows cols (Function.update t (row, cols / 4) x1) row (l, c) i
        = .ok (l ++ [seePair o rows cols t (row, cols / 4) x1 (row, cols / 4 + (i + 1))], c') ∧
      CorrInv o rows cols (Function.update t (row, cols / 4) x1) row (i + 1) c' := by
  have hlt : cols / 4 + (i + 1) < cols := by omega
  obtain ⟨c', hs, hline, -⟩ := shift_line o rows cols _ .left row _ _ c hr hlt (by omega) h
  refine ⟨c', ?_, ?_⟩
  · have e : (.pair (row, cols / 4) (row, cols / 4 + (i + 1))
        (oneTrace o.toOps rows cols c (row, cols / 4 + (i + 1)) .horizontal) : Visit T A H)
        = seePair o rows cols t (row, cols / 4) x1 (row, cols / 4 + (i + 1)) := by
      unfold seePair
      congr 1
      funext y
      have := oneTrace_fresh o.toOps rows cols (Function.update t (row, cols / 4) x1)
        (replace2 t (row, cols / 4) (row, cols / 4 + (i + 1)) x1 y) row _ _ c hr hlt (le_refl _) h
        fun q hq => by simp [replace2, hq]
      rwa [replace2_snd] at this
    unfold corrStep
    simp only [opposite] at hs
    simp only
    rw [hs, e]
    rfl
  · unfold CorrInv
    rw [show cols / 4 + (i + 1 + 1) = cols / 4 + (i + 1) + 1 by omega, Nat.sub_add_eq]
    exact hline

theorem offDiagRow_fresh (row : ℕ) (x1 : T) (hr : row < rows) (hc : 2 ≤ cols) (c : Ctr B C C2)
    (h : Line o.toOps rows cols t .left row (cols - 1) 1 c) :
    ∃ c', offDiagRow o rows cols t row x1 c
        = .ok ((List.range (cols / 2)).map fun i =>
            seePair o rows cols t (row, cols / 4) x1 (row, cols / 4 + (i + 1)), c') ∧
      Good o.toOps rows cols t c' ∧ Window o.toOps rows cols t c' .left row := by
  obtain ⟨hg, hw, hb1, hb2⟩ := h
  obtain ⟨g1, w1, a1, a2⟩ := erase_any o rows cols t (Function.update t (row, cols / 4) x1) .left row
    (cols - 1 + 1) 1 (cols / 4) c hr (by simp only [span]; omega) hg hw hb1 hb2
    fun q hq => by
      rw [Function.update_of_ne]; exact hq
  simp only [cell, span] at g1 w1 a1 a2
  rw [min_eq_left (by omega)] at a1
  rw [min_eq_right (by omega)] at a2
  have s1 := growBTenStep_fresh o.toOps rows cols _ _ .left row _ w1 hr (by omega)
    (by simp only [span]; omega) a1
  have w1' : Window o.toOps rows cols (Function.update t (row, cols / 4) x1)
      (setT (eraseEnvs rows cols (row, cols / 4) c) .left
      (bstack o.toOps rows cols (Function.update t (row, cols / 4) x1) .left row (cols / 4 + 1 + 1)))
      .right row := Window.opposite o.toOps rows cols _ (p := .left) w1
  have s2 := growFullBTen_resume o rows cols (Function.update t (row, cols / 4) x1)
    (setT (eraseEnvs rows cols (row, cols / 4) c) .left
      (bstack o.toOps rows cols (Function.update t (row, cols / 4) x1) .left row (cols / 4 + 1 + 1)))
    .right row (cols / 4 + 2) 1
    (w1'.beside o.toOps rows cols _ hr)
    hr (le_refl 1) (by simp only [span]; omega)
    (by rw [setT_ne _ _ _ _ (by decide)]; exact a2) (by simp only [span]; omega)
  obtain ⟨c', hf, hI⟩ := foldlM_visits'
    (corrStep o rows cols (Function.update t (row, cols / 4) x1) row)
    (fun i => [seePair o rows cols t (row, cols / 4) x1 (row, cols / 4 + (i + 1))])
    (CorrInv o rows cols (Function.update t (row, cols / 4) x1) row) (cols / 2) []
    (setT (setT (eraseEnvs rows cols (row, cols / 4) c) .left
      (bstack o.toOps rows cols (Function.update t (row, cols / 4) x1) .left row
        (cols / 4 + 1 + 1))) .right (bstack o.toOps rows cols
        (Function.update t (row, cols / 4) x1) .right row
          (span rows cols .right - (cols / 4 + 2) + 1)))
    (by
      refine ⟨g1, w1, ?_, ?_⟩
      · rw [setT_ne _ _ _ _ (by decide), setT_same]
      · rw [show opposite .left = .right from rfl, setT_same]
        congr 1; simp only [span]; omega)
    (fun i hi l c h => corrStep_fresh o rows cols t row x1 hr hc i hi l c h)
  obtain ⟨g2, w2, b1, b2⟩ := hI
  obtain ⟨g3, w3, -, -⟩ := erase_any o rows cols (Function.update t (row, cols / 4) x1) t .left row
    _ _ (cols / 4) c' hr (by simp only [span]; omega) g2 w2 b1 b2 fun q hq => by
      rw [Function.update_of_ne]; exact hq
  refine ⟨_, ?_, g3, w3⟩
  unfold offDiagRow
  simp only [s1, access_some, ok_bind, s2, hf, List.nil_append]
  rw [← List.map_eq_flatMap]
  rfl

/-! ## one row -/

theorem psiPart_fresh (pl : Plan T) (row far : ℕ) (hr : row < rows) (hc : 2 ≤ cols)
    (c : Ctr B C C2) (hfar : cols - 1 ≤ far) (h : Line o.toOps rows cols t .left row 0 far c) :
    let z := pl.rowPsi = true ∧
      isZero (bondAmp o.toOps rows cols t .horizontal (row, 0) (row, 1)) = true
    (z → psiPart o rows cols t isZero pl row c = .error .zeroAmplitude) ∧
    (¬ z → psiPart o rows cols t isZero pl row c = .ok (if pl.rowPsi = true then
      [.psi .horizontal (row, 0) (bondAmp o.toOps rows cols t .horizontal (row, 0) (row, 1))]
      else [])) := by
  intro z
  have hp : startPsi o rows cols t isZero (row, 0) .horizontal c = _ :=
    startPsi_fresh o rows cols t isZero .left (Or.inl rfl) row far c hr hc hfar h
  unfold psiPart
  refine ⟨fun hz => ?_, fun hz => ?_⟩
  · rw [if_pos hz.1, hp]
    exact if_pos hz.2
  · by_cases z1 : pl.rowPsi = true
    · rw [if_pos z1, if_pos z1, hp]
      exact if_neg fun z2 => hz ⟨z1, z2⟩
    · rw [if_neg z1, if_neg z1]; rfl

theorem linkPart_fresh (pl : Plan T) (row : ℕ) (hc : 2 ≤ cols)
    (l : List (Visit T A H)) (c : Ctr B C C2)
    (h : Line o.toOps rows cols t .left row (cols - 1) 1 c) :
    ∃ c', linkPart o rows cols t pl row (l, c)
        = .ok (l ++ (if pl.links = true ∧ row + 1 < rows then
            (List.range (cols - 1)).flatMap (linkStepVisits o rows cols t pl row) else []), c') ∧
      Line o.toOps rows cols t .left row (cols - 1) 1 c' := by
  unfold linkPart
  by_cases hk : pl.links = true ∧ row + 1 < rows
  · obtain ⟨d1, d2, k1, k2, k3, k4, k5⟩ := prepare_line2 o rows cols t .left row 2 hk.2
      (by omega) (by simp only [span]; omega) c h.2.1
    simp only [opposite, span] at k2 k3
    obtain ⟨c4, hf4, hI4⟩ := foldlM_visits' (linkStep o rows cols t pl row)
      (linkStepVisits o rows cols t pl row) (LinkInv o rows cols t row) (cols - 1) l d2
      (by
        refine ⟨⟨?_, ?_, ?_, ?_⟩, ?_⟩
        · intro q; rw [k5]; exact h.1 q
        · unfold Window; rw [k5]; exact h.2.1
        · rw [k4]; exact h.2.2.1
        · rw [k4]; exact h.2.2.2
        · rw [show cols - 1 - 0 = cols - 2 + 1 by omega]; exact k3)
      (fun i hi l c h => linkStep_fresh o rows cols t pl row hk.2 i hi l c h)
    refine ⟨c4, ?_, hI4.1⟩
    rw [if_pos hk, if_pos hk]
    simp only [k1, access_some, ok_bind, k2]
    exact hf4
  · refine ⟨c, ?_, h⟩
    rw [if_neg hk, if_neg hk, List.append_nil]; rfl

theorem corrPart_fresh (pl : Plan T) (row : ℕ) (hr : row < rows) (hc : 2 ≤ cols)
    (l : List (Visit T A H)) (c : Ctr B C C2)
    (h : Line o.toOps rows cols t .left row (cols - 1) 1 c) :
    ∃ c', corrPart o rows cols t pl row (l, c)
        = .ok (l ++ pairVisits o rows cols t row (pl.corr row), c') ∧
      Good o.toOps rows cols t c' ∧ Window o.toOps rows cols t c' .left row := by
  unfold corrPart
  cases pl.corr row with
  | none => exact ⟨c, by simp only [pairVisits, List.append_nil]; rfl, h.1, h.2.1⟩
  | some x1 =>
    obtain ⟨c5, h5, g5, w5⟩ := offDiagRow_fresh o rows cols t row x1 hr hc c h
    refine ⟨c5, ?_, g5, w5⟩
    simp only [h5, ok_bind]
    rfl

theorem traverseRow_fresh (pl : Plan T) (row : ℕ) (hr : row < rows) (hc : 2 ≤ cols)
    (c : Ctr B C C2) (hg : Good o.toOps rows cols t c)
    (hw : Window o.toOps rows cols t c .left row) :
    let z := pl.rowPsi = true ∧
      isZero (bondAmp o.toOps rows cols t .horizontal (row, 0) (row, 1)) = true
    (z → traverseRow o rows cols t isZero pl row c = .error .zeroAmplitude) ∧
    (¬ z → ∃ c', traverseRow o rows cols t isZero pl row c
        = .ok (rowVisits o rows cols t pl row, c') ∧
      Good o.toOps rows cols t c' ∧ Window o.toOps rows cols t c' .left row) := by
  intro z
  obtain ⟨c1, c2, h1, -, -, h2, hl⟩ := prepare_line o.toOps rows cols t .left row 1 hr (le_refl 1)
    (by simp only [span]; omega) c hg hw
  simp only [opposite, span] at h2 hl
  obtain ⟨p1, p2⟩ := psiPart_fresh o rows cols t isZero pl row _ hr hc c2 (by omega) hl
  unfold traverseRow
  simp only [h1, access_some, ok_bind, h2]
  constructor
  · intro hz
    rw [p1 hz]; rfl
  · intro hz
    rw [p2 hz, ok_bind]
    generalize hps : (if pl.rowPsi = true then _ else _ : List (Visit T A H)) = ps
    obtain ⟨c3, hf, hI⟩ := foldlM_visits' (rowStep o rows cols t pl row)
      (rowStepVisits o rows cols t pl row) (RowInv o rows cols t row) cols ps c2
      (by
        unfold RowInv
        rw [Nat.zero_min, Nat.sub_zero]
        have : cols - 1 + 1 = cols := by omega
        rw [this] at hl
        exact hl)
      (fun i hi l c h => rowStep_fresh o rows cols t pl row hr i hi l c h)
    unfold RowInv at hI
    rw [min_eq_right (by omega), show cols - (cols - 1) = 1 by omega] at hI
    obtain ⟨c4, h4, L4⟩ := linkPart_fresh o rows cols t pl row hc
      (ps ++ (List.range cols).flatMap (rowStepVisits o rows cols t pl row)) c3 hI
    obtain ⟨c5, h5, g5, w5⟩ := corrPart_fresh o rows cols t pl row hr hc _ c4 L4
    refine ⟨c5, ?_, g5, w5⟩
    rw [hf, ok_bind, h4, ok_bind, h5]
    unfold rowVisits
    rw [hps]
    rfl

/-! ## all rows -/

theorem rowLoop_fresh (pl : Plan T) (hc : 2 ≤ cols) (row : ℕ) (hr : row < rows)
    (l : List (Visit T A H)) (c : Ctr B C C2)
    (h : Good o.toOps rows cols t c ∧ Window o.toOps rows cols t c .left (min row (rows - 1))) :
    let z := pl.rowPsi = true ∧
      isZero (bondAmp o.toOps rows cols t .horizontal (row, 0) (row, 1)) = true
    (z → rowLoop o rows cols t isZero pl (l, c) row = .error .zeroAmplitude) ∧
    (¬ z → ∃ c', rowLoop o rows cols t isZero pl (l, c) row
        = .ok (l ++ rowVisits o rows cols t pl row, c') ∧
      Good o.toOps rows cols t c' ∧
      Window o.toOps rows cols t c' .left (min (row + 1) (rows - 1))) := by
  intro z
  rw [min_eq_left (by omega)] at h
  obtain ⟨r1, r2⟩ := traverseRow_fresh o rows cols t isZero pl row hr hc c h.1 h.2
  unfold rowLoop
  constructor
  · intro hz
    simp only [r1 hz]; rfl
  · intro hz
    obtain ⟨c1, e1, g1, w1⟩ := r2 hz
    simp only [e1, ok_bind]
    by_cases hl : row + 1 < rows
    · obtain ⟨c2, e2, g2, w2⟩ := shift_window o.toOps rows cols t .left (Or.inl rfl) row hl c1 g1 w1
      simp only [decSide] at e2
      refine ⟨c2, ?_, g2, ?_⟩
      · rw [if_pos hl, e2]; rfl
      · rw [min_eq_left (by omega)]; exact w2
    · refine ⟨c1, ?_, g1, ?_⟩
      · rw [if_neg hl]; rfl
      · rw [min_eq_right (by omega), show rows - 1 = row by omega]; exact w1

theorem traverseHorizontal_fresh (pl : Plan T) (hr : 1 ≤ rows) (hc : 2 ≤ cols) (c : Ctr B C C2)
    (hg : Good o.toOps rows cols t c) :
    let z := fun row => pl.rowPsi = true ∧
      isZero (bondAmp o.toOps rows cols t .horizontal (row, 0) (row, 1)) = true
    ((∃ row < rows, z row) → traverseHorizontal o rows cols t isZero pl c
      = .error .zeroAmplitude) ∧
    ((∀ row < rows, ¬ z row) → ∃ c', traverseHorizontal o rows cols t isZero pl c
        = .ok ((List.range rows).flatMap (rowVisits o rows cols t pl), c') ∧
      Good o.toOps rows cols t c') := by
  intro z
  obtain ⟨c1, e1, g1, w1⟩ := generate_window o.toOps rows cols t .left (Or.inl rfl) c hg hr
  simp only [decSide, opposite] at e1
  obtain ⟨f1, f2⟩ := foldlM_visits (rowLoop o rows cols t isZero pl) (rowVisits o rows cols t pl)
    (fun row c => Good o.toOps rows cols t c ∧
      Window o.toOps rows cols t c .left (min row (rows - 1))) z rows [] c1
    ⟨g1, by rw [Nat.zero_min]; exact w1⟩
    (fun row hrow l c h => rowLoop_fresh o rows cols t isZero pl hc row hrow l c h)
  unfold traverseHorizontal
  rw [e1, access_some, ok_bind]
  refine ⟨f1, fun h => ?_⟩
  obtain ⟨c', e, g, -⟩ := f2 h
  exact ⟨c', e, g⟩

/-! ## columns -/

/-- the state before row `row` of a column -/
def ColInv (col row : ℕ) (c : Ctr B C C2) : Prop :=
  Line o.toOps rows cols t .up col (min row (rows - 2)) (rows - 1 - min row (rows - 2)) c

theorem colStep_fresh (col : ℕ) (hc : col < cols) (row : ℕ) (hr : row < rows - 1)
    (l : List (Visit T A H)) (c : Ctr B C C2) (h : ColInv o rows cols t col row c) :
    ∃ c', colStep o rows cols t col (l, c) row
        = .ok (l ++ [seeBond o rows cols t .vertical (row, col) (row + 1, col)], c') ∧
      ColInv o rows cols t col (row + 1) c' := by
  unfold ColInv at h
  rw [min_eq_left (by omega)] at h
  have hb := bond_read o rows cols t .up (Or.inr rfl) col row _ c hc (by simp only [span]; omega)
    (by simp only [span]; omega) h
  simp only [dirOf, cell] at hb
  unfold colStep
  simp only [hb]
  by_cases hl : row + 2 < rows
  · obtain ⟨c', hs, hline, -⟩ := shift_line o rows cols t .up col row _ c hc
      (by simp only [span]; omega) (by omega) h
    simp only [opposite] at hs
    refine ⟨c', ?_, ?_⟩
    · rw [if_pos hl, hs]; rfl
    · unfold ColInv
      rw [min_eq_left (by omega), Nat.sub_add_eq]
      exact hline
  · refine ⟨c, ?_, ?_⟩
    · rw [if_neg hl]; rfl
    · unfold ColInv
      rw [min_eq_right (by omega), show rows - 2 = row by omega]
      exact h

/-- the state before block `row` of a pair of columns -/
def Link5Inv (col row : ℕ) (c : Ctr B C C2) : Prop :=
  Good o.toOps rows cols t c ∧
  Line2 o.toOps rows cols t .up col (min row (rows - 3)) (rows - 2 - min row (rows - 3)) c

theorem link5Step_fresh (col : ℕ) (hc : col + 1 < cols) (row : ℕ) (hr : row < rows - 2)
    (l : List (Visit T A H)) (c : Ctr B C C2) (h : Link5Inv o rows cols t col row c) :
    ∃ c', link5Step o rows cols t col (l, c) row
        = .ok (l ++ [seeLink5 o rows cols t .vertical (row, col) (row + 2, col) (row, col + 1)],
          c') ∧
      Link5Inv o rows cols t col (row + 1) c' := by
  unfold Link5Inv at h
  rw [min_eq_left (by omega)] at h
  obtain ⟨hg, h⟩ := h
  have hb : (.link5 .vertical (row + 2, col) (row, col + 1)
      (sq5Trace o rows cols t c (row, col) .vertical) : Visit T A H)
      = seeLink5 o rows cols t .vertical (row, col) (row + 2, col) (row, col + 1) := by
    unfold seeLink5
    congr 1
    funext x y
    have := sq5_vertical o rows cols t (replace2 t (row + 2, col) (row, col + 1) x y) col row _ c
      hc (by omega) (by omega) h fun q h1 h2 => replace2_eq t _ _ q x y h1 h2
    rwa [replace2_fst _ _ _ _ _ (by simp), replace2_snd] at this
  unfold link5Step
  simp only [hb]
  by_cases hl : row + 3 < rows
  · obtain ⟨c', hs, hline, -, hm⟩ := shift_line2 o rows cols t .up col row _ c hc
      (by simp only [span]; omega) (by omega) h
    simp only [opposite] at hs
    refine ⟨c', ?_, ?_, ?_⟩
    · rw [if_pos hl, hs]; rfl
    · intro q; rw [hm]; exact hg q
    · rw [min_eq_left (by omega), Nat.sub_add_eq]
      exact hline
  · refine ⟨c, ?_, hg, ?_⟩
    · rw [if_neg hl]; rfl
    · rw [min_eq_right (by omega), show rows - 3 = row by omega]
      exact h

theorem link5Part_fresh (pl : Plan T) (col : ℕ) (hr : pl.links5 = true → 3 ≤ rows)
    (l : List (Visit T A H)) (c : Ctr B C C2) (hg : Good o.toOps rows cols t c)
    (hw : Window o.toOps rows cols t c .up col) :
    ∃ c', link5Part o rows cols t pl col (l, c)
        = .ok (l ++ (if pl.links5 = true ∧ col + 1 < cols then (List.range (rows - 2)).map fun row =>
            seeLink5 o rows cols t .vertical (row, col) (row + 2, col) (row, col + 1) else []),
          c') ∧
      Good o.toOps rows cols t c' ∧ Window o.toOps rows cols t c' .up col := by
  unfold link5Part
  by_cases hk : pl.links5 = true ∧ col + 1 < cols
  · have hr3 := hr hk.1
    obtain ⟨d1, d2, k1, k2, k3, -, k5⟩ := prepare_line2 o rows cols t .up col 3 hk.2
      (by omega) (by simp only [span]; omega) c hw
    simp only [opposite, span] at k2 k3
    obtain ⟨c4, hf4, g4, L4⟩ := foldlM_visits' (link5Step o rows cols t col)
      (fun row => [seeLink5 o rows cols t .vertical (row, col) (row + 2, col) (row, col + 1)])
      (Link5Inv o rows cols t col) (rows - 2) l d2
      (by
        refine ⟨fun q => by rw [k5]; exact hg q, ?_⟩
        rw [Nat.zero_min, Nat.sub_zero, show rows - 2 = rows - 3 + 1 by omega]
        exact k3)
      (fun i hi l c h => link5Step_fresh o rows cols t col hk.2 i hi l c h)
    refine ⟨c4, ?_, g4, L4.1⟩
    rw [if_pos hk, if_pos hk]
    simp only [k1, access_some, ok_bind, k2]
    rw [List.map_eq_flatMap]
    exact hf4
  · refine ⟨c, ?_, hg, hw⟩
    rw [if_neg hk, if_neg hk, List.append_nil]; rfl

theorem colPsi_fresh (col far : ℕ) (hc : col < cols) (hr : 2 ≤ rows)
    (c : Ctr B C C2) (hfar : rows - 1 ≤ far) (h : Line o.toOps rows cols t .up col 0 far c) :
    let z := isZero (bondAmp o.toOps rows cols t .vertical (0, col) (1, col)) = true
    (z → startPsi o rows cols t isZero (0, col) .vertical c = .error .zeroAmplitude) ∧
    (¬ z → startPsi o rows cols t isZero (0, col) .vertical c
      = .ok [.psi .vertical (0, col) (bondAmp o.toOps rows cols t .vertical (0, col) (1, col))]) := by
  intro z
  have hp : startPsi o rows cols t isZero (0, col) .vertical c = _ :=
    startPsi_fresh o rows cols t isZero .up (Or.inr rfl) col far c hc hr hfar h
  rw [hp]
  exact ⟨fun hz => if_pos hz, fun hz => if_neg hz⟩

theorem traverseCol_fresh (pl : Plan T) (hr : 2 ≤ rows) (h5 : pl.links5 = true → 3 ≤ rows)
    (col : ℕ) (hc : col < cols) (c : Ctr B C C2) (hg : Good o.toOps rows cols t c)
    (hw : Window o.toOps rows cols t c .up col) :
    let z := isZero (bondAmp o.toOps rows cols t .vertical (0, col) (1, col)) = true
    (z → traverseCol o rows cols t isZero pl col c = .error .zeroAmplitude) ∧
    (¬ z → ∃ c', traverseCol o rows cols t isZero pl col c
        = .ok (colVisits o rows cols t pl col, c') ∧
      Good o.toOps rows cols t c' ∧ Window o.toOps rows cols t c' .up col) := by
  intro z
  obtain ⟨c1, c2, h1, -, -, h2, hl⟩ := prepare_line o.toOps rows cols t .up col 2 hc (by omega)
    (by simp only [span]; omega) c hg hw
  simp only [opposite, span] at h2 hl
  obtain ⟨p1, p2⟩ := colPsi_fresh o rows cols t isZero col _ hc hr c2 (by omega) hl
  unfold traverseCol
  simp only [h1, access_some, ok_bind, h2]
  constructor
  · intro hz
    rw [p1 hz]; rfl
  · intro hz
    rw [p2 hz, ok_bind]
    obtain ⟨c3, hf, hI⟩ := foldlM_visits' (colStep o rows cols t col)
      (fun row => [seeBond o rows cols t .vertical (row, col) (row + 1, col)])
      (ColInv o rows cols t col) (rows - 1)
      [Visit.psi .vertical (0, col) (bondAmp o.toOps rows cols t .vertical (0, col) (1, col))] c2
      (by
        unfold ColInv
        rw [Nat.zero_min, Nat.sub_zero, show rows - 1 = rows - 2 + 1 by omega]
        exact hl)
      (fun i hi l c h => colStep_fresh o rows cols t col hc i hi l c h)
    obtain ⟨c4, h4, g4, w4⟩ := link5Part_fresh o rows cols t pl col h5 _ c3 hI.1 hI.2.1
    refine ⟨c4, ?_, g4, w4⟩
    rw [hf, ok_bind, h4]
    unfold colVisits
    rw [← List.map_eq_flatMap]

theorem colLoop_fresh (pl : Plan T) (hr : 2 ≤ rows) (h5 : pl.links5 = true → 3 ≤ rows)
    (col : ℕ) (hc : col < cols) (l : List (Visit T A H)) (c : Ctr B C C2)
    (h : Good o.toOps rows cols t c ∧ Window o.toOps rows cols t c .up (min col (cols - 1))) :
    let z := isZero (bondAmp o.toOps rows cols t .vertical (0, col) (1, col)) = true
    (z → colLoop o rows cols t isZero pl (l, c) col = .error .zeroAmplitude) ∧
    (¬ z → ∃ c', colLoop o rows cols t isZero pl (l, c) col
        = .ok (l ++ colVisits o rows cols t pl col, c') ∧
      Good o.toOps rows cols t c' ∧
      Window o.toOps rows cols t c' .up (min (col + 1) (cols - 1))) := by
  intro z
  rw [min_eq_left (by omega)] at h
  obtain ⟨r1, r2⟩ := traverseCol_fresh o rows cols t isZero pl hr h5 col hc c h.1 h.2
  unfold colLoop
  constructor
  · intro hz
    simp only [r1 hz]; rfl
  · intro hz
    obtain ⟨c1, e1, g1, w1⟩ := r2 hz
    simp only [e1, ok_bind]
    by_cases hl : col + 1 < cols
    · obtain ⟨c2, e2, g2, w2⟩ := shift_window o.toOps rows cols t .up (Or.inr rfl) col hl c1 g1 w1
      simp only [decSide] at e2
      refine ⟨c2, ?_, g2, ?_⟩
      · rw [if_pos hl, e2]; rfl
      · rw [min_eq_left (by omega)]; exact w2
    · refine ⟨c1, ?_, g1, ?_⟩
      · rw [if_neg hl]; rfl
      · rw [min_eq_right (by omega), show cols - 1 = col by omega]; exact w1

theorem traverseVertical_fresh (pl : Plan T) (hr : 2 ≤ rows) (h5 : pl.links5 = true → 3 ≤ rows)
    (hc : 1 ≤ cols) (c : Ctr B C C2) (hg : Good o.toOps rows cols t c) :
    let z := fun col => isZero (bondAmp o.toOps rows cols t .vertical (0, col) (1, col)) = true
    ((∃ col < cols, z col) → traverseVertical o rows cols t isZero pl c
      = .error .zeroAmplitude) ∧
    ((∀ col < cols, ¬ z col) → ∃ c', traverseVertical o rows cols t isZero pl c
        = .ok ((List.range cols).flatMap (colVisits o rows cols t pl), c') ∧
      Good o.toOps rows cols t c') := by
  intro z
  obtain ⟨c1, e1, g1, w1⟩ := generate_window o.toOps rows cols t .up (Or.inr rfl) c hg hc
  simp only [decSide, opposite] at e1
  obtain ⟨f1, f2⟩ := foldlM_visits (colLoop o rows cols t isZero pl) (colVisits o rows cols t pl)
    (fun col c => Good o.toOps rows cols t c ∧
      Window o.toOps rows cols t c .up (min col (cols - 1))) z cols [] c1
    ⟨g1, by rw [Nat.zero_min]; exact w1⟩
    (fun col hcol l c h => colLoop_fresh o rows cols t isZero pl hr h5 col hcol l c h)
  unfold traverseVertical
  rw [e1, access_some, ok_bind]
  refine ⟨f1, fun h => ?_⟩
  obtain ⟨c', e, g, -⟩ := f2 h
  exact ⟨c', e, g⟩

end QLPeps.Contractor
