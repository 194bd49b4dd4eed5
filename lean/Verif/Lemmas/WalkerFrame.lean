import Verif.Lemmas.Walker

/-! # Which boundary MPS a traversal leaves behind -/

namespace QLPeps.Walker.Frame

open QLPeps.Contractor

universe u v

variable {T E B C C2 A H : Type u}

section
variable (o : Ops T E B C C2 A H) (rows cols : ℕ) (t : Site → T)

theorem foldlM_keep {α β : Type*} (P : α → α → Prop) (refl : ∀ a, P a a)
    (trans : ∀ a b c, P a b → P b c → P a c) (f : α → β → Option α)
    (h : ∀ a b a', f a b = some a' → P a a') (l : List β) :
    ∀ a a', l.foldlM f a = some a' → P a a' := by
  induction l with
  | nil => intro a a' e; cases e; exact refl a
  | cons b l ih =>
    intro a a' e
    rw [List.foldlM_cons] at e
    simp only [Option.bind_eq_bind, Option.bind_eq_some_iff] at e
    obtain ⟨a1, e1, e2⟩ := e
    exact trans _ _ _ (h a b a1 e1) (ih a1 a' e2)

theorem initBTen_bmps (p : Pos) (s : ℕ) (c c' : Ctr B C C2) (e : initBTen o rows cols p s c = some c') :
    c'.bmps = c.bmps := by
  simp only [initBTen, Option.bind_eq_some_iff, Option.some.injEq] at e
  obtain ⟨_, _, _, _, _, _, _, _, rfl⟩ := e; rfl

theorem btenStep_bmps (p : Pos) (s : ℕ) (b1 b2 : B) (c : Ctr B C C2) (i : ℕ) (c' : Ctr B C C2)
    (e : btenStep o rows cols t p s b1 b2 c i = some c') : c'.bmps = c.bmps := by
  simp only [btenStep, Option.bind_eq_some_iff, Option.some.injEq] at e
  obtain ⟨_, _, _, _, _, _, _, _, rfl⟩ := e; rfl

theorem growFullBTen_bmps (p : Pos) (s n : ℕ) (ini : Bool) (c c' : Ctr B C C2)
    (e : growFullBTen o rows cols t p s n ini c = some c') : c'.bmps = c.bmps := by
  simp only [growFullBTen, Option.bind_eq_some_iff] at e
  obtain ⟨c1, e1, b1, -, b2, -, stop, -, e2⟩ := e
  have h1 : c1.bmps = c.bmps := by
    cases ini
    · simp only [Bool.false_eq_true, if_false, Option.some.injEq] at e1; rw [e1]
    · exact initBTen_bmps o rows cols p s c c1 (by simpa using e1)
  rw [← h1]
  split at e2
  · cases e2; rfl
  · exact foldlM_keep (fun a b : Ctr B C C2 => b.bmps = a.bmps) (fun _ => rfl) (fun _ _ _ h1 h2 => h2.trans h1) _
      (fun a b a' => btenStep_bmps o rows cols t p s b1 b2 a b a') _ _ _ e2

theorem growBTenStep_bmps (p : Pos) (c c' : Ctr B C C2)
    (e : growBTenStep o rows cols t p c = some c') : c'.bmps = c.bmps := by
  simp only [growBTenStep, Option.bind_eq_some_iff, Option.some.injEq] at e
  obtain ⟨_, _, _, _, _, _, _, _, _, _, _, _, _, _, _, _, rfl⟩ := e; rfl

theorem shiftBTen_bmps (p : Pos) (c c' : Ctr B C C2)
    (e : shiftBTenWindow o rows cols t p c = some c') : c'.bmps = c.bmps := by
  unfold shiftBTenWindow at e
  split_ifs at e
  have := growBTenStep_bmps o rows cols t _ _ _ e
  exact this

theorem initBTen2_bmps (p : Pos) (s : ℕ) (c c' : Ctr B C C2) (e : initBTen2 o rows cols p s c = some c') :
    c'.bmps = c.bmps := by
  simp only [initBTen2, Option.bind_eq_some_iff, Option.some.injEq] at e
  obtain ⟨_, _, _, _, _, _, _, _, rfl⟩ := e; rfl

theorem bten2Step_bmps (p : Pos) (s : ℕ) (b1 b2 : B) (c : Ctr B C C2) (i : ℕ) (c' : Ctr B C C2)
    (e : bten2Step o rows cols t p s b1 b2 c i = some c') : c'.bmps = c.bmps := by
  simp only [bten2Step, Option.bind_eq_some_iff, Option.some.injEq] at e
  obtain ⟨_, _, _, _, _, _, _, _, _, _, _, _, rfl⟩ := e; rfl

theorem growFullBTen2_bmps (p : Pos) (s n : ℕ) (ini : Bool) (c c' : Ctr B C C2)
    (e : growFullBTen2 o rows cols t p s n ini c = some c') : c'.bmps = c.bmps := by
  simp only [growFullBTen2, Option.bind_eq_some_iff] at e
  obtain ⟨c1, e1, b1, -, b2, -, stop, -, e2⟩ := e
  have h1 : c1.bmps = c.bmps := by
    cases ini
    · simp only [Bool.false_eq_true, if_false, Option.some.injEq] at e1; rw [e1]
    · exact initBTen2_bmps o rows cols p s c c1 (by simpa using e1)
  rw [← h1]
  split at e2
  · cases e2; rfl
  · exact foldlM_keep (fun a b : Ctr B C C2 => b.bmps = a.bmps) (fun _ => rfl) (fun _ _ _ h1 h2 => h2.trans h1) _
      (fun a b a' => bten2Step_bmps o rows cols t p s b1 b2 a b a') _ _ _ e2

theorem shiftBTen2_bmps (p : Pos) (s : ℕ) (c c' : Ctr B C C2)
    (e : shiftBTen2Window o rows cols t p s c = some c') : c'.bmps = c.bmps := by
  unfold shiftBTen2Window growBTen2Step at e
  split_ifs at e
  simp only [Option.bind_eq_some_iff] at e
  obtain ⟨b1, -, b2, -, i, -, e⟩ := e
  have := bten2Step_bmps o rows cols t _ _ _ _ _ _ _ e
  exact this

theorem pushLayer_keep (p q : Pos) (hq : q ≠ p) (mpo : List T) (c c' : Ctr B C C2)
    (e : pushLayer o p mpo c = some c') : c'.bmps q = c.bmps q := by
  unfold pushLayer at e
  split at e
  · cases e
  · cases e
    simp [hq]

theorem growStep_keep (p q : Pos) (hq : q ≠ p) (c c' : Ctr B C C2)
    (e : growBMPSStep o rows cols t p c = some c') : c'.bmps q = c.bmps q := by
  simp only [growBMPSStep, Option.bind_eq_some_iff] at e
  obtain ⟨_, _, _, _, e⟩ := e
  exact pushLayer_keep o p q hq _ _ _ e

theorem growSlices_keep (p q : Pos) (hq : q ≠ p) (l : List ℕ) (c c' : Ctr B C C2)
    (e : growSlices o rows cols t p l c = some c') : c'.bmps q = c.bmps q := by
  refine foldlM_keep (fun a b : Ctr B C C2 => b.bmps q = a.bmps q) (fun _ => rfl) (fun _ _ _ h1 h2 => h2.trans h1) _
      (fun a b a' e => ?_) l _ _ e
  simp only [Option.bind_eq_some_iff] at e
  obtain ⟨_, _, e⟩ := e
  exact pushLayer_keep o p q hq _ _ _ e

theorem growFull_keep (p q : Pos) (hq : q ≠ p) (c c' : Ctr B C C2)
    (e : growFullBMPS o rows cols t p c = some c') : c'.bmps q = c.bmps q := by
  unfold growFullBMPS at e
  cases p <;> simp only at e
  · split at e
    · cases e; rfl
    · exact growSlices_keep o rows cols t _ q hq _ _ _ e
  · simp only [Option.bind_eq_some_iff] at e
    obtain ⟨_, _, e⟩ := e
    exact growSlices_keep o rows cols t _ q hq _ _ _ e
  · simp only [Option.bind_eq_some_iff] at e
    obtain ⟨_, _, e⟩ := e
    exact growSlices_keep o rows cols t _ q hq _ _ _ e
  · split at e
    · cases e; rfl
    · exact growSlices_keep o rows cols t _ q hq _ _ _ e

theorem generate_keep (p q : Pos) (hp : q ≠ p) (ho : q ≠ opposite p) (c c' : Ctr B C C2)
    (e : generateApproach o rows cols t p c = some c') : c'.bmps q = c.bmps q := by
  rw [growFull_keep o rows cols t (opposite p) q ho _ _ e]
  simp [deleteInner, hp]

theorem shift_keep (p q : Pos) (hp : q ≠ p) (ho : q ≠ opposite p) (c c' : Ctr B C C2)
    (e : shiftBMPSWindow o rows cols t p c = some c') : c'.bmps q = c.bmps q := by
  unfold shiftBMPSWindow at e
  split_ifs at e
  rw [growStep_keep o rows cols t (opposite p) q ho _ _ e]
  simp [hp]

end

/-! ## traversals -/

section
variable (o : Ops5 T E B C C2 A H) (rows cols : ℕ) (t : Site → T) (isZero : A → Bool)

theorem access_ok {α : Type*} {x : Option α} {a : α} (h : access x = .ok a) : x = some a := by
  cases x with
  | none => cases h
  | some b => cases h; rfl

theorem bind_ok {ε : Type*} {α β : Type v} {x : Except ε α} {f : α → Except ε β} {b : β} (h : (x >>= f) = .ok b) :
    ∃ a, x = .ok a ∧ f a = .ok b := by
  cases x with
  | error e => cases h
  | ok a => exact ⟨a, rfl, h⟩

theorem foldlM_keepE {ε : Type*} {α : Type v} {β : Type*} (P : α → α → Prop) (refl : ∀ a, P a a)
    (trans : ∀ a b c, P a b → P b c → P a c) (f : α → β → Except ε α)
    (h : ∀ a b a', f a b = .ok a' → P a a') (l : List β) :
    ∀ a a', l.foldlM f a = .ok a' → P a a' := by
  induction l with
  | nil => intro a a' e; cases e; exact refl a
  | cons b l ih =>
    intro a a' e
    rw [List.foldlM_cons] at e
    obtain ⟨a1, e1, e2⟩ := bind_ok e
    exact trans _ _ _ (h a b a1 e1) (ih a1 a' e2)

theorem colStep_bmps (col : ℕ) (x : List (Visit T A H) × Ctr B C C2) (row : ℕ)
    (x' : List (Visit T A H) × Ctr B C C2) (e : colStep o rows cols t col x row = .ok x') :
    x'.2.bmps = x.2.bmps := by
  unfold colStep at e
  simp only at e
  split_ifs at e
  · obtain ⟨c', h1, h2⟩ := bind_ok e
    cases h2
    exact shiftBTen_bmps o.toOps rows cols t _ _ _ (access_ok h1)
  · cases e; rfl

theorem link5Step_bmps (col : ℕ) (x : List (Visit T A H) × Ctr B C C2) (row : ℕ)
    (x' : List (Visit T A H) × Ctr B C C2) (e : link5Step o rows cols t col x row = .ok x') :
    x'.2.bmps = x.2.bmps := by
  unfold link5Step at e
  simp only at e
  split_ifs at e
  · obtain ⟨c', h1, h2⟩ := bind_ok e
    cases h2
    exact shiftBTen2_bmps o.toOps rows cols t _ _ _ _ (access_ok h1)
  · cases e; rfl

theorem traverseCol_bmps (pl : Plan T) (col : ℕ) (c : Ctr B C C2) (x : List (Visit T A H) × Ctr B C C2)
    (e : traverseCol o rows cols t isZero pl col c = .ok x) : x.2.bmps = c.bmps := by
  unfold traverseCol at e
  obtain ⟨c1, h1, e⟩ := bind_ok e
  obtain ⟨c2, h2, e⟩ := bind_ok e
  obtain ⟨ps, h3, e⟩ := bind_ok e
  obtain ⟨y, h4, e⟩ := bind_ok e
  have k1 := initBTen_bmps o.toOps rows cols _ _ _ _ (access_ok h1)
  have k2 := growFullBTen_bmps o.toOps rows cols t _ _ _ _ _ _ (access_ok h2)
  have k4 := foldlM_keepE (fun a b : List (Visit T A H) × Ctr B C C2 => b.2.bmps = a.2.bmps) (fun _ => rfl)
    (fun _ _ _ h1 h2 => h2.trans h1) _ (fun a b a' => colStep_bmps o rows cols t col a b a') _ _ _ h4
  have k5 : x.2.bmps = y.2.bmps := by
    unfold link5Part at e
    split_ifs at e
    · obtain ⟨c5, h5, e⟩ := bind_ok e
      obtain ⟨c6, h6, e⟩ := bind_ok e
      have k5 := initBTen2_bmps o.toOps rows cols _ _ _ _ (access_ok h5)
      have k6 := growFullBTen2_bmps o.toOps rows cols t _ _ _ _ _ _ (access_ok h6)
      have k7 := foldlM_keepE (fun a b : List (Visit T A H) × Ctr B C C2 => b.2.bmps = a.2.bmps)
        (fun _ => rfl) (fun _ _ _ h1 h2 => h2.trans h1) _
        (fun a b a' => link5Step_bmps o rows cols t col a b a') _ _ _ e
      exact k7.trans (k6.trans k5)
    · cases e; rfl
  exact k5.trans (k4.trans (k2.trans k1))

theorem traverseVertical_down (pl : Plan T) (c : Ctr B C C2) (x : List (Visit T A H) × Ctr B C C2)
    (e : traverseVertical o rows cols t isZero pl c = .ok x) : x.2.bmps .down = c.bmps .down := by
  unfold traverseVertical at e
  obtain ⟨c1, h1, e⟩ := bind_ok e
  have k1 := generate_keep o.toOps rows cols t .left .down (by decide) (by decide) _ _ (access_ok h1)
  have k2 := foldlM_keepE (fun a b : List (Visit T A H) × Ctr B C C2 => b.2.bmps .down = a.2.bmps .down)
    (fun _ => rfl) (fun _ _ _ h1 h2 => h2.trans h1) (colLoop o rows cols t isZero pl)
    (fun a b a' e => by
      unfold colLoop at e
      obtain ⟨y, h2, e⟩ := bind_ok e
      have k := traverseCol_bmps o rows cols t isZero pl b a.2 y h2
      split_ifs at e
      · obtain ⟨c3, h3, e⟩ := bind_ok e
        cases e
        have := shift_keep o.toOps rows cols t .right .down (by decide) (by decide) _ _ (access_ok h3)
        exact this.trans (congrFun k _)
      · cases e; exact congrFun k _) _ _ _ e
  exact k2.trans k1

theorem traverseHorizontal_down (pl : Plan T) (hr : 1 ≤ rows) (hc : 2 ≤ cols) (c : Ctr B C C2)
    (hg : Good o.toOps rows cols t c) (x : List (Visit T A H) × Ctr B C C2)
    (e : traverseHorizontal o rows cols t isZero pl c = .ok x) : (x.2.bmps .down).length = 1 := by
  obtain ⟨c1, e1, g1, w1⟩ := generate_window o.toOps rows cols t .left (Or.inl rfl) c hg hr
  simp only [decSide, opposite] at e1
  obtain ⟨f1, f2⟩ := foldlM_visits (rowLoop o rows cols t isZero pl) (rowVisits o rows cols t pl)
    (fun row c => Good o.toOps rows cols t c ∧
      Window o.toOps rows cols t c .left (min row (rows - 1)))
    (fun row => pl.rowPsi = true ∧
      isZero (bondAmp o.toOps rows cols t .horizontal (row, 0) (row, 1)) = true) rows [] c1
    ⟨g1, by rw [Nat.zero_min]; exact w1⟩
    (fun row hrow l c h => rowLoop_fresh o rows cols t isZero pl hc row hrow l c h)
  unfold traverseHorizontal at e
  rw [e1, access_some, ok_bind] at e
  by_cases h : ∃ row < rows, pl.rowPsi = true ∧
      isZero (bondAmp o.toOps rows cols t .horizontal (row, 0) (row, 1)) = true
  · rw [f1 h] at e; cases e
  · push Not at h
    obtain ⟨c', e', g, w⟩ := f2 (fun row hrow hz => by
      have := h row hrow hz.1
      simp [hz.2] at this)
    rw [e'] at e
    cases e
    have := w.2
    simp only [next, depth] at this
    show (c'.bmps .down).length = 1
    rw [this, stack_length]
    omega

/-- after a traversal of all bonds only the vacuum is left below -/
theorem traverseAll_down (pl : Plan T) (hr : 1 ≤ rows) (hc : 2 ≤ cols) (c : Ctr B C C2)
    (hf : Fresh o.toOps rows cols t c) (x : List (Visit T A H) × Ctr B C C2)
    (e : traverseAll o rows cols t isZero pl c = .ok x) : (x.2.bmps .down).length = 1 := by
  unfold traverseAll at e
  obtain ⟨y, h1, e⟩ := bind_ok e
  obtain ⟨z, h2, e⟩ := bind_ok e
  cases e
  rw [traverseVertical_down o rows cols t isZero pl _ _ h2]
  exact traverseHorizontal_down o rows cols t isZero pl hr hc c ((good_iff_fresh _ _ _ _ _).2 hf) y h1

end

end QLPeps.Walker.Frame
