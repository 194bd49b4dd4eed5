import Verif.Spec.Walker
import Verif.Lemmas.TraversalRun

/-! # Lemmas about the walker -/

namespace QLPeps.Walker

open QLPeps.Contractor

universe u

variable {T E B C C2 A H : Type u}
variable (o : Ops T E B C C2 A H) (rows cols : ℕ) (t : Site → T)

/-- the row as an MPO -/
def rowOf (cols : ℕ) (t : Site → T) (r : ℕ) : List T := (List.range cols).map fun c => t (r, c)

@[simp] theorem rowOf_length (r : ℕ) : (rowOf cols t r).length = cols := by simp [rowOf]

theorem rowOf_get (r c : ℕ) (h : c < cols) : (rowOf cols t r)[c]? = some (t (r, c)) := by
  simp [rowOf, h]

/-- the caches hold the `a` left and `b` right boundary tensors of row `r` -/
structure Inv (r a b : ℕ) (w : Wk B C) : Prop where
  bmps : w.bmps = beyond o rows cols t .up r
  left : w.left = bstack o rows cols t .left r a
  leftCol : a ≠ 0 → w.leftCol + 1 = a
  right : w.right = bstack o rows cols t .right r b
  rightCol : b ≠ 0 → w.rightCol + b = cols + 1
  leftLe : a ≤ cols + 1
  pos : w.pos = .up

theorem vacuumLeft_fresh (r : ℕ) (h : 1 ≤ cols) :
    vacuumLeft o cols (beyond o rows cols t .up r) (beyond o rows cols t .down r)
      = some (benv o rows cols t .left r 0) := by
  have h1 := raw_e1 o rows cols t .left r 0 (by simp only [span]; omega)
  have h2 := raw_e2 o rows cols t .left r 0 (by simp only [span]; omega)
  simp only [span, pre, next, zero_add] at h1 h2
  rw [vacuumLeft, h1, h2, benv_zero]; rfl

theorem vacuumRight_fresh (r : ℕ) (h : 1 ≤ cols) :
    vacuumRight o cols (beyond o rows cols t .up r) (beyond o rows cols t .down r)
      = some (benv o rows cols t .right r 0) := by
  have h1 := raw_e1 o rows cols t .right r 0 (by simp only [span]; omega)
  have h2 := raw_e2 o rows cols t .right r 0 (by simp only [span]; omega)
  simp only [span, pre, next, zero_add] at h1 h2
  rw [vacuumRight, h1, h2, benv_zero]; rfl

variable {o rows cols t}

theorem absorbLeft_fresh {r a b : ℕ} {w : Wk B C} (h : Inv o rows cols t r (a + 1) b w)
    (ha : a < cols) :
    ∃ w', absorbLeft o cols (rowOf cols t r) (beyond o rows cols t .down r) w = some w' ∧
      Inv o rows cols t r (a + 2) b w' := by
  have hc : w.leftCol = a := by have := h.leftCol (by omega); omega
  have h1 := raw_e1 o rows cols t .left r a (by simpa [span] using ha)
  have h2 := raw_e2 o rows cols t .left r a (by simpa [span] using ha)
  simp only [span, pre, next] at h1 h2
  refine ⟨{ w with left := bstack o rows cols t .left r (a + 2), leftCol := a + 1 }, ?_, ?_⟩
  · unfold absorbLeft
    rw [hc, if_neg (by omega), h.left, bstack_last _ _ _ _ _ _ _ (by omega), h.bmps, h1,
      rowOf_get cols t r a ha, h2, bstack_succ o rows cols t .left r (a + 1), benv_succ]
    rfl
  · exact ⟨h.bmps, rfl, fun _ => rfl, h.right, h.rightCol, by omega, h.pos⟩

theorem growLeft_fresh {r a b : ℕ} {w : Wk B C} (h : Inv o rows cols t r (a + 1) b w)
    (ha : a < cols) :
    ∃ w', growLeft o cols (rowOf cols t r) (beyond o rows cols t .down r) w = some w' ∧
      Inv o rows cols t r (a + 2) b w' := by
  obtain ⟨w', e, i⟩ := absorbLeft_fresh h ha
  refine ⟨w', ?_, i⟩
  unfold growLeft ensureLeft
  rw [if_neg (by simp; omega), h.left, bstack_isEmpty _ _ _ _ _ _ _ (by omega)]
  simpa using e

/-- after a step to the left edge (or out of range: nothing) -/
theorem growLeft_partial {r a b : ℕ} {w w' : Wk B C} (h : Inv o rows cols t r a b w)
    (e : growLeft o cols (rowOf cols t r) (beyond o rows cols t .down r) w = some w') :
    ∃ a', Inv o rows cols t r a' b w' := by
  rcases Nat.eq_zero_or_pos cols with h0 | h0
  · unfold growLeft at e; rw [if_pos (Or.inl h0)] at e; cases e
  rcases a with _ | a
  · unfold growLeft ensureLeft at e
    rw [if_neg (by simp; omega), h.left] at e
    simp only [bstack, List.range_zero, List.map_nil, List.isEmpty_nil, if_true] at e
    split_ifs at e with hl
    · cases e
    · rw [h.bmps, vacuumLeft_fresh o rows cols t r h0] at e
      simp only [Option.map_some, Option.bind_some] at e
      have hi : Inv o rows cols t r 1 b
          { w with bmps := beyond o rows cols t .up r, left := [benv o rows cols t .left r 0] } :=
        ⟨rfl, by simp [bstack], fun _ => by simp at hl; simpa using hl, h.right, h.rightCol, by omega, h.pos⟩
      obtain ⟨w2, e2, i2⟩ := absorbLeft_fresh hi h0
      have : w2 = w' := by simpa using e2.symm.trans e
      exact ⟨_, this ▸ i2⟩
  · by_cases ha : a < cols
    · obtain ⟨w2, e2, i2⟩ := growLeft_fresh h ha
      have : w2 = w' := by simpa using e2.symm.trans e
      exact ⟨_, this ▸ i2⟩
    · unfold growLeft ensureLeft at e
      rw [if_neg (by simp; omega), h.left, bstack_isEmpty _ _ _ _ _ _ _ (by omega)] at e
      unfold absorbLeft at e
      have := h.leftCol (by omega)
      simp only [Bool.false_eq_true, if_false, Option.bind_some] at e
      rw [if_pos (by omega)] at e; cases e

theorem growRight_fresh {r a b : ℕ} {w : Wk B C} (h : Inv o rows cols t r a (b + 1) w)
    (hb : b < cols) :
    ∃ w', growRight o cols (rowOf cols t r) (beyond o rows cols t .down r) w = some w' ∧
      Inv o rows cols t r a (b + 2) w' := by
  have hc : w.rightCol = cols - b := by have := h.rightCol (by omega); omega
  have h1 := raw_e1 o rows cols t .right r b (by simpa [span] using hb)
  have h2 := raw_e2 o rows cols t .right r b (by simpa [span] using hb)
  simp only [span, pre, next] at h1 h2
  rw [sub?_of_le (by omega), Option.bind_some] at h1
  refine ⟨{ w with right := bstack o rows cols t .right r (b + 2), rightCol := cols - b - 1 }, ?_, ?_⟩
  · unfold growRight
    rw [hc, h.right, bstack_isEmpty _ _ _ _ _ _ _ (by omega), if_neg (by simp), if_neg (by omega),
      bstack_last _ _ _ _ _ _ _ (by omega), h.bmps, show cols - b - 1 = cols - (b + 1) by omega, h1,
      rowOf_get cols t r _ (by omega), show cols - (b + 1) + 1 = cols - b by omega,
      sub?_of_le (by omega), show cols - (cols - b) = b by omega]
    simp only [Option.bind_some, h2, Option.map_some]
    rw [bstack_succ o rows cols t .right r (b + 1), benv_succ]
    rw [show cell rows cols .right r b = (r, cols - (b + 1)) by simp only [cell]; congr 1; omega]
    rfl
  · exact ⟨h.bmps, h.left, h.leftCol, rfl, fun _ => by simp only; omega, h.leftLe, h.pos⟩

theorem growRight_partial {r a b : ℕ} {w w' : Wk B C} (h : Inv o rows cols t r a b w)
    (e : growRight o cols (rowOf cols t r) (beyond o rows cols t .down r) w = some w') :
    ∃ b', Inv o rows cols t r a b' w' := by
  rcases b with _ | b
  · unfold growRight at e
    rw [h.right] at e; simp [bstack] at e
  · by_cases hb : b < cols
    · obtain ⟨w2, e2, i2⟩ := growRight_fresh h hb
      have : w2 = w' := by simpa using e2.symm.trans e
      exact ⟨_, this ▸ i2⟩
    · unfold growRight at e
      have := h.rightCol (by omega)
      rw [h.right, bstack_isEmpty _ _ _ _ _ _ _ (by omega), if_neg (by simp), if_pos (by omega)] at e
      cases e

theorem times_zero {α : Type*} (f : α → Option α) (a : α) : times 0 f a = some a := rfl

theorem times_succ {α : Type*} (k : ℕ) (f : α → Option α) (a : α) :
    times (k + 1) f a = (times k f a).bind f := by
  unfold times
  rw [List.range_succ, List.foldlM_append]
  simp only [List.foldlM_cons, List.foldlM_nil]
  cases (List.range k).foldlM (fun a _ => f a) a with
  | none => rfl
  | some b => simp

theorem times_growLeft {r b : ℕ} {w : Wk B C} (h : Inv o rows cols t r 1 b w) (k : ℕ) (hk : k ≤ cols) :
    ∃ w', times k (growLeft o cols (rowOf cols t r) (beyond o rows cols t .down r)) w = some w' ∧
      Inv o rows cols t r (k + 1) b w' := by
  induction k with
  | zero => exact ⟨w, rfl, h⟩
  | succ k ih =>
    obtain ⟨w1, e1, i1⟩ := ih (by omega)
    obtain ⟨w2, e2, i2⟩ := growLeft_fresh i1 (by omega)
    exact ⟨w2, by rw [times_succ, e1, Option.bind_some, e2], i2⟩

theorem times_growRight {r a : ℕ} {w : Wk B C} (h : Inv o rows cols t r a 1 w) (k : ℕ) (hk : k ≤ cols) :
    ∃ w', times k (growRight o cols (rowOf cols t r) (beyond o rows cols t .down r)) w = some w' ∧
      Inv o rows cols t r a (k + 1) w' := by
  induction k with
  | zero => exact ⟨w, rfl, h⟩
  | succ k ih =>
    obtain ⟨w1, e1, i1⟩ := ih (by omega)
    obtain ⟨w2, e2, i2⟩ := growRight_fresh i1 (by omega)
    exact ⟨w2, by rw [times_succ, e1, Option.bind_some, e2], i2⟩

theorem initLeft_fresh {r a b : ℕ} {w : Wk B C} (h : Inv o rows cols t r a b w) (hc : 1 ≤ cols)
    (k : ℕ) :
    ∃ w', initLeft o cols (rowOf cols t r) (beyond o rows cols t .down r) k w = some w' ∧
      Inv o rows cols t r (min k cols + 1) b w' := by
  have hi : Inv o rows cols t r 1 b { w with left := [benv o rows cols t .left r 0], leftCol := 0 } :=
    ⟨h.bmps, by simp [bstack], fun _ => rfl, h.right, h.rightCol, by omega, h.pos⟩
  obtain ⟨w', e, i⟩ := times_growLeft hi (min k cols) (by omega)
  refine ⟨w', ?_, i⟩
  unfold initLeft
  rw [if_neg (by simp; omega), h.bmps, vacuumLeft_fresh o rows cols t r hc, Option.bind_some, ← e,
    ← h.bmps]

theorem initRight_fresh {r a b : ℕ} {w : Wk B C} (h : Inv o rows cols t r a b w) (hc : 1 ≤ cols)
    (k : ℕ) :
    ∃ w', initRight o cols (rowOf cols t r) (beyond o rows cols t .down r) k w = some w' ∧
      Inv o rows cols t r a (cols - (k + 1) + 1) w' := by
  have hi : Inv o rows cols t r a 1
      { w with right := [benv o rows cols t .right r 0], rightCol := cols } :=
    ⟨h.bmps, h.left, h.leftCol, by simp [bstack], fun _ => rfl, h.leftLe, h.pos⟩
  obtain ⟨w', e, i⟩ := times_growRight hi (cols - (k + 1)) (by omega)
  refine ⟨w', ?_, i⟩
  unfold initRight
  rw [if_neg (by simp; omega), h.bmps, vacuumRight_fresh o rows cols t r hc, Option.bind_some, ← e,
    ← h.bmps]

theorem clear_fresh {r a b : ℕ} {w : Wk B C} (h : Inv o rows cols t r a b w) :
    Inv o rows cols t r 0 0 (clear w) :=
  ⟨h.bmps, rfl, fun h => absurd rfl h, rfl, fun h => absurd rfl h, Nat.zero_le _, h.pos⟩

/-- the amplitude with the tensor at one site replaced, from the environments of the others -/
theorem oneAmp_update (r col : ℕ) (x : T) (hr : r < rows) (hc : col < cols) :
    oneAmp o rows cols (Function.update t (r, col) x) (r, col)
      = o.one .horizontal (benv o rows cols t .left r col)
          (facing o rows cols .up (beyond o rows cols t .up r) col)
          (facing o rows cols .down (beyond o rows cols t .down r) col) x
          (benv o rows cols t .right r (cols - 1 - col)) := by
  have hb := beyond_congr o rows cols (Function.update t (r, col) x) t .left r
    (by simpa [width] using hr) (fun q hq => by
      rw [Function.update_of_ne]
      have := hq col (by simpa [span] using hc)
      simpa [cell] using this)
  have h1 := benv_congr o rows cols (Function.update t (r, col) x) t .left r
    (by simpa [width] using hr) col (by simp only [span]; omega) (fun q hq => by
      rw [Function.update_of_ne]
      have := hq col (le_refl _) (by simpa [span] using hc)
      simpa [cell] using this)
  have h2 := benv_congr o rows cols (Function.update t (r, col) x) t .right r
    (by simpa [width] using hr) (cols - 1 - col) (by simp only [span]; omega) (fun q hq => by
      rw [Function.update_of_ne]
      have := hq (cols - 1 - col) (le_refl _) (by simp only [span]; omega)
      simp only [cell] at this
      rwa [show cols - 1 - (cols - 1 - col) = col by omega] at this)
  simp only [pre, next] at hb
  simp only [oneAmp, h1, h2, hb.1, hb.2, Function.update_self]

theorem facing_up (b : B) (col : ℕ) (hc : col < cols) :
    (sub? cols (col + 1)).bind (raw? o cols b) = some (facing o rows cols .up b col) := by
  rw [sub?_of_le (by omega), Option.bind_some, raw?, if_pos (by omega)]
  simp only [facing]; congr 2; omega

theorem facing_down (b : B) (col : ℕ) (hc : col < cols) :
    raw? o cols b col = some (facing o rows cols .down b col) := by
  rw [raw?, if_pos hc]; rfl

theorem trace_fresh {r a b : ℕ} {w : Wk B C} (h : Inv o rows cols t r a b w) (x : T) (col : ℕ)
    (hr : r < rows) (hc : col < cols) (ha : col < a) (hb : cols - 1 - col < b) :
    trace o cols x col (beyond o rows cols t .down r) w
      = some (oneAmp o rows cols (Function.update t (r, col) x) (r, col)) := by
  have h1 := h.leftCol (by omega)
  have h2 := h.rightCol (by omega)
  unfold trace rightAt
  rw [h.left, h.right, bstack_isEmpty _ _ _ _ _ _ _ (by omega), bstack_isEmpty _ _ _ _ _ _ _ (by omega),
    if_neg (by simp), if_neg (by omega), if_neg (by omega), bstack_get _ _ _ _ _ _ _ _ ha,
    sub?_of_le (by omega)]
  simp only [Option.bind_some]
  rw [show cols - (col + 1) = cols - 1 - col by omega, bstack_get _ _ _ _ _ _ _ _ hb, h.bmps]
  have := facing_up (o := o) (rows := rows) (beyond o rows cols t .up r) col hc
  rw [sub?_of_le (by omega), Option.bind_some, show cols - (col + 1) = cols - 1 - col by omega] at this
  simp only [Option.bind_some, this, facing_down (rows := rows) _ col hc, Option.map_some]
  rw [oneAmp_update r col x hr hc]

theorem trace_partial {r a b : ℕ} {w : Wk B C} (h : Inv o rows cols t r a b w) (x : T) (col : ℕ)
    (hr : r < rows) (v : A) (e : trace o cols x col (beyond o rows cols t .down r) w = some v) :
    col < cols ∧ v = oneAmp o rows cols (Function.update t (r, col) x) (r, col) := by
  have key : col < cols ∧ col < a ∧ cols - 1 - col < b := by
    unfold trace rightAt at e
    split_ifs at e with g1 g2 g3
    rw [h.left, h.right] at e
    by_cases hc : col < cols
    · by_cases ha : col < a
      · refine ⟨hc, ha, ?_⟩
        by_contra hb
        rw [bstack_get _ _ _ _ _ _ _ _ ha, sub?_of_le (by omega)] at e
        simp only [Option.bind_some] at e
        rw [List.getElem?_eq_none (by simp; omega)] at e
        cases e
      · rw [List.getElem?_eq_none (by simp; omega)] at e; cases e
    · have : sub? cols (col + 1) = none := by simp [sub?]; omega
      rw [this] at e
      simp only [Option.bind_none] at e
      cases hl : (bstack o rows cols t .left r a)[col]? <;> rw [hl] at e <;> cases e
  obtain ⟨hc, ha, hb⟩ := key
  rw [trace_fresh h x col hr hc ha hb] at e
  exact ⟨hc, (Option.some.inj e).symm⟩

theorem oneAmp_update2 (r col : ℕ) (x y : T) (hr : r < rows) (hc : col + 1 < cols) :
    oneAmp o rows cols (Function.update (Function.update t (r, col) x) (r, col + 1) y) (r, col + 1)
      = o.one .horizontal (o.bgrow .left (benv o rows cols t .left r col)
            (facing o rows cols .up (beyond o rows cols t .up r) col) x
            (facing o rows cols .down (beyond o rows cols t .down r) col))
          (facing o rows cols .up (beyond o rows cols t .up r) (col + 1))
          (facing o rows cols .down (beyond o rows cols t .down r) (col + 1)) y
          (benv o rows cols t .right r (cols - 1 - (col + 1))) := by
  rw [oneAmp_update r (col + 1) y hr hc]
  have hb := beyond_congr o rows cols (Function.update t (r, col) x) t .left r
    (by simpa [width] using hr) (fun q hq => by
      rw [Function.update_of_ne]
      have := hq col (by simp only [span]; omega)
      simpa [cell] using this)
  have h1 := benv_congr o rows cols (Function.update t (r, col) x) t .left r
    (by simpa [width] using hr) col (by simp only [span]; omega) (fun q hq => by
      rw [Function.update_of_ne]
      have := hq col (le_refl _) (by simp only [span]; omega)
      simpa [cell] using this)
  have h2 := benv_congr o rows cols (Function.update t (r, col) x) t .right r
    (by simpa [width] using hr) (cols - 1 - (col + 1)) (by simp only [span]; omega) (fun q hq => by
      rw [Function.update_of_ne]
      have := hq (cols - 1 - col) (by omega) (by simp only [span]; omega)
      simp only [cell] at this
      rwa [show cols - 1 - (cols - 1 - col) = col by omega] at this)
  simp only [pre, next] at hb
  rw [benv_succ, h1, h2]
  simp only [e1, e2, pre, next, along, cell, hb.1, hb.2, Function.update_self]

theorem trace2_fresh {r a b : ℕ} {w : Wk B C} (h : Inv o rows cols t r a b w) (x y : T) (col : ℕ)
    (hr : r < rows) (hc : col + 1 < cols) (ha : col < a) (hb : cols - 1 - (col + 1) < b) :
    trace2 o cols x y col (beyond o rows cols t .down r) w
      = some (oneAmp o rows cols (Function.update (Function.update t (r, col) x) (r, col + 1) y)
          (r, col + 1)) := by
  have h1 := h.leftCol (by omega)
  have h2 := h.rightCol (by omega)
  unfold trace2 rightAt
  rw [h.left, h.right, bstack_isEmpty _ _ _ _ _ _ _ (by omega), bstack_isEmpty _ _ _ _ _ _ _ (by omega),
    if_neg (by omega), if_neg (by simp), if_neg (by omega), if_neg (by omega),
    bstack_get _ _ _ _ _ _ _ _ ha, h.bmps,
    facing_up (rows := rows) (beyond o rows cols t .up r) col (by omega),
    facing_up (rows := rows) (beyond o rows cols t .up r) (col + 1) hc,
    facing_down (rows := rows) _ col (by omega), facing_down (rows := rows) _ (col + 1) hc,
    sub?_of_le (by omega)]
  simp only [Option.bind_some]
  rw [show cols - (col + 1 + 1) = cols - 1 - (col + 1) by omega, bstack_get _ _ _ _ _ _ _ _ hb]
  simp only [Option.bind_some, Option.map_some]
  rw [oneAmp_update2 r col x y hr hc]

theorem trace2_partial {r a b : ℕ} {w : Wk B C} (h : Inv o rows cols t r a b w) (x y : T) (col : ℕ)
    (hr : r < rows) (v : A) (e : trace2 o cols x y col (beyond o rows cols t .down r) w = some v) :
    col + 1 < cols ∧ v = oneAmp o rows cols
      (Function.update (Function.update t (r, col) x) (r, col + 1) y) (r, col + 1) := by
  have key : col + 1 < cols ∧ col < a ∧ cols - 1 - (col + 1) < b := by
    unfold trace2 rightAt at e
    split_ifs at e with g0 g1 g2 g3
    rw [h.left, h.right] at e
    refine ⟨by omega, ?_⟩
    by_cases ha : col < a
    · refine ⟨ha, ?_⟩
      by_contra hb
      rw [bstack_get _ _ _ _ _ _ _ _ ha, sub?_of_le (by omega)] at e
      simp only [Option.bind_some] at e
      rw [List.getElem?_eq_none (by simp; omega)] at e
      cases e
    · rw [List.getElem?_eq_none (by simp; omega)] at e; cases e
  obtain ⟨hc, ha, hb⟩ := key
  rw [trace2_fresh h x y col hr hc ha hb] at e
  exact ⟨hc, (Option.some.inj e).symm⟩

theorem shiftLeft_partial {r a b : ℕ} {w w' : Wk B C} (h : Inv o rows cols t r a b w)
    (hw : cols < 2 ^ 64 - 1)
    (e : shiftLeft o cols (rowOf cols t r) (beyond o rows cols t .down r) w = some w') :
    ∃ b', Inv o rows cols t r (a - 1) b' w' := by
  unfold shiftLeft at e
  split_ifs at e with hl
  refine growRight_partial (a := a - 1) (b := b) ?_ e
  rcases a with _ | a
  · rw [h.left] at hl; simp [bstack] at hl
  have ha := h.leftLe
  refine ⟨h.bmps, ?_, fun h0 => ?_, h.right, h.rightCol, by omega, h.pos⟩
  · show w.left.dropLast = _
    rw [h.left, bstack_dropLast]
  · have := h.leftCol (by omega)
    show (w.leftCol + (2 ^ 64 - 1)) % 2 ^ 64 + 1 = _
    obtain ⟨m, hm⟩ : ∃ m, w.leftCol = m + 1 := ⟨w.leftCol - 1, by omega⟩
    rw [show w.leftCol + (2 ^ 64 - 1) = m + 2 ^ 64 by omega, Nat.add_mod_right,
      Nat.mod_eq_of_lt (by omega)]
    omega

theorem shiftRight_partial {r a b : ℕ} {w w' : Wk B C} (h : Inv o rows cols t r a b w)
    (e : shiftRight o cols (rowOf cols t r) (beyond o rows cols t .down r) w = some w') :
    ∃ a', Inv o rows cols t r a' (b - 1) w' := by
  unfold shiftRight at e
  split_ifs at e with hl
  refine growLeft_partial (a := a) (b := b - 1) ?_ e
  rcases b with _ | b
  · rw [h.right] at hl; simp [bstack] at hl
  refine ⟨h.bmps, h.left, h.leftCol, ?_, fun h0 => ?_, h.leftLe, h.pos⟩
  · show w.right.dropLast = _
    rw [h.right, bstack_dropLast]
  · have := h.rightCol (by omega)
    show w.rightCol + 1 + _ = _
    omega

theorem step_partial {r a b : ℕ} {w w' : Wk B C} (h : Inv o rows cols t r a b w)
    (hw : cols < 2 ^ 64 - 1) (op : BTenOp)
    (e : op.step o cols (rowOf cols t r) (beyond o rows cols t .down r) w = some w') :
    ∃ a' b', Inv o rows cols t r a' b' w' := by
  cases op <;> simp only [BTenOp.step] at e
  case initLeft k =>
    rcases Nat.eq_zero_or_pos cols with h0 | h0
    · unfold initLeft at e; rw [if_pos (Or.inl h0)] at e; cases e
    · obtain ⟨w2, e2, i2⟩ := initLeft_fresh h h0 k
      have : w2 = w' := by simpa using e2.symm.trans e
      exact ⟨_, _, this ▸ i2⟩
  case initRight k =>
    rcases Nat.eq_zero_or_pos cols with h0 | h0
    · unfold initRight at e; rw [if_pos (Or.inl h0)] at e; cases e
    · obtain ⟨w2, e2, i2⟩ := initRight_fresh h h0 k
      have : w2 = w' := by simpa using e2.symm.trans e
      exact ⟨_, _, this ▸ i2⟩
  case growLeft => exact (growLeft_partial h e).imp fun _ h => ⟨_, h⟩
  case growRight => exact ⟨_, growRight_partial h e⟩
  case shiftLeft => exact ⟨_, shiftLeft_partial h hw e⟩
  case shiftRight => exact (shiftRight_partial h e).imp fun _ h => ⟨_, h⟩
  case clear => cases e; exact ⟨_, _, clear_fresh h⟩

theorem run_partial {r a b : ℕ} {w w' : Wk B C} (h : Inv o rows cols t r a b w)
    (hw : cols < 2 ^ 64 - 1) (ops : List BTenOp)
    (e : ops.foldlM (fun w op => op.step o cols (rowOf cols t r) (beyond o rows cols t .down r) w) w
      = some w') :
    ∃ a' b', Inv o rows cols t r a' b' w' := by
  induction ops generalizing w a b with
  | nil => cases e; exact ⟨_, _, h⟩
  | cons op ops ih =>
    rw [List.foldlM_cons] at e
    cases hs : op.step o cols (rowOf cols t r) (beyond o rows cols t .down r) w with
    | none => rw [hs] at e; cases e
    | some w1 =>
      rw [hs] at e
      obtain ⟨a', b', h'⟩ := step_partial h hw op hs
      exact ih h' e

/-! ## the structure factor -/

/-- a loop that appends to the output, and keeps an invariant -/
theorem foldlM_emit {α σ : Type*} (f : List α × σ → ℕ → Option (List α × σ)) (v : ℕ → List α)
    (P : ℕ → σ → Prop) (n : ℕ) : ∀ (a : ℕ)
    (_ : ∀ i, a ≤ i → i < a + n → ∀ out s, P i s → ∃ s', f (out, s) i = some (out ++ v i, s') ∧ P (i + 1) s')
    (out : List α) (s : σ), P a s →
    ∃ s', (List.range' a n).foldlM f (out, s) = some (out ++ (List.range' a n).flatMap v, s') ∧
      P (a + n) s' := by
  induction n with
  | zero => intro a _ out s h; exact ⟨s, by simp, h⟩
  | succ n ih =>
    intro a step out s h
    obtain ⟨s1, e1, h1⟩ := step a (le_refl _) (by omega) out s h
    obtain ⟨s2, e2, h2⟩ := ih (a + 1) (fun i h1 h2 => step i (by omega) (by omega)) (out ++ v a) s1 h1
    refine ⟨s2, ?_, ?_⟩
    · rw [List.range'_succ, List.foldlM_cons, e1]
      simp only [Option.bind_eq_bind, Option.bind_some, e2, List.flatMap_cons, List.append_assoc]
    · rwa [show a + 1 + n = a + (n + 1) by omega] at h2

theorem foldlM_emit' {α : Type*} (f : List α → ℕ → Option (List α)) (v : ℕ → List α) (n : ℕ)
    (step : ∀ i < n, ∀ out, f out i = some (out ++ v i)) (out : List α) :
    (List.range n).foldlM f out = some (out ++ (List.range n).flatMap v) := by
  induction n with
  | zero => simp
  | succ n ih =>
    rw [List.range_succ, List.foldlM_append, ih fun i hi => step i (by omega)]
    simp [step n (by omega)]

theorem upTo_eq (a n : ℕ) : upTo a n = List.range' a (n - a) := by
  rw [upTo, List.range'_eq_map_range]

/-- the scan of a target row -/
theorem scan_fresh [Zero A] {r : ℕ} {w : Wk B C} (h : Inv o rows cols t r (cols + 1) 1 w)
    (hr : r < rows) (hc : 1 ≤ cols) (sitps : Site → ℕ → T) (cfg : Config) (down : Bool) (y2 : ℕ) (k : ℕ)
    (hk : k ≤ cols) :
    ∃ w', (List.range k).foldlM (scanStep o cols sitps cfg down y2 (rowOf cols t r)
        (beyond o rows cols t .down r)) (w, fun _ => 0)
      = some (w', fun x2 => if cols ≤ x2 + k ∧ x2 < cols ∧ down = true ∧ cfg (y2, x2) = 1 then
          oneAmp o rows cols (Function.update t (r, x2) (sitps (y2, x2) 0)) (r, x2) else 0) ∧
      Inv o rows cols t r (cols + 1) (min (k + 1) cols) w' := by
  induction k with
  | zero =>
    refine ⟨w, ?_, ?_⟩
    · simp only [List.range_zero, List.foldlM_nil, Option.pure_def]
      congr 2; funext x2
      rw [if_neg (by omega)]
    · rwa [min_eq_left (by omega)]
  | succ k ih =>
    obtain ⟨w1, e1, h1⟩ := ih (by omega)
    rw [min_eq_left (by omega)] at h1
    rw [List.range_succ, List.foldlM_append, e1]
    simp only [Option.bind_eq_bind, Option.bind_some, List.foldlM_cons, List.foldlM_nil,
      Option.pure_def, Option.bind_fun_some]
    have hgrow : ∃ w2, (if 0 < cols - 1 - k then
          growRight o cols (rowOf cols t r) (beyond o rows cols t .down r) w1 else some w1) = some w2 ∧
        Inv o rows cols t r (cols + 1) (min (k + 2) cols) w2 := by
      by_cases hx : 0 < cols - 1 - k
      · obtain ⟨w2, e2, h2⟩ := growRight_fresh h1 (by omega)
        refine ⟨w2, by rw [if_pos hx, e2], by rwa [min_eq_left (by omega)]⟩
      · refine ⟨w1, if_neg hx, ?_⟩
        rwa [show min (k + 2) cols = k + 1 by omega]
    obtain ⟨w2, e2, h2⟩ := hgrow
    refine ⟨w2, ?_, h2⟩
    unfold scanStep
    simp only
    rw [e2]
    by_cases hd : down = true ∧ cfg (y2, cols - 1 - k) = 1
    · rw [if_pos hd, trace_fresh h1 _ _ hr (by omega) (by omega) (by omega)]
      simp only [Option.map_some, Option.bind_some]
      congr 2; funext x2
      by_cases hx : x2 = cols - 1 - k
      · subst hx
        rw [Function.update_self, if_pos ⟨by omega, by omega, hd⟩]
      · rw [Function.update_of_ne hx]
        refine if_congr ⟨fun hh => ⟨by omega, hh.2⟩, fun hh => ⟨by omega, hh.2⟩⟩ rfl rfl
    · rw [if_neg hd]
      simp only [Option.map_some, Option.bind_some]
      congr 2; funext x2
      by_cases hx : x2 = cols - 1 - k
      · subst hx
        rw [if_neg (fun hh => by omega), if_neg (fun hh => hd hh.2.2)]
      · refine if_congr ⟨fun hh => ⟨by omega, hh.2⟩, fun hh => ⟨by omega, hh.2⟩⟩ rfl rfl

/-- a walker without boundary tensors -/
structure Bare (b : B) (w : Wk B C) : Prop where
  bmps : w.bmps = b
  pos : w.pos = .up
  left : w.left = []
  right : w.right = []

theorem Bare.inv {r : ℕ} {w : Wk B C} (h : Bare (beyond o rows cols t .up r) w) :
    Inv o rows cols t r 0 0 w :=
  ⟨h.bmps, by rw [h.left]; rfl, fun h => absurd rfl h, by rw [h.right]; rfl, fun h => absurd rfl h,
    Nat.zero_le _, h.pos⟩

theorem Bare.evolve {b : B} {w : Wk B C} (h : Bare b w) (mpo : List T) :
    Bare (o.absorb .up b mpo) (evolve o mpo w) :=
  ⟨by show o.absorb w.pos w.bmps mpo = _; rw [h.pos, h.bmps], h.pos, h.left, h.right⟩

/-- a target row that is not skipped, seen as row `r` of some network `u` -/
theorem targetRow_fresh [Zero A] {R r : ℕ} {u : Site → T} {w : Wk B C} (hr : r < R) (hc : 1 ≤ cols)
    (hw : Bare (beyond o R cols u .up r) w) (sitps : Site → ℕ → T) (cfg : Config) (down : List B)
    (s1 : Site) (y2 : ℕ) (hy : y2 < rows) (hrow : rowOf cols t y2 = rowOf cols u r)
    (hd : down[rows - 1 - y2]? = some (beyond o R cols u .down r)) (out : List (Entry A)) :
    ∃ w', targetRow o rows cols sitps cfg t down s1 (out, w) y2
      = some (out ++ (List.range cols).map fun x2 => (s1, (y2, x2),
          if cfg s1 = 0 ∧ cfg (y2, x2) = 1 then
            oneAmp o R cols (Function.update u (r, x2) (sitps (y2, x2) 0)) (r, x2) else 0), w') ∧
      (y2 + 1 < rows → Bare (o.absorb .up (beyond o R cols u .up r) (rowOf cols u r)) w') := by
  obtain ⟨w1, e1, h1⟩ := initLeft_fresh hw.inv hc cols
  obtain ⟨w2, e2, h2⟩ := initRight_fresh h1 hc (cols - 1)
  rw [min_self, show cols - (cols - 1 + 1) = 0 by omega] at h2
  obtain ⟨w3, e3, h3⟩ := scan_fresh h2 hr hc sitps cfg (cfg s1 == 0) y2 cols (le_refl _)
  refine ⟨if y2 < rows - 1 then evolve o (rowOf cols u r) (clear w3) else clear w3, ?_, ?_⟩
  · unfold targetRow
    rw [hd]
    simp only
    rw [show getRow rows cols t y2 = some (rowOf cols t y2) from if_pos hy, hrow, Option.bind_some, e1,
      Option.bind_some, e2, Option.bind_some, e3, Option.map_some]
    simp only [Option.some.injEq, Prod.mk.injEq, List.append_cancel_left_eq, and_true]
    refine List.map_congr_left fun x2 hx => ?_
    have := List.mem_range.1 hx
    simp only [Prod.mk.injEq, true_and]
    refine if_congr ?_ rfl rfl
    simp only [beq_iff_eq]
    exact ⟨fun hh => hh.2.2, fun hh => ⟨by omega, this, hh⟩⟩
  · intro hl
    rw [if_pos (by omega)]
    exact Bare.evolve (w := clear w3) ⟨h3.bmps, h3.pos, rfl, rfl⟩ _

theorem targetRow_skip [Zero A] (sitps : Site → ℕ → T) (cfg : Config) (down : List B)
    (s1 : Site) (y2 : ℕ) (hd : down.length ≤ rows - 1 - y2) (out : List (Entry A)) (w : Wk B C) :
    targetRow o rows cols sitps cfg t down s1 (out, w) y2
      = some (out ++ (List.range cols).map fun x2 => (s1, (y2, x2), 0), w) := by
  unfold targetRow
  rw [List.getElem?_eq_none hd]

theorem env_congr2 (R R' : ℕ) (t t' : Site → T) (p : Pos) (k : ℕ)
    (h : ∀ j < k, layer R cols t p j = layer R' cols t' p j) :
    env o R cols t p k = env o R' cols t' p k := by
  induction k with
  | zero => rfl
  | succ k ih => rw [env_succ, env_succ, ih fun j hj => h j (by omega), h k (by omega)]

/-- one source site -/
theorem sourceSite_fresh [Zero A] (sitps : Site → ℕ → T) (cfg : Config) (h y1 : ℕ) (h1 : 1 ≤ h)
    (hh : h ≤ rows) (hy : y1 + 1 < rows) (hc : 1 ≤ cols) (main : Wk B C)
    (hm : Bare (env o rows cols (project sitps cfg) .up y1) main) (out : List (Entry A)) (x1 : ℕ)
    (hx : x1 < cols) :
    sourceSite o rows cols sitps cfg (project sitps cfg) (stack o rows cols (project sitps cfg) .down h)
        y1 main out x1
      = some (out ++ (List.range' (y1 + 1) (rows - (y1 + 1))).flatMap fun y2 =>
          (List.range cols).map fun x2 => ((y1, x1), (y2, x2),
            recorded o rows cols h sitps cfg (y1, x1) (y2, x2))) := by
  set t := project sitps cfg with ht
  set t1 := project sitps (if cfg (y1, x1) = 0 then Updaters.setSite cfg (y1, x1) 1 else cfg) with ht1
  set m := rows - h - (y1 + 1) with hmdef
  set u := withoutRows y1 m t1 with hu
  have t1_eq : ∀ q : Site, q ≠ (y1, x1) → t1 q = t q := by
    intro q hq
    simp only [ht1, ht, project]
    split_ifs
    · rw [Updaters.setSite, if_neg hq]
    · rfl
  have hmpo : (if cfg (y1, x1) = 0 then (rowOf cols t y1).set x1 (sitps (y1, x1) 1)
      else rowOf cols t y1) = layer (rows - m) cols u .up y1 := by
    have : layer (rows - m) cols u .up y1 = rowOf cols t1 y1 := by
      refine List.map_congr_left fun c _ => ?_
      simp only [hu, withoutRows, le_refl, if_true]
    rw [this]
    split_ifs with h0
    · apply List.ext_getElem?
      intro c
      by_cases hcc : c < cols
      · rw [rowOf_get _ _ _ _ hcc, List.getElem?_set]
        by_cases hxc : x1 = c
        · subst hxc
          simp only [if_true, rowOf_length, hcc]
          simp [ht1, project, h0, Updaters.setSite]
        · rw [if_neg hxc, rowOf_get _ _ _ _ hcc, t1_eq]
          simpa using fun e => hxc e.symm
      · rw [List.getElem?_eq_none (by simp; omega), List.getElem?_eq_none (by simp; omega)]
    · simp only [ht1, ht, if_neg h0]
  have hstart : Bare (env o (rows - m) cols u .up (y1 + 1))
      (evolve o (if cfg (y1, x1) = 0 then (rowOf cols t y1).set x1 (sitps (y1, x1) 1)
        else rowOf cols t y1) main) := by
    have := hm.evolve (o := o) (if cfg (y1, x1) = 0 then (rowOf cols t y1).set x1 (sitps (y1, x1) 1)
        else rowOf cols t y1)
    rw [env_succ, ← hmpo, ← env_congr2 rows (rows - m) t u .up y1]
    · exact this
    · intro j hj
      refine List.map_congr_left fun c _ => ?_
      simp only [hu, withoutRows]
      rw [if_pos (by omega), t1_eq]
      simp only [ne_eq, Prod.mk.injEq, not_and]; omega
  have hfold := foldlM_emit (targetRow o rows cols sitps cfg t (stack o rows cols t .down h) (y1, x1))
    (fun y2 => (List.range cols).map fun x2 => ((y1, x1), (y2, x2),
            recorded o rows cols h sitps cfg (y1, x1) (y2, x2)))
    (fun y2 w => y2 < rows → Bare (env o (rows - m) cols u .up (max (y1 + 1) (y2 - m))) w)
    (rows - (y1 + 1)) (y1 + 1) (fun y2 ha hb out w hw => by
      specialize hw (by omega)
      by_cases hs : rows ≤ y2 + h
      · have hr : max (y1 + 1) (y2 - m) = y2 - m := by omega
        rw [hr] at hw
        obtain ⟨w', e, hw'⟩ := targetRow_fresh (rows := rows) (t := t) (R := rows - m) (r := y2 - m)
          (u := u) (by omega) hc hw sitps cfg (stack o rows cols t .down h) (y1, x1) y2 (by omega)
          (List.map_congr_left fun c _ => by
            simp only [hu, withoutRows]
            rw [if_neg (by omega), show y2 - m + m = y2 by omega, t1_eq]
            simp only [ne_eq, Prod.mk.injEq, not_and]; omega)
          (by
            rw [stack_get _ _ _ _ _ _ _ (by omega)]
            simp only [beyond, depth]
            rw [show rows - m - 1 - (y2 - m) = rows - 1 - y2 by omega]
            congr 1
            refine env_congr2 _ _ _ _ _ _ fun j hj => List.map_congr_left fun c _ => ?_
            simp only [hu, withoutRows]
            rw [if_neg (by omega), show rows - m - 1 - j + m = rows - 1 - j by omega, t1_eq]
            simp only [ne_eq, Prod.mk.injEq, not_and]; omega)
          out
        refine ⟨w', ?_, ?_⟩
        · rw [e]
          congr 3
          refine List.map_congr_left fun x2 hx2 => ?_
          simp only [Prod.mk.injEq, true_and, recorded]
          by_cases ha : acts cfg (y1, x1) (y2, x2)
          · rw [if_pos (show cfg (y1, x1) = 0 ∧ cfg (y2, x2) = 1 from ha), if_pos ⟨hs, ha⟩]
            congr 1
            funext q
            by_cases hq : q = (y2 - m, x2)
            · subst hq
              rw [Function.update_self]
              simp only [withoutRows]
              rw [if_neg (by omega), show y2 - (rows - h - (y1 + 1)) + (rows - h - (y1 + 1)) = y2 by omega]
              simp [project, flipped, Updaters.setSite]
            · rw [Function.update_of_ne hq]
              simp only [hu, withoutRows, ht1, if_pos ha.1, project, flipped]
              by_cases hq1 : q.1 ≤ y1
              · rw [if_pos hq1, if_pos hq1]
                congr 1
                rw [Updaters.setSite.eq_def (Updaters.setSite cfg (y1, x1) 1), if_neg]
                rintro rfl; simp only at hq1; omega
              · rw [if_neg hq1, if_neg hq1]
                congr 1
                rw [Updaters.setSite.eq_def (Updaters.setSite cfg (y1, x1) 1), if_neg]
                intro he
                simp only [Prod.mk.injEq] at he
                exact hq (Prod.ext (by simp only; omega) he.2)
          · rw [if_neg (show ¬ (cfg (y1, x1) = 0 ∧ cfg (y2, x2) = 1) from ha), if_neg (fun hh => ha hh.2)]
        · intro hl
          have := hw' (by omega)
          rw [show max (y1 + 1) (y2 + 1 - m) = y2 - m + 1 by omega, env_succ]
          exact this
      · refine ⟨w, ?_, fun hl => ?_⟩
        · rw [targetRow_skip _ _ _ _ _ (by rw [stack_length]; omega)]
          congr 3
          refine List.map_congr_left fun x2 hx2 => ?_
          simp only [recorded]
          rw [if_neg (fun hh => hs hh.1)]
        · rwa [show max (y1 + 1) (y2 + 1 - m) = max (y1 + 1) (y2 - m) by omega])
    out _ (fun _ => by rw [show max (y1 + 1) (y1 + 1 - m) = y1 + 1 by omega]; exact hstart)
  obtain ⟨w', e, -⟩ := hfold
  unfold sourceSite
  rw [show getRow rows cols t y1 = some (rowOf cols t y1) from if_pos (by omega), Option.bind_some,
    upTo_eq, e]
  rfl

/-- everything that is recorded -/
theorem measure_fresh [Zero A] (sitps : Site → ℕ → T) (cfg : Config) (c : Ctr B C C2)
    (hf : Fresh o rows cols (project sitps cfg) c) (hc : 1 ≤ cols) :
    measure o rows cols sitps cfg c = some ((crossPairs rows cols).map fun p =>
      (p.1, p.2, recorded o rows cols (c.bmps .down).length sitps cfg p.1 p.2)) := by
  obtain ⟨u1, u2, u3⟩ := hf .up
  obtain ⟨d1, d2, d3⟩ := hf .down
  simp only [span] at u2 d2
  have hup : (c.bmps .up)[0]? = some (o.boundary .up) := by
    rw [eq_stack o rows cols _ .up _ u3, stack_get _ _ _ _ _ _ _ (by omega)]
    rfl
  have hdown := eq_stack o rows cols _ .down _ d3
  unfold measure
  rw [hup]
  simp only
  generalize hh : (c.bmps .down).length = h at *
  rw [hdown]
  obtain ⟨w', e, -⟩ := foldlM_emit
    (sourceRow o rows cols sitps cfg (project sitps cfg) (stack o rows cols (project sitps cfg) .down h))
    (fun y1 => (List.range cols).flatMap fun x1 =>
      (List.range' (y1 + 1) (rows - (y1 + 1))).flatMap fun y2 =>
          (List.range cols).map fun x2 => ((y1, x1), (y2, x2),
            recorded o rows cols h sitps cfg (y1, x1) (y2, x2)))
    (fun y1 w => Bare (env o rows cols (project sitps cfg) .up y1) w) (rows - 1) 0
    (fun y1 _ hy out w hw => by
      refine ⟨evolve o (rowOf cols (project sitps cfg) y1) w, ?_, ?_⟩
      · unfold sourceRow
        rw [foldlM_emit' _ (fun x1 => (List.range' (y1 + 1) (rows - (y1 + 1))).flatMap fun y2 =>
          (List.range cols).map fun x2 => ((y1, x1), (y2, x2),
            recorded o rows cols h sitps cfg (y1, x1) (y2, x2))) cols (fun x1 hx out =>
          sourceSite_fresh sitps cfg h y1 d1 d2 (by omega) hc w hw out x1 hx),
          show getRow rows cols (project sitps cfg) y1 = some (rowOf cols (project sitps cfg) y1) from
            if_pos (by omega)]
        rfl
      · have := hw.evolve (o := o) (rowOf cols (project sitps cfg) y1)
        rw [env_succ]; exact this)
    [] (make (o.boundary .up) .up 1) ⟨rfl, rfl, rfl, rfl⟩
  rw [List.range_eq_range', e, Option.map_some]
  simp only [crossPairs, List.map_flatMap, List.map_map, List.nil_append, List.range_eq_range',
    Function.comp_def]

end QLPeps.Walker
