import Verif.Lemmas.Walker
import Verif.Lemmas.ContractorSweep

/-!
# Walkers

C129 of `properties.jsonl`.
-/

namespace QLPeps.Walker

open QLPeps.Contractor

universe u

variable {T E B C C2 A H : Type u} (o : Ops T E B C C2 A H) (rows cols : ℕ) (t : Site → T)

/-- the number of layers a walker taken from a stack of `n` boundary MPS has in front of it after `k`
steps, plus one: from above and from the left it stops in front of the last row (column), silently -/
def sizeAfter (p : Pos) (n k : ℕ) : ℕ :=
  match p with
  | .up => min (n + k) rows
  | .left => min (n + k) cols
  | _ => n + k

/-- one step -/
theorem evolveStep_fresh (p : Pos) (m : ℕ) (h1 : 1 ≤ m) (l r : List C) (a b : ℕ)
    (w : Wk B C) (hw : w = ⟨env o rows cols t p (m - 1), p, m, l, r, a, b⟩) (hm : m ≤ span rows cols p) :
    evolveStep o rows cols t w = some
      ⟨env o rows cols t p (sizeAfter rows cols p m 1 - 1), p, sizeAfter rows cols p m 1, l, r, a, b⟩ := by
  obtain ⟨m, rfl⟩ : ∃ k, m = k + 1 := ⟨m - 1, by omega⟩
  subst hw
  have hs := getSlice_depth rows cols t p m (by omega)
  have he := env_succ o rows cols t p m
  cases p with
  | up =>
    simp only [span] at hm
    simp only [evolveStep, mpoNum, sub?_of_le h1, Option.bind_some, atEnd, decide_eq_true_eq, sizeAfter,
      Nat.add_sub_cancel]
    by_cases h : rows - 1 ≤ m
    · rw [if_pos h, min_eq_right (by omega), show rows = m + 1 by omega, Nat.add_sub_cancel]
    · rw [if_neg h, min_eq_left (by omega)]
      simp only [depth] at hs
      rw [hs, Nat.add_sub_cancel, he]
      rfl
  | left =>
    simp only [span] at hm
    simp only [evolveStep, mpoNum, sub?_of_le h1, Option.bind_some, atEnd, decide_eq_true_eq, sizeAfter,
      Nat.add_sub_cancel]
    by_cases h : cols - 1 ≤ m
    · rw [if_pos h, min_eq_right (by omega), show cols = m + 1 by omega, Nat.add_sub_cancel]
    · rw [if_neg h, min_eq_left (by omega)]
      simp only [depth] at hs
      rw [hs, Nat.add_sub_cancel, he]
      rfl
  | down =>
    simp only [span] at hm
    simp only [depth] at hs
    simp only [evolveStep, mpoNum, sub?_of_le hm, Option.bind_some, atEnd, sizeAfter, Nat.add_sub_cancel]
    rw [show rows - (m + 1) = rows - 1 - m by omega, hs, he]
    rfl
  | right =>
    simp only [span] at hm
    simp only [depth] at hs
    simp only [evolveStep, mpoNum, sub?_of_le hm, Option.bind_some, atEnd, sizeAfter, Nat.add_sub_cancel]
    rw [show cols - (m + 1) = cols - 1 - m by omega, hs, he]
    rfl

/-- **C129, steps.** A walker taken from a contractor whose caches are not out of date, and any number `k`
of its `EvolveStep`s: from above and from the left every step succeeds, and the walker stops in front of the
last row (column); from below and from the right every step up to and including the last one that absorbs a
row (column) succeeds. At every point the walker holds the boundary MPS of the layers absorbed so far,
computed from scratch, and no boundary tensors. -/
theorem C129_walker_steps (c : Ctr B C C2) (hf : Fresh o rows cols t c) (p : Pos) (k : ℕ)
    (hk : p = .down ∨ p = .right → (c.bmps p).length + k ≤ span rows cols p + 1) :
    ∃ w w' : Wk B C, getWalker p c = some w ∧ times k (evolveStep o rows cols t) w = some w' ∧
      w'.stackSize = sizeAfter rows cols p (c.bmps p).length k ∧
      w'.bmps = env o rows cols t p (w'.stackSize - 1) ∧
      w'.pos = p ∧ w'.left = [] ∧ w'.right = [] := by
  obtain ⟨h1, h2, h3⟩ := hf p
  generalize hn : (c.bmps p).length = n at *
  have hlast : (c.bmps p).getLast? = some (env o rows cols t p (n - 1)) := by
    rw [List.getLast?_eq_getElem?, hn]
    obtain ⟨x, hx⟩ : ∃ x, (c.bmps p)[n - 1]? = some x := ⟨_, List.getElem?_eq_getElem (by omega)⟩
    rw [hx, h3 _ _ hx]
  refine ⟨make (env o rows cols t p (n - 1)) p n,
    ⟨env o rows cols t p (sizeAfter rows cols p n k - 1), p, sizeAfter rows cols p n k, [], [], 0, 0⟩,
    by rw [getWalker, hlast, hn]; rfl, ?_, rfl, rfl, rfl, rfl, rfl⟩
  clear hlast h3 hf
  induction k with
  | zero =>
    have : sizeAfter rows cols p n 0 = n := by
      cases p <;> simp only [sizeAfter, span, Nat.add_zero] at * <;> omega
    rw [this]; rfl
  | succ k ih =>
    rw [times_succ, ih (fun h => by have := hk h; omega), Option.bind_some,
      evolveStep_fresh o rows cols t p (sizeAfter rows cols p n k)
        (by cases p <;> simp only [sizeAfter, span] at * <;> omega) [] [] 0 0 _ rfl
        (by
          cases p with
          | up => exact min_le_right _ _
          | left => exact min_le_right _ _
          | down => have := hk (Or.inl rfl); simp only [sizeAfter, span] at *; omega
          | right => have := hk (Or.inr rfl); simp only [sizeAfter, span] at *; omega)]
    have : sizeAfter rows cols p (sizeAfter rows cols p n k) 1 = sizeAfter rows cols p n (k + 1) := by
      cases p <;> simp only [sizeAfter, span] at * <;> omega
    rw [this]

/-- **C129, safety.** A walker in front of row `r`, taken from a contractor whose caches are not out of date
and moved by any number of `EvolveStep`s; any history of operations on its boundary tensors, in any order
and with any arguments (with the row `r` and the boundary MPS from below that the contractor holds for it):
if none fails, then `TraceWithBTen` and `TraceWithTwoSiteBTen`, for any replacement of the tensors and any
column, either fail or return the amplitude of the network with the replaced tensors. -/
theorem C129_walker_traces_are_amplitudes (c : Ctr B C C2) (hf : Fresh o rows cols t c) (k : ℕ)
    (w0 w1 w2 : Wk B C) (h0 : getWalker .up c = some w0)
    (h1 : times k (evolveStep o rows cols t) w0 = some w1) (r : ℕ) (hr : r + 1 = w1.stackSize)
    (mpo : List T) (hmpo : getRow rows cols t r = some mpo)
    (opp : B) (hopp : (c.bmps .down)[rows - 1 - r]? = some opp) (hw : cols < 2 ^ 64 - 1)
    (ops : List BTenOp) (h2 : ops.foldlM (fun w op => op.step o cols mpo opp w) w1 = some w2) :
    (∀ x col v, trace o cols x col opp w2 = some v →
      v = oneAmp o rows cols (Function.update t (r, col) x) (r, col)) ∧
    ∀ x y col v, trace2 o cols x y col opp w2 = some v →
      v = oneAmp o rows cols (Function.update (Function.update t (r, col) x) (r, col + 1) y) (r, col + 1) := by
  obtain ⟨w0', w1', e0, e1, -, hb, hp, hl, hr'⟩ := C129_walker_steps o rows cols t c hf .up k (by simp)
  rw [h0] at e0; cases e0
  rw [h1] at e1; cases e1
  have hrr : r < rows := by
    unfold getRow at hmpo; split_ifs at hmpo with h; exact h
  obtain rfl : mpo = rowOf cols t r := by
    unfold getRow at hmpo; rw [if_pos hrr] at hmpo; exact (Option.some.inj hmpo).symm
  obtain rfl : opp = beyond o rows cols t .down r := (hf .down).2.2 _ _ hopp
  have hi : Inv o rows cols t r 0 0 w1 := Bare.inv ⟨by rw [hb, ← hr]; rfl, hp, hl, hr'⟩
  obtain ⟨a, b, hi2⟩ := run_partial hi hw ops h2
  exact ⟨fun x col v e => (trace_partial hi2 x col hrr v e).2,
    fun x y col v e => (trace2_partial hi2 x y col hrr v e).2⟩

/-- **C129, success.** In the same situation, after `InitBTenLeft(a)` and `InitBTenRight(b)` every column
between `b` and `a` can be traced, also with the column to its right. -/
theorem C129_walker_window (c : Ctr B C C2) (hf : Fresh o rows cols t c) (k : ℕ)
    (w0 w1 : Wk B C) (h0 : getWalker .up c = some w0)
    (h1 : times k (evolveStep o rows cols t) w0 = some w1) (r : ℕ) (hr : r + 1 = w1.stackSize)
    (mpo : List T) (hmpo : getRow rows cols t r = some mpo)
    (opp : B) (hopp : (c.bmps .down)[rows - 1 - r]? = some opp) (hc : 1 ≤ cols) (a b : ℕ) :
    ∃ w2, [BTenOp.initLeft a, .initRight b].foldlM (fun w op => op.step o cols mpo opp w) w1 = some w2 ∧
      (∀ x col, b ≤ col → col ≤ a → col < cols → trace o cols x col opp w2
        = some (oneAmp o rows cols (Function.update t (r, col) x) (r, col))) ∧
      ∀ x y col, b ≤ col + 1 → col ≤ a → col + 1 < cols → trace2 o cols x y col opp w2
        = some (oneAmp o rows cols (Function.update (Function.update t (r, col) x) (r, col + 1) y)
            (r, col + 1)) := by
  obtain ⟨w0', w1', e0, e1, -, hb, hp, hl, hr'⟩ := C129_walker_steps o rows cols t c hf .up k (by simp)
  rw [h0] at e0; cases e0
  rw [h1] at e1; cases e1
  have hrr : r < rows := by
    unfold getRow at hmpo; split_ifs at hmpo with h; exact h
  obtain rfl : mpo = rowOf cols t r := by
    unfold getRow at hmpo; rw [if_pos hrr] at hmpo; exact (Option.some.inj hmpo).symm
  obtain rfl : opp = beyond o rows cols t .down r := (hf .down).2.2 _ _ hopp
  have hi : Inv o rows cols t r 0 0 w1 := Bare.inv ⟨by rw [hb, ← hr]; rfl, hp, hl, hr'⟩
  obtain ⟨wa, ea, ha⟩ := initLeft_fresh hi hc a
  obtain ⟨wb, eb, hb2⟩ := initRight_fresh ha hc b
  refine ⟨wb, ?_, fun x col h1 h2 h3 => ?_, fun x y col h1 h2 h3 => ?_⟩
  · show ((BTenOp.initLeft a).step o cols _ _ w1).bind _ = _
    rw [show (BTenOp.initLeft a).step o cols _ _ w1 = _ from ea, Option.bind_some]
    show ((BTenOp.initRight b).step o cols _ _ wa).bind _ = _
    rw [show (BTenOp.initRight b).step o cols _ _ wa = _ from eb, Option.bind_some]
    rfl
  · exact trace_fresh hb2 x col hrr h3 (by omega) (by omega)
  · exact trace2_fresh hb2 x y col hrr h3 (by omega) (by omega)

/-! ## without `ClearBTen` -/

/-- boundary MPS that count the rows absorbed, boundary tensors and traces that remember the count of the
boundary MPS they were made of -/
def countOps : Ops ℕ ℕ ℕ ℕ ℕ ℕ ℕ where
  boundary _ := 0
  absorb _ b _ := b + 1
  get b _ := b
  bten0 p e1 e2 := match p with | .left => e1 | _ => e2
  bgrow _ v _ _ _ := v
  one _ l _ _ _ _ := l
  bten20 _ e1 _ := e1
  bgrow2 _ v _ _ _ _ := v
  nn _ l _ _ _ _ _ _ _ := l
  tnn _ l _ _ _ _ _ _ _ _ _ _ := l
  hole _ l _ _ _ := l
  nnn _ l _ _ _ _ _ _ _ _ _ := l

/-- a contractor right after `Init` -/
def freshCtr : Ctr ℕ ℕ ℕ := ⟨fun _ => [0], fun _ => [], fun _ => []⟩

theorem freshCtr_fresh (rows cols : ℕ) (t : Site → ℕ) (hr : 1 ≤ rows) (hc : 1 ≤ cols) :
    Fresh countOps rows cols t freshCtr := by
  intro p
  refine ⟨le_rfl, by cases p <;> simpa [freshCtr, span], fun k b h => ?_⟩
  rcases k with _ | k
  · simp only [freshCtr, List.getElem?_cons_zero, Option.some.injEq] at h
    subst h; rfl
  · simp [freshCtr] at h

/-- **C129, its limit.** The boundary tensors are not tied to the row they were made in: if a walker evolves
and `ClearBTen` is not called, then in the next row `TraceWithBTen` neither fails nor returns the amplitude. -/
theorem C129_stale_without_clear :
    ∃ w w1 w2 w3 : Wk ℕ ℕ, getWalker .up freshCtr = some w ∧
      initLeft countOps 1 [0] 1 1 w = some w1 ∧ initRight countOps 1 [0] 1 0 w1 = some w2 ∧
      evolveStep countOps 2 1 (fun _ => 0) w2 = some w3 ∧
      trace countOps 1 0 0 0 w3 = some 0 ∧
      oneAmp countOps 2 1 (fun _ => 0) (1, 0) = 1 :=
  ⟨make 0 .up 1, ⟨0, .up, 1, [0, 0], [], 1, 0⟩, ⟨0, .up, 1, [0, 0], [0], 1, 1⟩,
    ⟨1, .up, 2, [0, 0], [0], 1, 1⟩, rfl, rfl, rfl, rfl, rfl, rfl⟩

/-! ## the hypotheses can be met -/

example : ∃ w w' : Wk ℕ ℕ, getWalker .up freshCtr = some w ∧
    times 7 (evolveStep countOps 5 4 (fun s => s.1 + s.2)) w = some w' ∧ w'.stackSize = 5 ∧ w'.bmps = 4 := by
  obtain ⟨w, w', e, e', h1, h2, -⟩ := C129_walker_steps countOps 5 4 (fun s => s.1 + s.2) freshCtr
    (freshCtr_fresh _ _ _ (by omega) (by omega)) .up 7 (by simp)
  exact ⟨w, w', e, e', h1, by rw [h2, h1]; rfl⟩

example : ∃ w w' : Wk ℕ ℕ, getWalker .down freshCtr = some w ∧
    times 5 (evolveStep countOps 5 4 (fun s => s.1 + s.2)) w = some w' ∧ w'.stackSize = 6 ∧ w'.bmps = 5 ∧
    times 6 (evolveStep countOps 5 4 (fun s => s.1 + s.2)) w = none := by
  obtain ⟨w, w', e, e', h1, h2, -⟩ := C129_walker_steps countOps 5 4 (fun s => s.1 + s.2) freshCtr
    (freshCtr_fresh _ _ _ (by omega) (by omega)) .down 5 (by simp [freshCtr, span])
  refine ⟨w, w', e, e', h1, by rw [h2, h1]; rfl, ?_⟩
  cases e
  rfl

example : ∃ w0 w1 w2 : Wk ℕ ℕ, getWalker .up freshCtr = some w0 ∧
    times 2 (evolveStep countOps 3 4 (fun s => s.1 + s.2)) w0 = some w1 ∧ 2 + 1 = w1.stackSize ∧
    [BTenOp.initLeft 1, .initRight 2, .shiftRight, .growRight, .growLeft, .shiftLeft].foldlM
      (fun w op => op.step countOps 4 [2, 3, 4, 5] 0 w) w1 = some w2 ∧
    trace countOps 4 7 2 0 w2 = some 2 ∧ trace2 countOps 4 7 8 1 0 w2 = some 2 :=
  ⟨make 0 .up 1, ⟨2, .up, 3, [], [], 0, 0⟩, _, rfl, rfl, rfl, rfl, rfl, rfl⟩

end QLPeps.Walker
