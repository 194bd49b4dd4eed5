import Verif.Spec.Contractor
import Mathlib.Tactic

/-! # Lemmas about the contractor caches -/

namespace QLPeps.Contractor

variable {T E B C C2 A H : Type*}

theorem sub?_of_le {a b : ℕ} (h : b ≤ a) : sub? a b = some (a - b) := by simp [sub?, h]

theorem sub?_eq_some {a b k : ℕ} : sub? a b = some k ↔ b ≤ a ∧ k = a - b := by
  unfold sub?; split_ifs with h <;> simp [h, eq_comm]

/-! ## stacks of environments -/

/-- the stack of the first `n` environments of side `p` -/
def stack (o : Ops T E B C C2 A H) (rows cols : ℕ) (t : Site → T) (p : Pos) (n : ℕ) : List B :=
  (List.range n).map (env o rows cols t p)

variable (o : Ops T E B C C2 A H) (rows cols : ℕ) (t : Site → T)

theorem env_succ (p : Pos) (k : ℕ) :
    env o rows cols t p (k + 1) = o.absorb p (env o rows cols t p k) (layer rows cols t p k) := by
  simp [env, List.range_succ]

@[simp] theorem stack_length (p : Pos) (n : ℕ) : (stack o rows cols t p n).length = n := by
  simp [stack]

theorem stack_succ (p : Pos) (n : ℕ) :
    stack o rows cols t p (n + 1) = stack o rows cols t p n ++ [env o rows cols t p n] := by
  simp [stack, List.range_succ]

theorem stack_get (p : Pos) (n k : ℕ) (h : k < n) :
    (stack o rows cols t p n)[k]? = some (env o rows cols t p k) := by
  simp [stack, h]

theorem stack_last (p : Pos) (n : ℕ) (h : 1 ≤ n) :
    (stack o rows cols t p n).getLast? = some (env o rows cols t p (n - 1)) := by
  obtain ⟨m, rfl⟩ : ∃ m, n = m + 1 := ⟨n - 1, by omega⟩
  rw [stack_succ]; simp

theorem map_range_take {α : Type*} (f : ℕ → α) (n m : ℕ) :
    ((List.range n).map f).take m = (List.range (min m n)).map f := by
  rw [← List.map_take, List.take_range]

theorem stack_take (p : Pos) (n m : ℕ) :
    (stack o rows cols t p n).take m = stack o rows cols t p (min m n) := map_range_take _ _ _

theorem stack_dropLast (p : Pos) (n : ℕ) :
    (stack o rows cols t p n).dropLast = stack o rows cols t p (n - 1) := by
  rw [List.dropLast_eq_take, stack_length, stack_take]
  congr 1; omega

theorem stack_isEmpty (p : Pos) (n : ℕ) (h : 1 ≤ n) :
    (stack o rows cols t p n).isEmpty = false := by
  have := stack_length o rows cols t p n
  cases hs : stack o rows cols t p n with
  | nil => rw [hs] at this; simp at this; omega
  | cons a l => rfl

/-- a list whose entries are the environments is a stack -/
theorem eq_stack (p : Pos) (l : List B)
    (h : ∀ k b, l[k]? = some b → b = env o rows cols t p k) :
    l = stack o rows cols t p l.length := by
  apply List.ext_getElem?
  intro k
  by_cases hk : k < l.length
  · rw [stack_get _ _ _ _ _ _ _ hk]
    have := h k l[k] (by simp [hk])
    rw [← this]; simp [hk]
  · rw [List.getElem?_eq_none (by omega), List.getElem?_eq_none (by simp; omega)]

/-! ## dependence on one site -/

/-- number of layers of side `p` strictly beyond the site -/
def siteDepth (rows cols : ℕ) (p : Pos) (s : Site) : ℕ :=
  match p with
  | .up => s.1
  | .down => rows - 1 - s.1
  | .left => s.2
  | .right => cols - 1 - s.2

theorem layer_congr (t t' : Site → T) (p : Pos) (s : Site) (hr : s.1 < rows) (hc : s.2 < cols)
    (ht : ∀ q, q ≠ s → t q = t' q) (j : ℕ) (hj : j < siteDepth rows cols p s) :
    layer rows cols t p j = layer rows cols t' p j := by
  cases p <;> simp only [layer, siteDepth] at * <;>
    refine List.map_congr_left fun i _ => ht _ fun h => ?_ <;> rw [← h] at hj <;>
    simp only at hj <;> (try rw [← h] at hr hc; simp only at hr hc) <;> omega

theorem env_congr' (t t' : Site → T) (p : Pos) (k : ℕ)
    (h : ∀ j < k, layer rows cols t p j = layer rows cols t' p j) :
    env o rows cols t p k = env o rows cols t' p k := by
  induction k with
  | zero => rfl
  | succ k ih =>
    rw [env_succ, env_succ, ih fun j hj => h j (by omega), h k (by omega)]

theorem env_congr (t t' : Site → T) (p : Pos) (s : Site) (hr : s.1 < rows) (hc : s.2 < cols)
    (ht : ∀ q, q ≠ s → t q = t' q) (k : ℕ) (hk : k ≤ siteDepth rows cols p s) :
    env o rows cols t p k = env o rows cols t' p k :=
  env_congr' _ _ _ _ _ _ _ fun j hj => layer_congr rows cols t t' p s hr hc ht j (by omega)

theorem stack_congr (t t' : Site → T) (p : Pos) (s : Site) (hr : s.1 < rows) (hc : s.2 < cols)
    (ht : ∀ q, q ≠ s → t q = t' q) (n : ℕ) (hn : n ≤ siteDepth rows cols p s + 1) :
    stack o rows cols t p n = stack o rows cols t' p n := by
  refine List.map_congr_left fun k hk => env_congr o rows cols t t' p s hr hc ht k ?_
  have := List.mem_range.1 hk; omega

theorem keep_eq (p : Pos) (s : Site) (hr : s.1 < rows) (hc : s.2 < cols) :
    keep rows cols p s = siteDepth rows cols p s + 1 := by
  cases p <;> simp only [keep, siteDepth] <;> omega

/-! ## growing boundary MPS -/

/-- replace one stack -/
def setB (c : Ctr B C C2) (p : Pos) (l : List B) : Ctr B C C2 :=
  { c with bmps := Function.update c.bmps p l }

@[simp] theorem setB_same (c : Ctr B C C2) (p : Pos) (l : List B) : (setB c p l).bmps p = l := by
  simp [setB]

theorem setB_ne (c : Ctr B C C2) (p q : Pos) (l : List B) (h : q ≠ p) :
    (setB c p l).bmps q = c.bmps q := by
  simp [setB, h]

@[simp] theorem setB_bten (c : Ctr B C C2) (p : Pos) (l : List B) : (setB c p l).bten = c.bten :=
  rfl

@[simp] theorem setB_bten2 (c : Ctr B C C2) (p : Pos) (l : List B) :
    (setB c p l).bten2 = c.bten2 := rfl

@[simp] theorem setB_setB (c : Ctr B C C2) (p : Pos) (l l' : List B) :
    setB (setB c p l) p l' = setB c p l' := by
  simp [setB]

theorem setB_self (c : Ctr B C C2) (p : Pos) (l : List B) (h : c.bmps p = l) : setB c p l = c := by
  cases c; simp only [setB] at *; subst h; simp

theorem getSlice_depth (p : Pos) (j : ℕ) (h : j < span rows cols p) :
    getSlice rows cols t p (depth rows cols p j) = some (layer rows cols t p j) := by
  cases p <;> exact if_pos (by simp only [span, depth] at *; omega)

theorem getSlice_some_lt (p : Pos) (i : ℕ) (l : List T) (h : getSlice rows cols t p i = some l) :
    i < span rows cols p := by
  cases p <;> simp only [getSlice, getRow, getCol, span] at * <;> split_ifs at h with h' <;>
    exact h'

/-- absorb one more layer into a fresh stack -/
theorem push_fresh (p : Pos) (c : Ctr B C C2) (n : ℕ)
    (hc : c.bmps p = stack o rows cols t p n) (h1 : 1 ≤ n) :
    pushLayer o p (layer rows cols t p (n - 1)) c
      = some (setB c p (stack o rows cols t p (n + 1))) := by
  unfold pushLayer
  rw [hc, stack_last _ _ _ _ _ _ h1]
  simp only [setB]
  rw [stack_succ]
  have := env_succ o rows cols t p (n - 1)
  rw [Nat.sub_add_cancel h1] at this
  rw [this]

theorem grow_total (p : Pos) (m : ℕ) : ∀ (c : Ctr B C C2) (n : ℕ),
    c.bmps p = stack o rows cols t p n → 1 ≤ n → n + m ≤ span rows cols p + 1 →
    growSlices o rows cols t p ((List.range m).map fun j => depth rows cols p (n - 1 + j)) c
      = some (setB c p (stack o rows cols t p (n + m))) := by
  induction m with
  | zero =>
    intro c n hc _ _
    simp only [List.range_zero, List.map_nil, growSlices, List.foldlM_nil, Nat.add_zero]
    rw [setB_self c p _ hc]; rfl
  | succ m ih =>
    intro c n hc h1 hn
    rw [List.range_succ_eq_map]
    simp only [List.map_cons, List.map_map, growSlices, List.foldlM_cons, Nat.add_zero]
    rw [getSlice_depth rows cols t p _ (by omega)]
    simp only [Option.bind_some]
    rw [push_fresh o rows cols t p c n hc h1]
    have := ih (setB c p (stack o rows cols t p (n + 1))) (n + 1) (by simp) (by omega) (by omega)
    simp only [growSlices, setB_setB] at this
    rw [show n + (m + 1) = n + 1 + m by omega, ← this]
    simp only [Option.bind_eq_bind, Option.bind_some]
    congr 1
    refine List.map_congr_left fun j _ => ?_
    simp only [Function.comp]
    congr 1; omega

/-- growing only succeeds inside the lattice -/
theorem growSlices_lt (p : Pos) (l : List ℕ) : ∀ (c c' : Ctr B C C2),
    growSlices o rows cols t p l c = some c' → ∀ i ∈ l, i < span rows cols p := by
  induction l with
  | nil => simp
  | cons a l ih =>
    intro c c' h i hi
    simp only [growSlices, List.foldlM_cons] at h
    cases hg : getSlice rows cols t p a with
    | none => simp [hg] at h
    | some mpo =>
      simp only [hg, Option.bind_some] at h
      cases hq : pushLayer o p mpo c with
      | none => simp [hq] at h
      | some c1 =>
        rw [hq] at h
        rcases List.mem_cons.1 hi with rfl | hi
        · exact getSlice_some_lt rows cols t p _ _ hg
        · exact ih c1 c' h i hi

/-- whatever is absorbed in the right order into a fresh stack gives a fresh stack -/
theorem grow_partial (p : Pos) (m : ℕ) (c : Ctr B C C2) (n : ℕ) (c' : Ctr B C C2)
    (hc : c.bmps p = stack o rows cols t p n) (h1 : 1 ≤ n)
    (h : growSlices o rows cols t p ((List.range m).map fun j => depth rows cols p (n - 1 + j)) c
      = some c') (hp : p = .up ∨ p = .left ∨ n + m ≤ span rows cols p + 1) :
      c' = setB c p (stack o rows cols t p (n + m)) := by
  by_cases hle : n + m ≤ span rows cols p + 1
  · rw [grow_total o rows cols t p m c n hc h1 hle] at h
    exact (Option.some.inj h).symm
  · rcases Nat.eq_zero_or_pos m with rfl | hm
    · simp only [growSlices, List.range_zero, List.map_nil, List.foldlM_nil] at h
      rw [Nat.add_zero, setB_self c p _ hc]
      exact (Option.some.inj h).symm
    · exfalso
      have hp' : p = .up ∨ p = .left := by tauto
      have := growSlices_lt o rows cols t p _ _ _ h _
        (List.mem_map.2 ⟨m - 1, List.mem_range.2 (by omega), rfl⟩)
      rcases hp' with rfl | rfl <;> simp only [depth, span] at this hle <;> omega

theorem downTo_eq_down (n stop : ℕ) (h1 : 1 ≤ n) (h : n ≤ rows) :
    downTo (rows - n) stop
      = (List.range (rows - n - stop)).map fun j => depth rows cols .down (n - 1 + j) := by
  refine List.map_congr_left fun j hj => ?_
  have := List.mem_range.1 hj
  simp only [depth]; omega

theorem downTo_eq_right (n stop : ℕ) (h1 : 1 ≤ n) (h : n ≤ cols) :
    downTo (cols - n) stop
      = (List.range (cols - n - stop)).map fun j => depth rows cols .right (n - 1 + j) := by
  refine List.map_congr_left fun j hj => ?_
  have := List.mem_range.1 hj
  simp only [depth]; omega

theorem upTo_eq_up (k stop : ℕ) :
    upTo k stop = (List.range (stop - k)).map fun j => depth rows cols .up (k + j) := rfl

theorem upTo_eq_left (k stop : ℕ) :
    upTo k stop = (List.range (stop - k)).map fun j => depth rows cols .left (k + j) := rfl

/-- `GrowFullBMPS` on a fresh stack gives the full fresh stack. -/
theorem growFull_fresh (p : Pos) (c : Ctr B C C2) (n : ℕ)
    (hc : c.bmps p = stack o rows cols t p n) (h1 : 1 ≤ n) (hn : n ≤ span rows cols p) :
    growFullBMPS o rows cols t p c
      = some (setB c p (stack o rows cols t p (span rows cols p))) := by
  have hlen : (c.bmps p).length = n := by rw [hc]; simp
  cases p
  · simp only [growFullBMPS, span] at *
    rw [hlen, sub?_of_le h1]
    simp only
    rw [upTo_eq_left rows cols, grow_total o rows cols t .left _ c n hc h1 (by simp only [span]; omega)]
    congr 3; omega
  · simp only [growFullBMPS, span] at *
    rw [hlen, sub?_of_le hn]
    simp only [Option.bind_some]
    rw [downTo_eq_down rows cols n 0 h1 hn,
      grow_total o rows cols t .down _ c n hc h1 (by simp only [span]; omega)]
    congr 3; omega
  · simp only [growFullBMPS, span] at *
    rw [hlen, sub?_of_le hn]
    simp only [Option.bind_some]
    rw [downTo_eq_right rows cols n 0 h1 hn,
      grow_total o rows cols t .right _ c n hc h1 (by simp only [span]; omega)]
    congr 3; omega
  · simp only [growFullBMPS, span] at *
    rw [hlen, sub?_of_le h1]
    simp only
    rw [upTo_eq_up rows cols, grow_total o rows cols t .up _ c n hc h1 (by simp only [span]; omega)]
    congr 3; omega

/-- `GrowBMPSStep` on a fresh stack. -/
theorem growStep_fresh (p : Pos) (c : Ctr B C C2) (n : ℕ)
    (hc : c.bmps p = stack o rows cols t p n) (h1 : 1 ≤ n) (hn : n ≤ span rows cols p) :
    growBMPSStep o rows cols t p c = some (setB c p (stack o rows cols t p (n + 1))) := by
  have hlen : (c.bmps p).length = n := by rw [hc]; simp
  have hns : nextSlice rows cols p n = some (depth rows cols p (n - 1)) := by
    cases p <;> simp only [nextSlice, depth, span] at * <;> rw [sub?_of_le (by omega)] <;>
      congr 1 <;> omega
  unfold growBMPSStep
  rw [hlen, hns]
  simp only [Option.bind_some]
  rw [getSlice_depth rows cols t p _ (by omega)]
  exact push_fresh o rows cols t p c n hc h1

theorem deleteInner_eq (p : Pos) (c : Ctr B C C2) (n : ℕ)
    (hc : c.bmps p = stack o rows cols t p n) (h1 : 1 ≤ n) :
    deleteInner p c = setB c p (stack o rows cols t p 1) := by
  unfold deleteInner setB
  rw [hc, stack_take]
  congr 3; omega

theorem opposite_ne (p : Pos) : opposite p ≠ p := by cases p <;> decide

@[simp] theorem opposite_opposite (p : Pos) : opposite (opposite p) = p := by cases p <;> rfl

theorem span_opposite (p : Pos) : span rows cols (opposite p) = span rows cols p := by
  cases p <;> rfl

/-- `GenerateBMPSApproach` on fresh stacks. -/
theorem generate_fresh (p : Pos) (c : Ctr B C C2) (n m : ℕ)
    (hc : c.bmps p = stack o rows cols t p n) (h1 : 1 ≤ n)
    (hm : c.bmps (opposite p) = stack o rows cols t (opposite p) m) (h2 : 1 ≤ m)
    (h3 : m ≤ span rows cols p) :
    generateApproach o rows cols t p c
      = some (setB (setB c p (stack o rows cols t p 1)) (opposite p)
          (stack o rows cols t (opposite p) (span rows cols p))) := by
  unfold generateApproach
  rw [deleteInner_eq o rows cols t p c n hc h1]
  rw [growFull_fresh o rows cols t (opposite p) _ m (by rw [setB_ne _ _ _ _ (opposite_ne p), hm])
    h2 (by rw [span_opposite]; exact h3), span_opposite]

/-- `ShiftBMPSWindow` on fresh stacks. -/
theorem shift_fresh (p : Pos) (c : Ctr B C C2) (n m : ℕ)
    (hc : c.bmps p = stack o rows cols t p n) (h1 : 1 ≤ n)
    (hm : c.bmps (opposite p) = stack o rows cols t (opposite p) m) (h2 : 1 ≤ m)
    (h3 : m ≤ span rows cols p) :
    shiftBMPSWindow o rows cols t p c
      = some (setB (setB c p (stack o rows cols t p (n - 1))) (opposite p)
          (stack o rows cols t (opposite p) (m + 1))) := by
  unfold shiftBMPSWindow
  rw [hc, stack_isEmpty _ _ _ _ _ _ h1]
  simp only [Bool.false_eq_true, if_false]
  rw [stack_dropLast]
  exact growStep_fresh o rows cols t (opposite p) (setB c p (stack o rows cols t p (n - 1))) m
    (by rw [setB_ne _ _ _ _ (opposite_ne p), hm]) h2 (by rw [span_opposite]; exact h3)

end QLPeps.Contractor
