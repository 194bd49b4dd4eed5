import Verif.Lemmas.Contractor

/-! # Lemmas about cached boundary tensors -/

namespace QLPeps.Contractor

variable {T E B C C2 A H : Type*}
variable (o : Ops T E B C C2 A H) (rows cols : ℕ) (t : Site → T)

/-- number of slices a boundary tensor of side `p` can belong to -/
theorem span_pre (p : Pos) : span rows cols (pre p) = width rows cols p := by cases p <;> rfl
theorem span_next (p : Pos) : span rows cols (next p) = width rows cols p := by cases p <;> rfl
theorem width_pre (p : Pos) : width rows cols (pre p) = span rows cols p := by cases p <;> rfl
theorem width_next (p : Pos) : width rows cols (next p) = span rows cols p := by cases p <;> rfl

/-- the stack of the first `n` boundary tensors -/
def bstack (p : Pos) (s n : ℕ) : List C := (List.range n).map (benv o rows cols t p s)

/-- replace one stack of boundary tensors -/
def setT (c : Ctr B C C2) (p : Pos) (l : List C) : Ctr B C C2 :=
  { c with bten := Function.update c.bten p l }

omit o rows cols t in
@[simp] theorem setT_same (c : Ctr B C C2) (p : Pos) (l : List C) : (setT c p l).bten p = l := by
  simp [setT]

theorem setT_ne (c : Ctr B C C2) (p q : Pos) (l : List C) (h : q ≠ p) :
    (setT c p l).bten q = c.bten q := by
  simp [setT, h]

@[simp] theorem setT_bmps (c : Ctr B C C2) (p : Pos) (l : List C) : (setT c p l).bmps = c.bmps :=
  rfl

@[simp] theorem setT_setT (c : Ctr B C C2) (p : Pos) (l l' : List C) :
    setT (setT c p l) p l' = setT c p l' := by
  simp [setT]

theorem setT_self (c : Ctr B C C2) (p : Pos) (l : List C) (h : c.bten p = l) : setT c p l = c := by
  cases c; simp only [setT] at *; subst h; simp

@[simp] theorem bstack_length (p : Pos) (s n : ℕ) : (bstack o rows cols t p s n).length = n := by
  simp [bstack]

theorem bstack_succ (p : Pos) (s n : ℕ) :
    bstack o rows cols t p s (n + 1) = bstack o rows cols t p s n ++ [benv o rows cols t p s n] := by
  simp [bstack, List.range_succ]

theorem bstack_get (p : Pos) (s n k : ℕ) (h : k < n) :
    (bstack o rows cols t p s n)[k]? = some (benv o rows cols t p s k) := by
  simp [bstack, h]

theorem bstack_last (p : Pos) (s n : ℕ) (h : 1 ≤ n) :
    (bstack o rows cols t p s n).getLast? = some (benv o rows cols t p s (n - 1)) := by
  obtain ⟨m, rfl⟩ : ∃ m, n = m + 1 := ⟨n - 1, by omega⟩
  rw [bstack_succ]; simp

theorem bstack_take (p : Pos) (s n m : ℕ) :
    (bstack o rows cols t p s n).take m = bstack o rows cols t p s (min m n) := map_range_take _ _ _

theorem bstack_dropLast (p : Pos) (s n : ℕ) :
    (bstack o rows cols t p s n).dropLast = bstack o rows cols t p s (n - 1) := by
  rw [List.dropLast_eq_take, bstack_length, bstack_take]
  congr 1; omega

theorem bstack_isEmpty (p : Pos) (s n : ℕ) (h : 1 ≤ n) :
    (bstack o rows cols t p s n).isEmpty = false := by
  have := bstack_length o rows cols t p s n
  cases hs : bstack o rows cols t p s n with
  | nil => rw [hs] at this; simp at this; omega
  | cons a l => rfl

/-- the two boundary MPS next to slice `s`, seen from boundary tensor `p` -/
def e1 (p : Pos) (s i : ℕ) : E :=
  facing o rows cols (pre p) (beyond o rows cols t (pre p) s) (along rows cols p i)
def e2 (p : Pos) (s i : ℕ) : E :=
  facing o rows cols (next p) (beyond o rows cols t (next p) s) (along rows cols p i)

theorem benv_succ (p : Pos) (s k : ℕ) :
    benv o rows cols t p s (k + 1) = o.bgrow p (benv o rows cols t p s k)
      (e1 o rows cols t p s k) (t (cell rows cols p s k)) (e2 o rows cols t p s k) := by
  simp [benv, List.range_succ, e1, e2]

theorem benv_zero (p : Pos) (s : ℕ) :
    benv o rows cols t p s 0 = o.bten0 p (e1 o rows cols t p s 0) (e2 o rows cols t p s 0) := by
  simp [benv, e1, e2]

/-- the raw index `N - 1 - i` of the preceding boundary MPS -/
theorem raw_e1 (p : Pos) (s i : ℕ) (h : i < span rows cols p) :
    (sub? (span rows cols p) (i + 1)).bind
      (raw? o (span rows cols p) (beyond o rows cols t (pre p) s))
      = some (e1 o rows cols t p s i) := by
  rw [sub?_of_le (by omega)]
  simp only [Option.bind_some, raw?]
  rw [if_pos (by omega)]
  cases p <;> simp only [e1, facing, pre, along, span] at * <;> congr 2 <;> omega

/-- the raw index `i` of the following boundary MPS -/
theorem raw_e2 (p : Pos) (s i : ℕ) (h : i < span rows cols p) :
    raw? o (span rows cols p) (beyond o rows cols t (next p) s) i
      = some (e2 o rows cols t p s i) := by
  simp only [raw?]
  rw [if_pos h]
  cases p <;> simp only [e2, facing, next, along, span] at * <;> congr 2 <;> omega

theorem site_cell (p : Pos) (s i : ℕ) (hs : s < width rows cols p) (h : i < span rows cols p) :
    (btenSite rows cols p s i).bind (site? rows cols t) = some (t (cell rows cols p s i)) := by
  cases p <;> simp only [btenSite, cell, span, width] at *
  · exact if_pos ⟨hs, h⟩
  · rw [sub?_of_le (by omega)]
    simp only [Option.map_some, Option.bind_some]
    rw [show rows - (i + 1) = rows - 1 - i by omega]
    exact if_pos ⟨by simp only; omega, hs⟩
  · rw [sub?_of_le (by omega)]
    simp only [Option.map_some, Option.bind_some]
    rw [show cols - (i + 1) = cols - 1 - i by omega]
    exact if_pos ⟨hs, by simp only; omega⟩
  · exact if_pos ⟨h, hs⟩

theorem stackIdx_depth (p : Pos) (i : ℕ) (h : i < span rows cols p) :
    stackIdx rows cols p i = some (depth rows cols p i) := by
  cases p <;> simp only [stackIdx, depth, span] at * <;> try rfl
  all_goals rw [sub?_of_le (by omega)]; congr 1; omega

/-- reading the boundary MPS of a slice from a fresh stack -/
theorem bmpsAt_fresh (c : Ctr B C C2) (p : Pos) (i n : ℕ)
    (hc : c.bmps p = stack o rows cols t p n) (hi : i < span rows cols p)
    (h : depth rows cols p i < n) :
    bmpsAt rows cols c p i = some (beyond o rows cols t p i) := by
  unfold bmpsAt
  rw [stackIdx_depth rows cols p i hi]
  simp only [Option.bind_some]
  rw [hc, stack_get _ _ _ _ _ _ _ h]
  rfl

/-- both boundary MPS next to slice `s` are cached and fresh -/
def Beside (c : Ctr B C C2) (p : Pos) (s : ℕ) : Prop :=
  bmpsAt rows cols c (pre p) s = some (beyond o rows cols t (pre p) s) ∧
  bmpsAt rows cols c (next p) s = some (beyond o rows cols t (next p) s)

theorem initBTen_fresh (c : Ctr B C C2) (p : Pos) (s : ℕ) (hc : Beside o rows cols t c p s)
    (hN : 1 ≤ span rows cols p) :
    initBTen o rows cols p s c = some (setT c p (bstack o rows cols t p s 1)) := by
  unfold initBTen
  simp only
  rw [hc.1, hc.2]
  simp only [Option.bind_some]
  rw [show (sub? (span rows cols p) 1) = sub? (span rows cols p) (0 + 1) from rfl,
    raw_e1 o rows cols t p s 0 (by omega), raw_e2 o rows cols t p s 0 (by omega)]
  simp only [Option.bind_some, setT]
  simp [bstack, benv_zero]

theorem btenStep_fresh (c : Ctr B C C2) (p : Pos) (s n : ℕ) (h1 : 1 ≤ n)
    (hs : s < width rows cols p)
    (hn : n ≤ span rows cols p) (hc : c.bten p = bstack o rows cols t p s n) :
    btenStep o rows cols t p s (beyond o rows cols t (pre p) s) (beyond o rows cols t (next p) s)
      c (n - 1) = some (setT c p (bstack o rows cols t p s (n + 1))) := by
  unfold btenStep
  simp only
  rw [raw_e1 o rows cols t p s (n - 1) (by omega), raw_e2 o rows cols t p s (n - 1) (by omega),
    site_cell rows cols t p s (n - 1) hs (by omega), hc, bstack_last _ _ _ _ _ _ _ h1]
  simp only [Option.bind_some, setT]
  rw [bstack_succ]
  have := benv_succ o rows cols t p s (n - 1)
  rw [Nat.sub_add_cancel h1] at this
  rw [this]

theorem btenSteps_fresh (p : Pos) (s : ℕ) (hs : s < width rows cols p) (m : ℕ) :
    ∀ (c : Ctr B C C2) (n : ℕ), 1 ≤ n → n + m ≤ span rows cols p + 1 →
      c.bten p = bstack o rows cols t p s n →
      ((List.range m).map fun j => n - 1 + j).foldlM
        (btenStep o rows cols t p s (beyond o rows cols t (pre p) s)
          (beyond o rows cols t (next p) s)) c
        = some (setT c p (bstack o rows cols t p s (n + m))) := by
  induction m with
  | zero =>
    intro c n _ _ hc
    simp only [List.range_zero, List.map_nil, List.foldlM_nil, Nat.add_zero]
    rw [setT_self c p _ hc]; rfl
  | succ m ih =>
    intro c n h1 hn hc
    rw [List.range_succ_eq_map]
    simp only [List.map_cons, List.map_map, List.foldlM_cons, Nat.add_zero]
    rw [btenStep_fresh o rows cols t c p s n h1 hs (by omega) hc]
    have := ih (setT c p (bstack o rows cols t p s (n + 1))) (n + 1) (by omega) (by omega) (by simp)
    simp only [setT_setT] at this
    rw [show n + (m + 1) = n + 1 + m by omega, ← this]
    simp only [Option.bind_eq_bind, Option.bind_some]
    congr 1
    refine List.map_congr_left fun j _ => ?_
    simp only [Function.comp]
    omega

/-- `GrowFullBTen` with re-initialisation. -/
theorem growFullBTen_fresh (c : Ctr B C C2) (p : Pos) (s remain : ℕ)
    (hc : Beside o rows cols t c p s) (hs : s < width rows cols p) (hr : 1 ≤ remain)
    (hN : remain ≤ span rows cols p) :
    growFullBTen o rows cols t p s remain true c
      = some (setT c p (bstack o rows cols t p s (span rows cols p - remain + 1))) := by
  unfold growFullBTen
  simp only [if_true]
  rw [initBTen_fresh o rows cols t c p s hc (by omega)]
  simp only [Option.bind_some]
  have h1 : bmpsAt rows cols (setT c p (bstack o rows cols t p s 1)) (pre p) s
      = some (beyond o rows cols t (pre p) s) := hc.1
  have h2 : bmpsAt rows cols (setT c p (bstack o rows cols t p s 1)) (next p) s
      = some (beyond o rows cols t (next p) s) := hc.2
  rw [h1, h2, sub?_of_le hN]
  simp only [Option.bind_some, setT_same, bstack_length]
  rw [sub?_of_le (le_refl 1)]
  simp only
  have := btenSteps_fresh o rows cols t p s hs (span rows cols p - remain)
    (setT c p (bstack o rows cols t p s 1)) 1 (le_refl 1) (by omega) (by simp)
  simp only [setT_setT] at this
  rw [add_comm (span rows cols p - remain) 1, ← this]
  simp only [upTo]
  congr 1

/-- the boundary MPS windows of side `p` stand at slice `s`: the last cached layers are the ones
next to it -/
def Window (c : Ctr B C C2) (p : Pos) (s : ℕ) : Prop :=
  c.bmps (pre p) = stack o rows cols t (pre p) (depth rows cols (pre p) s + 1) ∧
  c.bmps (next p) = stack o rows cols t (next p) (depth rows cols (next p) s + 1)

theorem Window.beside {c : Ctr B C C2} {p : Pos} {s : ℕ} (h : Window o rows cols t c p s)
    (hs : s < width rows cols p) : Beside o rows cols t c p s :=
  ⟨bmpsAt_fresh o rows cols t c (pre p) s _ h.1 (by rw [span_pre]; exact hs) (by omega),
   bmpsAt_fresh o rows cols t c (next p) s _ h.2 (by rw [span_next]; exact hs) (by omega)⟩

theorem Window.opposite {c : Ctr B C C2} {p : Pos} {s : ℕ} (h : Window o rows cols t c p s) :
    Window o rows cols t c (opposite p) s := by
  cases p <;> exact ⟨h.2, h.1⟩

theorem Window.slice {c : Ctr B C C2} {p : Pos} {s : ℕ} (h : Window o rows cols t c p s) :
    windowSlice c p = some s := by
  cases p <;> simp only [windowSlice, Window, pre, next, depth] at * <;>
    first
    | (rw [h.1, stack_length, sub?_of_le (by omega)]; rfl)
    | (rw [h.2, stack_length, sub?_of_le (by omega)]; rfl)

/-- `GrowBTenStep` in a window. -/
theorem growBTenStep_fresh (c : Ctr B C C2) (p : Pos) (s n : ℕ) (hw : Window o rows cols t c p s)
    (hs : s < width rows cols p) (h1 : 1 ≤ n) (hn : n ≤ span rows cols p)
    (hc : c.bten p = bstack o rows cols t p s n) :
    growBTenStep o rows cols t p c = some (setT c p (bstack o rows cols t p s (n + 1))) := by
  have hb := btenStep_fresh o rows cols t c p s n h1 hs hn hc
  unfold growBTenStep
  simp only
  have hlen : (c.bten p).length = n := by rw [hc]; simp
  rw [hlen, sub?_of_le h1]
  simp only [Option.bind_some]
  rw [hw.slice, hw.1, hw.2, stack_last _ _ _ _ _ _ (by omega), stack_last _ _ _ _ _ _ (by omega)]
  simp only [Option.bind_some, Nat.add_sub_cancel]
  exact hb

/-- `ShiftBTenWindow` in a window. -/
theorem shiftBTen_fresh (c : Ctr B C C2) (p : Pos) (s n m : ℕ) (hw : Window o rows cols t c p s)
    (hs : s < width rows cols p) (h1 : 1 ≤ n) (hn : n ≤ span rows cols p) (hm : 1 ≤ m)
    (hc : c.bten p = bstack o rows cols t p s n)
    (hc' : c.bten (opposite p) = bstack o rows cols t (opposite p) s m) :
    shiftBTenWindow o rows cols t (opposite p) c
      = some (setT (setT c (opposite p) (bstack o rows cols t (opposite p) s (m - 1))) p
          (bstack o rows cols t p s (n + 1))) := by
  unfold shiftBTenWindow
  rw [hc', bstack_isEmpty _ _ _ _ _ _ _ hm]
  simp only [Bool.false_eq_true, if_false, opposite_opposite]
  rw [bstack_dropLast]
  refine growBTenStep_fresh o rows cols t
    (setT c (opposite p) (bstack o rows cols t (opposite p) s (m - 1))) p s n hw hs h1 hn ?_
  rw [setT_ne _ _ _ _ (opposite_ne p).symm, hc]

/-! ## dependence on a site of the slice -/

/-- the site of slice `s` seen from either end -/
theorem cell_opposite (p : Pos) (s i : ℕ) (h : i < span rows cols p) :
    cell rows cols (opposite p) s (span rows cols p - 1 - i) = cell rows cols p s i := by
  cases p <;> simp only [cell, opposite, span] at * <;> congr 1 <;> omega

theorem cell_inj (p : Pos) (s i j : ℕ) (hi : i < span rows cols p) (hj : j < span rows cols p)
    (h : cell rows cols p s i = cell rows cols p s j) : i = j := by
  cases p <;> simp only [cell, span, Prod.mk.injEq] at * <;> omega

theorem cell_row (p : Pos) (s i : ℕ) (hs : s < width rows cols p) (hi : i < span rows cols p) :
    (cell rows cols p s i).1 < rows ∧ (cell rows cols p s i).2 < cols := by
  cases p <;> simp only [cell, width, span] at * <;> omega

theorem siteDepth_pre (p : Pos) (s i : ℕ) :
    siteDepth rows cols (pre p) (cell rows cols p s i) = depth rows cols (pre p) s := by
  cases p <;> rfl

theorem siteDepth_next (p : Pos) (s i : ℕ) :
    siteDepth rows cols (next p) (cell rows cols p s i) = depth rows cols (next p) s := by
  cases p <;> rfl

theorem siteDepth_self (p : Pos) (s i : ℕ) (hi : i < span rows cols p) :
    siteDepth rows cols p (cell rows cols p s i) = i := by
  cases p <;> simp only [siteDepth, cell, span] at * <;> omega

theorem siteDepth_opposite (p : Pos) (s i : ℕ) (hi : i < span rows cols p) :
    siteDepth rows cols (opposite p) (cell rows cols p s i) = span rows cols p - 1 - i := by
  rw [← cell_opposite rows cols p s i hi, siteDepth_self]
  rw [span_opposite]; omega

/-- boundary MPS next to a slice do not depend on the tensors of the slice -/
theorem beyond_congr (t t' : Site → T) (p : Pos) (s : ℕ) (hs : s < width rows cols p)
    (ht : ∀ q : Site, (∀ i < span rows cols p, q ≠ cell rows cols p s i) → t q = t' q) :
    beyond o rows cols t (pre p) s = beyond o rows cols t' (pre p) s ∧
    beyond o rows cols t (next p) s = beyond o rows cols t' (next p) s := by
  constructor <;> unfold beyond <;> refine env_congr' _ _ _ _ _ _ _ fun j hj => ?_ <;>
  · cases p <;> simp only [pre, next, layer, depth, width, span, cell] at * <;>
      refine List.map_congr_left fun i hi => ht _ fun k hk he => ?_ <;>
      · have := List.mem_range.1 hi
        simp only [Prod.mk.injEq] at he
        omega

theorem benv_congr (t t' : Site → T) (p : Pos) (s : ℕ) (hs : s < width rows cols p) (k : ℕ)
    (hk : k ≤ span rows cols p)
    (ht : ∀ q : Site, (∀ i, k ≤ i → i < span rows cols p → q ≠ cell rows cols p s i) →
      t q = t' q) :
    benv o rows cols t p s k = benv o rows cols t' p s k := by
  obtain ⟨h1, h2⟩ := beyond_congr o rows cols t t' p s hs fun q hq => ht q fun i _ hi => hq i hi
  have h : ∀ m ≤ k, benv o rows cols t p s m = benv o rows cols t' p s m := by
    intro m
    induction m with
    | zero => intro _; simp only [benv_zero, e1, e2, h1, h2]
    | succ m ih =>
      intro hm
      rw [benv_succ, benv_succ, ih (by omega), ht (cell rows cols p s m) fun i hi hi' he => by
        have := cell_inj rows cols p s m i (by omega) hi' he; omega]
      simp only [e1, e2, h1, h2]
  exact h k (le_refl k)

end QLPeps.Contractor
