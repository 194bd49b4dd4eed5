import Verif.Spec.Traversal
import Verif.Lemmas.ContractorCount

/-! # Lemmas about two-layer boundary tensors and the reads of a traversal -/

namespace QLPeps.Contractor

universe u

variable {T E B C C2 A H : Type u}
variable (o : Ops T E B C C2 A H) (rows cols : ℕ) (t : Site → T)

theorem preSlice_eq (p : Pos) (s : ℕ) : preSlice p s = nearer (pre p) s := by cases p <;> rfl
theorem nextSlice2_eq (p : Pos) (s : ℕ) : nextSlice2 p s = nearer (next p) s := by cases p <;> rfl

/-- the stack of the first `n` two-layer boundary tensors -/
def bstack2 (p : Pos) (s n : ℕ) : List C2 := (List.range n).map (benv2 o rows cols t p s)

/-- replace one stack of two-layer boundary tensors -/
def setT2 (c : Ctr B C C2) (p : Pos) (l : List C2) : Ctr B C C2 :=
  { c with bten2 := Function.update c.bten2 p l }

omit o rows cols t in
@[simp] theorem setT2_same (c : Ctr B C C2) (p : Pos) (l : List C2) :
    (setT2 c p l).bten2 p = l := by
  simp [setT2]

theorem setT2_ne (c : Ctr B C C2) (p q : Pos) (l : List C2) (h : q ≠ p) :
    (setT2 c p l).bten2 q = c.bten2 q := by
  simp [setT2, h]

@[simp] theorem setT2_bmps (c : Ctr B C C2) (p : Pos) (l : List C2) :
    (setT2 c p l).bmps = c.bmps := rfl

@[simp] theorem setT2_bten (c : Ctr B C C2) (p : Pos) (l : List C2) :
    (setT2 c p l).bten = c.bten := rfl

@[simp] theorem setT2_setT2 (c : Ctr B C C2) (p : Pos) (l l' : List C2) :
    setT2 (setT2 c p l) p l' = setT2 c p l' := by
  simp [setT2]

theorem setT2_self (c : Ctr B C C2) (p : Pos) (l : List C2) (h : c.bten2 p = l) :
    setT2 c p l = c := by
  cases c; simp only [setT2] at *; subst h; simp

@[simp] theorem bstack2_length (p : Pos) (s n : ℕ) :
    (bstack2 o rows cols t p s n).length = n := by simp [bstack2]

theorem bstack2_succ (p : Pos) (s n : ℕ) :
    bstack2 o rows cols t p s (n + 1)
      = bstack2 o rows cols t p s n ++ [benv2 o rows cols t p s n] := by
  simp [bstack2, List.range_succ]

theorem bstack2_get (p : Pos) (s n k : ℕ) (h : k < n) :
    (bstack2 o rows cols t p s n)[k]? = some (benv2 o rows cols t p s k) := by
  simp [bstack2, h]

theorem bstack2_last (p : Pos) (s n : ℕ) (h : 1 ≤ n) :
    (bstack2 o rows cols t p s n).getLast? = some (benv2 o rows cols t p s (n - 1)) := by
  obtain ⟨m, rfl⟩ : ∃ m, n = m + 1 := ⟨n - 1, by omega⟩
  rw [bstack2_succ]; simp

theorem bstack2_dropLast (p : Pos) (s n : ℕ) :
    (bstack2 o rows cols t p s n).dropLast = bstack2 o rows cols t p s (n - 1) := by
  rw [List.dropLast_eq_take, bstack2_length]
  unfold bstack2
  rw [map_range_take]
  congr 2; omega

theorem bstack2_isEmpty (p : Pos) (s n : ℕ) (h : 1 ≤ n) :
    (bstack2 o rows cols t p s n).isEmpty = false := by
  obtain ⟨m, rfl⟩ : ∃ m, n = m + 1 := ⟨n - 1, by omega⟩
  rw [bstack2_succ]; simp

/-- the two boundary MPS next to the slices `s`, `s + 1`, seen from boundary tensor `p` -/
def g1 (p : Pos) (s i : ℕ) : E :=
  facing o rows cols (pre p) (beyond o rows cols t (pre p) (nearer (pre p) s))
    (along rows cols p i)
def g2 (p : Pos) (s i : ℕ) : E :=
  facing o rows cols (next p) (beyond o rows cols t (next p) (nearer (next p) s))
    (along rows cols p i)

theorem benv2_succ (p : Pos) (s k : ℕ) :
    benv2 o rows cols t p s (k + 1) = o.bgrow2 p (benv2 o rows cols t p s k)
      (g1 o rows cols t p s k) (t (cell rows cols p (nearer (pre p) s) k))
      (t (cell rows cols p (nearer (next p) s) k)) (g2 o rows cols t p s k) := by
  simp [benv2, List.range_succ, g1, g2]

theorem benv2_zero (p : Pos) (s : ℕ) :
    benv2 o rows cols t p s 0
      = o.bten20 p (g1 o rows cols t p s 0) (g2 o rows cols t p s 0) := by
  simp [benv2, g1, g2]

theorem raw_g1 (p : Pos) (s i : ℕ) (h : i < span rows cols p) :
    (sub? (span rows cols p) (i + 1)).bind
      (raw? o (span rows cols p) (beyond o rows cols t (pre p) (nearer (pre p) s)))
      = some (g1 o rows cols t p s i) := raw_e1 o rows cols t p (nearer (pre p) s) i h

theorem raw_g2 (p : Pos) (s i : ℕ) (h : i < span rows cols p) :
    raw? o (span rows cols p) (beyond o rows cols t (next p) (nearer (next p) s)) i
      = some (g2 o rows cols t p s i) := raw_e2 o rows cols t p (nearer (next p) s) i h

theorem sites_cell (p : Pos) (s i : ℕ) (hs : s + 1 < width rows cols p)
    (h : i < span rows cols p) :
    ∃ ss, bten2Sites rows cols p s i = some ss ∧
      site? rows cols t ss.1 = some (t (cell rows cols p (nearer (pre p) s) i)) ∧
      site? rows cols t ss.2 = some (t (cell rows cols p (nearer (next p) s) i)) := by
  cases p <;> simp only [bten2Sites, cell, span, width, nearer, pre, next] at *
  · exact ⟨_, rfl, if_pos ⟨by simp only; omega, h⟩, if_pos ⟨by simp only; omega, h⟩⟩
  · rw [sub?_of_le (by omega), show rows - (i + 1) = rows - 1 - i by omega]
    exact ⟨_, rfl, if_pos ⟨by simp only; omega, by simp only; omega⟩,
      if_pos ⟨by simp only; omega, by simp only; omega⟩⟩
  · rw [sub?_of_le (by omega), show cols - (i + 1) = cols - 1 - i by omega]
    exact ⟨_, rfl, if_pos ⟨by simp only; omega, by simp only; omega⟩,
      if_pos ⟨by simp only; omega, by simp only; omega⟩⟩
  · exact ⟨_, rfl, if_pos ⟨h, by simp only; omega⟩, if_pos ⟨h, by simp only; omega⟩⟩

/-- both boundary MPS next to the pair of slices are cached and fresh -/
def Beside2 (c : Ctr B C C2) (p : Pos) (s : ℕ) : Prop :=
  bmpsAt rows cols c (pre p) (nearer (pre p) s)
    = some (beyond o rows cols t (pre p) (nearer (pre p) s)) ∧
  bmpsAt rows cols c (next p) (nearer (next p) s)
    = some (beyond o rows cols t (next p) (nearer (next p) s))

theorem Window.beside2 {c : Ctr B C C2} {p : Pos} {s : ℕ} (h : Window o rows cols t c p s)
    (hs : s + 1 < width rows cols p) : Beside2 o rows cols t c p s := by
  refine ⟨bmpsAt_fresh o rows cols t c (pre p) _ _ h.1 ?_ ?_,
    bmpsAt_fresh o rows cols t c (next p) _ _ h.2 ?_ ?_⟩ <;>
  · cases p <;> simp only [pre, next, nearer, span, width, depth] at * <;> omega

theorem initBTen2_fresh (c : Ctr B C C2) (p : Pos) (s : ℕ) (hc : Beside2 o rows cols t c p s)
    (hN : 1 ≤ span rows cols p) :
    initBTen2 o rows cols p s c = some (setT2 c p (bstack2 o rows cols t p s 1)) := by
  unfold initBTen2
  simp only [preSlice_eq, nextSlice2_eq]
  rw [hc.1, hc.2]
  simp only [Option.bind_some]
  rw [show (sub? (span rows cols p) 1) = sub? (span rows cols p) (0 + 1) from rfl,
    raw_g1 o rows cols t p s 0 (by omega), raw_g2 o rows cols t p s 0 (by omega)]
  simp only [Option.bind_some, setT2]
  simp [bstack2, benv2_zero]

theorem bten2Step_fresh (c : Ctr B C C2) (p : Pos) (s n : ℕ) (h1 : 1 ≤ n)
    (hs : s + 1 < width rows cols p)
    (hn : n ≤ span rows cols p) (hc : c.bten2 p = bstack2 o rows cols t p s n) :
    bten2Step o rows cols t p s (beyond o rows cols t (pre p) (nearer (pre p) s))
      (beyond o rows cols t (next p) (nearer (next p) s)) c (n - 1)
      = some (setT2 c p (bstack2 o rows cols t p s (n + 1))) := by
  unfold bten2Step
  simp only
  obtain ⟨ss, h3, h4, h5⟩ := sites_cell rows cols t p s (n - 1) hs (by omega)
  rw [raw_g1 o rows cols t p s (n - 1) (by omega), raw_g2 o rows cols t p s (n - 1) (by omega), h3]
  simp only [Option.bind_some]
  rw [h4, h5, hc, bstack2_last _ _ _ _ _ _ _ h1]
  simp only [Option.bind_some, setT2]
  rw [bstack2_succ]
  have := benv2_succ o rows cols t p s (n - 1)
  rw [Nat.sub_add_cancel h1] at this
  rw [this]

theorem bten2Steps_fresh (p : Pos) (s : ℕ) (hs : s + 1 < width rows cols p) (m : ℕ) :
    ∀ (c : Ctr B C C2) (n : ℕ), 1 ≤ n → n + m ≤ span rows cols p + 1 →
      c.bten2 p = bstack2 o rows cols t p s n →
      ((List.range m).map fun j => n - 1 + j).foldlM
        (bten2Step o rows cols t p s (beyond o rows cols t (pre p) (nearer (pre p) s))
          (beyond o rows cols t (next p) (nearer (next p) s))) c
        = some (setT2 c p (bstack2 o rows cols t p s (n + m))) := by
  induction m with
  | zero =>
    intro c n _ _ hc
    simp only [List.range_zero, List.map_nil, List.foldlM_nil, Nat.add_zero]
    rw [setT2_self c p _ hc]; rfl
  | succ m ih =>
    intro c n h1 hn hc
    rw [List.range_succ_eq_map]
    simp only [List.map_cons, List.map_map, List.foldlM_cons, Nat.add_zero]
    rw [bten2Step_fresh o rows cols t c p s n h1 hs (by omega) hc]
    have := ih (setT2 c p (bstack2 o rows cols t p s (n + 1))) (n + 1) (by omega) (by omega)
      (by simp)
    simp only [setT2_setT2] at this
    rw [show n + (m + 1) = n + 1 + m by omega, ← this]
    simp only [Option.bind_eq_bind, Option.bind_some]
    congr 1
    refine List.map_congr_left fun j _ => ?_
    simp only [Function.comp]
    omega

theorem growFullBTen2_fresh (c : Ctr B C C2) (p : Pos) (s remain : ℕ)
    (hc : Beside2 o rows cols t c p s) (hs : s + 1 < width rows cols p) (hr : 1 ≤ remain)
    (hN : remain ≤ span rows cols p) :
    growFullBTen2 o rows cols t p s remain true c
      = some (setT2 c p (bstack2 o rows cols t p s (span rows cols p - remain + 1))) := by
  unfold growFullBTen2
  simp only [if_true]
  rw [initBTen2_fresh o rows cols t c p s hc (by omega)]
  simp only [Option.bind_some, preSlice_eq, nextSlice2_eq]
  have h1 : bmpsAt rows cols (setT2 c p (bstack2 o rows cols t p s 1)) (pre p) (nearer (pre p) s)
      = some (beyond o rows cols t (pre p) (nearer (pre p) s)) := hc.1
  have h2 : bmpsAt rows cols (setT2 c p (bstack2 o rows cols t p s 1)) (next p) (nearer (next p) s)
      = some (beyond o rows cols t (next p) (nearer (next p) s)) := hc.2
  rw [h1, h2, sub?_of_le hN]
  simp only [Option.bind_some, setT2_same, bstack2_length]
  rw [sub?_of_le (le_refl 1)]
  simp only
  have := bten2Steps_fresh o rows cols t p s hs (span rows cols p - remain)
    (setT2 c p (bstack2 o rows cols t p s 1)) 1 (le_refl 1) (by omega) (by simp)
  simp only [setT2_setT2] at this
  rw [add_comm (span rows cols p - remain) 1, ← this]
  simp only [upTo]
  congr 1

theorem shiftBTen2_fresh (c : Ctr B C C2) (p : Pos) (s n m : ℕ)
    (hw : Beside2 o rows cols t c p s)
    (hs : s + 1 < width rows cols p) (h1 : 1 ≤ n) (hn : n ≤ span rows cols p) (hm : 1 ≤ m)
    (hc : c.bten2 p = bstack2 o rows cols t p s n)
    (hc' : c.bten2 (opposite p) = bstack2 o rows cols t (opposite p) s m) :
    shiftBTen2Window o rows cols t (opposite p) s c
      = some (setT2 (setT2 c (opposite p) (bstack2 o rows cols t (opposite p) s (m - 1))) p
          (bstack2 o rows cols t p s (n + 1))) := by
  unfold shiftBTen2Window
  rw [hc', bstack2_isEmpty _ _ _ _ _ _ _ hm]
  simp only [Bool.false_eq_true, if_false, opposite_opposite]
  rw [bstack2_dropLast]
  unfold growBTen2Step
  simp only [preSlice_eq, nextSlice2_eq]
  have e1 := hw.1
  have e2 := hw.2
  have e3 : bmpsAt rows cols (setT2 c (opposite p) (bstack2 o rows cols t (opposite p) s (m - 1)))
    (pre p) (nearer (pre p) s) = _ := e1
  have e4 : bmpsAt rows cols (setT2 c (opposite p) (bstack2 o rows cols t (opposite p) s (m - 1)))
    (next p) (nearer (next p) s) = _ := e2
  have e5 : (setT2 c (opposite p) (bstack2 o rows cols t (opposite p) s (m - 1))).bten2 p
      = bstack2 o rows cols t p s n := by
    rw [setT2_ne _ _ _ _ (opposite_ne p).symm, hc]
  show (bmpsAt rows cols (setT2 c (opposite p) (bstack2 o rows cols t (opposite p) s (m - 1)))
    (pre p) (nearer (pre p) s)).bind _ = _
  rw [e3]
  simp only [Option.bind_some]
  show (bmpsAt rows cols (setT2 c (opposite p) (bstack2 o rows cols t (opposite p) s (m - 1)))
    (next p) (nearer (next p) s)).bind _ = _
  rw [e4]
  simp only [Option.bind_some]
  show (sub? ((setT2 c (opposite p)
    (bstack2 o rows cols t (opposite p) s (m - 1))).bten2 p).length 1).bind _ = _
  rw [e5, bstack2_length, sub?_of_le h1]
  simp only [Option.bind_some]
  exact bten2Step_fresh o rows cols t _ p s n h1 hs hn e5

/-! ## dependence on sites of the two slices -/

theorem beyond_congr2 (t t' : Site → T) (p : Pos) (s : ℕ) (hs : s + 1 < width rows cols p)
    (ht : ∀ q : Site, (∀ i < span rows cols p, q ≠ cell rows cols p s i ∧
      q ≠ cell rows cols p (s + 1) i) → t q = t' q) :
    beyond o rows cols t (pre p) (nearer (pre p) s)
      = beyond o rows cols t' (pre p) (nearer (pre p) s) ∧
    beyond o rows cols t (next p) (nearer (next p) s)
      = beyond o rows cols t' (next p) (nearer (next p) s) := by
  constructor <;> unfold beyond <;> refine env_congr' _ _ _ _ _ _ _ fun j hj => ?_ <;>
  · cases p <;> simp only [pre, next, layer, depth, width, span, cell, nearer] at * <;>
      refine List.map_congr_left fun i hi => ht _ fun k hk => ⟨fun he => ?_, fun he => ?_⟩ <;>
      · have := List.mem_range.1 hi
        simp only [Prod.mk.injEq] at he
        omega

theorem nearer_cases (q : Pos) (s : ℕ) : nearer q s = s ∨ nearer q s = s + 1 := by
  cases q <;> simp [nearer]

theorem cell_ne (p : Pos) (s i j : ℕ) : cell rows cols p s i ≠ cell rows cols p (s + 1) j := by
  cases p <;> simp only [cell, ne_eq, Prod.mk.injEq] <;> omega

theorem benv2_congr (t t' : Site → T) (p : Pos) (s : ℕ) (hs : s + 1 < width rows cols p) (k : ℕ)
    (hk : k ≤ span rows cols p)
    (ht : ∀ q : Site, (∀ i, k ≤ i → i < span rows cols p → q ≠ cell rows cols p s i ∧
      q ≠ cell rows cols p (s + 1) i) → t q = t' q) :
    benv2 o rows cols t p s k = benv2 o rows cols t' p s k := by
  obtain ⟨h1, h2⟩ := beyond_congr2 o rows cols t t' p s hs fun q hq => ht q fun i _ hi => hq i hi
  have hcell : ∀ m < k, ∀ r, (r = s ∨ r = s + 1) →
      t (cell rows cols p r m) = t' (cell rows cols p r m) := by
    intro m hm r hr
    refine ht _ fun i hi hi' => ?_
    rcases hr with rfl | rfl
    · exact ⟨fun he => by have := cell_inj rows cols p _ m i (by omega) hi' he; omega,
        cell_ne rows cols p _ m i⟩
    · exact ⟨(cell_ne rows cols p _ i m).symm,
        fun he => by have := cell_inj rows cols p _ m i (by omega) hi' he; omega⟩
  have h : ∀ m ≤ k, benv2 o rows cols t p s m = benv2 o rows cols t' p s m := by
    intro m
    induction m with
    | zero => intro _; simp only [benv2_zero, g1, g2, h1, h2]
    | succ m ih =>
      intro hm
      rw [benv2_succ, benv2_succ, ih (by omega), hcell m (by omega) _ (nearer_cases _ s),
        hcell m (by omega) _ (nearer_cases _ s)]
      simp only [g1, g2, h1, h2]
  exact h k (le_refl k)

end QLPeps.Contractor
