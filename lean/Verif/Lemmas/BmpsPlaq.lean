import Verif.Lemmas.BmpsTwo

/-! # Two-layer boundary tensors of a network -/

namespace QLPeps.Bmps

open QLPeps.Contractor QLPeps.Sweep QLPeps.Box
open QLPeps.Peps (Tn Lib rot contract contractN transpose)
open QLPeps.Bmps.Spec (Lossless)
open QLPeps.Tps.Spec (Bond)

noncomputable section

variable {𝕜 : Type*} [RCLike 𝕜] {rows cols : ℕ} {t : Site → Tn 𝕜} {dh dv : ℕ → ℕ → ℕ} {lib : Lib 𝕜}

/-- layer, counted from side `next p`, of the nearer one of the two slices `s`, `s + 1` -/
abbrev lay (rows cols : ℕ) (p : Pos) (s : ℕ) : ℕ := depth rows cols (next p) (nearer (next p) s)

theorem lay_pre (p : Pos) (s : ℕ) (hs : s + 1 < width rows cols p) :
    depth rows cols (next p) (nearer (pre p) s) = lay rows cols p s + 1 := by
  cases p <;> simp only [lay, depth, pre, next, nearer, width] at * <;> omega

theorem nearer_lt (q p : Pos) (s : ℕ) (hs : s + 1 < width rows cols p) : nearer q s < width rows cols p := by
  cases q <;> simp only [nearer] <;> omega

theorem lay_lt (p : Pos) (s : ℕ) (hs : s + 1 < width rows cols p) :
    lay rows cols p s + 1 < span rows cols (next p) := by
  cases p <;> simp only [lay, depth, nearer, next, span, width] at * <;> omega

/-- the boundary MPS on the two sides of a pair of slices -/
abbrev Env2 (lib : Lib 𝕜) (rows cols : ℕ) (t : Site → Tn 𝕜) (q : Pos) (s : ℕ) : List (Tn 𝕜) :=
  Env lib rows cols t q (nearer q s)

theorem g1_shape (hl : Lossless lib) (hn : Net rows cols t dh dv) (p : Pos) (s i : ℕ)
    (hs : s + 1 < width rows cols p) (hi : i < span rows cols p) :
    (g1 (tensorOps lib rows cols) rows cols t p s i).shape =
      [bond (Env2 lib rows cols t (pre p) s) (span rows cols p - (i + 1)),
        fv rows cols dh dv (next p) (lay rows cols p s + 2) i,
        bond (Env2 lib rows cols t (pre p) s) (span rows cols p - i)] := by
  have := (Env_shape hl.shaped hn p (nearer (pre p) s) i (nearer_lt _ _ _ hs) hi).2
  rw [lay_pre p s hs] at this
  exact this

theorem g2_shape (hl : Lossless lib) (hn : Net rows cols t dh dv) (p : Pos) (s i : ℕ)
    (hs : s + 1 < width rows cols p) (hi : i < span rows cols p) :
    (g2 (tensorOps lib rows cols) rows cols t p s i).shape =
      [bond (Env2 lib rows cols t (next p) s) i, fv rows cols dh dv (next p) (lay rows cols p s) i,
        bond (Env2 lib rows cols t (next p) s) (i + 1)] :=
  (Env_shape hl.shaped hn p (nearer (next p) s) i (nearer_lt _ _ _ hs) hi).1

theorem site1_shape (hn : Net rows cols t dh dv) (p : Pos) (s i : ℕ)
    (hs : s + 1 < width rows cols p) (hi : i < span rows cols p) :
    FShape p (t (cell rows cols p (nearer (pre p) s) i))
      (fv rows cols dh dv (next p) (lay rows cols p s + 2) i)
      (fh rows cols dh dv (next p) (lay rows cols p s + 1) i)
      (fv rows cols dh dv (next p) (lay rows cols p s + 1) i)
      (fh rows cols dh dv (next p) (lay rows cols p s + 1) (i + 1)) := by
  have := cell_shape hn p (nearer (pre p) s) i (nearer_lt _ _ _ hs) hi
  rw [lay_pre p s hs] at this
  exact this

theorem site2_shape (hn : Net rows cols t dh dv) (p : Pos) (s i : ℕ)
    (hs : s + 1 < width rows cols p) (hi : i < span rows cols p) :
    FShape p (t (cell rows cols p (nearer (next p) s) i))
      (fv rows cols dh dv (next p) (lay rows cols p s + 1) i)
      (fh rows cols dh dv (next p) (lay rows cols p s) i)
      (fv rows cols dh dv (next p) (lay rows cols p s) i)
      (fh rows cols dh dv (next p) (lay rows cols p s) (i + 1)) :=
  cell_shape hn p (nearer (next p) s) i (nearer_lt _ _ _ hs) hi

theorem fh_zero (hn : Net rows cols t dh dv) (q : Pos) (k : ℕ) (hk : k < span rows cols q) :
    fh rows cols dh dv q k 0 = 1 := by
  cases q <;> simp only [fh, span] at *
  · exact hn.north k hk
  · exact hn.west _ (by omega)
  · exact hn.south _ (by omega)
  · exact hn.east _ (by omega)

theorem bgrow2_eq (p : Pos) (c e1 x1 x2 e2 : Tn 𝕜) :
    (tensorOps lib rows cols).bgrow2 p c e1 x1 x2 e2 = growBTen2 p c e1 x1 x2 e2 := rfl

theorem bten20_eq (p : Pos) (e1 e2 : Tn 𝕜) : (tensorOps lib rows cols).bten20 p e1 e2 =
    corner [e1.shape.getD 2 0, 1, 1, e2.shape.getD 0 0] := rfl

theorem benv2_shape (hl : Lossless lib) (hn : Net rows cols t dh dv) (p : Pos) (s : ℕ)
    (hs : s + 1 < width rows cols p) (hp : 0 < span rows cols p) (k : ℕ) (hk : k ≤ span rows cols p) :
    (benv2 (tensorOps lib rows cols) rows cols t p s k).shape =
      [bond (Env2 lib rows cols t (pre p) s) (span rows cols p - k),
        fh rows cols dh dv (next p) (lay rows cols p s + 1) k,
        fh rows cols dh dv (next p) (lay rows cols p s) k,
        bond (Env2 lib rows cols t (next p) s) k] := by
  have hd := lay_lt p s hs
  induction k with
  | zero =>
    rw [benv2_zero, bten20_eq, g1_shape hl hn p s 0 hs hp, g2_shape hl hn p s 0 hs hp,
      fh_zero hn _ _ hd, fh_zero hn _ _ (by omega)]
    rfl
  | succ k ih =>
    rw [benv2_succ, bgrow2_eq]
    exact (growBTen2_eq p (g1_shape hl hn p s k hs hk) (ih (by omega)) (site1_shape hn p s k hs hk)
      (site2_shape hn p s k hs hk) (g2_shape hl hn p s k hs hk)).1

theorem g1_opposite (p : Pos) (s k : ℕ) (hk : k < span rows cols p) :
    g1 (tensorOps lib rows cols) rows cols t (opposite p) s (span rows cols p - 1 - k) =
      g2 (tensorOps lib rows cols) rows cols t p s k := by
  have := e1_opposite (lib := lib) (t := t) p (nearer (next p) s) k hk
  rw [g1, g2, pre_opposite]
  rw [e1, e2, pre_opposite] at this
  exact this

theorem g2_opposite (p : Pos) (s k : ℕ) (hk : k < span rows cols p) :
    g2 (tensorOps lib rows cols) rows cols t (opposite p) s (span rows cols p - 1 - k) =
      g1 (tensorOps lib rows cols) rows cols t p s k := by
  have := e2_opposite (lib := lib) (t := t) p (nearer (pre p) s) k hk
  rw [g1, g2, next_opposite]
  rw [e1, e2, next_opposite] at this
  exact this

theorem benv2_opposite_succ (p : Pos) (s k : ℕ) (hk : k < span rows cols p) :
    benv2 (tensorOps lib rows cols) rows cols t (opposite p) s (span rows cols p - k) =
      growBTen2 (opposite p)
        (benv2 (tensorOps lib rows cols) rows cols t (opposite p) s (span rows cols p - (k + 1)))
        (g2 (tensorOps lib rows cols) rows cols t p s k)
        (t (cell rows cols p (nearer (next p) s) k)) (t (cell rows cols p (nearer (pre p) s) k))
        (g1 (tensorOps lib rows cols) rows cols t p s k) := by
  have hc : ∀ s, cell rows cols (opposite p) s (span rows cols p - 1 - k) = cell rows cols p s k := by
    intro s
    cases p <;> simp only [cell, opposite, span] at * <;> ext <;> simp only <;> omega
  rw [show span rows cols p - k = span rows cols p - 1 - k + 1 by omega, benv2_succ, g1_opposite p s k hk,
    g2_opposite p s k hk, hc, hc, pre_opposite, next_opposite, bgrow2_eq,
    show span rows cols p - 1 - k = span rows cols p - (k + 1) by omega]

theorem lay_opposite (p : Pos) (s : ℕ) (hs : s + 1 < width rows cols p) (k : ℕ)
    (hk : k ≤ span rows cols p) :
    fh rows cols dh dv (next (opposite p)) (lay rows cols (opposite p) s) (span rows cols p - k) =
      fh rows cols dh dv (next p) (lay rows cols p s + 1) k ∧
    fh rows cols dh dv (next (opposite p)) (lay rows cols (opposite p) s + 1) (span rows cols p - k) =
      fh rows cols dh dv (next p) (lay rows cols p s) k := by
  constructor <;> cases p <;>
    simp only [fh, lay, depth, opposite, nearer, next, span, width] at * <;> congr 1 <;> omega

theorem benv2_opposite_shape (hl : Lossless lib) (hn : Net rows cols t dh dv) (p : Pos) (s : ℕ)
    (hs : s + 1 < width rows cols p) (hp : 0 < span rows cols p) (k : ℕ) (hk : k ≤ span rows cols p) :
    (benv2 (tensorOps lib rows cols) rows cols t (opposite p) s (span rows cols p - k)).shape =
      [bond (Env2 lib rows cols t (next p) s) k,
        fh rows cols dh dv (next p) (lay rows cols p s) k,
        fh rows cols dh dv (next p) (lay rows cols p s + 1) k,
        bond (Env2 lib rows cols t (pre p) s) (span rows cols p - k)] := by
  have := benv2_shape hl hn (opposite p) s (by rwa [width_opposite]) (by rwa [span_opposite])
    (span rows cols p - k) (by rw [span_opposite]; omega)
  rw [this, (lay_opposite p s hs k hk).1, (lay_opposite p s hs k hk).2, pre_opposite, next_opposite,
    span_opposite]
  congr 2
  omega

/-- the two boundary tensors of a pair of slices, contracted with each other -/
def cut2 (lib : Lib 𝕜) (rows cols : ℕ) (t : Site → Tn 𝕜) (p : Pos) (s k : ℕ) : 𝕜 :=
  dot4 (benv2 (tensorOps lib rows cols) rows cols t p s k)
    (benv2 (tensorOps lib rows cols) rows cols t (opposite p) s (span rows cols p - k))

theorem cut2_succ (hl : Lossless lib) (hn : Net rows cols t dh dv) (p : Pos) (s : ℕ)
    (hs : s + 1 < width rows cols p) (k : ℕ) (hk : k < span rows cols p) :
    cut2 lib rows cols t p s (k + 1) = cut2 lib rows cols t p s k := by
  rw [cut2, cut2, benv2_opposite_succ p s k hk, benv2_succ, bgrow2_eq]
  exact dot4_grow p (g1_shape hl hn p s k hs hk) (benv2_shape hl hn p s hs (by omega) k hk.le)
    (site1_shape hn p s k hs hk) (site2_shape hn p s k hs hk) (g2_shape hl hn p s k hs hk)
    (benv2_opposite_shape hl hn p s hs (by omega) (k + 1) hk)

theorem cut2_eq_zero (hl : Lossless lib) (hn : Net rows cols t dh dv) (p : Pos) (s : ℕ)
    (hs : s + 1 < width rows cols p) (k : ℕ) (hk : k ≤ span rows cols p) :
    cut2 lib rows cols t p s k = cut2 lib rows cols t p s 0 := by
  induction k with
  | zero => rfl
  | succ k ih => rw [cut2_succ hl hn p s hs k hk, ih (by omega)]

theorem Env2_shp (hl : Lossless lib) (hn : Net rows cols t dh dv) (p : Pos) (s : ℕ)
    (hs : s + 1 < width rows cols p) (hp : 0 < span rows cols p) :
    Shp (Env2 lib rows cols t (next p) s) 1 (fvl rows cols dh dv (next p) (lay rows cols p s)) ∧
    Shp (Env2 lib rows cols t (pre p) s) 1
      (fvl rows cols dh dv (next p) (lay rows cols p s + 2)).reverse := by
  refine ⟨(Env_shp hl.shaped hn p (nearer (next p) s) (nearer_lt _ _ _ hs) hp).1, ?_⟩
  have := (Env_shp hl.shaped hn p (nearer (pre p) s) (nearer_lt _ _ _ hs) hp).2
  rw [lay_pre p s hs] at this
  exact this

theorem benv2_bfold2 (hl : Lossless lib) (hn : Net rows cols t dh dv) (p : Pos) (s : ℕ)
    (hs : s + 1 < width rows cols p) (hp : 0 < span rows cols p) (m k : ℕ)
    (hk : k + m = span rows cols p) :
    benv2 (tensorOps lib rows cols) rows cols t (opposite p) s (span rows cols p - k) =
      bfold2 p ((Env2 lib rows cols t (next p) s).drop k)
        ((frow rows cols t (next p) (lay rows cols p s)).drop k)
        ((frow rows cols t (next p) (lay rows cols p s + 1)).drop k)
        ((Env2 lib rows cols t (pre p) s).reverse.drop k) := by
  obtain ⟨h2, h1⟩ := Env2_shp hl hn p s hs hp
  have l2 := h2.length
  have l1 := h1.length
  rw [fvl_length, width_next] at l2
  rw [List.length_reverse, fvl_length, width_next] at l1
  have l3 : ∀ k, (frow rows cols t (next p) k).length = span rows cols p := by
    simp [frow, width_next]
  induction m generalizing k with
  | zero =>
    obtain rfl : k = span rows cols p := by omega
    rw [Nat.sub_self, List.drop_of_length_le (by omega), List.drop_of_length_le (by rw [l3]), bfold2,
      benv2_zero, bten20_eq]
    · rw [g1_shape hl hn (opposite p) s 0 (by rwa [width_opposite]) (by rwa [span_opposite]),
        g2_shape hl hn (opposite p) s 0 (by rwa [width_opposite]) (by rwa [span_opposite]),
        pre_opposite, next_opposite, span_opposite]
      have b1 : bond (Env2 lib rows cols t (next p) s) (span rows cols p - 0) = 1 := by
        rw [Nat.sub_zero, ← l2]; exact bond_length _
      have b2 := h1.get.1
      rw [b1, b2]
      rfl
    · intros; simp_all
  | succ m ih =>
    have hk' : k < span rows cols p := by omega
    rw [benv2_opposite_succ p s k hk', ih (k + 1) (by omega),
      drop_cons (Env2 lib rows cols t (next p) s) k nil (by omega),
      drop_cons (frow rows cols t (next p) (lay rows cols p s)) k nil (by rw [l3]; omega),
      drop_cons (frow rows cols t (next p) (lay rows cols p s + 1)) k nil (by rw [l3]; omega),
      drop_cons (Env2 lib rows cols t (pre p) s).reverse k nil (by simp; omega), bfold2]
    have a2 : g2 (tensorOps lib rows cols) rows cols t p s k =
        (Env2 lib rows cols t (next p) s).getD k nil := e2_get p (nearer (next p) s) k hk'
    have a1 : g1 (tensorOps lib rows cols) rows cols t p s k =
        (Env2 lib rows cols t (pre p) s).getD (span rows cols p - 1 - k) nil :=
      e1_get p (nearer (pre p) s) k hk'
    have c2 := cell_fsite (rows := rows) (cols := cols) p (nearer (next p) s) k (nearer_lt _ _ _ hs)
    have c1 := cell_fsite (rows := rows) (cols := cols) p (nearer (pre p) s) k (nearer_lt _ _ _ hs)
    rw [lay_pre p s hs] at c1
    rw [a2, a1, c1, c2]
    congr 1
    · simp [frow, List.getD, width_next, hk']
    · simp [frow, List.getD, width_next, hk']
    · rw [List.getD_eq_getElem?_getD, List.getD_eq_getElem?_getD, List.getElem?_reverse (by omega)]
      congr 2
      omega

theorem depth_pre2 (p : Pos) (s : ℕ) (hs : s + 1 < width rows cols p) :
    depth rows cols (pre p) (nearer (pre p) s) = span rows cols (next p) - 1 - (lay rows cols p s + 1) := by
  cases p <;> simp only [lay, depth, pre, next, nearer, span, width] at * <;> omega

/-- the contraction of two whole slices -/
theorem cut2_zero (hl : Lossless lib) (hn : Net rows cols t dh dv) (p : Pos) (s : ℕ)
    (hs : s + 1 < width rows cols p) (hp : 0 < span rows cols p) :
    cut2 lib rows cols t p s 0 = through lib rows cols t dh dv (next p) (lay rows cols p s + 1) := by
  obtain ⟨h2, h1⟩ := Env2_shp hl hn p s hs hp
  have hd := lay_lt p s hs
  have h3 := frow_rshp hn (next p) (lay rows cols p s) (by omega)
  have h3' := frow_rshp hn (next p) (lay rows cols p s + 1) hd
  have h4 := h1.reverse
  rw [List.reverse_reverse] at h4
  have l1 := h1.length
  rw [List.length_reverse] at l1
  obtain ⟨f1, f2⟩ := bfold2_spec p _ _ _ _ 1 1 1 1 _ _ _ h2 h3 h3' h4
  have hb := benv2_bfold2 hl hn p s hs hp (span rows cols p) 0 (by omega)
  simp only [List.drop_zero] at hb
  have hc : benv2 (tensorOps lib rows cols) rows cols t p s 0 = corner [1, 1, 1, 1] := by
    rw [benv2_zero, bten20_eq, g1_shape hl hn p s 0 hs hp, g2_shape hl hn p s 0 hs hp]
    have b2 := h2.get.1
    have b1 : bond (Env2 lib rows cols t (pre p) s) (span rows cols p - 0) = 1 := by
      rw [Nat.sub_zero, ← width_next, ← fvl_length (dh := dh) (dv := dv) (next p)
        (lay rows cols p s + 2), ← l1]
      exact bond_length _
    rw [b1, b2]
    rfl
  rw [cut2, hb, hc, dot4_eq (c := corner [1, 1, 1, 1]) rfl f1]
  simp only [Finset.range_one, Finset.sum_singleton, Finset.singleton_product_singleton]
  rw [f2 0 (by omega) 0 (by omega) 0 (by omega) 0 (by omega), through]
  have : (corner (𝕜 := 𝕜) [1, 1, 1, 1]).elem [0, 0, 0, 0] = 1 := by simp [corner]
  rw [this, one_mul, Finset.sum_comm]
  have hw : 0 < width rows cols (next p) := by rwa [width_next]
  have ev := env_value_succ hl hn (next p) hw (lay rows cols p s) (by omega)
  rw [Finset.sum_comm (s := box (fvl rows cols dh dv (next p) (lay rows cols p s + 1)))]
  refine Finset.sum_congr rfl fun xs hxs => ?_
  have hr : mvr (Env2 lib rows cols t (pre p) s).reverse xs 0 =
      mv (env (tensorOps lib rows cols) rows cols t (opposite (next p))
        (span rows cols (next p) - 1 - (lay rows cols p s + 1))) xs.reverse 0 := by
    have := mvr_reverse (xs := xs.reverse) h1 (by rw [List.length_reverse, length_of_mem hxs, l1])
    rw [List.reverse_reverse] at this
    rw [this, Env2, Env, depth_pre2 p s hs, pre_eq]
  rw [hr]
  simp only [← Finset.sum_mul]
  congr 1
  simp only [Finset.mul_sum]
  rw [Finset.sum_comm]
  refine Finset.sum_congr rfl fun zs hzs => ?_
  rw [ev zs hzs, Finset.sum_mul]
  refine Finset.sum_congr rfl fun ys _ => ?_
  rw [mul_assoc]

/-- Wherever two slices are cut, the contraction is that of the whole network. -/
theorem cut2_eq (hl : Lossless lib) (hn : Net rows cols t dh dv) (p : Pos) (s : ℕ)
    (hs : s + 1 < width rows cols p) (k : ℕ) (hk : k ≤ span rows cols p) (hp : 0 < span rows cols p) :
    cut2 lib rows cols t p s k = meet lib rows cols t dh dv (next p) (span rows cols (next p)) := by
  have hd := lay_lt p s hs
  rw [cut2_eq_zero hl hn p s hs k hk, cut2_zero hl hn p s hs hp,
    through_eq hl hn _ (by rwa [width_next]) _ hd, meet_eq hl hn _ (by rwa [width_next]) _ hd.le]

theorem cut2_left {dim : Bond .obc rows cols → ℕ} (hl : Lossless lib) (hf : Spec.Fits t dim) (s k : ℕ)
    (hs : s + 1 < rows) (hk : k ≤ cols) (hc : 0 < cols) :
    cut2 lib rows cols t .left s k = Spec.value dim t := by
  have hn := net_of_fits hf
  rw [cut2_eq hl hn .left s hs k hk hc]
  exact (meet_grid hl hn .down hc).trans (grid_down dim)

theorem cut2_up {dim : Bond .obc rows cols → ℕ} (hl : Lossless lib) (hf : Spec.Fits t dim) (s k : ℕ)
    (hs : s + 1 < cols) (hk : k ≤ rows) (hc : 0 < rows) :
    cut2 lib rows cols t .up s k = Spec.value dim t := by
  have hn := net_of_fits hf
  rw [cut2_eq hl hn .up s hs k hk hc]
  exact (meet_grid hl hn .left hc).trans (grid_left dim)

end

end QLPeps.Bmps
