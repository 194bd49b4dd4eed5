import Verif.Lemmas.BmpsAbsorb
import Verif.Lemmas.ContractorBTen
import Verif.Lemmas.ContractorCount

/-! # Boundary MPS and boundary tensors of a network -/

namespace QLPeps.Bmps

open QLPeps.Contractor QLPeps.Sweep QLPeps.Box
open QLPeps.Peps (Tn Lib rot contract contractN transpose)
open QLPeps.Peps.Spec (Exact Valid)
open QLPeps.Bmps.Spec (Lossless)

noncomputable section

variable {𝕜 : Type*} [RCLike 𝕜]

/-- bond dimensions of a network: `dh r c` west of site `(r, c)`, `dv r c` north of it -/
structure Net (rows cols : ℕ) (t : Site → Tn 𝕜) (dh dv : ℕ → ℕ → ℕ) : Prop where
  shape : ∀ r < rows, ∀ c < cols, (t (r, c)).shape = [dh r c, dv (r + 1) c, dh r (c + 1), dv r c]
  west : ∀ r < rows, dh r 0 = 1
  east : ∀ r < rows, dh r cols = 1
  north : ∀ c < cols, dv 0 c = 1
  south : ∀ c < cols, dv rows c = 1

section frame

variable (rows cols : ℕ) (dh dv : ℕ → ℕ → ℕ)

/-- `i`-th site in storage order of layer `k` of side `q` -/
def fsite (q : Pos) (k i : ℕ) : Site :=
  match q with
  | .down => (rows - 1 - k, i)
  | .up => (k, cols - 1 - i)
  | .left => (i, k)
  | .right => (rows - 1 - i, cols - 1 - k)

/-- dimension of the bond before the `i`-th site of layer `k` -/
def fh (q : Pos) (k i : ℕ) : ℕ :=
  match q with
  | .down => dh (rows - 1 - k) i
  | .up => dh k (cols - i)
  | .left => dv i k
  | .right => dv (rows - i) (cols - 1 - k)

/-- dimension of the bond on side `q` of the `i`-th site of layer `k` -/
def fv (q : Pos) (k i : ℕ) : ℕ :=
  match q with
  | .down => dv (rows - k) i
  | .up => dv k (cols - 1 - i)
  | .left => dh i k
  | .right => dh (rows - 1 - i) (cols - k)

/-- the dimensions on side `q` of layer `k` -/
def fvl (q : Pos) (k : ℕ) : List ℕ := (List.range (width rows cols q)).map (fv rows cols dh dv q k)

/-- layer `k` in storage order -/
def frow (t : Site → Tn 𝕜) (q : Pos) (k : ℕ) : List (Tn 𝕜) :=
  (List.range (width rows cols q)).map fun i => t (fsite rows cols q k i)

end frame

variable {rows cols : ℕ} {t : Site → Tn 𝕜} {dh dv : ℕ → ℕ → ℕ}

theorem fsite_shape (hn : Net rows cols t dh dv) (q : Pos) (k i : ℕ) (hk : k < span rows cols q)
    (hi : i < width rows cols q) :
    FShape q (t (fsite rows cols q k i)) (fh rows cols dh dv q k i) (fv rows cols dh dv q k i)
      (fh rows cols dh dv q k (i + 1)) (fv rows cols dh dv q (k + 1) i) := by
  cases q <;> simp only [FShape, fsite, fh, fv, span, width] at * <;>
    rw [hn.shape _ (by omega) _ (by omega)]
  · rw [show rows - 1 - k + 1 = rows - k by omega, show rows - (k + 1) = rows - 1 - k by omega]
  · rw [show rows - 1 - i + 1 = rows - i by omega, show rows - (i + 1) = rows - 1 - i by omega,
      show cols - 1 - k + 1 = cols - k by omega, show cols - (k + 1) = cols - 1 - k by omega]
  · rw [show cols - 1 - i + 1 = cols - i by omega, show cols - (i + 1) = cols - 1 - i by omega]

theorem rshp_map (p : Pos) (f : ℕ → Tn 𝕜) (h v v' : ℕ → ℕ) (n : ℕ) : ∀ i,
    (∀ j, i ≤ j → j < i + n → FShape p (f j) (h j) (v j) (h (j + 1)) (v' j)) → h (i + n) = 1 →
    RShp p ((List.range' i n).map f) (h i) ((List.range' i n).map v) ((List.range' i n).map v') := by
  induction n with
  | zero => intro i _ h2; exact ⟨h2, rfl, rfl⟩
  | succ n ih =>
    intro i h1 h2
    refine ⟨v i, h (i + 1), v' i, _, _, rfl, rfl, h1 i le_rfl (by omega), ih (i + 1) ?_ ?_⟩
    · intro j hj hj'; exact h1 j (by omega) (by omega)
    · rw [← h2]; congr 1; omega

theorem frow_rshp (hn : Net rows cols t dh dv) (q : Pos) (k : ℕ) (hk : k < span rows cols q) :
    RShp q (frow rows cols t q k) 1 (fvl rows cols dh dv q k) (fvl rows cols dh dv q (k + 1)) := by
  have h0 : fh rows cols dh dv q k 0 = 1 := by
    cases q <;> simp only [fh, span] at *
    · exact hn.north k hk
    · exact hn.west _ (by omega)
    · exact hn.south _ (by omega)
    · exact hn.east _ (by omega)
  have h1 : fh rows cols dh dv q k (0 + width rows cols q) = 1 := by
    rw [Nat.zero_add]
    cases q <;> simp only [fh, span, width] at *
    · exact hn.south k hk
    · exact hn.east _ (by omega)
    · rw [Nat.sub_self]; exact hn.north _ (by omega)
    · rw [Nat.sub_self]; exact hn.west _ (by omega)
  have := rshp_map q (fun i => t (fsite rows cols q k i)) (fh rows cols dh dv q k)
    (fv rows cols dh dv q k) (fv rows cols dh dv q (k + 1)) (width rows cols q) 0
    (fun j _ hj => fsite_shape hn q k j hk (by omega)) h1
  rw [h0] at this
  simpa only [frow, fvl, List.range_eq_range'] using this

theorem fvl_zero (hn : Net rows cols t dh dv) (q : Pos) :
    fvl rows cols dh dv q 0 = List.replicate (width rows cols q) 1 := by
  rw [fvl, List.eq_replicate_iff]
  refine ⟨by simp, fun b hb => ?_⟩
  obtain ⟨i, hi, rfl⟩ := List.mem_map.1 hb
  rw [List.mem_range] at hi
  cases q <;> simp only [fv, width] at *
  · exact hn.west _ hi
  · exact hn.south _ hi
  · exact hn.east _ (by omega)
  · exact hn.north _ (by omega)

theorem fvl_opposite (q : Pos) (k : ℕ) (hk : k ≤ span rows cols q) :
    fvl rows cols dh dv (opposite q) (span rows cols q - k) = (fvl rows cols dh dv q k).reverse := by
  rw [fvl, fvl, reverse_range_map]
  have hw : width rows cols (opposite q) = width rows cols q := by cases q <;> rfl
  rw [hw]
  refine List.map_congr_left fun i hi => ?_
  rw [List.mem_range] at hi
  cases q <;> simp only [fv, opposite, span, width] at *
  · rw [show cols - (cols - k) = k by omega]
  · rw [show rows - 1 - (rows - 1 - i) = i by omega]
  · rw [show rows - (rows - k) = k by omega, show cols - 1 - (cols - 1 - i) = i by omega]

theorem fsite_opposite (q : Pos) (k i : ℕ) (hk : k < span rows cols q) (hi : i < width rows cols q) :
    fsite rows cols (opposite q) (span rows cols q - 1 - k) i =
      fsite rows cols q k (width rows cols q - 1 - i) := by
  cases q <;> simp only [fsite, opposite, span, width] at * <;> ext <;> simp only <;> omega

theorem frow_opposite (q : Pos) (k : ℕ) (hk : k < span rows cols q) :
    frow rows cols t (opposite q) (span rows cols q - 1 - k) = (frow rows cols t q k).reverse := by
  rw [frow, frow, reverse_range_map]
  have hw : width rows cols (opposite q) = width rows cols q := by cases q <;> rfl
  rw [hw]
  refine List.map_congr_left fun i hi => ?_
  rw [fsite_opposite q k i hk (List.mem_range.1 hi)]

theorem frow_eq (q : Pos) (k : ℕ) :
    reverseIfNeeded q (layer rows cols t q k) = frow rows cols t q k := by
  cases q
  · rfl
  · rfl
  · exact reverse_range_map _ _
  · exact reverse_range_map _ _

/-! ## boundary MPS -/

section env

variable {lib : Lib 𝕜}

theorem shp_corner (n : ℕ) : Shp (List.replicate n (corner (𝕜 := 𝕜) [1, 1, 1])) 1
    (List.replicate n 1) := by
  induction n with
  | zero => exact ⟨rfl, rfl⟩
  | succ n ih => exact ⟨1, 1, _, rfl, rfl, ih⟩

theorem mv_corner (n : ℕ) : mv (List.replicate n (corner (𝕜 := 𝕜) [1, 1, 1]))
    (List.replicate n 0) 0 = 1 := by
  induction n with
  | zero => rfl
  | succ n ih =>
    rw [List.replicate_succ, List.replicate_succ, mv]
    change ∑ b ∈ Finset.range 1, _ = _
    rw [Finset.range_one, Finset.sum_singleton, ih]
    simp [corner]

theorem Shp.length {es : List (Tn 𝕜)} : ∀ {a : ℕ} {ds : List ℕ}, Shp es a ds →
    es.length = ds.length := by
  induction es with
  | nil => rintro a ds ⟨_, rfl⟩; rfl
  | cons e es ih =>
    rintro a ds ⟨_, _, _, rfl, _, h⟩
    simp [ih h]

theorem RShp.length {p : Pos} {ts : List (Tn 𝕜)} : ∀ {a : ℕ} {ds fs : List ℕ}, RShp p ts a ds fs →
    ts.length = ds.length ∧ ts.length = fs.length := by
  induction ts with
  | nil => rintro a ds fs ⟨_, rfl, rfl⟩; exact ⟨rfl, rfl⟩
  | cons e es ih =>
    rintro a ds fs ⟨_, _, _, _, _, rfl, rfl, _, h⟩
    simp [(ih h).1]
    have := ih h
    omega

theorem env_spec (hl : Shaped lib) (hn : Net rows cols t dh dv) (q : Pos)
    (hw : 0 < width rows cols q) (k : ℕ) (hk : k ≤ span rows cols q) :
    Shp (env (tensorOps lib rows cols) rows cols t q k) 1 (fvl rows cols dh dv q k) := by
  induction k with
  | zero =>
    rw [fvl_zero hn]
    exact shp_corner _
  | succ k ih =>
    rw [env_succ]
    have h := ih (by omega)
    have hne : env (tensorOps lib rows cols) rows cols t q k ≠ [] := by
      intro h0
      have := h.length
      rw [h0] at this
      simp [fvl] at this
      omega
    have := hl q _ _ _ _ h (frow_rshp hn q k (by omega)) hne
    change Shp (multiplyMPO lib q _ _) 1 _
    rw [multiplyMPO, frow_eq]
    exact this

theorem env_value_succ (hl : Lossless lib) (hn : Net rows cols t dh dv) (q : Pos)
    (hw : 0 < width rows cols q) (k : ℕ) (hk : k < span rows cols q) :
    ∀ ys ∈ box (fvl rows cols dh dv q (k + 1)),
      mv (env (tensorOps lib rows cols) rows cols t q (k + 1)) ys 0 =
        ∑ xs ∈ box (fvl rows cols dh dv q k),
          mv (env (tensorOps lib rows cols) rows cols t q k) xs 0 *
            rv q (frow rows cols t q k) xs ys 0 := by
  rw [env_succ]
  have h := env_spec hl.shaped hn q hw k (by omega)
  have hne : env (tensorOps lib rows cols) rows cols t q k ≠ [] := by
    intro h0
    have := h.length
    rw [h0] at this
    simp [fvl] at this
    omega
  have := mul_spec hl q _ _ _ _ h (frow_rshp hn q k (by omega)) hne
  change ∀ ys ∈ _, mv (multiplyMPO lib q _ _) ys 0 = _
  rw [multiplyMPO, frow_eq]
  exact this.2

theorem env_value_zero (q : Pos) :
    mv (env (tensorOps lib rows cols) rows cols t q 0) (List.replicate (width rows cols q) 0) 0 = 1 :=
  mv_corner _

/-- the contraction of the boundary MPS of two opposite sides -/
def meet (lib : Lib 𝕜) (rows cols : ℕ) (t : Site → Tn 𝕜) (dh dv : ℕ → ℕ → ℕ) (q : Pos) (k : ℕ) : 𝕜 :=
  ∑ xs ∈ box (fvl rows cols dh dv q k), mv (env (tensorOps lib rows cols) rows cols t q k) xs 0 *
    mv (env (tensorOps lib rows cols) rows cols t (opposite q) (span rows cols q - k)) xs.reverse 0

/-- the contraction through layer `k` -/
def through (lib : Lib 𝕜) (rows cols : ℕ) (t : Site → Tn 𝕜) (dh dv : ℕ → ℕ → ℕ) (q : Pos) (k : ℕ) :
    𝕜 :=
  ∑ xs ∈ box (fvl rows cols dh dv q k), ∑ ys ∈ box (fvl rows cols dh dv q (k + 1)),
    mv (env (tensorOps lib rows cols) rows cols t q k) xs 0 * rv q (frow rows cols t q k) xs ys 0 *
    mv (env (tensorOps lib rows cols) rows cols t (opposite q) (span rows cols q - 1 - k)) ys.reverse 0

theorem through_eq_succ (hl : Lossless lib) (hn : Net rows cols t dh dv) (q : Pos)
    (hw : 0 < width rows cols q) (k : ℕ) (hk : k < span rows cols q) :
    through lib rows cols t dh dv q k = meet lib rows cols t dh dv q (k + 1) := by
  rw [through, meet, Finset.sum_comm]
  refine Finset.sum_congr rfl fun ys hys => ?_
  rw [env_value_succ hl hn q hw k hk ys hys, Finset.sum_mul,
    show span rows cols q - (k + 1) = span rows cols q - 1 - k by omega]

theorem width_opposite (q : Pos) : width rows cols (opposite q) = width rows cols q := by
  cases q <;> rfl

theorem through_eq (hl : Lossless lib) (hn : Net rows cols t dh dv) (q : Pos)
    (hw : 0 < width rows cols q) (k : ℕ) (hk : k < span rows cols q) :
    through lib rows cols t dh dv q k = meet lib rows cols t dh dv q k := by
  rw [through, meet]
  refine Finset.sum_congr rfl fun xs hxs => ?_
  have hmem : xs.reverse ∈ box (fvl rows cols dh dv (opposite q) (span rows cols q - 1 - k + 1)) := by
    rw [show span rows cols q - 1 - k + 1 = span rows cols q - k by omega, fvl_opposite q k hk.le]
    exact reverse_mem_box.2 hxs
  have h2 := env_value_succ hl hn (opposite q) (by rwa [width_opposite]) (span rows cols q - 1 - k)
    (by rw [span_opposite]; omega) _ hmem
  rw [show span rows cols q - 1 - k + 1 = span rows cols q - k by omega] at h2
  rw [h2, Finset.mul_sum,
    show span rows cols q - 1 - k = span rows cols q - (k + 1) by omega,
    fvl_opposite q (k + 1) hk, sum_box_reverse]
  refine Finset.sum_congr rfl fun ys hys => ?_
  rw [show span rows cols q - (k + 1) = span rows cols q - 1 - k by omega,
    frow_opposite q k hk]
  have hr := frow_rshp hn q k hk
  rw [rv_reverse hr ((length_of_mem hxs).trans hr.length.1.symm)
    ((length_of_mem hys).trans hr.length.2.symm)]
  ring

/-- the contraction does not depend on where the two boundary MPS meet -/
theorem meet_eq (hl : Lossless lib) (hn : Net rows cols t dh dv) (q : Pos)
    (hw : 0 < width rows cols q) (k : ℕ) (hk : k ≤ span rows cols q) :
    meet lib rows cols t dh dv q k = meet lib rows cols t dh dv q (span rows cols q) := by
  obtain ⟨m, hm⟩ : ∃ m, span rows cols q = k + m := ⟨span rows cols q - k, by omega⟩
  induction m generalizing k with
  | zero => rw [hm]; rfl
  | succ m ih =>
    rw [← through_eq hl hn q hw k (by omega), through_eq_succ hl hn q hw k (by omega)]
    exact ih (k + 1) (by omega) (by omega)

/-- everything that the boundary MPS of side `q` adds up to -/
theorem meet_top (hl : Lossless lib) (hn : Net rows cols t dh dv) (q : Pos)
    (hw : 0 < width rows cols q) :
    meet lib rows cols t dh dv q (span rows cols q) =
      ∑ v ∈ Fintype.piFinset fun k : Fin (span rows cols q + 1) => box (fvl rows cols dh dv q k),
        ∏ k : Fin (span rows cols q), rv q (frow rows cols t q k) (v k.castSucc) (v k.succ) 0 := by
  have h0 : ∀ k ≤ span rows cols q, ∀ xs ∈ box (fvl rows cols dh dv q k),
      mv (env (tensorOps lib rows cols) rows cols t q k) xs 0 =
        lvec (fun k => box (fvl rows cols dh dv q k))
          (fun k xs ys => rv q (frow rows cols t q k) xs ys 0) k xs := by
    intro k
    induction k with
    | zero =>
      intro _ xs hxs
      rw [fvl_zero hn, box_ones, Finset.mem_singleton] at hxs
      rw [hxs, env_value_zero]; rfl
    | succ k ih =>
      intro hk xs hxs
      rw [env_value_succ hl hn q hw k hk xs hxs]
      exact Finset.sum_congr rfl fun ys hys => by rw [ih (by omega) ys hys]
  have := sum_lvec (fun k => box (fvl rows cols dh dv q k))
    (fun k xs ys => rv q (frow rows cols t q k) xs ys 0) (span rows cols q) (fun _ => (1 : 𝕜))
  simp only [mul_one] at this
  rw [← this, meet]
  refine Finset.sum_congr rfl fun xs hxs => ?_
  rw [h0 _ le_rfl xs hxs]
  have h1 := fvl_opposite (rows := rows) (cols := cols) (dh := dh) (dv := dv) q (span rows cols q) le_rfl
  rw [Nat.sub_self, fvl_zero hn, width_opposite] at h1
  have h2 := reverse_mem_box.2 hxs
  rw [← h1, box_ones, Finset.mem_singleton] at h2
  rw [h2, Nat.sub_self]
  have h3 := env_value_zero (lib := lib) (rows := rows) (cols := cols) (t := t) (opposite q)
  rw [width_opposite] at h3
  rw [h3, mul_one]

end env

end

end QLPeps.Bmps
