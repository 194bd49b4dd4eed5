import Verif.Props.BmpsQuasi
import Verif.Props.BmpsErr

/-!
# Traces in different rows under truncation

Property C154.
-/

namespace QLPeps.BmpsRows

open QLPeps.Contractor QLPeps.Sweep QLPeps.Box QLPeps.Bmps QLPeps.Bmps.Spec QLPeps.BmpsVar QLPeps.BmpsVar.Spec QLPeps.BmpsErr QLPeps.BmpsErr.Spec
open QLPeps.BmpsCano.Spec (Rank)
open QLPeps.BmpsQuasi (bond svd_quasi_max rank_mono rank_mps)
open QLPeps.Peps (Tn Lib sumCoors truncLib)
open QLPeps.Tps.Spec (Bond)

noncomputable section

variable {𝕜 : Type*} [RCLike 𝕜] {lib : Lib 𝕜}

theorem normSq_two (φ : List ℕ → 𝕜) : normSq [2, 2] φ = ‖φ [0, 0]‖ ^ 2 + ‖φ [0, 1]‖ ^ 2 + (‖φ [1, 0]‖ ^ 2 + ‖φ [1, 1]‖ ^ 2) := by
  simp [normSq, sumCoors, Finset.sum_range_succ]

/-- a matrix of rank one that is as close to a diagonal matrix as the largest entry is this entry -/
theorem closest {a b c d : 𝕜} {l s : ℝ} (hs : 0 ≤ s) (hl : s < l) (hr : a * b = c * d)
    (h : ‖(l : 𝕜) - a‖ ^ 2 + ‖(s : 𝕜) - b‖ ^ 2 + ‖c‖ ^ 2 + ‖d‖ ^ 2 ≤ s ^ 2) : a = l ∧ b = 0 ∧ c = 0 ∧ d = 0 := by
  have h1 : (l - ‖a‖) ^ 2 ≤ ‖(l : 𝕜) - a‖ ^ 2 := by
    have := abs_norm_sub_norm_le (l : 𝕜) a
    rw [RCLike.norm_ofReal, abs_of_nonneg (hs.trans hl.le)] at this
    rw [← sq_abs (l - ‖a‖)]
    exact pow_le_pow_left₀ (abs_nonneg _) this 2
  have h2 : (s - ‖b‖) ^ 2 ≤ ‖(s : 𝕜) - b‖ ^ 2 := by
    have := abs_norm_sub_norm_le (s : 𝕜) b
    rw [RCLike.norm_ofReal, abs_of_nonneg hs] at this
    rw [← sq_abs (s - ‖b‖)]
    exact pow_le_pow_left₀ (abs_nonneg _) this 2
  have h3 : ‖a‖ * ‖b‖ = ‖c‖ * ‖d‖ := by rw [← norm_mul, hr, norm_mul]
  have h4 := sq_nonneg (‖c‖ - ‖d‖)
  have h5 := sq_nonneg (‖a‖ + ‖b‖ - l)
  have hb := norm_nonneg b
  have h6 : (l - s) * ‖b‖ ≤ 0 := by nlinarith
  have h7 : ‖b‖ = 0 := le_antisymm (by nlinarith) hb
  have hb0 : b = 0 := norm_eq_zero.1 h7
  rw [hb0, sub_zero, RCLike.norm_ofReal, sq_abs] at h
  have k1 := sq_nonneg ‖(l : 𝕜) - a‖
  have k2 := sq_nonneg ‖c‖
  have k3 := sq_nonneg ‖d‖
  have e1 : ‖(l : 𝕜) - a‖ = 0 := pow_eq_zero_iff (two_ne_zero) |>.1 (by linarith)
  have e2 : ‖c‖ = 0 := pow_eq_zero_iff (two_ne_zero) |>.1 (by linarith)
  have e3 : ‖d‖ = 0 := pow_eq_zero_iff (two_ne_zero) |>.1 (by linarith)
  exact ⟨(sub_eq_zero.1 (norm_eq_zero.1 e1)).symm, hb0, norm_eq_zero.1 e2, norm_eq_zero.1 e3⟩

theorem rank_minor {φ : List ℕ → 𝕜} (h : Rank [2, 2] 1 1 φ) : φ [0, 0] * φ [1, 1] = φ [0, 1] * φ [1, 0] := by
  obtain ⟨f, g, h⟩ := h
  have e : ∀ i < 2, ∀ j < 2, φ [i, j] = f 0 [i] * g 0 [j] := by
    intro i hi j hj
    have := h [i] [j] (.cons hi .nil) (.cons hj .nil)
    simpa using this
  rw [e 0 (by omega) 0 (by omega), e 1 (by omega) 1 (by omega), e 0 (by omega) 1 (by omega), e 1 (by omega) 0 (by omega)]
  ring

/-- two tensors with a diagonal product: only its largest entry is left -/
theorem largest_left (hf : Factorizations lib) (hL : KeepsLargest lib 1) {p : Pos} {mps mpo : List (Tn 𝕜)} {ds : List ℕ}
    (h1 : IsMps mps 1 ds) (h2 : IsMpo p (inOrder p mpo) 1 ds [2, 2]) (hn : mps.length = 2) {w : ℕ → ℝ}
    (hw : ∀ i < 2, ∀ j < 2, product p mps (inOrder p mpo) ds [i, j] = if i = j then (w i : 𝕜) else 0) :
    (0 ≤ w 1 → w 1 < w 0 → ∀ i < 2, ∀ j < 2, amp (multiplyMPO lib p mps mpo) [i, j] 0 = if i = 0 ∧ j = 0 then (w 0 : 𝕜) else 0) ∧
    (0 ≤ w 0 → w 0 < w 1 → ∀ i < 2, ∀ j < 2, amp (multiplyMPO lib p mps mpo) [i, j] 0 = if i = 1 ∧ j = 1 then (w 1 : 𝕜) else 0) := by
  have hne : mps ≠ [] := by rintro rfl; simp at hn
  obtain ⟨f, rest, B, c1, c2, -, c4, -⟩ := svd_best hf p h1 h2 hne
  have hr : Rank [2, 2] 1 1 fun ys => amp (multiplyMPO lib p mps mpo) ys 0 := by
    rw [c1]
    have hlen := Shp.length ((isMps_iff _ _ _).1 c2)
    rw [List.length_cons] at hlen
    obtain ⟨g, rfl⟩ := List.length_eq_one_iff.1 (by simpa using hlen)
    exact rank_mono (c4 1 (fun t _ => hL.dim t 1) g (by simp)) (rank_mps c2 (by simp))
  have hq := fun χ (hχ : Rank [2, 2] 1 1 χ) => svd_quasi_max hf hL h1 h2 hne χ fun i hi hi' => by
    obtain rfl : i = 1 := by omega
    exact hχ
  simp only [hn, normSq_two, hw 0 (by omega) 0 (by omega), hw 0 (by omega) 1 (by omega), hw 1 (by omega) 0 (by omega), hw 1 (by omega) 1 (by omega)] at hq
  have hm := rank_minor hr
  generalize multiplyMPO lib p mps mpo = es at *
  constructor
  · intro h0 h1
    have := hq (fun ys => if ys = [0, 0] then (w 0 : 𝕜) else 0) ⟨fun _ x => if x = [0] then (w 0 : 𝕜) else 0, fun _ y => if y = [0] then 1 else 0, fun x y hx hy => by
      obtain ⟨i, rfl⟩ := List.length_eq_one_iff.1 hx.length_eq
      obtain ⟨j, rfl⟩ := List.length_eq_one_iff.1 hy.length_eq
      by_cases hi : i = 0 <;> by_cases hj : j = 0 <;> simp [hi, hj]⟩
    obtain ⟨k1, k2, k3, k4⟩ := closest h0 h1 hm (by simp at this; linarith)
    intro i hi j hj
    interval_cases i <;> interval_cases j <;> simp [k1, k2, k3, k4]
  · intro h0 h1
    have := hq (fun ys => if ys = [1, 1] then (w 1 : 𝕜) else 0) ⟨fun _ x => if x = [1] then (w 1 : 𝕜) else 0, fun _ y => if y = [1] then 1 else 0, fun x y hx hy => by
      obtain ⟨i, rfl⟩ := List.length_eq_one_iff.1 hx.length_eq
      obtain ⟨j, rfl⟩ := List.length_eq_one_iff.1 hy.length_eq
      by_cases hi : i = 1 <;> by_cases hj : j = 1 <;> simp [hi, hj]⟩
    obtain ⟨k1, k2, k3, k4⟩ := closest h0 h1 ((mul_comm _ _).trans hm) (by simp at this; linarith)
    intro i hi j hj
    interval_cases i <;> interval_cases j <;> simp [k1, k2, k3, k4]

/-- two rows, each with two pairs of equal legs towards the other row, of the weights 2, 1 and 1, 3 -/
def pairs (s : QLPeps.Site) (x : List ℕ) : 𝕜 :=
  match s, x with
  | (0, 0), [_, d, h, _] => if d = h then (if d = 0 then 2 else 1) else 0
  | (0, 1), [h, d, _, _] => if d = h then 1 else 0
  | (1, 0), [_, _, h, u] => if u = h then (if u = 0 then 1 else 3) else 0
  | (1, 1), [h, _, _, u] => if u = h then 1 else 0
  | _, _ => 0

theorem trace_row (hf : Factorizations lib) (r : ℕ) (hr : r < 2) (f : QLPeps.Site → List ℕ → 𝕜) :
    bondAmp (tensorOps lib 2 2) 2 2 (twoNet 2 2 f) .horizontal (r, 0) (r, 1) =
      through lib 2 2 (twoNet 2 2 f) (dhOf (rows := 2) (cols := 2) twoDim) (dvOf (rows := 2) (cols := 2) twoDim) .down (depth 2 2 .down r) := by
  have hn := net_of_fits (twoNet_fits (rows := 2) (cols := 2) f)
  rw [bond_horizontal r 0 (by omega), cut_eq_zero (shaped hf) hn .left r hr _ (by simp [span])]
  exact cut_zero (shaped hf) hn .left r hr (by simp [span])

/-- the boundary MPS of one row -/
theorem one_row (hf : Factorizations lib) (hL : KeepsLargest lib 1) (f : QLPeps.Site → List ℕ → 𝕜) (q : Pos) (hq : q = .up ∨ q = .down) {w : ℕ → ℝ}
    (hw : ∀ i < 2, ∀ j < 2, rowAmp q (frow 2 2 (twoNet 2 2 f) q 0) [0, 0] [i, j] 0 = if i = j then (w i : 𝕜) else 0) :
    (0 ≤ w 1 → w 1 < w 0 → ∀ i < 2, ∀ j < 2, mv (env (tensorOps lib 2 2) 2 2 (twoNet 2 2 f) q 1) [i, j] 0 = if i = 0 ∧ j = 0 then (w 0 : 𝕜) else 0) ∧
    (0 ≤ w 0 → w 0 < w 1 → ∀ i < 2, ∀ j < 2, mv (env (tensorOps lib 2 2) 2 2 (twoNet 2 2 f) q 1) [i, j] 0 = if i = 1 ∧ j = 1 then (w 1 : 𝕜) else 0) := by
  have hn := net_of_fits (twoNet_fits (rows := 2) (cols := 2) f)
  have hwd : width 2 2 q = 2 := by cases q <;> rfl
  have hsp : span 2 2 q = 2 := by cases q <;> rfl
  have e0 : fvl 2 2 (dhOf (rows := 2) (cols := 2) twoDim) (dvOf (rows := 2) (cols := 2) twoDim) q 0 = [1, 1] := by
    rw [fvl_zero hn, hwd]; rfl
  have e1 : fvl 2 2 (dhOf (rows := 2) (cols := 2) twoDim) (dvOf (rows := 2) (cols := 2) twoDim) q 1 = [2, 2] := by
    rcases hq with rfl | rfl <;> rfl
  have hs := env_spec (shaped hf) hn q (by omega) 0 (by omega)
  have hr := frow_rshp hn q 0 (by omega)
  have hin : inOrder q (layer 2 2 (twoNet 2 2 f) q 0) = frow 2 2 (twoNet 2 2 f) q 0 := by rw [← reverse_eq, frow_eq]
  have hlen := hs.length
  rw [e0] at hs hr hlen
  rw [Nat.zero_add, e1] at hr
  have hm : ∀ ys, amp (multiplyMPO lib q (env (tensorOps lib 2 2) 2 2 (twoNet 2 2 f) q 0) (layer 2 2 (twoNet 2 2 f) q 0)) ys 0 =
      mv (env (tensorOps lib 2 2) 2 2 (twoNet 2 2 f) q 1) ys 0 := by
    intro ys
    rw [env_succ, amp_eq]
    rfl
  have hz : mv (env (tensorOps lib 2 2) 2 2 (twoNet 2 2 f) q 0) [0, 0] 0 = 1 := by
    have := env_value_zero (lib := lib) (rows := 2) (cols := 2) (t := twoNet 2 2 f) q
    rwa [hwd] at this
  have := largest_left hf hL (p := q) (mps := env (tensorOps lib 2 2) 2 2 (twoNet 2 2 f) q 0) (mpo := layer 2 2 (twoNet 2 2 f) q 0)
    ((isMps_iff _ _ _).2 hs) ((isMpo_iff _ _ _ _ _).2 (by rw [hin]; exact hr)) hlen (w := w) fun i hi j hj => by
      rw [hin, ← hw i hi j hj]
      simp [product, sumCoors, amp_eq, hz]
  simpa only [hm] using this

theorem two : ((2 : ℝ) : 𝕜) = 2 := RCLike.ofReal_ofNat 2

theorem three : ((3 : ℝ) : 𝕜) = 3 := RCLike.ofReal_ofNat 3

theorem zero_row (f : QLPeps.Site → List ℕ → 𝕜) (q : Pos) : mv (env (tensorOps lib 2 2) 2 2 (twoNet 2 2 f) q 0) [0, 0] 0 = 1 := by
  have := env_value_zero (lib := lib) (rows := 2) (cols := 2) (t := twoNet 2 2 f) q
  have hwd : width 2 2 q = 2 := by cases q <;> rfl
  rwa [hwd] at this

theorem low (i j : ℕ) (hi : i < 2) (hj : j < 2) : rowAmp .down (frow 2 2 (twoNet 2 2 (pairs (𝕜 := 𝕜))) .down 0) [0, 0] [i, j] 0 =
    if i = j then ((if i = 0 then 1 else 3 : ℝ) : 𝕜) else 0 := by
  interval_cases i <;> interval_cases j <;>
    simp [frow, fsite, width, rowAmp, order, twoNet, pairs, Finset.sum_range_succ, List.range_succ, two, three]

theorem high (i j : ℕ) (hi : i < 2) (hj : j < 2) : rowAmp .up (frow 2 2 (twoNet 2 2 (pairs (𝕜 := 𝕜))) .up 0) [0, 0] [i, j] 0 =
    if i = j then ((if i = 0 then 2 else 1 : ℝ) : 𝕜) else 0 := by
  interval_cases i <;> interval_cases j <;>
    simp [frow, fsite, width, rowAmp, order, twoNet, pairs, Finset.sum_range_succ, List.range_succ, two, three]

theorem high' (i j : ℕ) (hi : i < 2) (hj : j < 2) : rowAmp .down (frow 2 2 (twoNet 2 2 (pairs (𝕜 := 𝕜))) .down 1) [i, j] [0, 0] 0 =
    if i = j then ((if i = 0 then 2 else 1 : ℝ) : 𝕜) else 0 := by
  interval_cases i <;> interval_cases j <;>
    simp [frow, fsite, width, rowAmp, order, twoNet, pairs, Finset.sum_range_succ, List.range_succ, two, three]

theorem fvl_down (k : ℕ) (hk : k < 3) : fvl 2 2 (dhOf (rows := 2) (cols := 2) twoDim) (dvOf (rows := 2) (cols := 2) twoDim) .down k =
    if k = 1 then [2, 2] else [1, 1] := by
  interval_cases k <;> rfl

theorem through_low : through lib 2 2 (twoNet 2 2 (pairs (𝕜 := 𝕜))) (dhOf (rows := 2) (cols := 2) twoDim) (dvOf (rows := 2) (cols := 2) twoDim) .down 0 =
    mv (env (tensorOps lib 2 2) 2 2 (twoNet 2 2 pairs) .up 1) [0, 0] 0 + 3 * mv (env (tensorOps lib 2 2) 2 2 (twoNet 2 2 pairs) .up 1) [1, 1] 0 := by
  rw [through, fvl_down 0 (by omega), fvl_down 1 (by omega)]
  simp only [← sumCoors_box, ← layer_eq]
  simp [sumCoors, Finset.sum_range_succ, zero_row, low, span, opposite, two, three]

theorem through_high : through lib 2 2 (twoNet 2 2 (pairs (𝕜 := 𝕜))) (dhOf (rows := 2) (cols := 2) twoDim) (dvOf (rows := 2) (cols := 2) twoDim) .down 1 =
    mv (env (tensorOps lib 2 2) 2 2 (twoNet 2 2 pairs) .down 1) [0, 0] 0 * 2 + mv (env (tensorOps lib 2 2) 2 2 (twoNet 2 2 pairs) .down 1) [1, 1] 0 := by
  rw [through, fvl_down 1 (by omega), fvl_down 2 (by omega)]
  simp only [← sumCoors_box, ← layer_eq]
  simp [sumCoors, Finset.sum_range_succ, zero_row, high', span, opposite, two, three]

/-- C154: For every decomposition that keeps the largest singular value only, the traces in the two rows of this network differ
from each other and from its value. -/
theorem rows_disagree (hf : Factorizations lib) (hL : KeepsLargest lib 1) :
    bondAmp (tensorOps lib 2 2) 2 2 (twoNet 2 2 pairs) .horizontal (0, 0) (0, 1) = 3 ∧
    bondAmp (tensorOps lib 2 2) 2 2 (twoNet 2 2 pairs) .horizontal (1, 0) (1, 1) = 2 ∧
    value (rows := 2) (cols := 2) twoDim (twoNet 2 2 pairs : QLPeps.Site → Tn 𝕜) = 5 := by
  refine ⟨?_, ?_, ?_⟩
  · have := (one_row hf hL pairs .down (Or.inr rfl) (w := fun i => if i = 0 then 1 else 3) fun i hi j hj => low i j hi hj).2
      (by simp) (by norm_num)
    rw [trace_row hf 0 (by omega)]
    refine through_high.trans ?_
    rw [this 0 (by omega) 0 (by omega), this 1 (by omega) 1 (by omega)]
    simp [two, three]
  · have := (one_row hf hL pairs .up (Or.inl rfl) (w := fun i => if i = 0 then 2 else 1) fun i hi j hj => high i j hi hj).1
      (by simp) (by norm_num)
    rw [trace_row hf 1 (by omega)]
    refine through_low.trans ?_
    rw [this 0 (by omega) 0 (by omega), this 1 (by omega) 1 (by omega)]
    simp [two, three]
  · have hfit := twoNet_fits (rows := 2) (cols := 2) (pairs (𝕜 := 𝕜))
    have hn := net_of_fits hfit
    have h1 : value (rows := 2) (cols := 2) twoDim (twoNet 2 2 (pairs (𝕜 := 𝕜))) = through (QLPeps.Peps.idLib (𝕜 := 𝕜)) 2 2 (twoNet 2 2 pairs)
        (dhOf (rows := 2) (cols := 2) twoDim) (dvOf (rows := 2) (cols := 2) twoDim) .down (depth 2 2 .down 1) := by
      rw [← cut_left idLib_lossless hfit 1 0 (by omega) (by omega) (by omega)]
      exact cut_zero idLib_lossless.shaped hn .left 1 (by simp [width]) (by simp [span])
    rw [h1]
    refine through_low.trans ?_
    have e0 : fvl 2 2 (dhOf (rows := 2) (cols := 2) twoDim) (dvOf (rows := 2) (cols := 2) twoDim) .up 0 = [1, 1] := rfl
    have e1 : fvl 2 2 (dhOf (rows := 2) (cols := 2) twoDim) (dvOf (rows := 2) (cols := 2) twoDim) .up (0 + 1) = [2, 2] := rfl
    have := env_value_succ idLib_lossless hn .up (by simp [width]) 0 (by simp [span])
    rw [e0, e1] at this
    simp only [← sumCoors_box, ← layer_eq, zero_add] at this
    rw [this [0, 0] (by simp [mem_box]), this [1, 1] (by simp [mem_box])]
    simp [sumCoors, zero_row, high, two]
    norm_num

/-- C154: Traces in different rows differ in general, also if the truncation keeps the largest singular values: the amplitude of
a configuration depends on the row in which it is computed. -/
theorem rows_agree_false : ¬∀ (lib : Lib ℂ) (D : ℕ), Factorizations lib → 0 < D → KeepsLargest lib D → ∀ (rows cols : ℕ) (t : QLPeps.Site → Tn ℂ)
    (dim : Bond .obc rows cols → ℕ), Fits t dim → ∀ r r' c, r < rows → r' < rows → c + 1 < cols →
      bondAmp (tensorOps lib rows cols) rows cols t .horizontal (r, c) (r, c + 1) =
        bondAmp (tensorOps lib rows cols) rows cols t .horizontal (r', c) (r', c + 1) := by
  intro h
  have h1 := h (truncLib 1) 1 (Peps.truncLib_factorizations 1) (by omega) (Peps.truncLib_largest 1) 2 2 _ _ (twoNet_fits pairs) 0 1 0 (by omega) (by omega) (by omega)
  obtain ⟨a, b, -⟩ := rows_disagree (𝕜 := ℂ) (Peps.truncLib_factorizations 1) (Peps.truncLib_largest 1)
  rw [Nat.zero_add, a, b] at h1
  norm_num at h1

/-- C154: They differ by at most twice the bound of C146. Missing from the full statement: that they are equal; `rows_agree_false`
shows that it is wrong. -/
theorem rows_agree_partial {rows cols : ℕ} {t : QLPeps.Site → Tn 𝕜} {dim : Bond .obc rows cols → ℕ} (hl : Factorizations lib) {ε : ℝ} (hε : 0 ≤ ε)
    (hε1 : ε ≤ 1) (hd : Discards lib ε) (hf : Fits t dim) {τ : ℕ → ℝ} (hτ : ∀ r, 0 ≤ τ r) (hb : ∀ r < rows, RowBound cols t r (τ r))
    (r r' c c' : ℕ) (hr : r < rows) (hr' : r' < rows) (hc : c + 1 < cols) (hc' : c' + 1 < cols) :
    ‖bondAmp (tensorOps lib rows cols) rows cols t .horizontal (r, c) (r, c + 1) -
        bondAmp (tensorOps lib rows cols) rows cols t .horizontal (r', c') (r', c' + 1)‖ ≤
      2 * ((rows - 1 : ℕ) * Real.sqrt ((cols - 1 : ℕ) * ε) * ∏ r ∈ Finset.range rows, τ r) := by
  have h1 := row_error hl hε hε1 hd hf hτ hb r c hr hc
  have h2 := row_error hl hε hε1 hd hf hτ hb r' c' hr' hc'
  have h3 := norm_sub_le (value dim t - bondAmp (tensorOps lib rows cols) rows cols t .horizontal (r', c') (r', c' + 1))
    (value dim t - bondAmp (tensorOps lib rows cols) rows cols t .horizontal (r, c) (r, c + 1))
  rw [sub_sub_sub_cancel_left] at h3
  linarith

/-- C154: The same for a row and a column. -/
theorem row_col_agree_partial {rows cols : ℕ} {t : QLPeps.Site → Tn 𝕜} {dim : Bond .obc rows cols → ℕ} (hl : Factorizations lib) {ε : ℝ} (hε : 0 ≤ ε)
    (hε1 : ε ≤ 1) (hd : Discards lib ε) (hf : Fits t dim) {τ σ : ℕ → ℝ} (hτ : ∀ r, 0 ≤ τ r) (hb : ∀ r < rows, RowBound cols t r (τ r))
    (hσ : ∀ c, 0 ≤ σ c) (hb' : ∀ c < cols, ColBound rows t c (σ c))
    (r r' c c' : ℕ) (hr : r < rows) (hr' : r' + 1 < rows) (hc : c + 1 < cols) (hc' : c' < cols) :
    ‖bondAmp (tensorOps lib rows cols) rows cols t .horizontal (r, c) (r, c + 1) -
        bondAmp (tensorOps lib rows cols) rows cols t .vertical (r', c') (r' + 1, c')‖ ≤
      (rows - 1 : ℕ) * Real.sqrt ((cols - 1 : ℕ) * ε) * ∏ r ∈ Finset.range rows, τ r +
        (cols - 1 : ℕ) * Real.sqrt ((rows - 1 : ℕ) * ε) * ∏ c ∈ Finset.range cols, σ c := by
  have h1 := row_error hl hε hε1 hd hf hτ hb r c hr hc
  have h2 := col_error hl hε hε1 hd hf hσ hb' r' c' hr' hc'
  have h3 := norm_sub_le (value dim t - bondAmp (tensorOps lib rows cols) rows cols t .vertical (r', c') (r' + 1, c'))
    (value dim t - bondAmp (tensorOps lib rows cols) rows cols t .horizontal (r, c) (r, c + 1))
  rw [sub_sub_sub_cancel_left] at h3
  linarith

/-- a case -/
example (f : QLPeps.Site → List ℕ → ℂ) (ε : ℝ) (h0 : 0 ≤ ε) (h1 : ε ≤ 1) :
    ∃ C : ℝ, ∀ r < 4, ∀ r' < 4, ∀ c < 4, ‖bondAmp (tensorOps (QLPeps.BmpsVar.errLib ε) 4 5) 4 5 (twoNet 4 5 f) .horizontal (r, c) (r, c + 1) -
      bondAmp (tensorOps (QLPeps.BmpsVar.errLib ε) 4 5) 4 5 (twoNet 4 5 f) .horizontal (r', c) (r', c + 1)‖ ≤ 2 * (3 * Real.sqrt (4 * ε) * C) := by
  choose τ hτ hb using rowBound_frobenius 5 (twoNet 4 5 f)
  refine ⟨∏ r ∈ Finset.range 4, τ r, fun r hr r' hr' c hc => ?_⟩
  have := rows_agree_partial (QLPeps.BmpsVar.errLib_factorizations ε) h0 h1 (QLPeps.BmpsVar.errLib_discards h0)
    (twoNet_fits (rows := 4) (cols := 5) f) hτ (fun r _ => hb r) r r' c c hr hr' (by omega) (by omega)
  simpa using this

end

end QLPeps.BmpsRows
