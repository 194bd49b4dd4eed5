import Verif.Lemmas.BmpsErrNet
import Verif.Spec.BmpsErr
import Verif.Props.Bmps

/-!
# Amplitudes of a boundary-MPS contraction with truncation

Properties C145 and C146.
-/

namespace QLPeps.BmpsErr

open QLPeps.Contractor QLPeps.Sweep QLPeps.Box QLPeps.Bmps QLPeps.Bmps.Spec QLPeps.BmpsVar.Spec QLPeps.BmpsErr.Spec
open QLPeps.Peps (Tn Lib sumCoors)
open QLPeps.Tps.Spec (Bond)

noncomputable section

variable {𝕜 : Type*} [RCLike 𝕜] {rows cols : ℕ} {lib : Lib 𝕜} {t : QLPeps.Site → Tn 𝕜}
  {dim : Bond .obc rows cols → ℕ}

/-- C145: For every truncation, all traces within one row return the same number: at its bonds, at three consecutive
sites, and at one site. The hole of a site of this row contracted with any tensor of the right shape is the number that
these traces return once the tensor has been put there. -/
theorem row_traces (hl : Factorizations lib) (hf : Fits t dim) (r : ℕ) (hr : r < rows) :
    ∃ ψ : 𝕜,
      (∀ c, c + 1 < cols → bondAmp (tensorOps lib rows cols) rows cols t .horizontal (r, c) (r, c + 1) = ψ) ∧
      (∀ c, c + 2 < cols →
        tripleAmp (tensorOps lib rows cols) rows cols t .horizontal (r, c) (r, c + 1) (r, c + 2) = ψ) ∧
      (∀ c < cols, oneAmp (tensorOps lib rows cols) rows cols t (r, c) = ψ) ∧
      ∀ c < cols, (holeAt (tensorOps lib rows cols) rows cols t (r, c)).shape = (t (r, c)).shape ∧
        pair (holeAt (tensorOps lib rows cols) rows cols t (r, c)) (t (r, c)) = ψ ∧
        ∀ x : Tn 𝕜, x.shape = (t (r, c)).shape → ∀ c', c' + 1 < cols →
          pair (holeAt (tensorOps lib rows cols) rows cols t (r, c)) x =
            bondAmp (tensorOps lib rows cols) rows cols (Function.update t (r, c) x) .horizontal (r, c') (r, c' + 1) := by
  have hs := shaped hl
  have hn := net_of_fits hf
  refine ⟨cut lib rows cols t .left r 0, fun c hc => ?_, fun c hc => ?_, fun c hc => ?_, fun c hc => ⟨?_, ?_, ?_⟩⟩
  · rw [bond_horizontal r c hc, cut_eq_zero hs hn .left r hr _ hc.le]
  · rw [triple_horizontal r c, cut_eq_zero hs hn .left r hr _ hc]
  · rw [one_cut r c, cut_eq_zero hs hn .left r hr _ hc]
  · exact (hole_row hs hn r c hr hc).1
  · rw [← (hole_row hs hn r c hr hc).2, cut_eq_zero hs hn .left r hr _ hc]
  · intro x hx c' hc'
    have hn' := net_of_fits (fits_update hf (r, c) x hx)
    have h1 := (hole_row hs hn' r c hr hc).2
    rw [Function.update_self, cut_eq_zero hs hn' .left r hr _ hc] at h1
    rw [bond_horizontal r c' hc', cut_eq_zero hs hn' .left r hr _ hc'.le, h1,
      (hole_congr (tensorOps lib rows cols) (t := t) (t' := Function.update t (r, c) x) r c hr hc
        fun q hq => (Function.update_of_ne hq _ _).symm).1]

/-- C145: the same within one column -/
theorem col_traces (hl : Factorizations lib) (hf : Fits t dim) (c : ℕ) (hc : c < cols) :
    ∃ ψ : 𝕜,
      (∀ r, r + 1 < rows → bondAmp (tensorOps lib rows cols) rows cols t .vertical (r, c) (r + 1, c) = ψ) ∧
      (∀ r, r + 2 < rows →
        tripleAmp (tensorOps lib rows cols) rows cols t .vertical (r, c) (r + 1, c) (r + 2, c) = ψ) ∧
      (∀ r < rows, oneV (tensorOps lib rows cols) rows cols t (r, c) = ψ) ∧
      ∀ r < rows, (holeV (tensorOps lib rows cols) rows cols t (r, c)).shape = (t (r, c)).shape ∧
        pair (holeV (tensorOps lib rows cols) rows cols t (r, c)) (t (r, c)) = ψ ∧
        ∀ x : Tn 𝕜, x.shape = (t (r, c)).shape → ∀ r', r' + 1 < rows →
          pair (holeV (tensorOps lib rows cols) rows cols t (r, c)) x =
            bondAmp (tensorOps lib rows cols) rows cols (Function.update t (r, c) x) .vertical (r', c) (r' + 1, c) := by
  have hs := shaped hl
  have hn := net_of_fits hf
  refine ⟨cut lib rows cols t .up c 0, fun r hr => ?_, fun r hr => ?_, fun r hr => ?_, fun r hr => ⟨?_, ?_, ?_⟩⟩
  · rw [bond_vertical r c hr, cut_eq_zero hs hn .up c hc _ hr.le]
  · rw [triple_vertical r c, cut_eq_zero hs hn .up c hc _ hr]
  · rw [(hole_col hs hn r c hr hc).2.2, cut_eq_zero hs hn .up c hc _ hr]
  · exact (hole_col hs hn r c hr hc).1
  · rw [← (hole_col hs hn r c hr hc).2.1, cut_eq_zero hs hn .up c hc _ hr]
  · intro x hx r' hr'
    have hn' := net_of_fits (fits_update hf (r, c) x hx)
    have h1 := (hole_col hs hn' r c hr hc).2.1
    rw [Function.update_self, cut_eq_zero hs hn' .up c hc _ hr] at h1
    rw [bond_vertical r' c hr', cut_eq_zero hs hn' .up c hc _ hr'.le, h1,
      (hole_congr (tensorOps lib rows cols) (t := t) (t' := Function.update t (r, c) x) r c hr hc
        fun q hq => (Function.update_of_ne hq _ _).symm).2]

/-! ## bounds -/

theorem bounds_of_sq {ds fs : List ℕ} {R : List ℕ → List ℕ → 𝕜} {τ : ℝ} (hτ : 0 ≤ τ)
    (h : ∀ φ ψ : List ℕ → 𝕜, ‖sumCoors ds fun xs => sumCoors fs fun ys => φ xs * R xs ys * ψ ys‖ ^ 2 ≤
      τ ^ 2 * (normSq ds φ * normSq fs ψ)) : Bounds (box ds) (box fs) R τ := by
  intro φ ψ
  have := h φ ψ
  simp only [QLPeps.BmpsVar.sumCoors_box, normSq_nrm] at this
  refine (abs_le_of_sq_le_sq' ?_ (mul_nonneg hτ (mul_nonneg (nrm_nonneg _ _) (nrm_nonneg _ _)))).2
  rw [mul_pow, mul_pow]
  exact this

theorem row_bounds (hn : Net rows cols t dh dv) {τ : ℕ → ℝ} (hτ : ∀ r, 0 ≤ τ r)
    (h : ∀ r < rows, RowBound cols t r (τ r)) (k : ℕ) (hk : k < rows) :
    Bounds (box (fvl rows cols dh dv .down k)) (box (fvl rows cols dh dv .down (k + 1))) (Ly rows cols t .down k)
      (τ (rows - 1 - k)) := by
  have h := h (rows - 1 - k) (by omega)
  have e1 : (List.range cols).map (fun c => (t (rows - 1 - k, c)).shape.getD 1 0) = fvl rows cols dh dv .down k := by
    refine List.map_congr_left fun c hc => ?_
    rw [hn.shape _ (by omega) _ (List.mem_range.1 hc)]
    simp only [fv, List.getD_cons_succ, List.getD_cons_zero]
    congr 1
    omega
  have e2 : (List.range cols).map (fun c => (t (rows - 1 - k, c)).shape.getD 3 0) = fvl rows cols dh dv .down (k + 1) := by
    refine List.map_congr_left fun c hc => ?_
    rw [hn.shape _ (by omega) _ (List.mem_range.1 hc)]
    simp only [fv, List.getD_cons_succ, List.getD_cons_zero]
    congr 1
    omega
  simp only [RowBound, e1, e2] at h
  refine bounds_of_sq (hτ _) fun φ ψ => ?_
  simp only [QLPeps.BmpsVar.layer_eq] at h
  exact h φ ψ

theorem col_bounds (hn : Net rows cols t dh dv) {τ : ℕ → ℝ} (hτ : ∀ r, 0 ≤ τ r)
    (h : ∀ c < cols, ColBound rows t c (τ c)) (k : ℕ) (hk : k < cols) :
    Bounds (box (fvl rows cols dh dv .left k)) (box (fvl rows cols dh dv .left (k + 1))) (Ly rows cols t .left k)
      (τ k) := by
  have h := h k hk
  have e1 : (List.range rows).map (fun r => (t (r, k)).shape.getD 0 0) = fvl rows cols dh dv .left k := by
    refine List.map_congr_left fun r hr => ?_
    rw [hn.shape _ (List.mem_range.1 hr) _ hk]
    rfl
  have e2 : (List.range rows).map (fun r => (t (r, k)).shape.getD 2 0) = fvl rows cols dh dv .left (k + 1) := by
    refine List.map_congr_left fun r hr => ?_
    rw [hn.shape _ (List.mem_range.1 hr) _ hk]
    rfl
  simp only [ColBound, e1, e2] at h
  refine bounds_of_sq (hτ _) fun φ ψ => ?_
  simp only [QLPeps.BmpsVar.layer_eq] at h
  exact h φ ψ

/-- C146: Let every truncation discard at most the part `ε` of the weight, and let `τ r` bound row `r` as a bilinear form
of the legs below and above it. Then every trace in a row differs from the value of the network by at most
`(rows - 1) √((cols - 1) ε) ∏ τ`. -/
theorem row_error (hl : Factorizations lib) {ε : ℝ} (hε : 0 ≤ ε) (hε1 : ε ≤ 1) (hd : Discards lib ε) (hf : Fits t dim)
    {τ : ℕ → ℝ} (hτ : ∀ r, 0 ≤ τ r) (hb : ∀ r < rows, RowBound cols t r (τ r)) (r c : ℕ) (hr : r < rows)
    (hc : c + 1 < cols) :
    ‖value dim t - bondAmp (tensorOps lib rows cols) rows cols t .horizontal (r, c) (r, c + 1)‖ ≤
      (rows - 1 : ℕ) * Real.sqrt ((cols - 1 : ℕ) * ε) * ∏ r ∈ Finset.range rows, τ r := by
  have hn := net_of_fits hf
  have hsp : 0 < span rows cols .left := by simp only [span]; omega
  have h1 : value dim t = through (QLPeps.Peps.idLib (𝕜 := 𝕜)) rows cols t (dhOf dim) (dvOf dim) .down
      (depth rows cols .down r) := by
    rw [← cut_left idLib_lossless hf r 0 hr (by omega) (by omega)]
    exact cut_zero idLib_lossless.shaped hn .left r hr hsp
  have h2 : bondAmp (tensorOps lib rows cols) rows cols t .horizontal (r, c) (r, c + 1) =
      through lib rows cols t (dhOf dim) (dvOf dim) .down (depth rows cols .down r) := by
    rw [bond_horizontal r c hc, cut_eq_zero (shaped hl) hn .left r hr _ hc.le]
    exact cut_zero (shaped hl) hn .left r hr hsp
  have h3 := through_err hl hε1 hε hd idLib_lossless hn .down (by simp only [width]; omega)
    (τ := fun k => τ (rows - 1 - k)) (fun _ => hτ _) (row_bounds hn hτ hb) (depth rows cols .down r)
    (by simp only [depth, span]; omega)
  rw [h1, h2]
  refine h3.trans (le_of_eq ?_)
  simp only [span, width]
  rw [Finset.prod_range_reflect]

/-- C146: the same for the traces in a column -/
theorem col_error (hl : Factorizations lib) {ε : ℝ} (hε : 0 ≤ ε) (hε1 : ε ≤ 1) (hd : Discards lib ε) (hf : Fits t dim)
    {τ : ℕ → ℝ} (hτ : ∀ c, 0 ≤ τ c) (hb : ∀ c < cols, ColBound rows t c (τ c)) (r c : ℕ) (hr : r + 1 < rows)
    (hc : c < cols) :
    ‖value dim t - bondAmp (tensorOps lib rows cols) rows cols t .vertical (r, c) (r + 1, c)‖ ≤
      (cols - 1 : ℕ) * Real.sqrt ((rows - 1 : ℕ) * ε) * ∏ c ∈ Finset.range cols, τ c := by
  have hn := net_of_fits hf
  have hsp : 0 < span rows cols .up := by simp only [span]; omega
  have h1 : value dim t = through (QLPeps.Peps.idLib (𝕜 := 𝕜)) rows cols t (dhOf dim) (dvOf dim) .left
      (depth rows cols .left c) := by
    rw [← cut_up idLib_lossless hf c 0 hc (by omega) (by omega)]
    exact cut_zero idLib_lossless.shaped hn .up c hc hsp
  have h2 : bondAmp (tensorOps lib rows cols) rows cols t .vertical (r, c) (r + 1, c) =
      through lib rows cols t (dhOf dim) (dvOf dim) .left (depth rows cols .left c) := by
    rw [bond_vertical r c hr, cut_eq_zero (shaped hl) hn .up c hc _ hr.le]
    exact cut_zero (shaped hl) hn .up c hc hsp
  rw [h1, h2]
  exact through_err hl hε1 hε hd idLib_lossless hn .left (by simp only [width]; omega)
    hτ (col_bounds hn hτ hb) (depth rows cols .left c) (by simp only [depth, span]; omega)

/-- C146: the amplitude that a fresh walker starts from -/
theorem initial_error (hl : Factorizations lib) {ε : ℝ} (hε : 0 ≤ ε) (hε1 : ε ≤ 1) (hd : Discards lib ε)
    (hf : Fits t dim) {τ : ℕ → ℝ} (hτ : ∀ r, 0 ≤ τ r) (hb : ∀ r < rows, RowBound cols t r (τ r)) (hr : 1 ≤ rows)
    (hc : 2 ≤ cols) (c : Ctr (List (Tn 𝕜)) (Tn 𝕜) (Tn 𝕜)) :
    ∃ ψ c', evaluateAmplitude (tensorOps lib rows cols) rows cols t (init (tensorOps lib rows cols) c) = some (ψ, c') ∧
      ‖value dim t - ψ‖ ≤ (rows - 1 : ℕ) * Real.sqrt ((cols - 1 : ℕ) * ε) * ∏ r ∈ Finset.range rows, τ r := by
  obtain ⟨c', h1, _⟩ := C09_initial_amplitude (tensorOps lib rows cols) rows cols hr hc t c
  exact ⟨_, c', h1, row_error hl hε hε1 hd hf hτ hb 0 0 (by omega) (by omega)⟩

/-! ## cases -/

/-- the Frobenius norm of a row bounds it -/
theorem rowBound_frobenius (cols : ℕ) (t : QLPeps.Site → Tn 𝕜) (r : ℕ) : ∃ τ, 0 ≤ τ ∧ RowBound cols t r τ := by
  let row := (List.range cols).map fun c => t (r, c)
  let south := (List.range cols).map fun c => (t (r, c)).shape.getD 1 0
  let north := (List.range cols).map fun c => (t (r, c)).shape.getD 3 0
  refine ⟨Real.sqrt (∑ xs ∈ box south, ∑ ys ∈ box north, ‖rowAmp .down row xs ys 0‖ ^ 2), Real.sqrt_nonneg _, ?_⟩
  intro φ ψ
  change ‖sumCoors south fun xs => sumCoors north fun ys => φ xs * rowAmp .down row xs ys 0 * ψ ys‖ ^ 2 ≤ _ *
    (normSq south φ * normSq north ψ)
  rw [Real.sq_sqrt (Finset.sum_nonneg fun _ _ => Finset.sum_nonneg fun _ _ => sq_nonneg _)]
  simp only [normSq, QLPeps.BmpsVar.sumCoors_box]
  rw [← Finset.sum_product', ← Finset.sum_product', Finset.sum_mul_sum, ← Finset.sum_product']
  refine (pow_le_pow_left₀ (norm_nonneg _) (norm_sum_le _ _) 2).trans ?_
  simp only [← mul_pow]
  refine le_trans (le_of_eq ?_) (Finset.sum_mul_sq_le_sq_mul_sq _ _ _)
  congr 1
  refine Finset.sum_congr rfl fun x _ => ?_
  rw [norm_mul, norm_mul]
  ring

/-- a nontrivial case: any elements on a 4×5 lattice, factorizations that discard as much as the truncation error `ε`
allows for -/
example (f : QLPeps.Site → List ℕ → ℂ) (ε : ℝ) (h0 : 0 ≤ ε) (h1 : ε ≤ 1) :
    ∃ C : ℝ, ∀ r < 4, ∀ c < 4, ‖value (rows := 4) (cols := 5) twoDim (twoNet 4 5 f) -
      bondAmp (tensorOps (QLPeps.BmpsVar.errLib ε) 4 5) 4 5 (twoNet 4 5 f) .horizontal (r, c) (r, c + 1)‖ ≤
        3 * Real.sqrt (4 * ε) * C := by
  choose τ hτ hb using rowBound_frobenius 5 (twoNet 4 5 f)
  refine ⟨∏ r ∈ Finset.range 4, τ r, fun r hr c hc => ?_⟩
  have := row_error (QLPeps.BmpsVar.errLib_factorizations ε) h0 h1 (QLPeps.BmpsVar.errLib_discards h0)
    (twoNet_fits (rows := 4) (cols := 5) f) hτ (fun r _ => hb r) r c hr (by omega)
  simpa using this

end

end QLPeps.BmpsErr
