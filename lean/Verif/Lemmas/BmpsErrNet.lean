import Verif.Lemmas.BmpsErr
import Verif.Props.BmpsSvdErr

/-! # The error of a truncated boundary-MPS contraction: the network -/

namespace QLPeps.BmpsErr

open QLPeps.Contractor QLPeps.Sweep QLPeps.Box QLPeps.Bmps QLPeps.BmpsVar QLPeps.BmpsVar.Spec
open QLPeps.Peps (Tn Lib)
open QLPeps.Bmps.Spec (Lossless)

noncomputable section

variable {𝕜 : Type*} [RCLike 𝕜]

theorem shaped {lib : Lib 𝕜} (hf : Factorizations lib) : Shaped lib := by
  intro p es ts ds fs h1 h2 h3
  obtain ⟨f, rest, B, c1, _, _, c4, _⟩ := svd_spec hf h1 h2 h3 _ rfl
  rw [c1]
  exact c4

variable {rows cols : ℕ} {t : Site → Tn 𝕜} {dh dv : ℕ → ℕ → ℕ} {lib : Lib 𝕜}

/-- the amplitudes of a boundary MPS -/
abbrev St (lib : Lib 𝕜) (rows cols : ℕ) (t : Site → Tn 𝕜) (q : Pos) (k : ℕ) (xs : List ℕ) : 𝕜 :=
  mv (env (tensorOps lib rows cols) rows cols t q k) xs 0

/-- a layer -/
abbrev Ly (rows cols : ℕ) (t : Site → Tn 𝕜) (q : Pos) (k : ℕ) (xs ys : List ℕ) : 𝕜 :=
  rv q (frow rows cols t q k) xs ys 0

theorem normSq_nrm (ds : List ℕ) (φ : List ℕ → 𝕜) : normSq ds φ = nrm (box ds) φ ^ 2 := by
  rw [nrm_sq, normSq, sumCoors_box]

theorem step (hf : Factorizations lib) {ε : ℝ} (hε : ε ≤ 1) (hε0 : 0 ≤ ε) (hd : Discards lib ε)
    (hn : Net rows cols t dh dv) (q : Pos) (hw : 0 < width rows cols q) (k : ℕ) (hk : k < span rows cols q) :
    nrm (box (fvl rows cols dh dv q (k + 1))) (St lib rows cols t q (k + 1)) ≤
      nrm (box (fvl rows cols dh dv q (k + 1)))
        (act (box (fvl rows cols dh dv q k)) (Ly rows cols t q k) (St lib rows cols t q k)) ∧
    nrm (box (fvl rows cols dh dv q (k + 1))) (fun ys =>
        act (box (fvl rows cols dh dv q k)) (Ly rows cols t q k) (St lib rows cols t q k) ys -
          St lib rows cols t q (k + 1) ys) ≤
      Real.sqrt ((width rows cols q - 1 : ℕ) * ε) * nrm (box (fvl rows cols dh dv q (k + 1)))
        (act (box (fvl rows cols dh dv q k)) (Ly rows cols t q k) (St lib rows cols t q k)) := by
  have hs := env_spec (shaped hf) hn q hw k hk.le
  have hlen := hs.length
  rw [fvl_length] at hlen
  have hne : env (tensorOps lib rows cols) rows cols t q k ≠ [] := by
    intro h0
    rw [h0] at hlen
    simp at hlen
    omega
  have hr := frow_rshp hn q k hk
  have hin : inOrder q (layer rows cols t q k) = frow rows cols t q k := by rw [← reverse_eq, frow_eq]
  obtain ⟨_, e2, e3, _⟩ := svd_error hf hε hd q (mpo := layer rows cols t q k) ((isMps_iff _ _ _).2 hs)
    ((isMpo_iff _ _ _ _ _).2 (by rw [hin]; exact hr)) hne
  have hx : ∀ ys, product q (env (tensorOps lib rows cols) rows cols t q k) (frow rows cols t q k)
      (fvl rows cols dh dv q k) ys = act (box (fvl rows cols dh dv q k)) (Ly rows cols t q k) (St lib rows cols t q k) ys := by
    intro ys
    simp only [product, sumCoors_box, act, amp_eq, layer_eq]
  have hm : ∀ ys, amp (multiplyMPO lib q (env (tensorOps lib rows cols) rows cols t q k) (layer rows cols t q k)) ys 0 =
      St lib rows cols t q (k + 1) ys := by
    intro ys
    rw [St, env_succ, amp_eq]
    rfl
  rw [hin, hlen] at e3
  rw [hin] at e2
  have hx' : product q (env (tensorOps lib rows cols) rows cols t q k) (frow rows cols t q k)
      (fvl rows cols dh dv q k) = act (box (fvl rows cols dh dv q k)) (Ly rows cols t q k) (St lib rows cols t q k) := funext hx
  simp only [hm, hx', normSq_nrm] at e2 e3
  constructor
  · exact (abs_le_of_sq_le_sq' e2 (nrm_nonneg _ _)).2
  · refine (abs_le_of_sq_le_sq' ?_ (mul_nonneg (Real.sqrt_nonneg _) (nrm_nonneg _ _))).2
    rw [mul_pow, Real.sq_sqrt (mul_nonneg (Nat.cast_nonneg _) hε0)]
    exact e3

theorem nrm_reverse (ds : List ℕ) (φ : List ℕ → 𝕜) : nrm (box ds.reverse) φ = nrm (box ds) (fun x => φ x.reverse) := by
  rw [nrm, nrm, sum_box_reverse]

theorem Bounds.swap {α : Type*} {D D' : Finset α} {R : α → α → 𝕜} {τ : ℝ} (h : Bounds D D' R τ) :
    Bounds D' D (fun y x => R x y) τ := by
  intro φ ψ
  rw [Finset.sum_comm, mul_comm (nrm D' φ)]
  have := h ψ φ
  rwa [Finset.sum_congr rfl fun x _ => Finset.sum_congr rfl fun y _ =>
    show φ y * R x y * ψ x = ψ x * R x y * φ y by ring]

theorem start (hn : Net rows cols t dh dv) (q : Pos) : nrm (box (fvl rows cols dh dv q 0)) (St lib rows cols t q 0) ≤ 1 := by
  rw [fvl_zero hn, box_ones, nrm, Finset.sum_singleton, St, env_value_zero]
  simp

theorem same (lib' : Lib 𝕜) (hn : Net rows cols t dh dv) (q : Pos) : ∀ xs ∈ box (fvl rows cols dh dv q 0),
    St lib' rows cols t q 0 xs = St lib rows cols t q 0 xs := by
  intro xs hxs
  rw [fvl_zero hn, box_ones, Finset.mem_singleton] at hxs
  rw [hxs, St, St, env_value_zero, env_value_zero]

/-- the states of one side -/
theorem side (hf : Factorizations lib) {ε : ℝ} (hε : ε ≤ 1) (hε0 : 0 ≤ ε) (hd : Discards lib ε) {lib' : Lib 𝕜}
    (hl : Lossless lib') (hn : Net rows cols t dh dv) (q : Pos) (hw : 0 < width rows cols q) {τ : ℕ → ℝ}
    (hτ : ∀ k, 0 ≤ τ k) (hR : ∀ k < span rows cols q, Bounds (box (fvl rows cols dh dv q k))
      (box (fvl rows cols dh dv q (k + 1))) (Ly rows cols t q k) (τ k)) (k : ℕ) (hk : k ≤ span rows cols q) :
    nrm (box (fvl rows cols dh dv q k)) (St lib rows cols t q k) ≤ ∏ i ∈ Finset.range k, τ i ∧
    nrm (box (fvl rows cols dh dv q k)) (St lib' rows cols t q k) ≤ ∏ i ∈ Finset.range k, τ i ∧
    nrm (box (fvl rows cols dh dv q k)) (fun xs => St lib' rows cols t q k xs - St lib rows cols t q k xs) ≤
      k * Real.sqrt ((width rows cols q - 1 : ℕ) * ε) * ∏ i ∈ Finset.range k, τ i :=
  evolve (D := fun k => box (fvl rows cols dh dv q k)) (R := Ly rows cols t q) (Real.sqrt_nonneg _) hτ hR
    (E := St lib' rows cols t q) (S := St lib rows cols t q) (same lib' hn q) (start hn q)
    (fun k hk ys hys => env_value_succ hl hn q hw k hk ys hys)
    (fun k hk => (step hf hε hε0 hd hn q hw k hk).1) (fun k hk => (step hf hε hε0 hd hn q hw k hk).2) k hk

/-- the states of the opposite side -/
theorem other (hf : Factorizations lib) {ε : ℝ} (hε : ε ≤ 1) (hε0 : 0 ≤ ε) (hd : Discards lib ε) {lib' : Lib 𝕜}
    (hl : Lossless lib') (hn : Net rows cols t dh dv) (q : Pos) (hw : 0 < width rows cols q) {τ : ℕ → ℝ}
    (hτ : ∀ k, 0 ≤ τ k) (hR : ∀ k < span rows cols q, Bounds (box (fvl rows cols dh dv q k))
      (box (fvl rows cols dh dv q (k + 1))) (Ly rows cols t q k) (τ k)) (j : ℕ) (hj : j ≤ span rows cols q) :
    nrm (box (fvl rows cols dh dv q (span rows cols q - j))) (fun xs => St lib rows cols t (opposite q) j xs.reverse) ≤
      ∏ i ∈ Finset.range j, τ (span rows cols q - 1 - i) ∧
    nrm (box (fvl rows cols dh dv q (span rows cols q - j))) (fun xs => St lib' rows cols t (opposite q) j xs.reverse) ≤
      ∏ i ∈ Finset.range j, τ (span rows cols q - 1 - i) ∧
    nrm (box (fvl rows cols dh dv q (span rows cols q - j)))
        (fun xs => St lib' rows cols t (opposite q) j xs.reverse - St lib rows cols t (opposite q) j xs.reverse) ≤
      j * Real.sqrt ((width rows cols q - 1 : ℕ) * ε) * ∏ i ∈ Finset.range j, τ (span rows cols q - 1 - i) := by
  have hso := span_opposite rows cols q
  have hwo := width_opposite (rows := rows) (cols := cols) q
  have hfo : ∀ j ≤ span rows cols q, fvl rows cols dh dv (opposite q) j =
      (fvl rows cols dh dv q (span rows cols q - j)).reverse := by
    intro j hj
    rw [← fvl_opposite q _ (by omega)]
    congr 1
    omega
  have hR' : ∀ j < span rows cols q, Bounds (box (fvl rows cols dh dv (opposite q) j))
      (box (fvl rows cols dh dv (opposite q) (j + 1))) (Ly rows cols t (opposite q) j) (τ (span rows cols q - 1 - j)) := by
    intro j hj φ ψ
    have h := (hR (span rows cols q - 1 - j) (by omega)).swap (fun x => φ x.reverse) (fun x => ψ x.reverse)
    rw [show span rows cols q - 1 - j + 1 = span rows cols q - j by omega] at h
    rw [hfo j hj.le, hfo (j + 1) hj, show span rows cols q - (j + 1) = span rows cols q - 1 - j by omega, sum_box_reverse,
      nrm_reverse, nrm_reverse]
    convert h using 2
    refine Finset.sum_congr rfl fun ys hys => ?_
    rw [sum_box_reverse]
    refine Finset.sum_congr rfl fun xs hxs => ?_
    have hfr := frow_opposite (rows := rows) (cols := cols) (t := t) q (span rows cols q - 1 - j) (by omega)
    rw [show span rows cols q - 1 - (span rows cols q - 1 - j) = j by omega] at hfr
    rw [Ly, hfr]
    have hr := frow_rshp hn q (span rows cols q - 1 - j) (by omega)
    rw [show span rows cols q - 1 - j + 1 = span rows cols q - j by omega] at hr
    rw [rv_reverse hr ((length_of_mem hxs).trans hr.length.1.symm)
      ((length_of_mem hys).trans hr.length.2.symm)]
  obtain ⟨a, b, c⟩ := side hf hε hε0 hd hl hn (opposite q) (by rwa [hwo]) (τ := fun j => τ (span rows cols q - 1 - j))
    (fun _ => hτ _) (by rw [hso]; exact hR') j (by rw [hso]; exact hj)
  rw [hfo j hj, nrm_reverse] at a b c
  rw [hwo] at c
  exact ⟨a, b, c⟩

/-- the contraction through a layer -/
theorem through_err (hf : Factorizations lib) {ε : ℝ} (hε : ε ≤ 1) (hε0 : 0 ≤ ε) (hd : Discards lib ε) {lib' : Lib 𝕜}
    (hl : Lossless lib') (hn : Net rows cols t dh dv) (q : Pos) (hw : 0 < width rows cols q) {τ : ℕ → ℝ}
    (hτ : ∀ k, 0 ≤ τ k) (hR : ∀ k < span rows cols q, Bounds (box (fvl rows cols dh dv q k))
      (box (fvl rows cols dh dv q (k + 1))) (Ly rows cols t q k) (τ k)) (k : ℕ) (hk : k < span rows cols q) :
    ‖through lib' rows cols t dh dv q k - through lib rows cols t dh dv q k‖ ≤
      (span rows cols q - 1 : ℕ) * Real.sqrt ((width rows cols q - 1 : ℕ) * ε) * ∏ i ∈ Finset.range (span rows cols q), τ i := by
  obtain ⟨m, hm⟩ : ∃ m, span rows cols q = k + 1 + m := ⟨span rows cols q - (k + 1), by omega⟩
  obtain ⟨a1, a2, a3⟩ := side hf hε hε0 hd hl hn q hw hτ hR k hk.le
  obtain ⟨b1, b2, b3⟩ := other hf hε hε0 hd hl hn q hw hτ hR m (by omega)
  have e1 : span rows cols q - m = k + 1 := by omega
  have e2 : span rows cols q - 1 - k = m := by omega
  rw [e1] at b1 b2 b3
  have hP : ∏ i ∈ Finset.range (span rows cols q), τ i =
      (∏ i ∈ Finset.range k, τ i) * τ k * ∏ i ∈ Finset.range m, τ (span rows cols q - 1 - i) := by
    have : ∏ i ∈ Finset.range m, τ (span rows cols q - 1 - i) = ∏ i ∈ Finset.range m, τ (k + 1 + i) := by
      rw [← Finset.prod_range_reflect (fun i => τ (k + 1 + i))]
      refine Finset.prod_congr rfl fun i hi => ?_
      have := Finset.mem_range.1 hi
      congr 1
      omega
    rw [this, hm, Finset.prod_range_add, Finset.prod_range_succ]
  have hsplit : through lib' rows cols t dh dv q k - through lib rows cols t dh dv q k =
      (∑ xs ∈ box (fvl rows cols dh dv q k), ∑ ys ∈ box (fvl rows cols dh dv q (k + 1)),
        (St lib' rows cols t q k xs - St lib rows cols t q k xs) * Ly rows cols t q k xs ys *
          St lib' rows cols t (opposite q) m ys.reverse) +
      ∑ xs ∈ box (fvl rows cols dh dv q k), ∑ ys ∈ box (fvl rows cols dh dv q (k + 1)),
        St lib rows cols t q k xs * Ly rows cols t q k xs ys *
          (St lib' rows cols t (opposite q) m ys.reverse - St lib rows cols t (opposite q) m ys.reverse) := by
    rw [through, through, e2, ← Finset.sum_sub_distrib, ← Finset.sum_add_distrib]
    refine Finset.sum_congr rfl fun xs _ => ?_
    rw [← Finset.sum_sub_distrib, ← Finset.sum_add_distrib]
    refine Finset.sum_congr rfl fun ys _ => ?_
    ring
  rw [hsplit]
  refine (norm_add_le _ _).trans ?_
  have c1 := hR k hk (fun xs => St lib' rows cols t q k xs - St lib rows cols t q k xs)
    (fun ys => St lib' rows cols t (opposite q) m ys.reverse)
  have c2 := hR k hk (fun xs => St lib rows cols t q k xs)
    (fun ys => St lib' rows cols t (opposite q) m ys.reverse - St lib rows cols t (opposite q) m ys.reverse)
  have p1 := mul_le_mul a3 b2 (nrm_nonneg _ _) ((nrm_nonneg _ _).trans a3)
  have p2 := mul_le_mul a1 b3 (nrm_nonneg _ _) ((nrm_nonneg _ _).trans a1)
  have d1 := c1.trans (mul_le_mul_of_nonneg_left p1 (hτ k))
  have d2 := c2.trans (mul_le_mul_of_nonneg_left p2 (hτ k))
  refine (add_le_add d1 d2).trans (le_of_eq ?_)
  rw [hP, show span rows cols q - 1 = k + m by omega]
  push_cast
  ring

end

end QLPeps.BmpsErr
