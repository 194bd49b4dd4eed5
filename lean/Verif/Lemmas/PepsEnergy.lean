import Verif.Lemmas.PepsTriangle

/-!
# The local energies of the projections
-/

namespace QLPeps.Peps

open QLPeps.State (BC)
open QLPeps.Tps.Spec (Bond Site leg external slots)
open QLPeps.Peps.Spec

variable {𝕜 : Type*} [RCLike 𝕜] {bc : BC} {rows cols : ℕ}

theorem twoSiteEnergy_eq {ham t : Tn 𝕜} {K K' A B : ℕ} (ht : t.shape = [K, K', A, B])
    (hh : ham.shape = [A, A, B, B]) :
    twoSiteEnergy ham t = ∑ k ∈ Finset.range K, ∑ k' ∈ Finset.range K',
      (starRingEnd 𝕜) (quad2 ham A B fun x y => t.elem [k, k', x, y]) := by
  obtain ⟨sh, g⟩ := t
  obtain rfl : sh = _ := ht
  obtain ⟨sh, h⟩ := ham
  obtain rfl : sh = _ := hh
  change ∑ k ∈ Finset.range K, ∑ k' ∈ Finset.range K', ∑ x ∈ Finset.range A, ∑ y ∈ Finset.range B,
    (starRingEnd 𝕜) (∑ i ∈ Finset.range A, ∑ j ∈ Finset.range B, g [k, k', i, j] * h [i, x, j, y]) *
      g [k, k', x, y] = _
  refine Finset.sum_congr rfl fun k _ => Finset.sum_congr rfl fun k' _ => ?_
  simp only [quad2, map_sum, map_mul, RCLike.conj_conj]
  refine Finset.sum_congr rfl fun x _ => Finset.sum_congr rfl fun y _ => ?_
  rw [mul_comm]

theorem temp3 {ham t : Tn 𝕜} {a b c d A B C : ℕ} (ht : t.shape = [a, b, c, d, A, B, C])
    (hh : ham.shape = [A, A, B, B, C, C]) :
    (contractN t [4, 5, 6] ham [0, 2, 4]).shape = [a, b, c, d, A, B, C] ∧
    ∀ i j k l x y z, (contractN t [4, 5, 6] ham [0, 2, 4]).elem [i, j, k, l, x, y, z] =
      ∑ x' ∈ Finset.range A, ∑ y' ∈ Finset.range B, ∑ z' ∈ Finset.range C,
        t.elem [i, j, k, l, x', y', z'] * ham.elem [x', x, y', y, z', z] := by
  obtain ⟨sh, g⟩ := t
  obtain rfl : sh = _ := ht
  obtain ⟨sh, h⟩ := ham
  obtain rfl : sh = _ := hh
  exact ⟨rfl, fun _ _ _ _ _ _ _ => rfl⟩

theorem full7 {s t : Tn 𝕜} {a b c d A B C : ℕ} (hs : s.shape = [a, b, c, d, A, B, C])
    (ht : t.shape = [a, b, c, d, A, B, C]) :
    (contractN s [0, 1, 2, 3, 4, 5, 6] t [0, 1, 2, 3, 4, 5, 6]).elem [] =
      ∑ i ∈ Finset.range a, ∑ j ∈ Finset.range b, ∑ k ∈ Finset.range c, ∑ l ∈ Finset.range d,
        ∑ x ∈ Finset.range A, ∑ y ∈ Finset.range B, ∑ z ∈ Finset.range C,
          s.elem [i, j, k, l, x, y, z] * t.elem [i, j, k, l, x, y, z] := by
  obtain ⟨sh, g⟩ := s
  obtain rfl : sh = _ := hs
  obtain ⟨sh, h⟩ := t
  obtain rfl : sh = _ := ht
  rfl

theorem threeSiteEnergy_eq {ham t : Tn 𝕜} {a b c d A B C : ℕ} (ht : t.shape = [a, b, c, d, A, B, C])
    (hh : ham.shape = [A, A, B, B, C, C]) :
    threeSiteEnergy ham t = ∑ i ∈ Finset.range a, ∑ j ∈ Finset.range b, ∑ k ∈ Finset.range c,
      ∑ l ∈ Finset.range d,
      (starRingEnd 𝕜) (quad3 ham A B C fun x y z => t.elem [i, j, k, l, x, y, z]) := by
  obtain ⟨h1, h2⟩ := temp3 ht hh
  unfold threeSiteEnergy
  generalize contractN t [4, 5, 6] ham [0, 2, 4] = T at *
  refine (full7 (s := dag T) h1 ht).trans ?_
  refine Finset.sum_congr rfl fun i _ => Finset.sum_congr rfl fun j _ =>
    Finset.sum_congr rfl fun k _ => Finset.sum_congr rfl fun l _ => ?_
  simp only [quad3, map_sum]
  refine Finset.sum_congr rfl fun x _ => Finset.sum_congr rfl fun y _ =>
    Finset.sum_congr rfl fun z _ => ?_
  change (starRingEnd 𝕜) (T.elem _) * _ = _
  rw [h2, map_mul, RCLike.conj_conj, mul_comm]

theorem norm2_normalized (t : Tn 𝕜) (h : norm2 t ≠ 0) :
    sumCoors t.shape (fun x => ‖(normalized t).elem x‖ ^ 2) = 1 := by
  have h0 : sumCoors t.shape (fun x => ‖t.elem x‖ ^ 2) = norm2 t ^ 2 := by
    rw [norm2, Real.sq_sqrt (sumCoors_nonneg _ fun _ => by positivity)]
  have key : ∀ (sh : List ℕ) (f : List ℕ → ℝ) (c : ℝ), sumCoors sh (fun x => f x / c) =
      sumCoors sh f / c := by
    intro sh
    induction sh with
    | nil => intro f c; rfl
    | cons n ns ih =>
      intro f c
      simp only [sumCoors]
      rw [Finset.sum_div]
      exact Finset.sum_congr rfl fun k _ => ih _ _
  have e : (fun x => ‖(normalized t).elem x‖ ^ 2) = fun x => ‖t.elem x‖ ^ 2 / norm2 t ^ 2 := by
    funext x
    simp only [normalized, norm_div, div_pow, RCLike.norm_ofReal, sq_abs]
  rw [e, key, h0, div_self (pow_ne_zero 2 h)]

theorem energy2_between {ham t : Tn 𝕜} {K K' A B : ℕ} (ht : t.shape = [K, K', A, B])
    (hn : norm2 t ≠ 0) (hh : ham.shape = [A, A, B, B]) {lo hi : ℝ} (hb : Between2 ham A B lo hi) :
    ∃ e : ℝ, twoSiteEnergy ham (normalized t) = (e : 𝕜) ∧ lo ≤ e ∧ e ≤ hi := by
  have h1 := norm2_normalized t hn
  rw [ht] at h1
  simp only [sumCoors] at h1
  rw [twoSiteEnergy_eq (t := normalized t) ht hh]
  choose q hq using hb
  refine ⟨∑ k ∈ Finset.range K, ∑ k' ∈ Finset.range K', q fun x y => (normalized t).elem [k, k', x, y],
    ?_, ?_, ?_⟩
  · push_cast
    refine Finset.sum_congr rfl fun k _ => Finset.sum_congr rfl fun k' _ => ?_
    rw [(hq _).1, RCLike.conj_ofReal]
  · calc lo = lo * 1 := (mul_one _).symm
      _ = _ := by rw [← h1, Finset.mul_sum, Finset.sum_congr rfl fun k _ => Finset.mul_sum _ _ _]
      _ ≤ _ := Finset.sum_le_sum fun k _ => Finset.sum_le_sum fun k' _ => (hq _).2.1
  · calc _ ≤ _ := Finset.sum_le_sum fun k _ => Finset.sum_le_sum fun k' _ => (hq _).2.2
      _ = hi * 1 := by rw [← h1, Finset.mul_sum, Finset.sum_congr rfl fun k _ => Finset.mul_sum _ _ _]
      _ = hi := mul_one _

theorem energy3_between {ham t : Tn 𝕜} {a b c d A B C : ℕ} (ht : t.shape = [a, b, c, d, A, B, C])
    (hn : norm2 t ≠ 0) (hh : ham.shape = [A, A, B, B, C, C]) {lo hi : ℝ}
    (hb : Between3 ham A B C lo hi) :
    ∃ e : ℝ, threeSiteEnergy ham (normalized t) = (e : 𝕜) ∧ lo ≤ e ∧ e ≤ hi := by
  have h1 := norm2_normalized t hn
  rw [ht] at h1
  simp only [sumCoors] at h1
  rw [threeSiteEnergy_eq (t := normalized t) ht hh]
  choose q hq using hb
  refine ⟨∑ i ∈ Finset.range a, ∑ j ∈ Finset.range b, ∑ k ∈ Finset.range c, ∑ l ∈ Finset.range d,
    q fun x y z => (normalized t).elem [i, j, k, l, x, y, z], ?_, ?_, ?_⟩
  · push_cast
    refine Finset.sum_congr rfl fun i _ => Finset.sum_congr rfl fun j _ =>
      Finset.sum_congr rfl fun k _ => Finset.sum_congr rfl fun l _ => ?_
    rw [(hq _).1, RCLike.conj_ofReal]
  · calc lo = lo * 1 := (mul_one _).symm
      _ = _ := by
        rw [← h1, Finset.mul_sum, Finset.sum_congr rfl fun k _ => Finset.mul_sum _ _ _,
          Finset.sum_congr rfl fun k _ => Finset.sum_congr rfl fun k _ => Finset.mul_sum _ _ _,
          Finset.sum_congr rfl fun k _ => Finset.sum_congr rfl fun k _ =>
            Finset.sum_congr rfl fun k _ => Finset.mul_sum _ _ _]
      _ ≤ _ := Finset.sum_le_sum fun _ _ => Finset.sum_le_sum fun _ _ =>
        Finset.sum_le_sum fun _ _ => Finset.sum_le_sum fun _ _ => (hq _).2.1
  · calc _ ≤ _ := Finset.sum_le_sum fun _ _ => Finset.sum_le_sum fun _ _ =>
        Finset.sum_le_sum fun _ _ => Finset.sum_le_sum fun _ _ => (hq _).2.2
      _ = hi * 1 := by
        rw [← h1, Finset.mul_sum, Finset.sum_congr rfl fun k _ => Finset.mul_sum _ _ _,
          Finset.sum_congr rfl fun k _ => Finset.sum_congr rfl fun k _ => Finset.mul_sum _ _ _,
          Finset.sum_congr rfl fun k _ => Finset.sum_congr rfl fun k _ =>
            Finset.sum_congr rfl fun k _ => Finset.mul_sum _ _ _]
      _ = hi := mul_one _

theorem upperRight_energy {lib : Lib 𝕜} (hlib : Exact lib) (tol : ℝ) {p : Peps 𝕜}
    {phys : Site rows cols → ℕ} {dim : Bond bc rows cols → ℕ} (hf : Fits p phys dim)
    {s m s' : Site rows cols} (h1 : s ≠ m) (h3 : m ≠ s') (hb1 : leg bc s 2 = leg bc m 0)
    (hb2 : leg bc m 1 = leg bc s' 3) {gate : Tn 𝕜}
    (hgate : gate.shape = [phys s, phys m, phys s', phys s, phys m, phys s']) {ham : Tn 𝕜}
    (hh : ham.shape = [phys s, phys s, phys m, phys m, phys s', phys s']) {lo hi : ℝ}
    (hb : Between3 ham (phys s) (phys m) (phys s') lo hi)
    (hn : (upperRight lib tol p gate m.1 m.2 (some ham)).norm ≠ 0) :
    ∃ e : ℝ, (upperRight lib tol p gate m.1 m.2 (some ham)).energy = some (e : 𝕜) ∧
      lo ≤ e ∧ e ≤ hi := by
  obtain ⟨e1, e2⟩ := prev_h hf.cols_eq hf.bc_eq hb1
  obtain ⟨e3, e4, -⟩ := next_v hf.rows_eq hf.bc_eq hb2
  rw [upperRightAt_eq _ _ _ _ s'.1 s'.2 m.1 m.2 s.1 s.2 _ e4 e3 e1.symm e2] at hn ⊢
  clear e1 e2 e3 e4
  have hea : ∀ t k, leg bc t k = leg bc m 1 → (t = s' ∧ k = 3) ∨ (t = m ∧ k = 1) :=
    fun t k h => (ends_v hb2 h).symm
  have hec : ∀ t k, leg bc t k = leg bc m 0 → (t = s ∧ k = 2) ∨ (t = m ∧ k = 0) :=
    fun t k h => ends_h hb1 (h.trans hb1.symm)
  have ha : leg bc s' 3 = leg bc m 1 := hb2.symm
  have hc : leg bc s 2 = leg bc m 0 := hb1
  have h1a : s' ≠ m := h3.symm
  have h3c : m ≠ s := h1.symm
  have sa : ∀ k, k ≠ rem .up → leg bc s' k ≠ leg bc s' (rem .up) := fun k hk h => by
    rcases hea _ _ (h.trans ha) with h' | h'
    · exact hk h'.2
    · exact h1a h'.1
  have sc : ∀ k, k ≠ rem .right → leg bc s k ≠ leg bc s (rem .right) := fun k hk h => by
    rcases hec _ _ (h.trans hc) with h' | h'
    · exact hk h'.2
    · exact h3c h'.1.symm
  obtain ⟨Ka, qas, ras, -⟩ := qr_out hlib hf sa
  obtain ⟨Kc, qcs, rcs, -⟩ := qr_out hlib hf sc
  obtain ⟨t5s, -⟩ := gateUR rcs ras (eat_site hf m) hgate (congrArg dim (hb2.symm).symm)
  obtain ⟨e, h⟩ := energy3_between t5s (fun h => hn ((one_mul _).trans h)) hh hb
  exact ⟨e, congrArg some h.1, h.2⟩

theorem upperLeft_energy {lib : Lib 𝕜} (hlib : Exact lib) (tol : ℝ) {p : Peps 𝕜}
    {phys : Site rows cols → ℕ} {dim : Bond bc rows cols → ℕ} (hf : Fits p phys dim)
    {s m s' : Site rows cols} (h1 : s ≠ m) (h3 : m ≠ s') (hb1 : leg bc m 2 = leg bc s 0)
    (hb2 : leg bc m 1 = leg bc s' 3) {gate : Tn 𝕜}
    (hgate : gate.shape = [phys s, phys m, phys s', phys s, phys m, phys s']) {ham : Tn 𝕜}
    (hh : ham.shape = [phys s, phys s, phys m, phys m, phys s', phys s']) {lo hi : ℝ}
    (hb : Between3 ham (phys s) (phys m) (phys s') lo hi)
    (hn : (upperLeft lib tol p gate m.1 m.2 (some ham)).norm ≠ 0) :
    ∃ e : ℝ, (upperLeft lib tol p gate m.1 m.2 (some ham)).energy = some (e : 𝕜) ∧
      lo ≤ e ∧ e ≤ hi := by
  obtain ⟨e1, e2⟩ := next_h hf.cols_eq hf.bc_eq hb1
  obtain ⟨e3, e4, -⟩ := next_v hf.rows_eq hf.bc_eq hb2
  rw [upperLeftAt_eq _ _ _ _ s.1 s.2 m.1 m.2 s'.1 s'.2 _ e1 e2 e4 e3] at hn ⊢
  clear e1 e2 e3 e4
  have hea : ∀ t k, leg bc t k = leg bc m 2 → (t = s ∧ k = 0) ∨ (t = m ∧ k = 2) :=
    fun t k h => (ends_h hb1 h).symm
  have hec : ∀ t k, leg bc t k = leg bc m 1 → (t = s' ∧ k = 3) ∨ (t = m ∧ k = 1) :=
    fun t k h => (ends_v hb2 h).symm
  have ha : leg bc s 0 = leg bc m 2 := hb1.symm
  have hc : leg bc s' 3 = leg bc m 1 := hb2.symm
  have h1a : s ≠ m := h1
  have h3c : m ≠ s' := h3
  have sa : ∀ k, k ≠ rem .left → leg bc s k ≠ leg bc s (rem .left) := fun k hk h => by
    rcases hea _ _ (h.trans ha) with h' | h'
    · exact hk h'.2
    · exact h1a h'.1
  have sc : ∀ k, k ≠ rem .up → leg bc s' k ≠ leg bc s' (rem .up) := fun k hk h => by
    rcases hec _ _ (h.trans hc) with h' | h'
    · exact hk h'.2
    · exact h3c h'.1.symm
  obtain ⟨Ka, qas, ras, -⟩ := qr_out hlib hf sa
  obtain ⟨Kc, qcs, rcs, -⟩ := qr_out hlib hf sc
  obtain ⟨t5s, -⟩ := gateUL ras rcs (eat_site hf m) hgate (congrArg dim (hb1.symm).symm) (congrArg dim (hb2.symm).symm)
  obtain ⟨e, h⟩ := energy3_between t5s (fun h => hn ((one_mul _).trans h)) hh hb
  exact ⟨e, congrArg some h.1, h.2⟩

theorem lowerRight_energy {lib : Lib 𝕜} (hlib : Exact lib) (tol : ℝ) {p : Peps 𝕜}
    {phys : Site rows cols → ℕ} {dim : Bond bc rows cols → ℕ} (hf : Fits p phys dim)
    {s m s' : Site rows cols} (h1 : s ≠ m) (h3 : m ≠ s') (hb1 : leg bc s 1 = leg bc m 3)
    (hb2 : leg bc s' 2 = leg bc m 0) {gate : Tn 𝕜}
    (hgate : gate.shape = [phys s, phys m, phys s', phys s, phys m, phys s']) {ham : Tn 𝕜}
    (hh : ham.shape = [phys s, phys s, phys m, phys m, phys s', phys s']) {lo hi : ℝ}
    (hb : Between3 ham (phys s) (phys m) (phys s') lo hi)
    (hn : (lowerRight lib tol p gate s.1 s.2 (some ham)).norm ≠ 0) :
    ∃ e : ℝ, (lowerRight lib tol p gate s.1 s.2 (some ham)).energy = some (e : 𝕜) ∧
      lo ≤ e ∧ e ≤ hi := by
  obtain ⟨e3, e4, -⟩ := next_v hf.rows_eq hf.bc_eq hb1
  obtain ⟨e1, e2⟩ := prev_h hf.cols_eq hf.bc_eq hb2
  rw [lowerRightAt_eq _ _ _ _ s'.1 s'.2 m.1 m.2 s.1 s.2 _ (e4.trans e1.symm) (e3 ▸ e2) e4 e3] at hn ⊢
  clear e1 e2 e3 e4
  have hea : ∀ t k, leg bc t k = leg bc m 0 → (t = s' ∧ k = 2) ∨ (t = m ∧ k = 0) :=
    fun t k h => ends_h hb2 (h.trans hb2.symm)
  have hec : ∀ t k, leg bc t k = leg bc m 3 → (t = s ∧ k = 1) ∨ (t = m ∧ k = 3) :=
    fun t k h => ends_v hb1 (h.trans hb1.symm)
  have ha : leg bc s' 2 = leg bc m 0 := hb2
  have hc : leg bc s 1 = leg bc m 3 := hb1
  have h1a : s' ≠ m := h3.symm
  have h3c : m ≠ s := h1.symm
  have sa : ∀ k, k ≠ rem .right → leg bc s' k ≠ leg bc s' (rem .right) := fun k hk h => by
    rcases hea _ _ (h.trans ha) with h' | h'
    · exact hk h'.2
    · exact h1a h'.1
  have sc : ∀ k, k ≠ rem .down → leg bc s k ≠ leg bc s (rem .down) := fun k hk h => by
    rcases hec _ _ (h.trans hc) with h' | h'
    · exact hk h'.2
    · exact h3c h'.1.symm
  obtain ⟨Ka, qas, ras, -⟩ := qr_out hlib hf sa
  obtain ⟨Kc, qcs, rcs, -⟩ := qr_out hlib hf sc
  obtain ⟨t5s, -⟩ := gateLR rcs ras (eat_site hf m) hgate (congrArg dim (hb1).symm) (congrArg dim (hb2).symm)
  obtain ⟨e, h⟩ := energy3_between t5s (fun h => hn ((one_mul _).trans h)) hh hb
  exact ⟨e, congrArg some h.1, h.2⟩

theorem lowerLeft_energy {lib : Lib 𝕜} (hlib : Exact lib) (tol : ℝ) {p : Peps 𝕜}
    {phys : Site rows cols → ℕ} {dim : Bond bc rows cols → ℕ} (hf : Fits p phys dim)
    {s m s' : Site rows cols} (h1 : s ≠ m) (h3 : m ≠ s') (hb1 : leg bc s 1 = leg bc m 3)
    (hb2 : leg bc m 2 = leg bc s' 0) {gate : Tn 𝕜}
    (hgate : gate.shape = [phys s, phys m, phys s', phys s, phys m, phys s']) {ham : Tn 𝕜}
    (hh : ham.shape = [phys s, phys s, phys m, phys m, phys s', phys s']) {lo hi : ℝ}
    (hb : Between3 ham (phys s) (phys m) (phys s') lo hi)
    (hn : (lowerLeft lib tol p gate s.1 s.2 (some ham)).norm ≠ 0) :
    ∃ e : ℝ, (lowerLeft lib tol p gate s.1 s.2 (some ham)).energy = some (e : 𝕜) ∧
      lo ≤ e ∧ e ≤ hi := by
  obtain ⟨e3, e4, -⟩ := next_v hf.rows_eq hf.bc_eq hb1
  obtain ⟨e1, e2⟩ := next_h hf.cols_eq hf.bc_eq hb2
  rw [lowerLeftAt_eq _ _ _ _ s.1 s.2 m.1 m.2 s'.1 s'.2 _ e4 e3 (e4.trans e1) (e3 ▸ e2)] at hn ⊢
  clear e1 e2 e3 e4
  have hea : ∀ t k, leg bc t k = leg bc m 3 → (t = s ∧ k = 1) ∨ (t = m ∧ k = 3) :=
    fun t k h => ends_v hb1 (h.trans hb1.symm)
  have hec : ∀ t k, leg bc t k = leg bc m 2 → (t = s' ∧ k = 0) ∨ (t = m ∧ k = 2) :=
    fun t k h => (ends_h hb2 h).symm
  have ha : leg bc s 1 = leg bc m 3 := hb1
  have hc : leg bc s' 0 = leg bc m 2 := hb2.symm
  have h1a : s ≠ m := h1
  have h3c : m ≠ s' := h3
  have sa : ∀ k, k ≠ rem .down → leg bc s k ≠ leg bc s (rem .down) := fun k hk h => by
    rcases hea _ _ (h.trans ha) with h' | h'
    · exact hk h'.2
    · exact h1a h'.1
  have sc : ∀ k, k ≠ rem .left → leg bc s' k ≠ leg bc s' (rem .left) := fun k hk h => by
    rcases hec _ _ (h.trans hc) with h' | h'
    · exact hk h'.2
    · exact h3c h'.1.symm
  obtain ⟨Ka, qas, ras, -⟩ := qr_out hlib hf sa
  obtain ⟨Kc, qcs, rcs, -⟩ := qr_out hlib hf sc
  obtain ⟨t5s, -⟩ := gateLL ras rcs (eat_site hf m) hgate (congrArg dim (hb1).symm) (congrArg dim (hb2.symm).symm)
  obtain ⟨e, h⟩ := energy3_between t5s (fun h => hn ((one_mul _).trans h)) hh hb
  exact ⟨e, congrArg some h.1, h.2⟩

theorem nn_horizontal_energy {lib : Lib 𝕜} (hlib : Exact lib) (tol : ℝ) {p : Peps 𝕜}
    {phys : Site rows cols → ℕ} {dim : Bond bc rows cols → ℕ} (hf : Fits p phys dim)
    {s s' : Site rows cols} (hne : s ≠ s') (hb : leg bc s 2 = leg bc s' 0) {gate : Tn 𝕜}
    (hgate : gate.shape = [phys s, phys s', phys s, phys s']) {ham : Tn 𝕜}
    (hh : ham.shape = [phys s, phys s, phys s', phys s']) {lo hi : ℝ}
    (hbt : Between2 ham (phys s) (phys s') lo hi)
    (hn : (nnProject lib tol p gate s.1 s.2 (some ham) .horizontal).norm ≠ 0) :
    ∃ e : ℝ, (nnProject lib tol p gate s.1 s.2 (some ham) .horizontal).energy = some (e : 𝕜) ∧
      lo ≤ e ∧ e ≤ hi := by
  obtain ⟨hrow, hcol⟩ := next_h hf.cols_eq hf.bc_eq hb
  rw [nnH_eq _ _ _ _ _ _ _ _ _ hrow hcol] at hn ⊢
  have hs : ∀ k, k ≠ rem .right → leg bc s k ≠ leg bc s (rem .right) := fun k hk h => by
    rcases ends_h hb h with h | h
    · exact hk h.2
    · exact hne h.1
  have hs' : ∀ k, k ≠ rem .left → leg bc s' k ≠ leg bc s' (rem .left) := fun k hk h => by
    rcases ends_h hb (h.trans hb.symm) with h | h
    · exact hne h.1.symm
    · exact hk h.2
  obtain ⟨K0, -, r0s, -⟩ := qr_out hlib hf hs
  obtain ⟨K1, -, r1s, -⟩ := qr_out hlib hf hs'
  obtain ⟨t2s, -⟩ := n32 r0s (p.lamH s'.1 s'.2)
  obtain ⟨t4s, -⟩ := gate2 t2s r1s hgate
  obtain ⟨e, h⟩ := energy2_between t4s hn hh hbt
  exact ⟨e, congrArg some h.1, h.2⟩

theorem nn_vertical_energy {lib : Lib 𝕜} (hlib : Exact lib) (tol : ℝ) {p : Peps 𝕜}
    {phys : Site rows cols → ℕ} {dim : Bond bc rows cols → ℕ} (hf : Fits p phys dim)
    {s s' : Site rows cols} (hne : s ≠ s') (hb : leg bc s 1 = leg bc s' 3) {gate : Tn 𝕜}
    (hgate : gate.shape = [phys s, phys s', phys s, phys s']) {ham : Tn 𝕜}
    (hh : ham.shape = [phys s, phys s, phys s', phys s']) {lo hi : ℝ}
    (hbt : Between2 ham (phys s) (phys s') lo hi)
    (hn : (nnProject lib tol p gate s.1 s.2 (some ham) .vertical).norm ≠ 0) :
    ∃ e : ℝ, (nnProject lib tol p gate s.1 s.2 (some ham) .vertical).energy = some (e : 𝕜) ∧
      lo ≤ e ∧ e ≤ hi := by
  obtain ⟨hcol, -, hrow⟩ := next_v hf.rows_eq hf.bc_eq hb
  rw [nnV_eq _ _ _ _ _ _ _ _ _ hcol hrow] at hn ⊢
  have hs : ∀ k, k ≠ rem .down → leg bc s k ≠ leg bc s (rem .down) := fun k hk h => by
    rcases ends_v hb h with h | h
    · exact hk h.2
    · exact hne h.1
  have hs' : ∀ k, k ≠ rem .up → leg bc s' k ≠ leg bc s' (rem .up) := fun k hk h => by
    rcases ends_v hb (h.trans hb.symm) with h | h
    · exact hne h.1.symm
    · exact hk h.2
  obtain ⟨K0, -, r0s, -⟩ := qr_out hlib hf hs
  obtain ⟨K1, -, r1s, -⟩ := qr_out hlib hf hs'
  obtain ⟨t2s, -⟩ := c32 r0s (p.lamV s'.1 s'.2)
  obtain ⟨t4s, -⟩ := gate2 t2s r1s hgate
  obtain ⟨e, h⟩ := energy2_between t4s hn hh hbt
  exact ⟨e, congrArg some h.1, h.2⟩

end QLPeps.Peps
