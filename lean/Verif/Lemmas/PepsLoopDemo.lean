import Verif.Lemmas.PepsLoopSweep
import Verif.Props.Peps

/-!
# A library with which loop projections succeed
-/

namespace QLPeps.Peps

open QLPeps.State (BC)
open QLPeps.Tps.Spec (Bond Site leg)
open QLPeps.Peps.Spec

variable {𝕜 : Type*} [RCLike 𝕜] {bc : BC} {rows cols : ℕ}

/-- identity times the tensor -/
noncomputable def idSvd (t : Tn 𝕜) (n : ℕ) : Svd 𝕜 :=
  ⟨(idFactor t n).1, ⟨(allCoords (t.shape.take n)).length, fun _ => 1⟩, (idFactor t n).2, 0,
    (allCoords (t.shape.take n)).length⟩

/-- exact factorizations, standard basis as eigenvectors, and a solver that returns its initial guess -/
noncomputable def loopLib : LoopLib 𝕜 where
  qr := idFactor
  svd := idSvd
  svdT := idSvd
  evd t := (⟨t.shape, fun x => if x.getD 0 0 = x.getD 1 0 then 1 else 0⟩, ⟨t.shape.headD 0, fun _ => 1⟩)
  dirIn _ := true
  left _ d := some ⟨[d.dim, d.dim], fun _ => 0⟩
  right _ d := some ⟨[d.dim, d.dim], fun _ => 0⟩
  cg _ _ x := some x

theorem idSvd_spec (t : Tn 𝕜) (n : ℕ) {x y : List ℕ} (hx : Valid (t.shape.take n) x) :
    ∑ m ∈ Finset.range (idSvd t n).s.dim, (idSvd t n).u.elem (x ++ [m]) *
        ((idSvd t n).s.val m : 𝕜) * (idSvd t n).vt.elem (m :: y) = t.elem (x ++ y) := by
  simpa [idSvd] using idFactor_spec t n hx

theorem loopLib_exact : LoopExact (loopLib : LoopLib 𝕜) where
  qr t n := ⟨(allCoords (t.shape.take n)).length, rfl, rfl, fun _ _ hx _ => idFactor_spec t n hx⟩
  svd_shape _ _ := ⟨rfl, rfl⟩
  svd t n x y hx _ := idSvd_spec t n hx
  svdT_shape _ _ := ⟨rfl, rfl⟩
  svdT t n _ x y hx _ := idSvd_spec t n hx
  evd_shape t n ht := by simp [loopLib, ht]
  evd t n ht i hi j hj := by
    have : ∀ a ∈ Finset.range n, (starRingEnd 𝕜) (((loopLib : LoopLib 𝕜).evd t).1.elem [i, a]) *
        ((loopLib : LoopLib 𝕜).evd t).1.elem [j, a] = if i = a then (if i = j then 1 else 0) else 0 := by
      intro a _
      simp only [loopLib, List.getD_cons_zero, List.getD_cons_succ]
      by_cases h : i = a <;> by_cases h' : j = a <;> simp [h, h', eq_comm]
    rw [Finset.sum_congr rfl this, Finset.sum_ite_eq, if_pos (Finset.mem_range.2 hi)]
  left _ _ _ h := by
    obtain rfl := Option.some.inj h
    rfl
  right _ _ _ h := by
    obtain rfl := Option.some.inj h
    rfl
  cg _ _ _ _ h := by
    obtain rfl := Option.some.inj h
    exact ⟨rfl, fun _ _ _ _ => rfl⟩

/-! ## Transfer tensors that do not vanish -/

/-- the loop seen from the next corner -/
def turn (l : Loop 𝕜) : Loop 𝕜 := ⟨fun j => l.g (j + 1), fun j => l.lam (j + 1)⟩

theorem fin_a : ∀ i : Fin 4, i + 1 + 3 = i + 3 + 1 := by decide
theorem fin_b : ∀ i j : Fin 4, i + j - 1 + 1 = i + 1 + j - 1 := by decide
theorem fin_c : ∀ i j : Fin 4, i + j + 1 = i + 1 + j := by decide

theorem upsilons_turn (l : Loop 𝕜) (i : Fin 4) : upsilons (turn l) i = upsilons l (i + 1) := by
  have h : ∀ (t : Tn 𝕜) (j : Fin 4), upsilonStep (turn l) i t j = upsilonStep l (i + 1) t j := by
    intro t j
    unfold upsilonStep turn
    dsimp only
    rw [fin_b i j, fin_c i j]
  have h0 : (turn l).g i = l.g (i + 1) := rfl
  unfold upsilons
  rw [h, h, h, h0]

section
variable {l : Loop 𝕜} {D d : Fin 4 → ℕ} {E : Fin 4 → ℕ × ℕ}

theorem LoopFits.turn (hf : LoopFits l D d E) : LoopFits (turn l) (fun i => D (i + 1)) (fun i => d (i + 1))
    fun i => E (i + 1) := ⟨fun i => by
  have := hf.shape (i + 1)
  rw [fin_a i] at this
  exact this, fun i => hf.dim (i + 1)⟩

/-- some trace around the loop does not vanish -/
def RingNe (l : Loop 𝕜) (d : Fin 4 → ℕ) (E : Fin 4 → ℕ × ℕ) : Prop :=
  ∃ t0 ∈ legs d E 0, ∃ t1 ∈ legs d E 1, ∃ t2 ∈ legs d E 2, ∃ t3 ∈ legs d E 3, ringT l t0 t1 t2 t3 ≠ 0

theorem RingNe.turn (h : RingNe l d E) : RingNe (turn l) (fun i => d (i + 1)) fun i => E (i + 1) := by
  obtain ⟨t0, h0, t1, h1, t2, h2, t3, h3, h⟩ := h
  refine ⟨t1, h1, t2, h2, t3, h3, t0, h0, ?_⟩
  have : ringT (Peps.turn l) t1 t2 t3 t0 = ringT l t0 t1 t2 t3 := by
    unfold ringT ringAt
    conv_rhs => rw [ring4_rotate]
    rfl
  rwa [this]

theorem ups_ne_zero (hf : LoopFits l D d E) (h : RingNe l d E) :
    ∃ a < D 3, ∃ a' < D 3, ∃ b < D 3, ∃ b' < D 3, (upsilons l 0).elem [a, a', b, b'] ≠ 0 := by
  by_contra hc
  push Not at hc
  have h0 : loopTrace (upsilons l 0) (l.lam 3) = 0 := by
    have hs : (upsilons l 0).shape = [D 3, D 3, D 3, D 3] := upsilons_shape hf 0
    rw [loopTrace_trace hf hs, trace_toM2]
    refine Finset.sum_eq_zero fun a ha => Finset.sum_eq_zero fun b hb => ?_
    rw [weighted, hc a (Finset.mem_range.1 ha) b (Finset.mem_range.1 hb) a (Finset.mem_range.1 ha) b
      (Finset.mem_range.1 hb)]
    simp
  rw [loopTrace_eq hf] at h0
  simp only [RCLike.mul_conj] at h0
  have h1 : ∑ t0 ∈ legs d E 0, ∑ t1 ∈ legs d E 1, ∑ t2 ∈ legs d E 2, ∑ t3 ∈ legs d E 3,
      ‖ringT l t0 t1 t2 t3‖ ^ 2 = 0 := by exact_mod_cast h0
  obtain ⟨t0, m0, t1, m1, t2, m2, t3, m3, hne⟩ := h
  have z0 := (Finset.sum_eq_zero_iff_of_nonneg fun _ _ => Finset.sum_nonneg fun _ _ =>
    Finset.sum_nonneg fun _ _ => Finset.sum_nonneg fun _ _ => sq_nonneg _).1 h1 t0 m0
  have z1 := (Finset.sum_eq_zero_iff_of_nonneg fun _ _ =>
    Finset.sum_nonneg fun _ _ => Finset.sum_nonneg fun _ _ => sq_nonneg _).1 z0 t1 m1
  have z2 := (Finset.sum_eq_zero_iff_of_nonneg fun _ _ =>
    Finset.sum_nonneg fun _ _ => sq_nonneg _).1 z1 t2 m2
  have z3 := (Finset.sum_eq_zero_iff_of_nonneg fun _ _ => sq_nonneg _).1 z2 t3 m3
  exact hne (norm_eq_zero.1 (pow_eq_zero_iff (by norm_num) |>.1 z3))

theorem upsilons_ne_zero (hf : LoopFits l D d E) (h : RingNe l d E) (i : Fin 4) :
    ∃ a < D (i + 3), ∃ a' < D (i + 3), ∃ b < D (i + 3), ∃ b' < D (i + 3),
      (upsilons l i).elem [a, a', b, b'] ≠ 0 := by
  match i with
  | 0 => exact ups_ne_zero hf h
  | 1 =>
    have := ups_ne_zero hf.turn h.turn
    rwa [upsilons_turn] at this
  | 2 =>
    have := ups_ne_zero hf.turn.turn h.turn.turn
    rwa [upsilons_turn, upsilons_turn] at this
  | 3 =>
    have := ups_ne_zero hf.turn.turn.turn h.turn.turn.turn
    rwa [upsilons_turn, upsilons_turn, upsilons_turn] at this

end

/-! ## Gauge fixing succeeds -/

/-- the spectrum that is inverted -/
noncomputable def flat (n : ℕ) : Diag :=
  quasiSqrt (diagNormalized (fixSign ⟨n, fun _ => 1⟩))

theorem quasi_pos {d : Diag} {i : ℕ} (h : 0 < d.val i) : 0 < (quasiSqrt d).val i := by
  unfold quasiSqrt
  dsimp only
  rw [if_pos h.le]
  exact Real.sqrt_pos.2 h

theorem flat_pos {n i : ℕ} (hi : i < n) : 0 < (flat n).val i := by
  have h1 : fixSign ⟨n, fun _ => 1⟩ = ⟨n, fun _ => 1⟩ := by
    unfold fixSign
    rw [if_neg]
    simp
  have h2 : 0 < diagNorm ⟨n, fun _ => 1⟩ := by
    unfold diagNorm
    refine Real.sqrt_pos.2 ?_
    simp
    omega
  unfold flat
  rw [h1]
  have h3 : 0 < (1 : ℝ) / diagNorm ⟨n, fun _ => 1⟩ := by positivity
  exact quasi_pos h3

theorem gauge_t6 {ups X : Tn 𝕜} {n : ℕ} (hX : X.shape = [n, n]) (hu : ups.shape = [n, n, n, n])
    {c : ℕ → 𝕜} (hx : ∀ i < n, ∀ j < n, X.elem [i, j] = if i = j then c i else 0) :
    (contract (contractN ups [3] (dag X) [0]) 2 X 0).shape = [n, n, n, n] ∧
    ∀ a < n, ∀ a' < n, ∀ b < n, ∀ b' < n,
      (contract (contractN ups [3] (dag X) [0]) 2 X 0).elem [b', a, a', b] =
        ups.elem [a, a', b, b'] * (starRingEnd 𝕜) (c b') * c b := by
  obtain ⟨sh, u⟩ := ups
  obtain rfl : sh = _ := hu
  obtain ⟨sh, X⟩ := X
  obtain rfl : sh = _ := hX
  refine ⟨rfl, fun a ha a' ha' b hb b' hb' => ?_⟩
  change ∑ k ∈ Finset.range n, (∑ m ∈ Finset.range n, u [a, a', k, m] *
    (starRingEnd 𝕜) (X [m, b'])) * X [k, b] = _
  have hx : ∀ i < n, ∀ j < n, X [i, j] = if i = j then c i else 0 := hx
  have e1 : ∀ k ∈ Finset.range n, (∑ m ∈ Finset.range n, u [a, a', k, m] *
      (starRingEnd 𝕜) (X [m, b'])) * X [k, b] =
      if k = b then u [a, a', b, b'] * (starRingEnd 𝕜) (c b') * c b else 0 := by
    intro k hk
    rw [hx k (Finset.mem_range.1 hk) b hb]
    split
    · subst k
      congr 1
      rw [Finset.sum_eq_single b']
      · rw [hx b' hb' b' hb', if_pos rfl]
      · intro m hm hne
        rw [hx m (Finset.mem_range.1 hm) b' hb', if_neg hne, map_zero, mul_zero]
      · intro h
        exact absurd (Finset.mem_range.2 hb') h
    · rw [mul_zero]
  rw [Finset.sum_congr rfl e1, Finset.sum_ite_eq', if_pos (Finset.mem_range.2 hb)]

theorem norm2_ne_zero {t : Tn 𝕜} {n : ℕ} (ht : t.shape = [n, n, n, n]) {a b c d : ℕ} (ha : a < n)
    (hb : b < n) (hc : c < n) (hd : d < n) (h : t.elem [a, b, c, d] ≠ 0) : norm2 t ≠ 0 := by
  unfold norm2
  rw [ht, Real.sqrt_ne_zero']
  simp only [sumCoors]
  refine Finset.sum_pos' (fun _ _ => Finset.sum_nonneg fun _ _ => Finset.sum_nonneg fun _ _ =>
    Finset.sum_nonneg fun _ _ => sq_nonneg _) ⟨a, Finset.mem_range.2 ha, ?_⟩
  refine Finset.sum_pos' (fun _ _ => Finset.sum_nonneg fun _ _ =>
    Finset.sum_nonneg fun _ _ => sq_nonneg _) ⟨b, Finset.mem_range.2 hb, ?_⟩
  refine Finset.sum_pos' (fun _ _ => Finset.sum_nonneg fun _ _ => sq_nonneg _)
    ⟨c, Finset.mem_range.2 hc, ?_⟩
  refine Finset.sum_pos' (fun _ _ => sq_nonneg _) ⟨d, Finset.mem_range.2 hd, ?_⟩
  have := norm_pos_iff.2 h
  positivity

/-- the standard basis -/
noncomputable def basis (n : ℕ) : Tn 𝕜 := ((loopLib : LoopLib 𝕜).evd ⟨[n, n], fun _ => 0⟩).1

/-- the matrix that is factorized -/
noncomputable def flatT (sigma : Diag) : Tn 𝕜 :=
  contractN (contractN (contractN (contract (flat sigma.dim).ten 0 (basis sigma.dim) 1) [1] sigma.ten [0])
    [1] (basis sigma.dim) [0]) [1] (flat sigma.dim).ten [0]

/-- the inverses of the gauge -/
noncomputable def flatX (sigma : Diag) : Tn 𝕜 :=
  contractN (contract (dag (basis sigma.dim)) 1 (diagInv 0 (flat sigma.dim)).ten 1) [1]
    (idSvd (flatT sigma) 1).u [0]

noncomputable def flatY (sigma : Diag) : Tn 𝕜 :=
  contractN (contractN (idSvd (flatT sigma) 1).vt [1] (diagInv 0 (flat sigma.dim)).ten [0]) [1]
    (dag (basis sigma.dim)) [1]

noncomputable def flat6 (ups : Tn 𝕜) (sigma : Diag) : Tn 𝕜 :=
  contract (contractN ups [3] (dag (flatX sigma)) [0]) 2 (flatX sigma) 0

noncomputable def flatU (ups : Tn 𝕜) (sigma : Diag) : Tn 𝕜 :=
  transpose [0, 1, 3, 2] (contractN (contractN (flatY sigma) [] (dag (flatY sigma)) []) [1, 3]
    (symmetrize (flat6 ups sigma) [3, 2, 1, 0]) [1, 2])

noncomputable def flatG (sigma : Diag) (head tail u : Tn 𝕜) : Gauge 𝕜 :=
  ⟨u, (idSvd (flatT sigma : Tn 𝕜) 1).s, contractN (flatY sigma) [1] head [0],
    contractN tail [4] (flatX sigma) [0], [flat sigma.dim, flat sigma.dim]⟩

open Classical in
/-- the choices of `WeightedTraceGaugeFixing` -/
theorem gaugeFix_cases (ups : Tn 𝕜) (sigma : Diag) (head tail : Tn 𝕜) (para : LoopPara)
    (h0 : para.invTol = 0) : gaugeFix loopLib para ups sigma head tail =
      if hermBelow (flat6 ups sigma) [3, 2, 1, 0] para.correctionTol then
        if hermAbove (flatU ups sigma) [1, 0, 3, 2] para.warningTol then
          if hermBelow (flatU ups sigma) [1, 0, 3, 2] para.correctionTol then
            some (flatG sigma head tail (symmetrize (flatU ups sigma) [1, 0, 3, 2])) else none
        else some (flatG sigma head tail (flatU ups sigma))
      else none := by
  obtain ⟨i, e, c, w, m, f⟩ := para
  obtain rfl : i = 0 := h0
  rfl

theorem idSvd_mat {t : Tn 𝕜} {n m : ℕ} (ht : t.shape = [n, m]) : (idSvd t 1).u.shape = [n, n] ∧
    ∀ a < n, ∀ j < n, (idSvd t 1).u.elem [a, j] = if a = j then 1 else 0 := by
  have hl : allCoords (t.shape.take 1) = (List.range n).map fun k => [k] := by
    simp only [ht, List.take_succ_cons, List.take_zero, allCoords]
    induction List.range n <;> simp_all
  constructor
  · simp only [idSvd, idFactor, hl]
    simp [ht]
  · intro a _ j hj
    simp only [idSvd, idFactor, hl]
    simp [hj, eq_comm]

theorem flatX_eq {sigma : Diag} : (flatX sigma : Tn 𝕜).shape = [sigma.dim, sigma.dim] ∧
    ∀ i < sigma.dim, ∀ j < sigma.dim, (flatX sigma : Tn 𝕜).elem [i, j] =
      if i = j then ((1 / (flat sigma.dim).val i : ℝ) : 𝕜) else 0 := by
  have hd : (flat sigma.dim).dim = sigma.dim := fixSign_dim _
  have hval : ∀ a < sigma.dim, (diagInv 0 (flat sigma.dim)).val a = 1 / (flat sigma.dim).val a := by
    intro a ha
    have := flat_pos ha
    simp only [diagInv]
    rw [if_pos (abs_pos.2 this.ne')]
  have bs : (basis sigma.dim : Tn 𝕜).shape = [sigma.dim, sigma.dim] := rfl
  have be : ∀ i j, (basis sigma.dim : Tn 𝕜).elem [i, j] = if i = j then 1 else 0 := fun _ _ => rfl
  have t3 : (flatT sigma : Tn 𝕜).shape = [sigma.dim, sigma.dim] := by
    have t0 : (contract (flat sigma.dim).ten 0 (basis sigma.dim : Tn 𝕜) 1).shape =
        [sigma.dim, sigma.dim] := by
      change [(flat sigma.dim).dim, sigma.dim] = _
      rw [hd]
    have t1 := (nd t0 sigma).1
    have t2 := (nm t1 bs).1
    have t3 := (nd t2 (flat sigma.dim)).1
    rw [hd] at t3
    exact t3
  unfold flatX
  generalize (flatT sigma : Tn 𝕜) = T3 at *
  generalize (basis sigma.dim : Tn 𝕜) = B at *
  have x0 : (contract (dag B) 1 (diagInv 0 (flat sigma.dim)).ten 1).shape = [sigma.dim, sigma.dim] ∧
      ∀ i a, a < sigma.dim → (contract (dag B) 1 (diagInv 0 (flat sigma.dim)).ten 1).elem [i, a] =
        if i = a then ((1 / (flat sigma.dim).val a : ℝ) : 𝕜) else 0 := by
    have hd' : (diagInv 0 (flat sigma.dim)).dim = sigma.dim := hd
    generalize diagInv 0 (flat sigma.dim) = dv at *
    obtain ⟨k, dv⟩ := dv
    obtain rfl : k = _ := hd'
    obtain ⟨sh, B⟩ := B
    obtain rfl : sh = _ := bs
    refine ⟨rfl, fun i a ha => ?_⟩
    change ∑ m ∈ Finset.range sigma.dim, (starRingEnd 𝕜) (B [i, m]) *
      (if a = m then (dv a : 𝕜) else 0) = _
    rw [Finset.sum_eq_single a (fun m _ h => by rw [if_neg h.symm, mul_zero])
      (fun h => absurd (Finset.mem_range.2 ha) h), if_pos rfl]
    have h1 : dv a = 1 / (flat sigma.dim).val a := hval a ha
    have h2 : B [i, a] = if i = a then 1 else 0 := be i a
    rw [h1, h2]
    split <;> simp
  obtain ⟨us, ue⟩ := idSvd_mat t3
  obtain ⟨ps, pe⟩ := nm x0.1 us
  refine ⟨ps, fun i hi j hj => ?_⟩
  rw [pe, Finset.sum_eq_single i]
  · rw [x0.2 i i hi, if_pos rfl, ue i hi j hj]
    split <;> simp
  · intro m hm hne
    rw [x0.2 i m (Finset.mem_range.1 hm), if_neg hne.symm, zero_mul]
  · exact fun h => absurd (Finset.mem_range.2 hi) h

/-- with large enough tolerances the gauge of a bond is fixed, and the spectra that are inverted do not
vanish -/
theorem gaugeFix_some {ups : Tn 𝕜} {sigma : Diag} {n : ℕ} (hs : sigma.dim = n)
    (hu : ups.shape = [n, n, n, n]) {a a' b b' : ℕ} (ha : a < n) (ha' : a' < n) (hb : b < n)
    (hb' : b' < n) (hne : ups.elem [a, a', b, b'] ≠ 0) : ∃ T : ℝ, ∀ para : LoopPara,
      para.invTol = 0 → T ≤ para.correctionTol → T ≤ para.warningTol → ∀ head tail,
      ∃ r, gaugeFix loopLib para ups sigma head tail = some r ∧ ∀ x ∈ r.spectra, Above 0 x := by
  subst hs
  obtain ⟨xs, xe⟩ := flatX_eq (𝕜 := 𝕜) (sigma := sigma)
  obtain ⟨ts, te⟩ := gauge_t6 xs hu (c := fun i => ((1 / (flat sigma.dim).val i : ℝ) : 𝕜)) xe
  change (flat6 ups sigma).shape = _ at ts
  have te : ∀ a < sigma.dim, ∀ a' < sigma.dim, ∀ b < sigma.dim, ∀ b' < sigma.dim,
    (flat6 ups sigma).elem [b', a, a', b] = _ := te
  have hf : ∀ i < sigma.dim, ((1 / (flat sigma.dim).val i : ℝ) : 𝕜) ≠ 0 := fun i hi => by
    have := (flat_pos hi).ne'
    exact_mod_cast one_div_ne_zero this
  have hn : norm2 (flat6 ups sigma) ≠ 0 := norm2_ne_zero ts hb' ha ha' hb (by
    rw [te a ha a' ha' b hb b' hb']
    exact mul_ne_zero (mul_ne_zero hne (by simpa using hf b' hb')) (hf b hb))
  refine ⟨max (norm2 (hermDiff (flat6 ups sigma) [3, 2, 1, 0]) / norm2 (flat6 ups sigma) + 1)
    (norm2 (hermDiff (flatU ups sigma) [1, 0, 3, 2]) / norm2 (flatU ups sigma)), fun para h0 hc hw head tail =>
    ⟨flatG sigma head tail (flatU ups sigma), ?_, ?_⟩⟩
  · rw [gaugeFix_cases _ _ _ _ _ h0, if_pos ⟨hn, lt_of_lt_of_le (lt_add_one _) ((le_max_left _ _).trans hc)⟩, if_neg]
    exact fun h => absurd h.2 (not_lt.2 ((le_max_right _ _).trans hw))
  · intro x hx i hi
    obtain rfl : x = flat sigma.dim := by simpa [flatG] using hx
    have hd : (flat sigma.dim).dim = sigma.dim := fixSign_dim _
    exact abs_pos.2 (flat_pos (hd ▸ hi)).ne'

theorem gaugeRound_some {U : Tn 𝕜} {S : Diag} {n : ℕ} (i : Fin 4) (hs : S.dim = n)
    (hu : U.shape = [n, n, n, n])
    (hne : ∃ a < n, ∃ a' < n, ∃ b < n, ∃ b' < n, U.elem [a, a', b, b'] ≠ 0) : ∃ T : ℝ,
      ∀ para : LoopPara, para.invTol = 0 → T ≤ para.correctionTol → T ≤ para.warningTol →
      ∀ st : LoopSt 𝕜, st.ups i = U → st.loop.lam (i + 3) = S →
      ∃ st', gaugeRound loopLib para st i = some st' ∧
        (∀ x ∈ st'.spectra, x ∈ st.spectra ∨ Above 0 x) ∧ st'.errs = st.errs ∧
        (∀ j, j ≠ i → st'.ups j = st.ups j) ∧ ∀ j, j ≠ i + 3 → st'.loop.lam j = st.loop.lam j := by
  obtain ⟨a, ha, a', ha', b, hb, b', hb', hne⟩ := hne
  obtain ⟨T, hT⟩ := gaugeFix_some hs hu ha ha' hb hb' hne
  refine ⟨T, fun para h0 hc hw st hU hS => ?_⟩
  obtain ⟨r, hr, hsp⟩ := hT para h0 hc hw (st.loop.g i) (st.loop.g (i + 3))
  unfold gaugeRound
  rw [hU, hS, hr]
  refine ⟨_, rfl, fun x hx => ?_, rfl, fun j hj => Function.update_of_ne hj _ _,
    fun j hj => Function.update_of_ne hj _ _⟩
  rcases List.mem_append.1 hx with h | h
  · exact Or.inl h
  · exact Or.inr (hsp x h)

/-- with large enough tolerances the gauge of the loop is fixed -/
theorem gaugeRounds_some {l : Loop 𝕜} {D d : Fin 4 → ℕ} {E : Fin 4 → ℕ × ℕ} (hf : LoopFits l D d E)
    (hne : RingNe l d E) : ∃ T : ℝ, ∀ para : LoopPara, para.invTol = 0 → T ≤ para.correctionTol →
      T ≤ para.warningTol →
      ∃ st, fourRounds (gaugeRound loopLib para) ⟨l, upsilons l, [], []⟩ = some st ∧
        (∀ x ∈ st.spectra, Above 0 x) ∧ st.errs = [] := by
  obtain ⟨T0, h0⟩ := gaugeRound_some 0 (hf.dim (0 + 3)) (upsilons_shape hf 0) (upsilons_ne_zero hf hne 0)
  obtain ⟨T1, h1⟩ := gaugeRound_some 1 (hf.dim (1 + 3)) (upsilons_shape hf 1) (upsilons_ne_zero hf hne 1)
  obtain ⟨T2, h2⟩ := gaugeRound_some 2 (hf.dim (2 + 3)) (upsilons_shape hf 2) (upsilons_ne_zero hf hne 2)
  obtain ⟨T3, h3⟩ := gaugeRound_some 3 (hf.dim (3 + 3)) (upsilons_shape hf 3) (upsilons_ne_zero hf hne 3)
  refine ⟨max (max T0 T1) (max T2 T3), fun para hi hc hw => ?_⟩
  simp only [max_le_iff] at hc hw
  obtain ⟨s0, r0, p0, e0, u0, l0⟩ := h0 para hi hc.1.1 hw.1.1 ⟨l, upsilons l, [], []⟩ rfl rfl
  obtain ⟨s1, r1, p1, e1, u1, l1⟩ := h1 para hi hc.1.2 hw.1.2 s0 (u0 1 (by decide)) (l0 _ (by decide))
  obtain ⟨s2, r2, p2, e2, u2, l2⟩ := h2 para hi hc.2.1 hw.2.1 s1
    ((u1 2 (by decide)).trans (u0 2 (by decide))) ((l1 _ (by decide)).trans (l0 _ (by decide)))
  obtain ⟨s3, r3, p3, e3, -, -⟩ := h3 para hi hc.2.2 hw.2.2 s2
    ((u2 3 (by decide)).trans ((u1 3 (by decide)).trans (u0 3 (by decide))))
    ((l2 _ (by decide)).trans ((l1 _ (by decide)).trans (l0 _ (by decide))))
  refine ⟨s3, ?_, fun x hx => ?_, by rw [e3, e2, e1, e0]⟩
  · simp only [fourRounds, r0, Option.bind_some, r1, r2, r3]
  · rcases p3 x hx with hx | h
    · rcases p2 x hx with hx | h
      · rcases p1 x hx with hx | h
        · rcases p0 x hx with hx | h
          · exact absurd hx (by simp)
          · exact h
        · exact h
      · exact h
    · exact h

/-! ## Truncation succeeds -/

theorem fetLoop_some (tol : ℝ) (ups su : Tn 𝕜) (n : ℕ) : ∀ (old : Diag) (s : Fet 𝕜),
    (∀ x ∈ s.errs, x = 0) → ∃ s', fetLoop loopLib tol ups su n old s = some s' ∧ ∀ x ∈ s'.errs, x = 0 := by
  have hsvd : ∀ (t : Tn 𝕜) (errs : List ℝ), (∀ x ∈ errs, x = 0) →
      ∀ x ∈ (fetSvd loopLib t errs).errs, x = 0 := by
    intro t errs h x hx
    rcases List.mem_append.1 hx with hx | hx
    · exact h x hx
    · simpa [matSvd, loopLib, idSvd] using hx
  induction n with
  | zero => exact fun old s h => ⟨s, rfl, h⟩
  | succ n ih =>
    intro old s h
    obtain ⟨s1, h1, e1⟩ : ∃ s1, fetRight loopLib ups su s = some s1 ∧ ∀ x ∈ s1.errs, x = 0 :=
      ⟨_, rfl, hsvd _ _ h⟩
    obtain ⟨s2, h2, e2⟩ : ∃ s2, fetLeft loopLib ups su s1 = some s2 ∧ ∀ x ∈ s2.errs, x = 0 :=
      ⟨_, rfl, hsvd _ _ e1⟩
    simp only [fetLoop, h1, h2, Option.bind_some]
    split
    · exact ⟨s2, rfl, e2⟩
    · exact ih _ s2 e2

theorem fetRounds_some (para : LoopPara) (st : LoopSt 𝕜) (h : ∀ x ∈ st.errs, x = 0) :
    ∃ st', fourRounds (fetRound loopLib para) st = some st' ∧ ∀ x ∈ st'.errs, x = 0 := by
  have one : ∀ (st : LoopSt 𝕜) (i : Fin 4), (∀ x ∈ st.errs, x = 0) →
      ∃ st', fetRound loopLib para st i = some st' ∧ ∀ x ∈ st'.errs, x = 0 := by
    intro st i h
    obtain ⟨r, hr, he⟩ := fetLoop_some para.fetTol (st.ups i)
      (contractN (st.ups i) [0, 2] (st.loop.lam (i + 3)).ten [1, 0]) para.fetMaxIter
      (fetSvd (loopLib : LoopLib 𝕜) (st.loop.lam (i + 3)).ten []).sigma
      (fetSvd (loopLib : LoopLib 𝕜) (st.loop.lam (i + 3)).ten []) (by
        intro x hx
        simpa [fetSvd, matSvd, loopLib, idSvd] using hx)
    have hr' : fet loopLib para (st.ups i) (st.loop.lam (i + 3)) = some r := hr
    unfold fetRound
    rw [hr']
    refine ⟨_, rfl, fun x hx => ?_⟩
    rcases List.mem_append.1 hx with hx | hx
    · exact h x hx
    · exact he x hx
  obtain ⟨s0, r0, e0⟩ := one st 0 h
  obtain ⟨s1, r1, e1⟩ := one s0 1 e0
  obtain ⟨s2, r2, e2⟩ := one s1 2 e1
  obtain ⟨s3, r3, e3⟩ := one s2 3 e2
  exact ⟨s3, by simp only [fourRounds, r0, Option.bind_some, r1, r2, r3], e3⟩

/-! ## Projections succeed -/

/-- for every square whose gate does not annihilate it there are tolerances with which its projection
succeeds without loss -/
theorem loopProject_demo {p : Peps 𝕜} {phys : Site rows cols → ℕ}
    {dim : Bond bc rows cols → ℕ} (hf : Fits p phys dim) {s : Fin 4 → Site rows cols}
    (hq : Square bc s) {gate : Fin 4 → Tn 𝕜} {w : Fin 4 → ℕ}
    (hgate : ∀ i, (gate i).shape = [w (i + 3), phys (s i), phys (s i), w i])
    (hpl : bc = .obc → ((s 0).1 : ℕ) + 1 < rows ∧ ((s 0).2 : ℕ) + 1 < cols)
    {x : Fin 4 → ℕ} {e : Fin 4 → ℕ × ℕ} (hx : x ∈ states phys s) (he : e ∈ envs bc p s)
    (hne : ∑ y ∈ states phys s, loopGate gate w y x * cluster bc p s y e ≠ 0) :
    ∃ T : ℝ, ∀ para : LoopPara, para.invTol = 0 → T ≤ para.correctionTol → T ≤ para.warningTol →
      ∃ res, loopProject loopLib para p gate (s 0).1 (s 0).2 = some res ∧
        (∀ x ∈ res.spectra, Above 0 x) ∧ (∀ x ∈ res.errs, x = 0) ∧
        ∀ x ∈ res.env, ∃ i, x = loopEnvL p (s 0).1 (s 0).2 i ∨ x = loopEnvR p (s 0).1 (s 0).2 i := by
  obtain ⟨-, ⟨D', hfit⟩, hring⟩ := patch_loop loopLib_exact hf hq hgate
  obtain ⟨dfit, dring⟩ := dressed_eq hf hq hfit
  have hin := loopIn_mem hf hx he
  have hr : RingNe (dressed p (s 0).1 (s 0).2 (patch loopLib gate (loopOf bc p s)))
      (fun i => phys (s i)) (outDim dim s) := by
    have hm : ∀ i, ((x i, e i) : ℕ × ℕ × ℕ) ∈ legs (fun i => phys (s i)) (outDim dim s) i := by
      intro i
      simp only [legs, Finset.mem_product, Finset.mem_range]
      exact hin i
    refine ⟨_, hm 0, _, hm 1, _, hm 2, _, hm 3, ?_⟩
    have hv : ∀ {β : Type} (f : Fin 4 → β), ![f 0, f 1, f 2, f 3] = f := fun f => by
      funext i
      fin_cases i <;> rfl
    unfold ringT
    dsimp only
    rw [hv x, hv e, dring x e hin, hring x e hin]
    rw [states, sum_pi4] at hne
    intro h0
    apply hne
    rw [← h0]
    simp only [Finset.sum_mul]
    refine Finset.sum_congr rfl fun _ _ => Finset.sum_congr rfl fun _ _ =>
      Finset.sum_congr rfl fun _ _ => Finset.sum_congr rfl fun _ _ => ?_
    rw [cluster_ring]
    ring
  obtain ⟨T, hT⟩ := gaugeRounds_some dfit hr
  refine ⟨T, fun para h0 hc hw => ?_⟩
  obtain ⟨st, r1, sp, er⟩ := hT para h0 hc hw
  obtain ⟨st', r2, er'⟩ := fetRounds_some para st (by rw [er]; simp)
  rw [loopProject_unfold loopLib para gate hq hf.rows_eq hf.cols_eq, if_neg, r1, Option.bind_some, r2]
  · refine ⟨_, rfl, fun y hy => sp y ?_, er', fun y hy => by simpa [List.mem_flatMap] using hy⟩
    change y ∈ st'.spectra at hy
    rwa [fetRounds_spectra r2] at hy
  · rintro ⟨hb, h⟩
    rw [hf.rows_eq, hf.cols_eq] at h
    have := hpl (hf.bc_eq ▸ hb)
    omega

end QLPeps.Peps
