import Verif.Lemmas.Tps

/-!
# Properties of superpositions of tensor product states

* C90: `WaveFunctionSum` gives the sum of the wave functions; with coefficients, the weighted sum,
  as long as the coefficients are non-negative reals (or reals on an odd number of sites).

`IsWave t ψ` says that `ψ` is the wave function of `t`: the tensors fit together and every amplitude
is the contraction of the network.
-/

namespace QLPeps.Tps

open Spec
open QLPeps.State (BC)

variable {𝕜 : Type*} [CommSemiring 𝕜] {bc : BC} {rows cols : ℕ}

/-- C90: a tensor product state has only one wave function. -/
theorem C90_wave_unique (t : Tps 𝕜) (hr : 0 < t.rows) (hc : 0 < t.cols)
    (ψ φ : (Site t.rows t.cols → ℕ) → 𝕜) (h1 : IsWave t ψ) (h2 : IsWave t φ) : ψ = φ := by
  obtain ⟨d, hd, hψ⟩ := h1
  obtain ⟨e, he, hφ⟩ := h2
  have : d = e := by
    funext b
    obtain ⟨s, k, rfl⟩ := exists_leg hr hc b
    rw [← hd.1 s k, ← he.1 s k]
  subst this
  funext σ
  rw [hψ, hφ]

/-- C90: the wave function of `WaveFunctionSum(tps1, tps2)` is the sum of the two wave functions, on
every lattice, open or periodic, for all configurations. -/
theorem C90_sum_is_superposition (hr : 0 < rows) (hc : 0 < cols) (a b : ℕ → ℕ → Ten 𝕜)
    (ψ φ : (Site rows cols → ℕ) → 𝕜) (h1 : IsWave ⟨rows, cols, bc, a⟩ ψ)
    (h2 : IsWave ⟨rows, cols, bc, b⟩ φ) :
    ∃ t, waveFunctionSum ⟨rows, cols, bc, a⟩ ⟨rows, cols, bc, b⟩ = ⟨rows, cols, bc, t⟩ ∧
      IsWave ⟨rows, cols, bc, t⟩ fun σ => ψ σ + φ σ := by
  obtain ⟨d, hd, hψ⟩ := h1
  obtain ⟨e, he, hφ⟩ := h2
  refine ⟨_, rfl, sumDim d e, fits_sum hd he, fun σ => ?_⟩
  dsimp only
  rw [hψ, hφ]
  exact (amplitude_sum hr hc hd he σ).symm

/-- C90: the bond dimensions of the sum are the sums of the bond dimensions inside the lattice and
one at the edges of an open lattice. -/
theorem C90_bond_dimensions (a b : ℕ → ℕ → Ten 𝕜) (d e : Bond bc rows cols → ℕ) (hd : Fits a d)
    (he : Fits b e) (s : Site rows cols) (k : Fin 4) :
    ((waveFunctionSum ⟨rows, cols, bc, a⟩ ⟨rows, cols, bc, b⟩).ten s.1 s.2).shape k.castSucc =
      haveI := Classical.propDecidable (external bc (leg bc s k))
      if external bc (leg bc s k) then 1
      else (a s.1 s.2).shape k.castSucc + (b s.1 s.2).shape k.castSucc := by
  have := (fits_sum hd he).1 s k
  rw [hd.1 s k, he.1 s k]
  exact this

theorem sumScaled_wave {𝕜 : Type*} [CommSemiring 𝕜] (hr : 0 < rows) (hc : 0 < cols)
    (a b : ℕ → ℕ → Ten 𝕜) (s1 s2 : 𝕜)
    (ψ φ : (Site rows cols → ℕ) → 𝕜) (h1 : IsWave ⟨rows, cols, bc, a⟩ ψ)
    (h2 : IsWave ⟨rows, cols, bc, b⟩ φ) :
    ∃ t, sumScaled s1 ⟨rows, cols, bc, a⟩ s2 ⟨rows, cols, bc, b⟩ = ⟨rows, cols, bc, t⟩ ∧
      IsWave ⟨rows, cols, bc, t⟩ fun σ => s1 ^ (rows * cols) * ψ σ + s2 ^ (rows * cols) * φ σ := by
  obtain ⟨d, hd, hψ⟩ := h1
  obtain ⟨e, he, hφ⟩ := h2
  refine ⟨_, rfl, sumDim d e, fits_sum (fits_scale hd s1) (fits_scale he s2), fun σ => ?_⟩
  dsimp only
  rw [hψ, hφ]
  refine ((amplitude_sum hr hc (fits_scale hd s1) (fits_scale he s2) σ).trans ?_).symm
  rw [amplitude_scale, amplitude_scale]

/-- C90: the exact result of `WaveFunctionSum(alpha, tps1, beta, tps2)` for real tensors: on an odd
number of sites the weighted sum, on an even number of sites the sum weighted by the absolute
values. -/
theorem C90_weighted_sum_exact (hr : 0 < rows) (hc : 0 < cols) (a b : ℕ → ℕ → Ten ℝ) (α β : ℝ)
    (ψ φ : (Site rows cols → ℕ) → ℝ) (h1 : IsWave ⟨rows, cols, bc, a⟩ ψ)
    (h2 : IsWave ⟨rows, cols, bc, b⟩ φ) :
    ∃ t, sumReal α ⟨rows, cols, bc, a⟩ β ⟨rows, cols, bc, b⟩ = ⟨rows, cols, bc, t⟩ ∧
      IsWave ⟨rows, cols, bc, t⟩ fun σ =>
        (if rows * cols % 2 = 1 then α else |α|) * ψ σ +
        (if rows * cols % 2 = 1 then β else |β|) * φ σ := by
  have := sumScaled_wave hr hc a b (scaleReal (rows * cols) α) (scaleReal (rows * cols) β) ψ φ h1 h2
  rw [scaleReal_pow _ (Nat.mul_pos hr hc), scaleReal_pow _ (Nat.mul_pos hr hc)] at this
  exact this

/-- C90: for real tensors the result is the weighted sum `α ψ + β φ` when the coefficients are
non-negative or the number of sites is odd. -/
theorem C90_weighted_sum_partial (hr : 0 < rows) (hc : 0 < cols) (a b : ℕ → ℕ → Ten ℝ) (α β : ℝ)
    (hok : rows * cols % 2 = 1 ∨ 0 ≤ α ∧ 0 ≤ β)
    (ψ φ : (Site rows cols → ℕ) → ℝ) (h1 : IsWave ⟨rows, cols, bc, a⟩ ψ)
    (h2 : IsWave ⟨rows, cols, bc, b⟩ φ) :
    ∃ t, sumReal α ⟨rows, cols, bc, a⟩ β ⟨rows, cols, bc, b⟩ = ⟨rows, cols, bc, t⟩ ∧
      IsWave ⟨rows, cols, bc, t⟩ fun σ => α * ψ σ + β * φ σ := by
  have := C90_weighted_sum_exact hr hc a b α β ψ φ h1 h2
  have hα : (if rows * cols % 2 = 1 then α else |α|) = α := by
    rcases hok with h | h
    · rw [if_pos h]
    · rw [abs_of_nonneg h.1, ite_self]
  have hβ : (if rows * cols % 2 = 1 then β else |β|) = β := by
    rcases hok with h | h
    · rw [if_pos h]
    · rw [abs_of_nonneg h.2, ite_self]
  rw [hα, hβ] at this
  exact this

/-- C90, disagreement: on an even number of sites the sign of a coefficient is lost. The difference
`1·ψ + (-1)·ψ` of a state with itself comes out as `2ψ`, not as zero. -/
theorem C90_difference_becomes_double (hr : 0 < rows) (hc : 0 < cols) (heven : rows * cols % 2 = 0)
    (a : ℕ → ℕ → Ten ℝ) (ψ : (Site rows cols → ℕ) → ℝ) (h : IsWave ⟨rows, cols, bc, a⟩ ψ) :
    ∃ t, sumReal 1 ⟨rows, cols, bc, a⟩ (-1) ⟨rows, cols, bc, a⟩ = ⟨rows, cols, bc, t⟩ ∧
      IsWave ⟨rows, cols, bc, t⟩ fun σ => 2 * ψ σ := by
  obtain ⟨t, h1, h2⟩ := C90_weighted_sum_exact hr hc a a 1 (-1) ψ ψ h h
  refine ⟨t, h1, ?_⟩
  have : ¬ rows * cols % 2 = 1 := by omega
  simp only [this, if_false, abs_one, abs_neg, one_mul] at h2
  simp only [two_mul]
  exact h2

/-- C90, disagreement: for complex tensors the phases of the coefficients are lost, whatever the
number of sites: the result is weighted by the absolute values. -/
theorem C90_complex_phases_lost (hr : 0 < rows) (hc : 0 < cols) (a b : ℕ → ℕ → Ten ℂ) (α β : ℂ)
    (ψ φ : (Site rows cols → ℕ) → ℂ) (h1 : IsWave ⟨rows, cols, bc, a⟩ ψ)
    (h2 : IsWave ⟨rows, cols, bc, b⟩ φ) :
    ∃ t, sumComplex α ⟨rows, cols, bc, a⟩ β ⟨rows, cols, bc, b⟩ = ⟨rows, cols, bc, t⟩ ∧
      IsWave ⟨rows, cols, bc, t⟩ fun σ => (‖α‖ : ℂ) * ψ σ + (‖β‖ : ℂ) * φ σ := by
  have := sumScaled_wave hr hc a b (scaleComplex (rows * cols) α) (scaleComplex (rows * cols) β)
    ψ φ h1 h2
  rw [scaleComplex_pow _ (Nat.mul_pos hr hc), scaleComplex_pow _ (Nat.mul_pos hr hc)] at this
  exact this

/-- C90: the sum of a list of states without coefficients. -/
theorem C90_list_sum (hr : 0 < rows) (hc : 0 < cols)
    (l : List ((ℕ → ℕ → Ten 𝕜) × ((Site rows cols → ℕ) → 𝕜))) (hl : l ≠ [])
    (h : ∀ p ∈ l, IsWave ⟨rows, cols, bc, p.1⟩ p.2) :
    ∃ t, sumList (l.map fun p => ⟨rows, cols, bc, p.1⟩) = some ⟨rows, cols, bc, t⟩ ∧
      IsWave ⟨rows, cols, bc, t⟩ fun σ => (l.map fun p => p.2 σ).sum := by
  have key : ∀ (l : List ((ℕ → ℕ → Ten 𝕜) × ((Site rows cols → ℕ) → 𝕜)))
      (a : ℕ → ℕ → Ten 𝕜) (ψ : (Site rows cols → ℕ) → 𝕜), IsWave ⟨rows, cols, bc, a⟩ ψ →
      (∀ p ∈ l, IsWave ⟨rows, cols, bc, p.1⟩ p.2) →
      ∃ t, (l.map fun p => (⟨rows, cols, bc, p.1⟩ : Tps 𝕜)).foldl waveFunctionSum
          ⟨rows, cols, bc, a⟩ = ⟨rows, cols, bc, t⟩ ∧
        IsWave ⟨rows, cols, bc, t⟩ fun σ => ψ σ + (l.map fun p => p.2 σ).sum := by
    intro l
    induction l with
    | nil =>
      intro a ψ ha _
      exact ⟨a, rfl, by simpa using ha⟩
    | cons p l ih =>
      intro a ψ ha h
      obtain ⟨t, ht, hw⟩ := C90_sum_is_superposition hr hc a p.1 ψ p.2 ha (h p (List.mem_cons_self ..))
      obtain ⟨t', ht', hw'⟩ := ih t _ hw fun q hq => h q (List.mem_cons_of_mem _ hq)
      refine ⟨t', by rw [List.map_cons, List.foldl_cons, ht, ht'], ?_⟩
      simp only [List.map_cons, List.sum_cons, ← add_assoc]
      exact hw'
  match l, hl, h with
  | [], hl, _ => exact absurd rfl hl
  | [p], _, h => exact ⟨p.1, rfl, by simpa using h p (List.mem_singleton.2 rfl)⟩
  | p :: q :: l, _, h =>
    obtain ⟨t, ht, hw⟩ := C90_sum_is_superposition hr hc p.1 q.1 p.2 q.2 (h p (by simp)) (h q (by simp))
    obtain ⟨t', ht', hw'⟩ := key l t _ hw fun r hr => h r (by simp [hr])
    refine ⟨t', ?_, ?_⟩
    · simp only [List.map_cons, sumList]
      rw [ht, ht']
    · simp only [List.map_cons, List.sum_cons, ← add_assoc]
      exact hw'

/-- C90: the sum of a list of real states with non-negative coefficients is the weighted sum. -/
theorem C90_weighted_list_sum_partial (hr : 0 < rows) (hc : 0 < cols)
    (l : List (ℝ × (ℕ → ℕ → Ten ℝ) × ((Site rows cols → ℕ) → ℝ))) (hl : l ≠ [])
    (hpos : ∀ p ∈ l, 0 ≤ p.1) (h : ∀ p ∈ l, IsWave ⟨rows, cols, bc, p.2.1⟩ p.2.2) :
    ∃ t, sumListReal (l.map fun p => (p.1, ⟨rows, cols, bc, p.2.1⟩)) = some ⟨rows, cols, bc, t⟩ ∧
      IsWave ⟨rows, cols, bc, t⟩ fun σ => (l.map fun p => p.1 * p.2.2 σ).sum := by
  have key : ∀ (l : List (ℝ × (ℕ → ℕ → Ten ℝ) × ((Site rows cols → ℕ) → ℝ)))
      (a : ℕ → ℕ → Ten ℝ) (ψ : (Site rows cols → ℕ) → ℝ), IsWave ⟨rows, cols, bc, a⟩ ψ →
      (∀ p ∈ l, 0 ≤ p.1) → (∀ p ∈ l, IsWave ⟨rows, cols, bc, p.2.1⟩ p.2.2) →
      ∃ t, (l.map fun p => (p.1, (⟨rows, cols, bc, p.2.1⟩ : Tps ℝ))).foldl
          (fun acc ct => sumReal 1 acc ct.1 ct.2) ⟨rows, cols, bc, a⟩ = ⟨rows, cols, bc, t⟩ ∧
        IsWave ⟨rows, cols, bc, t⟩ fun σ => ψ σ + (l.map fun p => p.1 * p.2.2 σ).sum := by
    intro l
    induction l with
    | nil =>
      intro a ψ ha _ _
      exact ⟨a, rfl, by simpa using ha⟩
    | cons p l ih =>
      intro a ψ ha hp h
      obtain ⟨t, ht, hw⟩ := C90_weighted_sum_partial hr hc a p.2.1 1 p.1
        (Or.inr ⟨zero_le_one, hp p (List.mem_cons_self ..)⟩) ψ p.2.2 ha (h p (List.mem_cons_self ..))
      obtain ⟨t', ht', hw'⟩ := ih t _ hw (fun q hq => hp q (List.mem_cons_of_mem _ hq))
        fun q hq => h q (List.mem_cons_of_mem _ hq)
      refine ⟨t', by simp only [List.map_cons, List.foldl_cons, ht, ht'], ?_⟩
      simp only [one_mul] at hw'
      simp only [List.map_cons, List.sum_cons, ← add_assoc]
      exact hw'
  match l, hl, hpos, h with
  | [], hl, _, _ => exact absurd rfl hl
  | [p], _, hp, h =>
    obtain ⟨d, hd, hψ⟩ := h p (List.mem_singleton.2 rfl)
    refine ⟨_, rfl, d, fits_scale hd _, fun σ => ?_⟩
    refine Eq.trans ?_ (amplitude_scale d _ _ σ).symm
    rw [one_div, Real.rpow_inv_natCast_pow (abs_nonneg _) (Nat.mul_pos hr hc).ne',
      abs_of_nonneg (hp p (List.mem_singleton.2 rfl))]
    simp [hψ]
  | p :: q :: l, _, hp, h =>
    obtain ⟨t, ht, hw⟩ := C90_weighted_sum_partial hr hc p.2.1 q.2.1 p.1 q.1
      (Or.inr ⟨hp p (by simp), hp q (by simp)⟩) p.2.2 q.2.2 (h p (by simp)) (h q (by simp))
    obtain ⟨t', ht', hw'⟩ := key l t _ hw (fun r hr => hp r (by simp [hr])) fun r hr => h r (by simp [hr])
    refine ⟨t', ?_, ?_⟩
    · simp only [List.map_cons, sumListReal]
      rw [ht, ht']
    · simp only [List.map_cons, List.sum_cons, ← add_assoc]
      exact hw'

/-- C90, disagreement: a single state with a negative coefficient keeps its sign, even on an odd
number of sites where two states would not. -/
theorem C90_single_state_sign_lost (hr : 0 < rows) (hc : 0 < cols) (a : ℕ → ℕ → Ten ℝ) (α : ℝ)
    (ψ : (Site rows cols → ℕ) → ℝ) (h : IsWave ⟨rows, cols, bc, a⟩ ψ) :
    ∃ t, sumListReal [(α, ⟨rows, cols, bc, a⟩)] = some ⟨rows, cols, bc, t⟩ ∧
      IsWave ⟨rows, cols, bc, t⟩ fun σ => |α| * ψ σ := by
  obtain ⟨d, hd, hψ⟩ := h
  refine ⟨_, rfl, d, fits_scale hd _, fun σ => ?_⟩
  refine Eq.trans ?_ (amplitude_scale d _ _ σ).symm
  rw [one_div, Real.rpow_inv_natCast_pow (abs_nonneg _) (Nat.mul_pos hr hc).ne']
  dsimp only
  rw [hψ]

/-! ## The hypotheses are met -/

/-- product states: all bonds of dimension one; their wave function is the product of the local
amplitudes -/
theorem product_state_wave (f : ℕ → ℕ → ℕ → 𝕜) :
    IsWave ⟨rows, cols, bc, fun r c => ⟨fun _ => 1, fun x => f r c (x 4)⟩⟩
      fun σ => ∏ s : Site rows cols, f s.1 s.2 (σ s) := by
  refine ⟨fun _ => 1, ⟨fun _ _ => rfl, fun _ _ => rfl⟩, fun σ => ?_⟩
  unfold amplitude
  have : (Fintype.piFinset fun _ : Bond bc rows cols => Finset.range 1) = {fun _ => 0} := by
    ext β
    simp only [Fintype.mem_piFinset, Finset.mem_range, Finset.mem_singleton, funext_iff]
    exact forall_congr' fun _ => by omega
  rw [this, Finset.sum_singleton]
  exact Finset.prod_congr rfl fun s _ => by
    change _ = f _ _ (coords _ s (σ s) 4)
    rw [coords_last]

/-- two different product states on a 2 × 2 torus: their sum is a GHZ-like state -/
example : ∃ t, waveFunctionSum
      ⟨2, 2, .pbc, fun _ _ => ⟨fun _ => 1, fun x => if x 4 = 0 then (1 : ℝ) else 0⟩⟩
      ⟨2, 2, .pbc, fun _ _ => ⟨fun _ => 1, fun x => if x 4 = 1 then (1 : ℝ) else 0⟩⟩ =
      ⟨2, 2, .pbc, t⟩ ∧
    IsWave ⟨2, 2, .pbc, t⟩ fun (σ : Site 2 2 → ℕ) =>
      ((∏ s : Site 2 2, if σ s = 0 then (1 : ℝ) else 0) +
        ∏ s : Site 2 2, if σ s = 1 then (1 : ℝ) else 0) := by
  have h0 := product_state_wave (𝕜 := ℝ) (bc := .pbc) (rows := 2) (cols := 2)
    fun _ _ p => if p = 0 then 1 else 0
  have h1 := product_state_wave (𝕜 := ℝ) (bc := .pbc) (rows := 2) (cols := 2)
    fun _ _ p => if p = 1 then 1 else 0
  exact C90_sum_is_superposition (by norm_num) (by norm_num) _ _ _ _ h0 h1

end QLPeps.Tps
