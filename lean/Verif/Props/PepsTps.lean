import Verif.Lemmas.PepsTps
import Verif.Props.Peps

/-!
# C94: converting a weighted PEPS to a tensor product state keeps the wave function
-/

namespace QLPeps.Peps

open QLPeps.State (BC)
open QLPeps.Tps.Spec (Bond Site leg external slots)
open QLPeps.Peps.Spec

variable {𝕜 : Type*} [RCLike 𝕜]

/-- on a lattice with sites every bond ends at a site -/
theorem bond_has_end {bc : BC} {rows cols : ℕ} (hr : 0 < rows) (hc : 0 < cols)
    (b : Bond bc rows cols) : ∃ (s : Site rows cols) (k : Fin 4), leg bc s k = b := by
  have key : ∀ n, 0 < n → ∀ i : Fin (slots bc n), (∃ c : Fin n, (c : ℕ) = i) ∨
      ∃ c : Fin n, ((c : ℕ) + 1) % slots bc n = i := by
    intro n hn i
    by_cases h : (i : ℕ) < n
    · exact .inl ⟨⟨i, h⟩, rfl⟩
    · refine .inr ⟨⟨n - 1, by omega⟩, ?_⟩
      have hi := i.2
      have : slots bc n = n + 1 := by
        by_cases h' : bc = .obc
        · simp [slots, h']
        · have e : slots bc n = n := by simp [slots, h']
          omega
      dsimp only
      rw [Nat.mod_eq_of_lt (by omega)]
      omega
  rcases b with ⟨r, i⟩ | ⟨i, c⟩
  · rcases key cols hc i with ⟨c, h⟩ | ⟨c, h⟩
    · exact ⟨(r, c), 0, by simp [leg, Prod.ext_iff, Fin.ext_iff, h]⟩
    · exact ⟨(r, c), 2, by simp [leg, Prod.ext_iff, Fin.ext_iff, h]⟩
  · rcases key rows hr i with ⟨r, h⟩ | ⟨r, h⟩
    · exact ⟨(r, c), 3, by simp [leg, Prod.ext_iff, Fin.ext_iff, h]⟩
    · exact ⟨(r, c), 1, by simp [leg, Prod.ext_iff, Fin.ext_iff, h]⟩

open Classical in
/-- **C94** (exact form). Without negative weights the conversion succeeds; lattice, bond dimensions and
physical dimensions are kept, and amplitudes are those of the PEPS up to the square roots of the
weights outside the lattice, which have one end only. -/
theorem C94_conversion_exact {p : Peps 𝕜} {phys : Site p.rows p.cols → ℕ}
    {dim : Bond p.bc p.rows p.cols → ℕ} (hf : Fits p phys dim) (hr : 0 < p.rows) (hc : 0 < p.cols)
    (hw : ∀ b : Bond p.bc p.rows p.cols, ∀ i < dim b, 0 ≤ (weight p b).val i) :
    ∃ ten, toTps p = some ⟨p.rows, p.cols, p.bc, ten⟩ ∧ Tps.Spec.Fits ten dim ∧
      (∀ s : Site p.rows p.cols, (ten s.1 s.2).shape 4 = phys s) ∧
      ∀ σ, Tps.Spec.amplitude dim ten σ *
        (∏ b : Bond p.bc p.rows p.cols,
          if external p.bc b then (Real.sqrt ((weight p b).val 0) : 𝕜) else 1) =
        amplitude p dim σ := by
  have hw' : ∀ b : Bond p.bc p.rows p.cols, NonNeg (weight p b) := fun b i hi =>
    hw b i (by rwa [hf.weight] at hi)
  have hsite := toTpsSite_some hf hw'
  refine ⟨fun r c => ((toTpsSite p r c).getD ⟨[], fun _ => 0⟩).site, ?_, ⟨fun s k => ?_, hf.external⟩,
    fun s => ?_, fun σ => ?_⟩
  · rw [toTps, if_pos]
    intro r h c h'
    obtain ⟨T, e, -⟩ := hsite (⟨r, h⟩, ⟨c, h'⟩)
    rw [show toTpsSite p r c = some T from e]
    rfl
  · obtain ⟨T, e, hs, -⟩ := hsite s
    dsimp only
    rw [e]
    simp only [Option.getD_some, Tn.site, hs]
    fin_cases k <;> rfl
  · obtain ⟨T, e, hs, -⟩ := hsite s
    dsimp only
    rw [e]
    simp only [Option.getD_some, Tn.site, hs]
    rfl
  · unfold Tps.Spec.amplitude amplitude
    rw [Finset.sum_mul]
    refine Finset.sum_congr rfl fun β hβ => ?_
    have hβ' : ∀ b, β b < dim b := fun b => Finset.mem_range.1 (Fintype.mem_piFinset.1 hβ b)
    have h1 : ∀ s : Site p.rows p.cols,
        (((toTpsSite p s.1 s.2).getD ⟨[], fun _ => 0⟩).site).elem (Tps.Spec.coords β s (σ s)) =
        (p.gamma s.1 s.2).elem (coords β s (σ s)) *
          ∏ k, ((Real.sqrt ((weight p (leg p.bc s k)).val (β (leg p.bc s k))) : ℝ) : 𝕜) := by
      intro s
      obtain ⟨T, e, -, he⟩ := hsite s
      rw [e, ← he β (σ s) hβ']
      rfl
    simp only [h1, Finset.prod_mul_distrib]
    rw [mul_assoc]
    congr 1
    have h2 := prod_legs hr hc fun b : Bond p.bc p.rows p.cols =>
      ((Real.sqrt ((weight p b).val (β b)) : ℝ) : 𝕜)
    rw [← Finset.prod_mul_distrib] at h2
    refine Eq.trans ?_ (h2.trans (Finset.prod_congr rfl fun b _ => ?_))
    · congr 1
      refine Finset.prod_congr rfl fun b _ => ?_
      split
      · next hb =>
        have := hβ' b
        rw [hf.external b hb] at this
        rw [show β b = 0 by omega]
      · rfl
    · rw [← RCLike.ofReal_mul, Real.mul_self_sqrt (hw b _ (hβ' b))]

/-- **C94.** A PEPS without negative weights, with weight one on the bonds leaving an open lattice,
becomes a tensor product state with the same wave function. -/
theorem C94_same_wave_function {bc : BC} {rows cols : ℕ} {p : Peps 𝕜} {phys : Site rows cols → ℕ}
    {ψ : (Site rows cols → ℕ) → 𝕜} (hψ : IsWave bc p phys ψ) (hr : 0 < rows) (hc : 0 < cols)
    (hw : ∀ b : Bond bc rows cols, ∀ i < (weight p b).dim, 0 ≤ (weight p b).val i)
    (hext : ∀ b : Bond bc rows cols, external bc b → (weight p b).val 0 = 1) :
    ∃ ten, toTps p = some ⟨rows, cols, bc, ten⟩ ∧
      ∃ ψ', Tps.Spec.IsWave ⟨rows, cols, bc, ten⟩ ψ' ∧
        ∀ σ, (∀ s, σ s < phys s) → ψ' σ = ψ σ := by
  classical
  obtain ⟨dim, hf, hψ⟩ := hψ
  obtain rfl := hf.rows_eq
  obtain rfl := hf.cols_eq
  obtain rfl := hf.bc_eq
  obtain ⟨ten, e, h1, -, h2⟩ := C94_conversion_exact hf hr hc fun b i hi =>
    hw b i (by rwa [hf.weight])
  refine ⟨ten, e, Tps.Spec.amplitude dim ten, ⟨dim, h1, fun _ => rfl⟩, fun σ hσ => ?_⟩
  rw [hψ σ hσ, ← h2 σ, Finset.prod_congr rfl (g := fun _ => (1 : 𝕜)), Finset.prod_const_one, mul_one]
  intro b _
  split
  · next hb => rw [hext b hb, Real.sqrt_one, RCLike.ofReal_one]
  · rfl

/-- the program exits if, and only if, some weight is negative -/
theorem C94_exits_iff_negative {p : Peps 𝕜} {phys : Site p.rows p.cols → ℕ}
    {dim : Bond p.bc p.rows p.cols → ℕ} (hf : Fits p phys dim) (hr : 0 < p.rows)
    (hc : 0 < p.cols) :
    toTps p = none ↔ ∃ b : Bond p.bc p.rows p.cols, ∃ i < dim b, (weight p b).val i < 0 := by
  constructor
  · intro h
    by_contra hn
    push Not at hn
    classical
    obtain ⟨ten, e, -⟩ := C94_conversion_exact hf hr hc hn
    rw [e] at h
    exact Option.some_ne_none _ h
  · rintro ⟨b, i, hi, h⟩
    obtain ⟨s, k, rfl⟩ := bond_has_end hr hc b
    have hneg : ¬ NonNeg (weight p (leg p.bc s k)) := fun hh =>
      absurd (hh i (by rwa [hf.weight])) (not_le.2 h)
    rw [toTps, if_neg]
    intro hall
    have := hall s.1 s.1.2 s.2 s.2.2
    rw [Option.isSome_iff_ne_none, ne_eq, toTpsSite_none, not_not, west_eq (bc := p.bc),
      north_eq (bc := p.bc), south_eq (bc := p.bc) rfl rfl, east_eq (bc := p.bc) rfl rfl] at this
    obtain ⟨h1, h2, h3, h4⟩ := this
    fin_cases k
    · exact hneg h1
    · exact hneg h4
    · exact hneg h2
    · exact hneg h3

/-! ## The hypotheses can be met -/

/-- two sites, one bond with weights 4 and `w` -/
def pairPeps (w : ℝ) : Peps ℝ := ⟨1, 2, .obc,
  fun _ c => ⟨if c = 0 then [1, 1, 2, 1, 2] else [2, 1, 1, 1, 2], fun x =>
    if x.getD (if c = 0 then 2 else 0) 0 = x.getD 4 0 then 1 else 0⟩,
  fun _ _ => ⟨1, fun _ => 1⟩,
  fun _ c => if c = 1 then ⟨2, fun i => if i = 0 then 4 else w⟩ else ⟨1, fun _ => 1⟩⟩

theorem pairPeps_fits (w : ℝ) : Fits (bc := .obc) (rows := 1) (cols := 2) (pairPeps w) (fun _ => 2)
    (fun b => (weight (pairPeps w) b).dim) := by
  refine ⟨rfl, rfl, rfl, fun s => ?_, fun _ => rfl, fun b hb => ?_⟩
  · obtain ⟨r, c⟩ := s
    fin_cases r
    fin_cases c <;> rfl
  · rcases b with ⟨r, i⟩ | ⟨i, c⟩
    · have h2 : (i : ℕ) = 0 ∨ (i : ℕ) = 2 := hb.2
      have : ¬ ((i : ℕ) = 1) := by omega
      simp [weight, pairPeps, this]
    · rfl

/-- with weights 4 and 9 the conversion keeps the wave function -/
example : ∃ ten, toTps (pairPeps 9) = some ⟨1, 2, .obc, ten⟩ ∧
    ∃ ψ', Tps.Spec.IsWave ⟨1, 2, .obc, ten⟩ ψ' ∧ ∀ σ : Site 1 2 → ℕ, (∀ s, σ s < 2) →
      ψ' σ = amplitude (bc := .obc) (rows := 1) (cols := 2) (pairPeps 9)
        (fun b => (weight (pairPeps 9) b).dim) σ := by
  refine C94_same_wave_function (bc := .obc) (p := pairPeps 9) (phys := fun _ => 2)
    ⟨_, pairPeps_fits 9, fun _ _ => rfl⟩ (by decide) (by decide) (fun b i _ => ?_) fun b hb => ?_
  · rcases b with ⟨r, j⟩ | ⟨j, c⟩
    · simp only [weight, pairPeps]
      split
      · dsimp only
        split <;> norm_num
      · norm_num
    · simp [weight, pairPeps]
  · rcases b with ⟨r, i⟩ | ⟨i, c⟩
    · have h2 : (i : ℕ) = 0 ∨ (i : ℕ) = 2 := hb.2
      have : ¬ ((i : ℕ) = 1) := by omega
      simp [weight, pairPeps, this]
    · rfl

/-- with a negative weight the program exits -/
example : toTps (pairPeps (-1)) = none :=
  (C94_exits_iff_negative (p := pairPeps (-1)) (pairPeps_fits (-1)) (by decide) (by decide)).2
    ⟨.inl ((0 : Fin 1), (1 : Fin 3)), 1, by simp [weight, pairPeps], by simp [weight, pairPeps]⟩

end QLPeps.Peps
