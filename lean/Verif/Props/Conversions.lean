import Verif.Model.Conversions
import Verif.Props.ExactRun
import Verif.Props.PepsFlow
import Verif.Props.SplitIndex

/-!
# Property C142: from projections of a PEPS to the amplitudes of the sampler
-/

namespace QLPeps.Conversions

open QLPeps.State (BC)
open QLPeps.Contractor QLPeps.Sweep QLPeps.Updaters
open QLPeps.Tps.Spec (Bond leg external)
open QLPeps.Peps (Tn Lib Peps toTps)
open QLPeps.Peps.Spec
open QLPeps.SplitIndex (component)

noncomputable section

variable {𝕜 : Type*} [RCLike 𝕜] {rows cols : ℕ}

/-- **C142.** A PEPS on an open lattice without negative weights, and with weight one on the bonds that leave the lattice, is
converted, projected on a configuration and contracted without truncation: the amplitude is that of the PEPS. -/
theorem C142_amplitude_of_peps {lib : Lib 𝕜} (hl : QLPeps.Bmps.Spec.Lossless lib) {p : Peps 𝕜}
    {phys : QLPeps.Tps.Spec.Site rows cols → ℕ} {ψ : (QLPeps.Tps.Spec.Site rows cols → ℕ) → 𝕜}
    (hψ : IsWave .obc p phys ψ) (hr : 1 ≤ rows) (hcols : 2 ≤ cols)
    (hw : ∀ b : Bond .obc rows cols, ∀ i < (weight p b).dim, 0 ≤ (weight p b).val i)
    (hext : ∀ b : Bond .obc rows cols, external .obc b → (weight p b).val 0 = 1) :
    ∃ comps, splitPeps p = some comps ∧ (∀ s : QLPeps.Tps.Spec.Site rows cols, (comps (s.1, s.2)).length = phys s) ∧
      ∀ cfg : Config, (∀ s : QLPeps.Tps.Spec.Site rows cols, cfg (s.1, s.2) < phys s) →
      ∀ c : Ctr (List (Tn 𝕜)) (Tn 𝕜) (Tn 𝕜),
        ∃ c', evaluateAmplitude (QLPeps.Bmps.tensorOps lib rows cols) rows cols (project (component comps) cfg)
            (init (QLPeps.Bmps.tensorOps lib rows cols) c) = some (ψ fun s => cfg (s.1, s.2), c') ∧
          Fresh (QLPeps.Bmps.tensorOps lib rows cols) rows cols (project (component comps) cfg) c' := by
  classical
  obtain ⟨dim, hf, hψ⟩ := hψ
  obtain rfl := hf.rows_eq
  obtain rfl := hf.cols_eq
  have hbc := hf.bc_eq
  obtain ⟨R, C, bc, g, lv, lh⟩ := p
  dsimp only at hbc hr hcols hw hext
  subst hbc
  obtain ⟨ten, e, h1, h3, h2⟩ := QLPeps.Peps.C94_conversion_exact hf (by dsimp only; omega) (by dsimp only; omega) fun b i hi =>
    hw b i (by rwa [hf.weight])
  refine ⟨_, by rw [splitPeps, e]; rfl, fun s => ?_, fun cfg hcfg c => ?_⟩
  · rw [← h3 s]
    exact (QLPeps.SplitIndex.C100_components (fun s : QLPeps.Site => QLPeps.SplitIndex.toTn (ten s.1 s.2)) (s.1, s.2) rfl).1
  · have key := QLPeps.SplitIndex.C100_amplitude_from_tps hl ten dim h1 hr hcols cfg (fun s => by rw [h3]; exact hcfg s) c
    have : Tps.Spec.amplitude dim ten (fun s => cfg (s.1, s.2)) = ψ fun s => cfg (s.1, s.2) := by
      rw [hψ _ hcfg, ← h2, Finset.prod_congr rfl (g := fun _ => (1 : 𝕜)), Finset.prod_const_one, mul_one]
      intro b _
      split
      · next hb => rw [hext b hb, Real.sqrt_one, RCLike.ofReal_one]
      · rfl
    rw [this] at key
    exact key

/-- the components fit together, and the networks projected from them have the amplitudes of the PEPS as values -/
theorem splitPeps_fits {p : Peps 𝕜} {d : ℕ} {ψ : (QLPeps.Tps.Spec.Site rows cols → ℕ) → 𝕜}
    (hψ : IsWave .obc p (fun _ => d) ψ) (hr : 1 ≤ rows) (hcols : 1 ≤ cols)
    (hw : ∀ b : Bond .obc rows cols, ∀ i < (weight p b).dim, 0 ≤ (weight p b).val i)
    (hext : ∀ b : Bond .obc rows cols, external .obc b → (weight p b).val 0 = 1) :
    ∃ comps dim, splitPeps p = some comps ∧ QLPeps.SolverRun.Spec.FitsAll (rows := rows) (cols := cols) dim (component comps) d ∧
      ∀ cfg : Config, (∀ s, cfg s < d) →
        QLPeps.SolverRun.Spec.amplitude dim (component comps) cfg = ψ fun s => cfg (s.1, s.2) := by
  classical
  obtain ⟨dim, hf, hψ⟩ := hψ
  obtain rfl := hf.rows_eq
  obtain rfl := hf.cols_eq
  have hbc := hf.bc_eq
  obtain ⟨R, C, bc, g, lv, lh⟩ := p
  dsimp only at hbc hr hcols hw hext
  subst hbc
  obtain ⟨ten, e, h1, h3, h2⟩ := QLPeps.Peps.C94_conversion_exact hf (by dsimp only; omega) (by dsimp only; omega) fun b i hi =>
    hw b i (by rwa [hf.weight])
  refine ⟨_, dim, by rw [splitPeps, e]; rfl, fun cfg hcfg => ?_, fun cfg hcfg => ?_⟩
  · exact (QLPeps.SplitIndex.C100_projected_value ten dim h1 cfg fun s => by rw [h3]; exact hcfg _).1
  · have key := (QLPeps.SplitIndex.C100_projected_value ten dim h1 cfg fun s => by rw [h3]; exact hcfg _).2
    refine Eq.trans key ?_
    rw [hψ _ (fun _ => hcfg _), ← h2, Finset.prod_congr rfl (g := fun _ => (1 : 𝕜)), Finset.prod_const_one, mul_one]
    intro b _
    split
    · next hb => rw [hext b hb, Real.sqrt_one, RCLike.ofReal_one]
    · rfl

open QLPeps.Energy QLPeps.Spec QLPeps.ExactRun.Spec in
/-- **C142.** Exact summation for a spin-1/2 PEPS that was converted returns the energy of the PEPS: XXZ and J1-J2 models. -/
theorem C142_energy_xxz {𝕜 : Type*} [RCLike 𝕜] {lib : Lib 𝕜} (hl : QLPeps.Bmps.Spec.Lossless lib) {p : Peps 𝕜}
    {ψ : (QLPeps.Tps.Spec.Site rows cols → ℕ) → 𝕜} (hψ : IsWave .obc p (fun _ => 2) ψ) (hr : 2 ≤ rows) (hcols : 2 ≤ cols)
    (hw : ∀ b : Bond .obc rows cols, ∀ i < (weight p b).dim, 0 ≤ (weight p b).val i)
    (hext : ∀ b : Bond .obc rows cols, external .obc b → (weight p b).val 0 = 1)
    (nnn : Bool) (jz jxy jz2 jxy2 pin : 𝕜) (h1 : star jz = jz) (h2 : star jxy = jxy)
    (h3 : star jz2 = jz2) (h4 : star jxy2 = jxy2) (h5 : star pin = pin) (isZero : 𝕜 → Bool)
    (hz : ∀ a, isZero a = true ↔ a = 0) (L : List (SpinCfg rows cols)) (hL : L.Nodup) (hne : L ≠ [])
    (hcl : Closed (xxzH jz jxy (if nnn then jz2 else 0) (if nnn then jxy2 else 0) pin) L)
    (h0 : ∀ s ∈ L, (ψ fun q => toConfig s (q.1, q.2)) ≠ 0) :
    ∃ comps, splitPeps p = some comps ∧ ∃ grad, ∀ size, 0 < size →
      QLPeps.ExactRun.exactRun lib rows cols (component comps)
        (fun cfg => QLPeps.SolverRun.pairSolver lib rows cols (component comps) cfg isZero true (xxz nnn jz jxy jz2 jxy2 pin))
        (L.map toConfig) size =
      .ok (some (energy (xxzH jz jxy (if nnn then jz2 else 0) (if nnn then jxy2 else 0) pin) L
        fun s => ψ fun q => toConfig s (q.1, q.2), grad)) := by
  obtain ⟨comps, dim, e, f, a⟩ := splitPeps_fits hψ (by omega) (by omega) hw hext
  have ha : ∀ s : SpinCfg rows cols, QLPeps.SolverRun.Spec.amplitude dim (component comps) (toConfig s) =
      ψ fun q => toConfig s (q.1, q.2) := fun s => a _ (QLPeps.SolverRun.toConfig_lt s)
  obtain ⟨g, hg, _⟩ := QLPeps.ExactRun.C104_xxz hl f hr hcols nnn jz jxy jz2 jxy2 pin h1 h2 h3 h4 h5 isZero hz L hL hne hcl
    (fun s hs => by rw [ha]; exact h0 s hs)
  exact ⟨comps, e, g, fun size hs => by rw [hg size hs]; simp only [ha]⟩

open QLPeps.Energy QLPeps.Spec QLPeps.ExactRun.Spec in
/-- **C142.** The same for the transverse-field Ising model. -/
theorem C142_energy_tfim {𝕜 : Type*} [RCLike 𝕜] {lib : Lib 𝕜} (hl : QLPeps.Bmps.Spec.Lossless lib) {p : Peps 𝕜}
    {ψ : (QLPeps.Tps.Spec.Site rows cols → ℕ) → 𝕜} (hψ : IsWave .obc p (fun _ => 2) ψ) (hr : 1 ≤ rows) (hcols : 2 ≤ cols)
    (hw : ∀ b : Bond .obc rows cols, ∀ i < (weight p b).dim, 0 ≤ (weight p b).val i)
    (hext : ∀ b : Bond .obc rows cols, external .obc b → (weight p b).val 0 = 1)
    (h : 𝕜) (hh : star h = h) (L : List (SpinCfg rows cols)) (hL : L.Nodup) (hne : L ≠ []) (hcl : Closed (tfimH h) L)
    (h0 : ∀ s ∈ L, (ψ fun q => toConfig s (q.1, q.2)) ≠ 0) :
    ∃ comps, splitPeps p = some comps ∧ ∃ grad, ∀ size, 0 < size →
      QLPeps.ExactRun.exactRun lib rows cols (component comps)
        (fun cfg => QLPeps.SolverRun.tfimSolver lib rows cols (component comps) cfg true h) (L.map toConfig) size =
      .ok (some (energy (tfimH h) L fun s => ψ fun q => toConfig s (q.1, q.2), grad)) := by
  obtain ⟨comps, dim, e, f, a⟩ := splitPeps_fits hψ hr (by omega) hw hext
  have ha : ∀ s : SpinCfg rows cols, QLPeps.SolverRun.Spec.amplitude dim (component comps) (toConfig s) =
      ψ fun q => toConfig s (q.1, q.2) := fun s => a _ (QLPeps.SolverRun.toConfig_lt s)
  obtain ⟨g, hg, _⟩ := QLPeps.ExactRun.C104_tfim hl f hr hcols h hh L hL hne hcl (fun s hs => by rw [ha]; exact h0 s hs)
  exact ⟨comps, e, g, fun size hs => by rw [hg size hs]; simp only [ha]⟩

open Classical in
/-- **C142.** The whole way: a PEPS on an open lattice starts as a basis state, any projections act on it without truncation, it is
converted, projected on any configuration, and contracted without truncation. The amplitude, times the product of the reported norms, is
that of the gates applied to the basis state. -/
theorem C142_amplitude_after_projections {Q : Type*} [AddCommGroup Q] {lib lib' : Lib 𝕜} (hlib : Exact lib)
    (hsvd : SvdNonNeg lib) (hl' : QLPeps.Bmps.Spec.Lossless lib') {tol : ℝ} (htol : 0 ≤ tol) (ham : Option (Tn 𝕜)) (act : ℕ → ℕ → ℕ)
    (p : QLPeps.Peps.QPeps Q 𝕜) (hobc : p.bc = .obc) (hr : 1 ≤ p.rows) (hc : 2 ≤ p.cols) (steps : List (Step 𝕜 p.rows p.cols))
    (hst : ∀ st ∈ steps, st.WellPlaced p.bc (physDim p))
    (hl : Lossless p.bc lib tol ham (QLPeps.Peps.initial act p).peps steps) :
    ∃ comps, splitPeps (runAll lib tol ham (QLPeps.Peps.initial act p).peps steps).1 = some comps ∧
      ∀ cfg : Config, (∀ s : QLPeps.Tps.Spec.Site p.rows p.cols, cfg (s.1, s.2) < physDim p s) →
      ∀ c : Ctr (List (Tn 𝕜)) (Tn 𝕜) (Tn 𝕜),
        ∃ a c', evaluateAmplitude (QLPeps.Bmps.tensorOps lib' p.rows p.cols) p.rows p.cols (project (component comps) cfg)
            (init (QLPeps.Bmps.tensorOps lib' p.rows p.cols) c) = some (a, c') ∧
          ((runAll lib tol ham (QLPeps.Peps.initial act p).peps steps).2 : 𝕜) * a =
            applyAll (physDim p) (fun τ => if ∀ s, τ s = act s.1 s.2 then 1 else 0) steps fun s => cfg (s.1, s.2) := by
  obtain ⟨h1, h2⟩ := QLPeps.Peps.initial_convertible act p hr
  obtain ⟨-, h4⟩ := QLPeps.Peps.history_convertible hsvd tol ham steps hst h1 h2
  obtain ⟨φ, h5, h6⟩ := QLPeps.Peps.C92_history_of_projections hlib htol ham steps hst _ _
    (QLPeps.Peps.C95_initial_is_product_state act p hr).1 hl
  rw [hobc] at h5 h4
  obtain ⟨comps, e, _, h7⟩ := C142_amplitude_of_peps hl' h5 hr hc (fun b => (h4 b).1) fun b => (h4 b).2
  refine ⟨comps, e, fun cfg hcfg c => ?_⟩
  obtain ⟨c', h8, _⟩ := h7 cfg hcfg c
  exact ⟨_, c', h8, h6 _ hcfg⟩

/-! ## the hypotheses can be met -/

/-- two sites with weights 4 and 9 on their bond: the amplitude of both sites in state 1 is 9 -/
example (c : Ctr (List (Tn ℝ)) (Tn ℝ) (Tn ℝ)) : ∃ comps, splitPeps (QLPeps.Peps.pairPeps 9) = some comps ∧
    ∃ c', evaluateAmplitude (QLPeps.Bmps.tensorOps QLPeps.Peps.idLib 1 2) 1 2 (project (component comps) fun _ => 1)
      (init (QLPeps.Bmps.tensorOps QLPeps.Peps.idLib 1 2) c) =
        some (QLPeps.Peps.Spec.amplitude (bc := .obc) (rows := 1) (cols := 2) (QLPeps.Peps.pairPeps 9)
          (fun b => (weight (QLPeps.Peps.pairPeps 9) b).dim) fun _ => 1, c') := by
  obtain ⟨comps, e, _, h⟩ := C142_amplitude_of_peps (rows := 1) (cols := 2) QLPeps.Bmps.idLib_lossless (p := QLPeps.Peps.pairPeps 9)
    (phys := fun _ => 2) ⟨_, QLPeps.Peps.pairPeps_fits 9, fun _ _ => rfl⟩ (by decide) (by decide) (fun b i _ => by
      rcases b with ⟨r, j⟩ | ⟨j, c⟩
      · simp only [weight, QLPeps.Peps.pairPeps]
        split
        · dsimp only
          split <;> norm_num
        · norm_num
      · simp [weight, QLPeps.Peps.pairPeps]) fun b hb => by
      rcases b with ⟨r, i⟩ | ⟨i, c⟩
      · have h2 : (i : ℕ) = 0 ∨ (i : ℕ) = 2 := hb.2
        have : ¬ ((i : ℕ) = 1) := by omega
        simp [weight, QLPeps.Peps.pairPeps, this]
      · rfl
  obtain ⟨c', h1, _⟩ := h (fun _ => 1) (fun _ => by norm_num) c
  exact ⟨comps, e, c', h1⟩

open QLPeps.Energy QLPeps.Spec QLPeps.ExactRun.Spec in
/-- the J1-J2 model in the sector of two up spins, for the 2×2 PEPS with equal amplitudes -/
example : ∃ comps, splitPeps QLPeps.Peps.plus = some comps ∧ ∃ grad, ∀ size, 0 < size →
      QLPeps.ExactRun.exactRun QLPeps.Peps.idLib 2 2 (component comps)
        (fun cfg => QLPeps.SolverRun.pairSolver QLPeps.Peps.idLib 2 2 (component comps) cfg (fun a => decide (a = 0)) true
          (xxz true 1 1 (1 / 2) (1 / 2) (1 / 3)))
        ((Finset.univ.filter fun s : SpinCfg 2 2 => ∑ a, (s a : ℕ) = 2).toList.map toConfig) size =
      .ok (some (energy (xxzH 1 1 (1 / 2) (1 / 2) (1 / 3)) (Finset.univ.filter fun s : SpinCfg 2 2 => ∑ a, (s a : ℕ) = 2).toList
        fun _ => 1, grad)) := by
  have hw : ∀ (b : Bond .obc 2 2) i, (weight QLPeps.Peps.plus b).val i = 1 := fun b i => by cases b <;> rfl
  refine C142_energy_xxz QLPeps.Bmps.idLib_lossless QLPeps.Peps.plus_wave le_rfl le_rfl (fun b i _ => by rw [hw]; norm_num)
    (fun b _ => hw b 0) true 1 1 (1 / 2) (1 / 2) (1 / 3)
    (by simp) (by simp) (by simp) (by simp) (by simp) _ (by simp) _ (Finset.nodup_toList _) ?_
    (QLPeps.ExactRun.C104_sector_closed 1 1 (1 / 2) (1 / 2) (1 / 3) _ 2 fun s => by
      rw [Finset.mem_toList, Finset.mem_filter]; exact and_iff_right (Finset.mem_univ s)).1
    fun s _ => one_ne_zero
  rw [Ne, Finset.toList_eq_nil]
  refine Finset.Nonempty.ne_empty ⟨fun a => if (a : QLPeps.Site).1 = 0 then 1 else 0, ?_⟩
  decide +kernel

open QLPeps.Peps in
theorem flow_placed : ∀ st ∈ flowSteps, st.WellPlaced .obc fun _ => 2 := by
  intro st hst
  rcases List.mem_cons.1 hst with rfl | hst
  · exact ⟨by intro h; simp at h, rfl, rfl⟩
  · rcases List.mem_cons.1 hst with rfl | hst
    · exact ⟨by intro h; simp at h, by intro h; simp at h, rfl, rfl, rfl⟩
    · exact absurd hst List.not_mem_nil

/-- two projections of a fresh 2×2 PEPS: the amplitude of all sites in state 0 is not zero -/
example (c : Ctr (List (Tn ℝ)) (Tn ℝ) (Tn ℝ)) : ∃ comps, splitPeps (runAll QLPeps.Peps.idLib (1 / 2) none
      (QLPeps.Peps.initial (fun _ _ => 0) (QLPeps.Peps.freshPeps .obc)).peps QLPeps.Peps.flowSteps).1 = some comps ∧
    ∃ a c', evaluateAmplitude (QLPeps.Bmps.tensorOps QLPeps.Peps.idLib 2 2) 2 2 (project (component comps) fun _ => 0)
      (init (QLPeps.Bmps.tensorOps QLPeps.Peps.idLib 2 2) c) = some (a, c') ∧ a ≠ 0 := by
  have hu : QLPeps.Peps.Unit (QLPeps.Peps.initial (fun _ _ => 0) (QLPeps.Peps.freshPeps .obc)).peps :=
    QLPeps.Peps.unitQ_initial _ _ ⟨fun _ _ _ => rfl, fun _ _ _ => rfl⟩
  have hst : ∀ st ∈ QLPeps.Peps.flowSteps, st.WellPlaced .obc fun _ => 2 := flow_placed
  obtain ⟨comps, e, h⟩ := C142_amplitude_after_projections (Q := ℤ) (𝕜 := ℝ) QLPeps.Peps.idLib_exact QLPeps.Peps.idLib_nonneg
    QLPeps.Bmps.idLib_lossless (tol := 1 / 2) (by norm_num) none (fun _ _ => 0) (QLPeps.Peps.freshPeps .obc) rfl (by decide) (by decide)
    QLPeps.Peps.flowSteps hst
    (QLPeps.Peps.unit_lossless hu (by norm_num) none _)
  obtain ⟨a, c', h1, h2⟩ := h (fun _ => 0) (fun _ => by norm_num [physDim, QLPeps.Peps.freshPeps]) c
  refine ⟨comps, e, a, c', h1, ?_⟩
  rintro rfl
  have h3 : (_ : ℝ) * 0 = applyAll (rows := 2) (cols := 2) (fun _ => 2)
    (fun τ : QLPeps.Tps.Spec.Site 2 2 → ℕ => if ∀ s, τ s = 0 then 1 else 0) QLPeps.Peps.flowSteps (fun _ => 0) :=
    h2.trans (by congr!)
  rw [mul_zero] at h3
  simp [QLPeps.Peps.flowSteps, applyAll, Step.apply, apply2, apply3, QLPeps.Peps.gateB, QLPeps.Peps.gateT, Finset.sum_range_succ,
    Prod.forall, Fin.forall_fin_two, Function.update] at h3
  norm_num at h3

end

end QLPeps.Conversions
