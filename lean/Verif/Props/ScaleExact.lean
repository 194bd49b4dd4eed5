import Verif.Props.ScaleAll
import Verif.Props.ExactRun

/-!
# Property C164: exact summation does not depend on how the norm of the state is distributed over the sites
-/

namespace QLPeps.ScaleExact

universe u

open QLPeps.ScaleAll (total total_ne amplitude_scale scaledBy_of)
open QLPeps.ScaleAll.Spec (scaleBy ScaledBy)
open QLPeps.Contractor QLPeps.Energy QLPeps.ExactRun
open QLPeps.ExactRun.Spec (overlap energy Closed)
open QLPeps.SolverRun (pairSolver triSolver tfimSolver twoState twoState_fits ones_amplitude)
open QLPeps.SolverRun.Spec (amplitude FitsAll)
open QLPeps.Peps (Tn Lib)
open QLPeps.Bmps (idLib_lossless)
open QLPeps.Bmps.Spec (Lossless)
open QLPeps.Tps.Spec (Bond)
open QLPeps.Spec

noncomputable section

variable {𝕜 : Type u} [RCLike 𝕜] {rows cols : ℕ} {lib : Lib 𝕜} {dim : Bond .obc rows cols → ℕ}
  {sitps : QLPeps.Site → ℕ → Tn 𝕜}

/-- The expectation value does not depend on the norm of the state. -/
theorem energy_scale {H : (SpinCfg rows cols → 𝕜) → SpinCfg rows cols → 𝕜} (hH : Herm H)
    (L : List (SpinCfg rows cols)) {c : 𝕜} (hc : c ≠ 0) (ψ : SpinCfg rows cols → 𝕜) :
    energy H L (fun s => c * ψ s) = energy H L ψ := by
  obtain ⟨M, hM, -⟩ := hH
  have e : ∀ s, H (fun s => c * ψ s) s = c * H ψ s := by
    intro s
    rw [hM, hM, Finset.mul_sum]
    exact Finset.sum_congr rfl fun _ _ => by ring
  unfold energy
  have e1 : (L.map fun s => star (c * ψ s) * H (fun s => c * ψ s) s) =
      L.map fun s => (star c * c) * (star (ψ s) * H ψ s) :=
    List.map_congr_left fun s _ => by rw [e, star_mul']; ring
  have e2 : (L.map fun s => star (c * ψ s) * (c * ψ s)) = L.map fun s => (star c * c) * (star (ψ s) * ψ s) :=
    List.map_congr_left fun s _ => by rw [star_mul']; ring
  rw [e1, e2, List.sum_map_mul_left, List.sum_map_mul_left,
    mul_div_mul_left _ _ (mul_ne_zero (star_ne_zero.2 hc) hc)]

theorem overlap_const (c : 𝕜) (v : QLPeps.Site → ℕ → Tn 𝕜) (g : QLPeps.Evaluator.Tps QLPeps.Site (List ℕ) 𝕜) :
    overlap rows cols 2 (scaleBy (fun _ => c) v) g = star c * overlap rows cols 2 v g := by
  unfold overlap
  simp only [scaleBy, star_mul', Finset.mul_sum, mul_assoc]

/-- the run with the rescaled state returns the same energy, and the gradient of every site divided by the complex
conjugate of the number of the site, on any number of processes -/
def Same (lib : Lib 𝕜) (rows cols : ℕ) (sitps : QLPeps.Site → ℕ → Tn 𝕜) (κ : QLPeps.Site → 𝕜)
    (solver solver' : Solver 𝕜) (L : List (SpinCfg rows cols)) : Prop :=
  ∃ e g g', ScaledBy rows cols sitps (fun s => (star (κ s))⁻¹) g g' ∧ ∀ size, 0 < size →
    exactRun lib rows cols sitps solver (L.map toConfig) size = .ok (some (e, g)) ∧
    exactRun lib rows cols (scaleBy κ sitps) solver' (L.map toConfig) size = .ok (some (e, g'))

theorem same_of {κ : QLPeps.Site → 𝕜} (hκ : ∀ s, κ s ≠ 0)
    {H : (SpinCfg rows cols → 𝕜) → SpinCfg rows cols → 𝕜} (hH : Herm H) {L : List (SpinCfg rows cols)}
    {solver solver' : Solver 𝕜} (h : EnergyAndGradient lib dim sitps solver H L)
    (h' : EnergyAndGradient lib dim (scaleBy κ sitps) solver' H L) :
    Same lib rows cols sitps κ solver solver' L := by
  obtain ⟨g, e1, d1⟩ := h
  obtain ⟨g', e2, d2⟩ := h'
  have hE : ∀ t : QLPeps.Site → ℕ → Tn 𝕜, (energy H L fun s => amplitude dim (scaleBy κ t) (toConfig s)) =
      energy H L fun s => amplitude dim t (toConfig s) := by
    intro t
    simp only [amplitude_scale]
    exact energy_scale hH L (total_ne hκ) _
  have hre : ∀ v : QLPeps.Site → ℕ → Tn 𝕜, (∀ s, ∀ b < 2, (v s b).shape = (sitps s b).shape) →
      RCLike.re (overlap rows cols 2 v g') = RCLike.re (overlap rows cols 2 (scaleBy (fun s => (κ s)⁻¹) v) g) := by
    intro v hv
    have a1 := d1 (scaleBy (fun s => (κ s)⁻¹) v) fun s b hb => hv s b hb
    have a2 := d2 v fun s b hb => hv s b hb
    have hal : ∀ t : ℝ, QLPeps.ExactRun.Spec.along (scaleBy κ sitps) v t = scaleBy κ
        (QLPeps.ExactRun.Spec.along sitps (scaleBy (fun s => (κ s)⁻¹) v) t) := by
      intro t
      funext s b
      simp only [QLPeps.ExactRun.Spec.along, scaleBy]
      congr 1
      funext x
      have := hκ s
      field_simp
    simp only [hal, hE] at a2
    have := RCLike.ofReal_inj.1 (a2.unique a1)
    linarith
  refine ⟨_, g, g', scaledBy_of κ fun v hv => ?_, fun size hs => ⟨e1 size hs, by rw [e2 size hs, hE]⟩⟩
  have hI := hre (scaleBy (fun _ => RCLike.I) v) fun s b hb => hv s b hb
  have hcomm : scaleBy (fun s => (κ s)⁻¹) (scaleBy (fun _ => (RCLike.I : 𝕜)) v) =
      scaleBy (fun _ => RCLike.I) (scaleBy (fun s => (κ s)⁻¹) v) := by
    funext s b
    simp only [scaleBy]
    congr 1
    funext x
    ring
  rw [hcomm, overlap_const, overlap_const] at hI
  simp only [RCLike.star_def, RCLike.conj_I, neg_mul, map_neg, RCLike.mul_re, RCLike.I_re, zero_mul, zero_sub,
    neg_neg] at hI
  rw [mul_comm, RCLike.mul_im_I_ax, mul_comm, RCLike.mul_im_I_ax] at hI
  exact RCLike.ext (hre v hv) hI

/-- **C164.** XXZ and J1-J2 models with real couplings. -/
theorem exact_xxz (hl : Lossless lib) (hf : FitsAll dim sitps 2) (hr : 2 ≤ rows) (hc : 2 ≤ cols)
    (nnn : Bool) (jz jxy jz2 jxy2 pin : 𝕜) (h1 : star jz = jz) (h2 : star jxy = jxy)
    (h3 : star jz2 = jz2) (h4 : star jxy2 = jxy2) (h5 : star pin = pin) (isZero : 𝕜 → Bool)
    (hz : ∀ a, isZero a = true ↔ a = 0) (L : List (SpinCfg rows cols)) (hL : L.Nodup) (hne : L ≠ [])
    (hcl : Closed (xxzH jz jxy (if nnn then jz2 else 0) (if nnn then jxy2 else 0) pin) L)
    (h0 : ∀ s ∈ L, amplitude dim sitps (toConfig s) ≠ 0) {κ : QLPeps.Site → 𝕜} (hκ : ∀ s, κ s ≠ 0) :
    Same lib rows cols sitps κ
      (fun cfg => pairSolver lib rows cols sitps cfg isZero true (xxz nnn jz jxy jz2 jxy2 pin))
      (fun cfg => pairSolver lib rows cols (scaleBy κ sitps) cfg isZero true (xxz nnn jz jxy jz2 jxy2 pin)) L :=
  same_of hκ (herm_xxz _ _ _ _ _ h1 h2 (by split_ifs <;> simp [h3]) (by split_ifs <;> simp [h4]) h5)
    (C104_xxz hl hf hr hc nnn jz jxy jz2 jxy2 pin h1 h2 h3 h4 h5 isZero hz L hL hne hcl h0)
    (C104_xxz (sitps := scaleBy κ sitps) hl (fun cfg h => ⟨(hf cfg h).shape, (hf cfg h).external⟩) hr hc nnn jz jxy jz2 jxy2 pin h1 h2 h3 h4 h5
      isZero hz L hL hne hcl fun s hs => by rw [amplitude_scale]; exact mul_ne_zero (total_ne hκ) (h0 s hs))

/-- **C164.** The same for the Heisenberg model on the triangular lattice. -/
theorem exact_triangle (hl : Lossless lib) (hf : FitsAll dim sitps 2) (hr : 2 ≤ rows) (hc : 2 ≤ cols)
    (isZero : 𝕜 → Bool) (hz : ∀ a, isZero a = true ↔ a = 0) (L : List (SpinCfg rows cols))
    (hL : L.Nodup) (hne : L ≠ []) (hcl : Closed (triangularH (K := 𝕜)) L)
    (h0 : ∀ s ∈ L, amplitude dim sitps (toConfig s) ≠ 0) {κ : QLPeps.Site → 𝕜} (hκ : ∀ s, κ s ≠ 0) :
    Same lib rows cols sitps κ (fun cfg => pairSolver lib rows cols sitps cfg isZero true triangle)
      (fun cfg => pairSolver lib rows cols (scaleBy κ sitps) cfg isZero true triangle) L :=
  same_of hκ herm_triangle (C104_triangle hl hf hr hc isZero hz L hL hne hcl h0)
    (C104_triangle (sitps := scaleBy κ sitps) hl (fun cfg h => ⟨(hf cfg h).shape, (hf cfg h).external⟩) hr hc isZero hz L hL hne hcl
      fun s hs => by rw [amplitude_scale]; exact mul_ne_zero (total_ne hκ) (h0 s hs))

/-- **C164.** The same for the triangular J1-J2 model, from three rows on. -/
theorem exact_triangle_j1j2 (hl : Lossless lib) (hf : FitsAll dim sitps 2) (hr : 3 ≤ rows) (hc : 2 ≤ cols)
    (j2 : 𝕜) (hj : star j2 = j2) (L : List (SpinCfg rows cols)) (hL : L.Nodup) (hne : L ≠ [])
    (hcl : Closed (triangularJ1J2H j2) L) (h0 : ∀ s ∈ L, amplitude dim sitps (toConfig s) ≠ 0)
    {κ : QLPeps.Site → 𝕜} (hκ : ∀ s, κ s ≠ 0) :
    Same lib rows cols sitps κ (fun cfg => triSolver lib rows cols sitps cfg true j2)
      (fun cfg => triSolver lib rows cols (scaleBy κ sitps) cfg true j2) L :=
  same_of hκ (herm_triangle_j1j2 j2 hj) (C104_triangle_j1j2 hl hf hr hc j2 hj L hL hne hcl h0)
    (C104_triangle_j1j2 (sitps := scaleBy κ sitps) hl (fun cfg h => ⟨(hf cfg h).shape, (hf cfg h).external⟩) hr hc j2 hj L hL hne hcl
      fun s hs => by rw [amplitude_scale]; exact mul_ne_zero (total_ne hκ) (h0 s hs))

/-- **C164.** The same for the transverse-field Ising model. -/
theorem exact_tfim (hl : Lossless lib) (hf : FitsAll dim sitps 2) (hr : 1 ≤ rows) (hc : 2 ≤ cols) (h : 𝕜)
    (hh : star h = h) (L : List (SpinCfg rows cols)) (hL : L.Nodup) (hne : L ≠ []) (hcl : Closed (tfimH h) L)
    (h0 : ∀ s ∈ L, amplitude dim sitps (toConfig s) ≠ 0) {κ : QLPeps.Site → 𝕜} (hκ : ∀ s, κ s ≠ 0) :
    Same lib rows cols sitps κ (fun cfg => tfimSolver lib rows cols sitps cfg true h)
      (fun cfg => tfimSolver lib rows cols (scaleBy κ sitps) cfg true h) L :=
  same_of hκ (herm_tfim h hh) (C104_tfim hl hf hr hc h hh L hL hne hcl h0)
    (C104_tfim (sitps := scaleBy κ sitps) hl (fun cfg h => ⟨(hf cfg h).shape, (hf cfg h).external⟩) hr hc h hh L hL hne hcl
      fun s hs => by rw [amplitude_scale]; exact mul_ne_zero (total_ne hκ) (h0 s hs))

/-- a nontrivial case: the sector with two up spins of the J1-J2 model on two rows and columns, the tensors of the
sites multiplied by 1, 2, 3 and 4 -/
example : Same (QLPeps.Peps.idLib : Lib ℝ) 2 2 (twoState 2 2 fun _ _ _ => (1 : ℝ)) (fun s => 1 + s.1 + 2 * s.2)
    (fun cfg => pairSolver QLPeps.Peps.idLib 2 2 (twoState 2 2 fun _ _ _ => (1 : ℝ)) cfg
      (fun a => decide (a = 0)) true (xxz true 1 1 (1 / 2) (1 / 2) (1 / 3)))
    (fun cfg => pairSolver QLPeps.Peps.idLib 2 2
      (scaleBy (fun s => 1 + s.1 + 2 * s.2) (twoState 2 2 fun _ _ _ => (1 : ℝ))) cfg
      (fun a => decide (a = 0)) true (xxz true 1 1 (1 / 2) (1 / 2) (1 / 3)))
    (Finset.univ.filter fun s : SpinCfg 2 2 => ∑ a, (s a : ℕ) = 2).toList := by
  refine exact_xxz (dim := QLPeps.Bmps.twoDim) idLib_lossless (twoState_fits _ 2) le_rfl le_rfl true 1 1 (1 / 2) (1 / 2) (1 / 3)
    (by simp) (by simp) (by simp) (by simp) (by simp) _ (by simp) _ (Finset.nodup_toList _) ?_
    (C104_sector_closed 1 1 (1 / 2) (1 / 2) (1 / 3) _ 2 fun s => by rw [Finset.mem_toList, Finset.mem_filter]; exact and_iff_right (Finset.mem_univ s)).1
    (fun s _ => by rw [ones_amplitude]; norm_num) fun s => by positivity
  rw [Ne, Finset.toList_eq_nil]
  refine Finset.Nonempty.ne_empty ⟨fun a => if (a : QLPeps.Site).1 = 0 then 1 else 0, ?_⟩
  decide +kernel

end

end QLPeps.ScaleExact
