import Verif.Lemmas.BmpsVisits
import Verif.Props.Traversal

/-!
# Property C102: without truncation a solver sees exact amplitudes
-/

namespace QLPeps.Bmps

universe u

open QLPeps.Contractor QLPeps.Sweep
open QLPeps.Peps (Tn Lib)
open QLPeps.Bmps.Spec
open QLPeps.Tps.Spec (Bond)

noncomputable section

variable {𝕜 : Type u} [RCLike 𝕜] {rows cols : ℕ} {lib : Lib 𝕜} {t : QLPeps.Site → Tn 𝕜}
  {dim : Bond .obc rows cols → ℕ}

/-- **C102.** With factorizations that truncate nothing, the trace over every plaquette of an open
lattice, within its two rows or its two columns, is the value of the network. -/
theorem C102_plaquette_trace_exact (hl : Lossless lib) (hf : Fits t dim) (r c : ℕ) (hr : r + 1 < rows)
    (hc : c + 1 < cols) :
    plaquetteAmp (tensorOps lib rows cols) rows cols t (r, c) = value dim t ∧
    plaquetteV (tensorOps lib rows cols) rows cols t (r, c) = value dim t :=
  ⟨(plaquette_horizontal r c hc).trans (cut2_left hl hf r _ hr hc.le (by omega)),
   (plaquette_vertical hl hf r c hr hc).trans (cut2_up hl hf c _ hc hr.le (by omega))⟩

/-- **C102.** The same for the blocks of 2×3 and 3×2 sites used for links of length √5. -/
theorem C102_block_trace_exact (hl : Lossless lib) (hf : Fits t dim) (r c : ℕ) :
    (r + 1 < rows → c + 2 < cols →
      blockAmp (tensorOps5 lib rows cols) rows cols t .horizontal (r, c) = value dim t) ∧
    (r + 2 < rows → c + 1 < cols →
      blockAmp (tensorOps5 lib rows cols) rows cols t .vertical (r, c) = value dim t) :=
  ⟨fun hr hc => (block_horizontal r c hc).trans (cut2_left hl hf r _ hr hc.le (by omega)),
   fun hr hc => (block_vertical hl hf r c hr hc).trans
    (cut2_up hl hf c _ hc (by omega) (by omega))⟩

/-- **C102.** With factorizations that truncate nothing, a traversal of all bonds (with any plan, and
from any caches that hold nothing out of date) reports a zero amplitude only if the value of the
network is zero; otherwise it succeeds and everything shown to the solver is exact: every amplitude is
the value of the network with the tensors in question replaced by any others of the same shape, and
every hole is the derivative of the value with respect to its site tensor. -/
theorem C102_traversal_exact (hl : Lossless lib) (hf : Fits t dim) (isZero : 𝕜 → Bool)
    (pl : Plan (Tn 𝕜)) (hr : 2 ≤ rows) (hc : 2 ≤ cols) (h5 : pl.links5 = true → 3 ≤ rows)
    (c : Ctr (List (Tn 𝕜)) (Tn 𝕜) (Tn 𝕜)) (hfresh : Fresh (tensorOps lib rows cols) rows cols t c) :
    let run := traverseAll (tensorOps5 lib rows cols) rows cols t isZero pl c
    (isZero (value dim t) = true → run = .error .zeroAmplitude) ∧
    (isZero (value dim t) = false → ∃ visits c', run = .ok (visits, c') ∧
      (∀ v ∈ visits, ExactVisit dim t pl.corr v) ∧
      Complete rows cols pl visits ∧ Fresh (tensorOps lib rows cols) rows cols t c') := by
  intro run
  obtain ⟨a1, a2⟩ := C77_traversal_sees_current_amplitudes (tensorOps5 lib rows cols) rows cols t isZero
    pl hr hc h5 c hfresh
  have hcol : bondAmp (tensorOps5 lib rows cols).toOps rows cols t .vertical (0, 0) (1, 0) =
      value dim t := (C99_bond_trace_exact hl hf 0 0).2 (by omega) (by omega)
  refine ⟨fun hz => a1 (Or.inr ⟨0, by omega, by rw [hcol]; exact hz⟩), fun hz => ?_⟩
  obtain ⟨c', e, g⟩ := a2
    (by
      rintro ⟨-, row, hrow, h⟩
      rw [ops5_toOps, (C99_bond_trace_exact hl hf row 0).1 hrow (by omega), hz] at h
      exact absurd h (by simp))
    (by
      rintro ⟨col, hcol, h⟩
      rw [ops5_toOps, (C99_bond_trace_exact hl hf 0 col).2 (by omega) hcol, hz] at h
      exact absurd h (by simp))
  refine ⟨_, c', e, fun v hv => ?_, C77_every_bond_exactly_once _ _ _ _ _, g⟩
  simp only [allVisits, List.mem_append, List.mem_flatMap, List.mem_range] at hv
  rcases hv with ⟨row, hrow, hv⟩ | ⟨col, hcol, hv⟩
  · exact rowVisits_exact hl hf pl hc row hrow v hv
  · exact colVisits_exact hl hf pl hr col hcol v hv


/-! ## A case -/

/-- a nontrivial case: a 2×2 lattice of tensors all of whose elements are `1`; the trace over the
plaquette counts the values of the four bonds -/
example : plaquetteAmp (tensorOps (QLPeps.Peps.idLib (𝕜 := ℝ)) 2 2) 2 2 (twoNet 2 2 fun _ _ => 1)
      (0, 0) = 16 := by
  rw [(C102_plaquette_trace_exact idLib_lossless (twoNet_fits fun _ _ => 1) 0 0 (by omega)
    (by omega)).1]
  simp only [value, twoNet, Finset.prod_const_one, Finset.sum_const, Fintype.card_piFinset,
    Finset.card_range, nsmul_eq_mul, mul_one]
  norm_cast

/-- a nontrivial case: a full traversal of a 4×5 lattice of any tensors, with everything asked for,
from `Init` -/
example (f : QLPeps.Site → List ℕ → ℂ) (isZero : ℂ → Bool) (x : Tn ℂ)
    (c : Ctr (List (Tn ℂ)) (Tn ℂ) (Tn ℂ)) :=
  C102_traversal_exact (rows := 4) (cols := 5) idLib_lossless (twoNet_fits f) isZero
    ⟨true, true, true, true, true, fun r => if r = 2 then some x else none⟩ (by omega) (by omega)
    (fun _ => by omega) (init (tensorOps QLPeps.Peps.idLib 4 5) c)
    (C09_init_fresh _ 4 5 (by omega) (by omega) _ c)

end

end QLPeps.Bmps
