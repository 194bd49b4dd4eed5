import Verif.Lemmas.BmpsBlock
import Verif.Props.Bmps

/-!
# What a solver is shown is exact
-/

namespace QLPeps.Bmps

universe u

open QLPeps.Contractor QLPeps.Sweep
open QLPeps.Peps (Tn Lib)
open QLPeps.Bmps.Spec
open QLPeps.Tps.Spec (Bond)

noncomputable section

variable {𝕜 : Type u} [RCLike 𝕜] {rows cols : ℕ} {lib : Lib 𝕜} {t : QLPeps.Site → Tn 𝕜}
  {dim : Bond .obc rows cols → ℕ}

theorem plaquette_exact (hl : Lossless lib) (hf : Fits t dim) (r c : ℕ) (hr : r + 1 < rows)
    (hc : c + 1 < cols) :
    plaquetteAmp (tensorOps lib rows cols) rows cols t (r, c) = value dim t :=
  (plaquette_horizontal r c hc).trans (cut2_left hl hf r _ hr hc.le (by omega))

theorem block_exact (hl : Lossless lib) (hf : Fits t dim) (r c : ℕ) :
    (r + 1 < rows → c + 2 < cols →
      blockAmp (tensorOps5 lib rows cols) rows cols t .horizontal (r, c) = value dim t) ∧
    (r + 2 < rows → c + 1 < cols →
      blockAmp (tensorOps5 lib rows cols) rows cols t .vertical (r, c) = value dim t) :=
  ⟨fun hr hc => (block_horizontal r c hc).trans (cut2_left hl hf r _ hr hc.le (by omega)),
   fun hr hc => (block_vertical hl hf r c hr hc).trans
    (cut2_up hl hf c _ hc (by omega) (by omega))⟩

theorem fits2 (hf : Fits t dim) (s1 s2 : QLPeps.Site) (x y : Tn 𝕜) (hne : s1 ≠ s2)
    (hx : x.shape = (t s1).shape) (hy : y.shape = (t s2).shape) : Fits (replace2 t s1 s2 x y) dim := by
  refine fits_update (fits_update hf s1 x hx) s2 y ?_
  rw [Function.update_of_ne hne.symm, hy]

variable {x1 : ℕ → Option (Tn 𝕜)}

theorem bondV (hf : Fits t dim) (d : Orient) (s1 s2 : QLPeps.Site) (hne : s1 ≠ s2)
    (h : ∀ t', Fits t' dim → bondAmp (tensorOps lib rows cols) rows cols t' d s1 s2 = value dim t') :
    ExactVisit dim t x1 (seeBond (tensorOps5 lib rows cols) rows cols t d s1 s2) :=
  fun x y hx hy => congrArg some (h _ (fits2 hf s1 s2 x y hne hx hy))

theorem linkV (hf : Fits t dim) (dd : Diag) (s s1 s2 : QLPeps.Site) (hne : s1 ≠ s2)
    (h : ∀ t', Fits t' dim → plaquetteAmp (tensorOps lib rows cols) rows cols t' s = value dim t') :
    ExactVisit dim t x1 (seeLink (tensorOps5 lib rows cols) rows cols t dd s s1 s2) :=
  fun x y hx hy => congrArg some (h _ (fits2 hf s1 s2 x y hne hx hy))

theorem link5V (hf : Fits t dim) (d : Orient) (s s1 s2 : QLPeps.Site) (hne : s1 ≠ s2)
    (h : ∀ t', Fits t' dim → blockAmp (tensorOps5 lib rows cols) rows cols t' d s = value dim t') :
    ExactVisit dim t x1 (seeLink5 (tensorOps5 lib rows cols) rows cols t d s s1 s2) :=
  fun x y hx hy => congrArg some (h _ (fits2 hf s1 s2 x y hne hx hy))

theorem rowVisits_exact (hl : Lossless lib) (hf : Fits t dim) (pl : Plan (Tn 𝕜)) (hc : 2 ≤ cols)
    (row : ℕ) (hrow : row < rows) (v : Visit (Tn 𝕜) 𝕜 (Tn 𝕜))
    (hv : v ∈ rowVisits (tensorOps5 lib rows cols) rows cols t pl row) :
    ExactVisit dim t pl.corr v := by
  simp only [rowVisits, List.mem_append, List.mem_flatMap, List.mem_range] at hv
  rcases hv with ((hv | ⟨col, hcol, (hv | hv) | hv⟩) | hv) | hv
  · split at hv
    · rw [List.mem_singleton] at hv
      subst hv
      exact (C99_bond_trace_exact hl hf row 0).1 hrow (by omega)
    · simp at hv
  · split at hv
    · rw [List.mem_singleton] at hv
      subst hv
      obtain ⟨h1, -, h2⟩ := C99_hole_exact hl hf row col hrow hcol
      exact ⟨h1, fun x hx => (h2 x hx).1⟩
    · simp at hv
  · split at hv
    · rw [List.mem_singleton] at hv
      subst hv
      intro x hx
      exact congrArg some (C99_one_site_trace_exact hl (fits_update hf _ x hx) row col hrow hcol).1
    · simp at hv
  · split at hv
    · rename_i hcc
      rw [List.mem_singleton] at hv
      subst hv
      exact bondV hf _ _ _ (by simp) fun t' h' => (C99_bond_trace_exact hl h' row col).1 hrow hcc
    · simp at hv
  · split at hv
    · rename_i hll
      rw [List.mem_flatMap] at hv
      obtain ⟨col, hcol, hv⟩ := hv
      rw [List.mem_range] at hcol
      rw [List.mem_append] at hv
      have hp : ∀ t', Fits t' dim →
          plaquetteAmp (tensorOps lib rows cols) rows cols t' (row, col) = value dim t' :=
        fun t' h' => plaquette_exact hl h' row col hll.2 (by omega)
      rcases hv with hv | hv
      · simp only [List.mem_cons, List.not_mem_nil, or_false] at hv
        rcases hv with rfl | rfl
        · exact linkV hf _ _ _ _ (by simp) hp
        · exact linkV hf _ _ _ _ (by simp) hp
      · split at hv
        · rename_i h55
          rw [List.mem_singleton] at hv
          subst hv
          exact link5V hf _ _ _ _ (by simp) fun t' h' =>
            (block_exact hl h' row col).1 hll.2 h55.2
        · simp at hv
    · simp at hv
  · cases hx : pl.corr row with
    | none => rw [hx] at hv; simp [pairVisits] at hv
    | some x1 =>
      rw [hx] at hv
      simp only [pairVisits, List.mem_map, List.mem_range] at hv
      obtain ⟨i, hi, rfl⟩ := hv
      intro x hx' hsx y hy
      obtain rfl : x1 = x := by simpa [hx] using hx'
      exact congrArg some (C99_one_site_trace_exact hl
        (fits2 hf (row, cols / 4) (row, cols / 4 + (i + 1)) x1 y (by simp) hsx hy) row _ hrow
        (by omega)).1

theorem colVisits_exact (hl : Lossless lib) (hf : Fits t dim) (pl : Plan (Tn 𝕜)) (hr : 2 ≤ rows)
    (col : ℕ) (hcol : col < cols) (v : Visit (Tn 𝕜) 𝕜 (Tn 𝕜))
    (hv : v ∈ colVisits (tensorOps5 lib rows cols) rows cols t pl col) :
    ExactVisit dim t pl.corr v := by
  simp only [colVisits, List.mem_append] at hv
  rcases hv with (hv | hv) | hv
  · rw [List.mem_singleton] at hv
    subst hv
    exact (C99_bond_trace_exact hl hf 0 col).2 (by omega) hcol
  · rw [List.mem_map] at hv
    obtain ⟨row, hrow, rfl⟩ := hv
    rw [List.mem_range] at hrow
    exact bondV hf _ _ _ (by simp) fun t' h' => (C99_bond_trace_exact hl h' row col).2 (by omega) hcol
  · split at hv
    · rename_i h55
      rw [List.mem_map] at hv
      obtain ⟨row, hrow, rfl⟩ := hv
      rw [List.mem_range] at hrow
      exact link5V hf _ _ _ _ (by simp) fun t' h' =>
        (block_exact hl h' row col).2 (by omega) h55.2
    · simp at hv

end

end QLPeps.Bmps
