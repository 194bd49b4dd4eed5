import Verif.Model.SplitIndex
import Verif.Spec.Bmps
import Verif.Spec.Tps
import Mathlib.Tactic.Ring

/-! # Lemmas on splitting and grouping -/

namespace QLPeps.SplitIndex

open QLPeps.Peps (Tn contract contractN)

noncomputable section

variable {𝕜 : Type*} [RCLike 𝕜]

/-- a component: the physical coordinate is fixed -/
theorem split_eq {t : Tn 𝕜} {w s e n d : ℕ} (h : t.shape = [w, s, e, n, d]) (i : ℕ) (hi : i < d) :
    (contractN t [4] (unitVec d i) [0]).shape = [w, s, e, n] ∧
    ∀ a b c m, (contractN t [4] (unitVec d i) [0]).elem [a, b, c, m] = t.elem [a, b, c, m, i] := by
  obtain ⟨sh, f⟩ := t
  obtain rfl : sh = _ := h
  refine ⟨rfl, fun a b c m => ?_⟩
  change ∑ k ∈ Finset.range d, f [a, b, c, m, k] * (if k = i then (1 : 𝕜) else 0) = _
  simp [Finset.sum_ite_eq', hi]

theorem splitSite_length {t : Tn 𝕜} {w s e n d : ℕ} (h : t.shape = [w, s, e, n, d]) :
    (splitSite t).length = d := by
  simp [splitSite, h]

theorem splitSite_get {t : Tn 𝕜} {w s e n d : ℕ} (h : t.shape = [w, s, e, n, d]) (i : ℕ)
    (hi : i < d) : (splitSite t)[i]? = some (contractN t [4] (unitVec d i) [0]) := by
  simp [splitSite, h, hi]

theorem outer_eq {t : Tn 𝕜} {w s e n : ℕ} (h : t.shape = [w, s, e, n]) (d i : ℕ) :
    (contractN t [] (unitVec d i) []).shape = [w, s, e, n, d] ∧
    ∀ a b c m v, (contractN t [] (unitVec d i) []).elem [a, b, c, m, v] =
      if v = i then t.elem [a, b, c, m] else 0 := by
  obtain ⟨sh, f⟩ := t
  obtain rfl : sh = _ := h
  refine ⟨rfl, fun a b c m v => ?_⟩
  change f [a, b, c, m] * (if v = i then (1 : 𝕜) else 0) = _
  simp

theorem groupLoop_eq {w s e n : ℕ} (d : ℕ) (as : List (Tn 𝕜)) :
    ∀ (i : ℕ) (acc : Tn 𝕜), (∀ a ∈ as, a.shape = [w, s, e, n]) → acc.shape = [w, s, e, n, d] →
    (groupLoop d as i acc).shape = [w, s, e, n, d] ∧
    ∀ a b c m v, (groupLoop d as i acc).elem [a, b, c, m, v] = acc.elem [a, b, c, m, v] +
      if i ≤ v then ((as[v - i]?).map fun x => x.elem [a, b, c, m]).getD 0 else 0 := by
  induction as with
  | nil =>
    intro i acc _ h
    exact ⟨h, fun a b c m v => by simp [groupLoop]⟩
  | cons x xs ih =>
    intro i acc hx h
    obtain ⟨o1, o2⟩ := outer_eq (hx x (by simp)) d i
    obtain ⟨g1, g2⟩ := ih (i + 1) (addTn acc (contractN x [] (unitVec d i) []))
      (fun a ha => hx a (List.mem_cons_of_mem _ ha)) h
    refine ⟨g1, fun a b c m v => ?_⟩
    rw [groupLoop, g2]
    dsimp only [addTn]
    rw [o2]
    rcases lt_trichotomy v i with hv | hv | hv
    · rw [if_neg (by omega), if_neg (by omega), if_neg (by omega)]; ring
    · subst hv
      rw [if_pos rfl, if_neg (by omega), if_pos le_rfl]
      simp
    · rw [if_neg (by omega), if_pos (by omega), if_pos (by omega)]
      rw [show v - i = (v - (i + 1)) + 1 by omega]
      simp

theorem groupSite_eq {w s e n : ℕ} (d : ℕ) (as : List (Tn 𝕜)) (h0 : as ≠ [])
    (hs : ∀ a ∈ as, a.shape = [w, s, e, n]) (hd : as.length ≤ d) :
    ∃ g, groupSite d as = some g ∧ g.shape = [w, s, e, n, d] ∧
      ∀ a b c m v, g.elem [a, b, c, m, v] = ((as[v]?).map fun x => x.elem [a, b, c, m]).getD 0 := by
  obtain _ | ⟨x, xs⟩ := as
  · exact absurd rfl h0
  · obtain ⟨o1, o2⟩ := outer_eq (hs x (by simp)) d 0
    obtain ⟨g1, g2⟩ := groupLoop_eq d xs 1 (contractN x [] (unitVec d 0) [])
      (fun a ha => hs a (List.mem_cons_of_mem _ ha)) o1
    refine ⟨groupLoop d xs 1 (contractN x [] (unitVec d 0) []), ?_, g1, fun a b c m v => ?_⟩
    · rw [groupSite, if_neg (by simpa using hd)]
    · rw [g2, o2]
      rcases v with _ | v
      · simp
      · simp

end

end QLPeps.SplitIndex
