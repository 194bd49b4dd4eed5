import Verif.Model.PsiConsistency
import Mathlib.Tactic.Linarith
import Mathlib.Tactic.Positivity
import Mathlib.Tactic.Ring
import Mathlib.Tactic.FieldSimp

namespace QLPeps.Psi

variable {𝕜 : Type*} [RCLike 𝕜]

theorem eps_pos : 0 < eps := by unfold eps; positivity
theorem refTol_pos : 0 < refTol := by unfold refTol; positivity

/-- invariant of the reference loop -/
theorem reference_aux (l : List 𝕜) : ∀ (k : ℕ) (acc : ℝ × ℕ),
    let r := (l.zipIdx k).foldl (fun acc p => if acc.1 < ‖p.1‖ then (‖p.1‖, p.2) else acc) acc
    acc.1 ≤ r.1 ∧ (∀ v ∈ l, ‖v‖ ≤ r.1) ∧
      (r = acc ∨ ∃ i, ∃ h : i < l.length, r = (‖l[i]‖, k + i)) := by
  induction l with
  | nil => intro k acc; simp
  | cons a l ih =>
    intro k acc
    simp only [List.zipIdx_cons, List.foldl_cons]
    by_cases h : acc.1 < ‖a‖
    · simp only [h, if_true]
      obtain ⟨h1, h2, h3⟩ := ih (k + 1) (‖a‖, k)
      refine ⟨le_trans h.le h1, ?_, ?_⟩
      · intro v hv
        rcases List.mem_cons.1 hv with rfl | hv
        · exact h1
        · exact h2 v hv
      · right
        rcases h3 with h3 | ⟨i, hi, h3⟩
        · exact ⟨0, by simp, by rw [h3]; simp⟩
        · exact ⟨i + 1, by simpa using hi, by rw [h3]; simp; omega⟩
    · simp only [h, if_false]
      obtain ⟨h1, h2, h3⟩ := ih (k + 1) acc
      refine ⟨h1, ?_, ?_⟩
      · intro v hv
        rcases List.mem_cons.1 hv with rfl | hv
        · exact le_trans (not_lt.1 h) h1
        · exact h2 v hv
      · rcases h3 with h3 | ⟨i, hi, h3⟩
        · exact Or.inl h3
        · exact Or.inr ⟨i + 1, by simpa using hi, by rw [h3]; simp; omega⟩

/-- the reference amplitude `psi_ref` -/
noncomputable def refVal (l : List 𝕜) : 𝕜 := l.getD (reference l).2 0

theorem reference_le (l : List 𝕜) : ∀ v ∈ l, ‖v‖ ≤ (reference l).1 :=
  (reference_aux l 0 (0, 0)).2.1

theorem reference_spec (l : List 𝕜) (hl : l ≠ []) :
    refVal l ∈ l ∧ ‖refVal l‖ = (reference l).1 := by
  obtain ⟨h1, h2, h3⟩ := reference_aux l 0 (0, 0)
  change 0 ≤ (reference l).1 at h1
  change ∀ v ∈ l, ‖v‖ ≤ (reference l).1 at h2
  change reference l = (0, 0) ∨ ∃ i, ∃ h : i < l.length, reference l = (‖l[i]‖, 0 + i) at h3
  unfold refVal
  rcases h3 with h3 | ⟨i, hi, h3⟩
  · obtain ⟨a, t, rfl⟩ := List.exists_cons_of_ne_nil hl
    rw [h3]
    refine ⟨by simp, ?_⟩
    have := h2 a (by simp)
    rw [h3] at this
    simpa using le_antisymm this (norm_nonneg a)
  · rw [h3]
    simp only [zero_add]
    rw [List.getD_eq_getElem?_getD, List.getElem?_eq_getElem hi, Option.getD_some]
    exact ⟨List.getElem_mem hi, rfl⟩

theorem aligned_eq (l : List 𝕜) :
    aligned l = l.map (alignOne (refTol < (reference l).1) (refVal l)) := rfl

theorem norm_alignOne (p : Prop) [Decidable p] (r v : 𝕜) : ‖alignOne p r v‖ = ‖v‖ := by
  unfold alignOne
  split_ifs <;> simp

theorem alignOne_eq_or (p : Prop) [Decidable p] (r v : 𝕜) :
    alignOne p r v = v ∨ alignOne p r v = -v := by
  unfold alignOne
  split_ifs <;> simp

theorem re_alignOne {p : Prop} [Decidable p] (hp : p) (r v : 𝕜) :
    0 ≤ RCLike.re (alignOne p r v * (starRingEnd 𝕜) r) := by
  unfold alignOne
  rw [if_pos hp]
  split_ifs with h
  · rw [neg_mul, map_neg]; linarith
  · linarith

theorem alignOne_self {p : Prop} [Decidable p] (r : 𝕜) : alignOne p r r = r := by
  unfold alignOne
  have : ¬ RCLike.re (r * (starRingEnd 𝕜) r) < 0 := by
    rw [RCLike.mul_conj]
    norm_cast
    exact not_lt.2 (by positivity)
  rw [if_neg this, ite_self]

theorem foldl_add (a : List 𝕜) : a.foldl (· + ·) 0 = a.sum := by
  rw [List.sum_eq_foldl]

theorem mean_eq (l : List 𝕜) : mean l = (aligned l).sum / ((l.length : ℝ) : 𝕜) := by
  unfold mean; rw [foldl_add]

theorem maxDev_aux (a : List 𝕜) (m : 𝕜) : ∀ d : ℝ,
    let r := a.foldl (fun d v => max d ‖v - m‖) d
    d ≤ r ∧ (∀ v ∈ a, ‖v - m‖ ≤ r) ∧ (r = d ∨ ∃ v ∈ a, r = ‖v - m‖) := by
  induction a with
  | nil => intro d; simp
  | cons x a ih =>
    intro d
    simp only [List.foldl_cons]
    obtain ⟨h1, h2, h3⟩ := ih (max d ‖x - m‖)
    refine ⟨le_trans (le_max_left _ _) h1, ?_, ?_⟩
    · intro v hv
      rcases List.mem_cons.1 hv with rfl | hv
      · exact le_trans (le_max_right _ _) h1
      · exact h2 v hv
    · rcases h3 with h3 | ⟨v, hv, h3⟩
      · rcases max_choice d ‖x - m‖ with h | h
        · left; rw [h3, h]
        · right; exact ⟨x, by simp, by rw [h3, h]⟩
      · right; exact ⟨v, by simp [hv], h3⟩

theorem maxDev_nonneg (a : List 𝕜) (m : 𝕜) : 0 ≤ maxDev a m := (maxDev_aux a m 0).1
theorem le_maxDev (a : List 𝕜) (m : 𝕜) : ∀ v ∈ a, ‖v - m‖ ≤ maxDev a m := (maxDev_aux a m 0).2.1
theorem maxDev_le (a : List 𝕜) (m : 𝕜) (b : ℝ) (hb : 0 ≤ b) (h : ∀ v ∈ a, ‖v - m‖ ≤ b) :
    maxDev a m ≤ b := by
  rcases (maxDev_aux a m 0).2.2 with h3 | ⟨v, hv, h3⟩
  · exact le_of_eq_of_le h3 hb
  · exact le_of_eq_of_le h3 (h v hv)

theorem maxDev_perm {a b : List 𝕜} (h : a.Perm b) (m : 𝕜) : maxDev a m = maxDev b m := by
  apply le_antisymm
  · exact maxDev_le _ _ _ (maxDev_nonneg _ _) (fun v hv => le_maxDev _ _ v (h.mem_iff.1 hv))
  · exact maxDev_le _ _ _ (maxDev_nonneg _ _) (fun v hv => le_maxDev _ _ v (h.mem_iff.2 hv))

theorem maxDev_mul (a : List 𝕜) (m z : 𝕜) :
    maxDev (a.map (z * ·)) (z * m) = ‖z‖ * maxDev a m := by
  apply le_antisymm
  · apply maxDev_le _ _ _ (mul_nonneg (norm_nonneg _) (maxDev_nonneg _ _))
    intro v hv
    obtain ⟨w, hw, rfl⟩ := List.mem_map.1 hv
    rw [← mul_sub, norm_mul]
    exact mul_le_mul_of_nonneg_left (le_maxDev _ _ w hw) (norm_nonneg _)
  · rcases (maxDev_aux a m 0).2.2 with h3 | ⟨v, hv, h3⟩
    · change maxDev a m = 0 at h3
      rw [h3, mul_zero]; exact maxDev_nonneg _ _
    · change maxDev a m = ‖v - m‖ at h3
      rw [h3, ← norm_mul, mul_sub]
      exact le_maxDev _ _ _ (List.mem_map.2 ⟨v, hv, rfl⟩)

theorem summary_of_ne {l : List 𝕜} (hl : l ≠ []) :
    summary l = ⟨mean l, maxDev (aligned l) (mean l) / max ‖mean l‖ eps⟩ := by
  unfold summary
  rw [if_neg (by simpa using hl)]

/-- multiplying all amplitudes by `z` -/
theorem reference_mul_aux (z : 𝕜) (hz : z ≠ 0) (l : List 𝕜) : ∀ (k : ℕ) (acc : ℝ × ℕ),
    ((l.map (z * ·)).zipIdx k).foldl
        (fun acc p => if acc.1 < ‖p.1‖ then (‖p.1‖, p.2) else acc) (‖z‖ * acc.1, acc.2)
      = (‖z‖ * ((l.zipIdx k).foldl
          (fun acc p => if acc.1 < ‖p.1‖ then (‖p.1‖, p.2) else acc) acc).1,
        ((l.zipIdx k).foldl (fun acc p => if acc.1 < ‖p.1‖ then (‖p.1‖, p.2) else acc) acc).2) := by
  have hz' : 0 < ‖z‖ := norm_pos_iff.2 hz
  induction l with
  | nil => intro k acc; rfl
  | cons a l ih =>
    intro k acc
    simp only [List.map_cons, List.zipIdx_cons, List.foldl_cons, norm_mul]
    by_cases h : acc.1 < ‖a‖
    · have h' : ‖z‖ * acc.1 < ‖z‖ * ‖a‖ := mul_lt_mul_of_pos_left h hz'
      simp only [h, h', if_true]
      exact ih (k + 1) (‖a‖, k)
    · have h' : ¬ ‖z‖ * acc.1 < ‖z‖ * ‖a‖ := by
        rw [mul_lt_mul_iff_right₀ hz']; exact h
      simp only [h, h', if_false]
      exact ih (k + 1) acc

theorem reference_mul (z : 𝕜) (hz : z ≠ 0) (l : List 𝕜) :
    reference (l.map (z * ·)) = (‖z‖ * (reference l).1, (reference l).2) := by
  have := reference_mul_aux z hz l 0 (0, 0)
  simpa [reference] using this

theorem refVal_mul (z : 𝕜) (hz : z ≠ 0) (l : List 𝕜) :
    refVal (l.map (z * ·)) = z * refVal l := by
  unfold refVal
  rw [reference_mul z hz]
  simp only [List.getD_eq_getElem?_getD, List.getElem?_map]
  cases l[(reference l).2]? <;> simp

theorem alignOne_mul (z r v : 𝕜) (hz : z ≠ 0) (p q : Prop) [Decidable p] [Decidable q]
    (hpq : p ↔ q) : alignOne p (z * r) (z * v) = z * alignOne q r v := by
  have h : RCLike.re (z * v * (starRingEnd 𝕜) (z * r))
      = ‖z‖ ^ 2 * RCLike.re (v * (starRingEnd 𝕜) r) := by
    have : z * v * (starRingEnd 𝕜) (z * r) = ((‖z‖ ^ 2 : ℝ) : 𝕜) * (v * (starRingEnd 𝕜) r) := by
      rw [map_mul]
      push_cast
      rw [← RCLike.mul_conj]; ring
    rw [this, RCLike.re_ofReal_mul]
  have hz' : 0 < ‖z‖ ^ 2 := by have := norm_pos_iff.2 hz; positivity
  unfold alignOne
  rw [h]
  simp only [hpq, mul_neg_iff, hz', true_and, not_lt.2 hz'.le, false_and, or_false]
  split_ifs <;> ring

theorem aligned_mul (z : 𝕜) (hz : z ≠ 0) (l : List 𝕜)
    (h : refTol < ‖z‖ * (reference l).1 ↔ refTol < (reference l).1) :
    aligned (l.map (z * ·)) = (aligned l).map (z * ·) := by
  rw [aligned_eq, aligned_eq, refVal_mul z hz, List.map_map, List.map_map]
  apply List.map_congr_left
  intro v _
  simp only [Function.comp]
  apply alignOne_mul z _ _ hz
  rw [reference_mul z hz]
  exact h

theorem mean_mul (z : 𝕜) (hz : z ≠ 0) (l : List 𝕜)
    (h : refTol < ‖z‖ * (reference l).1 ↔ refTol < (reference l).1) :
    mean (l.map (z * ·)) = z * mean l := by
  rw [mean_eq, mean_eq, aligned_mul z hz l h, List.length_map, List.sum_map_mul_left]
  simp [mul_div_assoc]

/-- the mean is not much smaller than the reference -/
theorem mean_ge {l : List 𝕜} (hl : l ≠ []) (hv : refTol < (reference l).1) :
    (reference l).1 ≤ l.length * ‖mean l‖ := by
  obtain ⟨hmem, hn⟩ := reference_spec l hl
  have hpos : 0 < (reference l).1 := lt_trans refTol_pos hv
  have hlen : 0 < (l.length : ℝ) := by
    have := List.length_pos_of_ne_nil hl
    exact_mod_cast this
  have hsum : (aligned l).sum = ((l.length : ℝ) : 𝕜) * mean l := by
    rw [mean_eq]
    have : ((l.length : ℝ) : 𝕜) ≠ 0 := by exact_mod_cast hlen.ne'
    field_simp
  have key : (reference l).1 ^ 2 ≤ RCLike.re ((aligned l).sum * (starRingEnd 𝕜) (refVal l)) := by
    have hre : RCLike.re ((aligned l).sum * (starRingEnd 𝕜) (refVal l))
        = ((aligned l).map (fun v => RCLike.re (v * (starRingEnd 𝕜) (refVal l)))).sum := by
      generalize aligned l = a
      induction a with
      | nil => simp
      | cons x a ih => simp only [List.sum_cons, List.map_cons, add_mul, map_add, ih]
    rw [hre]
    have hm : refVal l ∈ aligned l := by
      rw [aligned_eq]
      exact List.mem_map.2 ⟨refVal l, hmem, alignOne_self _⟩
    have h1 : RCLike.re (refVal l * (starRingEnd 𝕜) (refVal l)) = (reference l).1 ^ 2 := by
      rw [RCLike.mul_conj, hn]; norm_cast
    rw [← h1]
    apply List.single_le_sum
    · intro x hx
      obtain ⟨v, hv', rfl⟩ := List.mem_map.1 hx
      rw [aligned_eq] at hv'
      obtain ⟨w, _, rfl⟩ := List.mem_map.1 hv'
      exact re_alignOne hv _ _
    · exact List.mem_map.2 ⟨_, hm, rfl⟩
  have h2 : RCLike.re ((aligned l).sum * (starRingEnd 𝕜) (refVal l))
      ≤ (l.length * ‖mean l‖) * (reference l).1 := by
    refine le_trans (RCLike.re_le_norm _) ?_
    rw [norm_mul, RCLike.norm_conj, hn, hsum, norm_mul]
    simp
  have h3 : (reference l).1 * (reference l).1 ≤ (l.length * ‖mean l‖) * (reference l).1 := by
    nlinarith [key, h2]
  exact le_of_mul_le_mul_right h3 hpos

theorem mean_le {l : List 𝕜} {b : ℝ} (hl : l ≠ []) (h : ∀ v ∈ l, ‖v‖ ≤ b) : ‖mean l‖ ≤ b := by
  have hlen : 0 < (l.length : ℝ) := by
    have := List.length_pos_of_ne_nil hl
    exact_mod_cast this
  rw [mean_eq, norm_div]
  have h1 : ‖(aligned l).sum‖ ≤ l.length * b := by
    have : ∀ a : List 𝕜, (∀ v ∈ a, ‖v‖ ≤ b) → ‖a.sum‖ ≤ a.length * b := by
      intro a
      induction a with
      | nil => intro _; simp
      | cons x a ih =>
        intro hx
        rw [List.sum_cons, List.length_cons]
        push_cast
        have := norm_add_le x a.sum
        have := ih (fun v hv => hx v (by simp [hv]))
        have := hx x (by simp)
        linarith
    have h2 := this (aligned l) (by
      intro v hv
      rw [aligned_eq] at hv
      obtain ⟨w, hw, rfl⟩ := List.mem_map.1 hv
      rw [norm_alignOne]
      exact h w hw)
    simpa [aligned_eq] using h2
  rw [div_le_iff₀ (by simpa using hlen)]
  simpa [mul_comm] using h1

end QLPeps.Psi
