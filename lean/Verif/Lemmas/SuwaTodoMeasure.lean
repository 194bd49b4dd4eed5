import Verif.Lemmas.SuwaTodo
import Mathlib.MeasureTheory.Integral.IntervalIntegral.Periodic
import Mathlib.MeasureTheory.Constructions.BorelSpace.Order
import Mathlib.MeasureTheory.Measure.Lebesgue.Basic
import Mathlib.MeasureTheory.Function.Floor

open MeasureTheory Set

set_option linter.unusedSectionVars false

namespace QLPeps.SuwaTodo

/-- representative of `y` in `[0, S)` -/
noncomputable def ringRep (S y : ℝ) : ℝ := Int.fract (y / S) * S

theorem ringRep_of_mem {S y x : ℝ} (hS : 0 < S) (k : ℕ) (h0 : 0 ≤ x) (h1 : x < S)
    (hx : x = y - k * S) : ringRep S y = x := by
  have : Int.fract (y / S) = x / S := by
    rw [Int.fract_eq_iff]
    refine ⟨div_nonneg h0 hS.le, (div_lt_one hS).2 h1, (k : ℤ), ?_⟩
    rw [hx]; push_cast; field_simp; ring
  rw [ringRep, this, div_mul_cancel₀ _ hS.ne']

/-- indicator of "the ring point of `y` lies in `[a,b)`" -/
noncomputable def ind (S a b : ℝ) (y : ℝ) : ℝ := (Ico a b).indicator 1 (ringRep S y)

theorem measurable_ringRep (S : ℝ) : Measurable (ringRep S) := by
  unfold ringRep
  exact ((measurable_id.div_const S).fract).mul_const S

theorem measurable_ind (S a b : ℝ) : Measurable (ind S a b) :=
  (measurable_const.indicator measurableSet_Ico).comp (measurable_ringRep S)

theorem ind_periodic (S a b : ℝ) (hS : 0 < S) : Function.Periodic (ind S a b) S := by
  intro y
  unfold ind ringRep
  rw [add_div, div_self hS.ne', Int.fract_add_one]

theorem ind_bdd (S a b y : ℝ) : ‖ind S a b y‖ ≤ 1 := by
  unfold ind
  by_cases h : ringRep S y ∈ Ico a b <;> simp [h]

theorem intervalIntegrable_ind (S a b x y : ℝ) :
    IntervalIntegrable (ind S a b) volume x y := by
  refine IntervalIntegrable.mono_fun (f := fun _ => (1 : ℝ)) intervalIntegrable_const
    (measurable_ind S a b).aestronglyMeasurable ?_
  filter_upwards with t
  simpa using ind_bdd S a b t

theorem integral_ind_period (S a b : ℝ) (h0 : 0 ≤ a) (hab : a ≤ b) (hb : b ≤ S) (hS : 0 < S) :
    ∫ y in (0 : ℝ)..S, ind S a b y = b - a := by
  rw [intervalIntegral.integral_of_le hS.le, ← integral_Ico_eq_integral_Ioc]
  have : ∫ y in Ico 0 S, ind S a b y = ∫ y in Ico 0 S, (Ico a b).indicator 1 y := by
    refine setIntegral_congr_fun measurableSet_Ico ?_
    intro y hy
    have : ringRep S y = y := ringRep_of_mem hS 0 hy.1 hy.2 (by simp)
    simp [ind, this]
  rw [this, setIntegral_indicator measurableSet_Ico]
  have h2 : Ico 0 S ∩ Ico a b = Ico a b := by
    rw [inter_eq_right]; exact Ico_subset_Ico h0 hb
  rw [h2]; simp [hab]

/-- transition weight out of ring state `k` -/
theorem weight_mul_measure (w : List ℝ) (hw : ∀ a ∈ w, 0 ≤ a) (hS : 0 < w.sum)
    (h0 : 0 < w.length) (k : ℕ) (hk : k < w.length) (j : ℕ) (hj : j < w.length) :
    w[k] * (volume {u : ℝ | u ∈ Ico (0 : ℝ) 1 ∧
        upperBound (prefixSums 0 w) (point w k h0 hk u) = j}).toReal
      = ∫ y in (P w k + w[0])..(P w (k + 1) + w[0]), ind w.sum (P w j) (P w (j + 1)) y := by
  have hnn := hw _ (List.getElem_mem hk)
  rcases hnn.eq_or_lt with hz | hpos
  · rw [P_succ w k hk, ← hz]; simp
  have hset : {u : ℝ | u ∈ Ico (0 : ℝ) 1 ∧
        upperBound (prefixSums 0 w) (point w k h0 hk u) = j}
      = Ico 0 1 ∩ {u : ℝ | ringRep w.sum (w[k] * u + (P w k + w[0])) ∈
          Ico (P w j) (P w (j + 1))} := by
    ext u
    simp only [mem_ofPred_eq, mem_inter_iff]
    refine and_congr_right fun hu => ?_
    obtain ⟨a1, a2, n, a3⟩ := point_spec w hw k h0 hk hpos u hu.1 hu.2
    rw [upperBound_eq_iff w hw _ a1 j hj]
    have := ringRep_of_mem (y := w[k] * u + (P w k + w[0])) hS n a1 a2 (by rw [a3]; ring)
    rw [this]; rfl
  have hm : MeasurableSet {u : ℝ | ringRep w.sum (w[k] * u + (P w k + w[0])) ∈
      Ico (P w j) (P w (j + 1))} := by
    have : Measurable fun u : ℝ => ringRep w.sum (w[k] * u + (P w k + w[0])) :=
      (measurable_ringRep _).comp ((measurable_id.const_mul _).add_const _)
    exact this measurableSet_Ico
  have hint : (volume (Ico (0 : ℝ) 1 ∩ {u : ℝ | ringRep w.sum (w[k] * u + (P w k + w[0])) ∈
        Ico (P w j) (P w (j + 1))})).toReal
      = ∫ u in (0 : ℝ)..1, ind w.sum (P w j) (P w (j + 1)) (w[k] * u + (P w k + w[0])) := by
    rw [intervalIntegral.integral_of_le zero_le_one, ← integral_Ico_eq_integral_Ioc]
    have : (fun u : ℝ => ind w.sum (P w j) (P w (j + 1)) (w[k] * u + (P w k + w[0])))
        = ({u : ℝ | ringRep w.sum (w[k] * u + (P w k + w[0])) ∈
          Ico (P w j) (P w (j + 1))}).indicator (fun _ => (1 : ℝ)) := by
      ext u
      simp only [ind, indicator, mem_ofPred_eq, Pi.one_apply]
    rw [this, setIntegral_indicator hm, setIntegral_const]
    simp [Measure.real]
  rw [hset, hint, P_succ w k hk]
  have := intervalIntegral.smul_integral_comp_mul_add
    (f := ind w.sum (P w j) (P w (j + 1))) (a := 0) (b := 1) w[k] (P w k + w[0])
  rw [smul_eq_mul] at this
  rw [this]
  congr 1 <;> ring

/-- global balance on the ring -/
theorem ring_balance (w : List ℝ) (hw : ∀ a ∈ w, 0 ≤ a) (hS : 0 < w.sum)
    (h0 : 0 < w.length) (j : ℕ) (hj : j < w.length) :
    ∑ k : Fin w.length, w[k] * (volume {u : ℝ | u ∈ Ico (0 : ℝ) 1 ∧
        upperBound (prefixSums 0 w) (point w k h0 k.2 u) = j}).toReal = w[j] := by
  have h1 : ∀ k : Fin w.length, w[k] * (volume {u : ℝ | u ∈ Ico (0 : ℝ) 1 ∧
        upperBound (prefixSums 0 w) (point w k h0 k.2 u) = j}).toReal
      = (fun n : ℕ => ∫ y in (P w n + w[0])..(P w (n + 1) + w[0]),
          ind w.sum (P w j) (P w (j + 1)) y) (k : ℕ) :=
    fun k => weight_mul_measure w hw hS h0 k k.2 j hj
  rw [Finset.sum_congr rfl (fun k _ => h1 k), Fin.sum_univ_eq_sum_range (fun n : ℕ =>
    ∫ y in (P w n + w[0])..(P w (n + 1) + w[0]), ind w.sum (P w j) (P w (j + 1)) y) w.length]
  have h2 := intervalIntegral.sum_integral_adjacent_intervals
    (f := ind w.sum (P w j) (P w (j + 1))) (μ := volume) (a := fun n => P w n + w[0])
    (n := w.length) (fun k _ => intervalIntegrable_ind _ _ _ _ _)
  rw [h2, P_zero, P_length, zero_add]
  have h3 := (ind_periodic w.sum (P w j) (P w (j + 1)) hS).intervalIntegral_add_eq w[0] 0
  rw [zero_add] at h3
  rw [add_comm w.sum, h3, integral_ind_period _ _ _ (P_nonneg w hw j) (P_le_succ w hw j)
    (P_le_sum w hw _ (by omega)) hS, P_succ w j hj]
  ring

end QLPeps.SuwaTodo
