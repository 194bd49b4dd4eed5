import Verif.Model.SuwaTodo
import Mathlib.Algebra.BigOperators.Group.List.Basic
import Mathlib.Algebra.Order.BigOperators.Group.List
import Mathlib.Tactic.Linarith
import Mathlib.Tactic.Ring

set_option linter.unusedSectionVars false

namespace QLPeps.SuwaTodo

variable {K : Type*} [Field K] [LinearOrder K]

/-! ### `max_element` -/

theorem maxElementAux_lt (l : List K) (best pos : ℕ) (bv : K) (h : best < pos) :
    maxElementAux best bv pos l < pos + l.length := by
  induction l generalizing best pos bv with
  | nil => simpa [maxElementAux] using h
  | cons a l ih =>
    unfold maxElementAux
    split
    · have := ih pos (pos + 1) a (by omega); simp only [List.length_cons]; omega
    · have := ih best (pos + 1) bv (by omega); simp only [List.length_cons]; omega

theorem maxWeightId_lt (w : List K) (h : w ≠ []) : maxWeightId w < w.length := by
  cases w with
  | nil => exact absurd rfl h
  | cons a l =>
    have := maxElementAux_lt l 0 1 a (by omega)
    simp only [maxWeightId, List.length_cons]; omega

theorem maxElementAux_spec (p l : List K) (best : ℕ) (bv : K)
    (hb : p[best]? = some bv) (hp : ∀ x ∈ p, x ≤ bv) :
    ∃ m, (p ++ l)[maxElementAux best bv p.length l]? = some m ∧ ∀ x ∈ p ++ l, x ≤ m := by
  induction l generalizing p best bv with
  | nil => exact ⟨bv, by simpa [maxElementAux] using hb, by simpa using hp⟩
  | cons a l ih =>
    unfold maxElementAux
    split
    · rename_i hlt
      have := ih (p ++ [a]) p.length a (by simp) (by
        intro x hx
        rcases List.mem_append.1 hx with h | h
        · exact le_trans (hp x h) hlt.le
        · simp at h; exact h.le)
      simpa using this
    · rename_i hlt
      have := ih (p ++ [a]) best bv (by
        have hlt' : best < p.length := by
          by_contra hc
          rw [List.getElem?_eq_none (by omega)] at hb; simp at hb
        rw [List.getElem?_append_left hlt']; exact hb) (by
        intro x hx
        rcases List.mem_append.1 hx with h | h
        · exact hp x h
        · simp at h; rw [h]; exact not_lt.1 hlt)
      simpa using this

/-- the selected entry is a largest one -/
theorem maxWeightId_spec (w : List K) (h : w ≠ []) :
    ∃ m, w[maxWeightId w]? = some m ∧ ∀ x ∈ w, x ≤ m := by
  cases w with
  | nil => exact absurd rfl h
  | cons a l =>
    have := maxElementAux_spec [a] l 0 a (by simp) (by simp)
    simpa [maxWeightId] using this

/-! ### relabelling -/

theorem relabel_relabel (m i : ℕ) : relabel m (relabel m i) = i := by
  unfold relabel; split_ifs <;> omega

theorem relabel_lt {m i n : ℕ} (hm : m < n) (hi : i < n) : relabel m i < n := by
  unfold relabel; split_ifs <;> omega

theorem length_swapFront (w : List K) (m : ℕ) : (swapFront w m).length = w.length := by
  unfold swapFront; split <;> simp

theorem getElem?_swapFront (w : List K) (m i : ℕ) (hm : m < w.length) :
    (swapFront w m)[i]? = w[relabel m i]? := by
  have h0 : 0 < w.length := by omega
  unfold swapFront
  rw [List.getElem?_eq_getElem h0, List.getElem?_eq_getElem hm]
  simp only [List.getElem?_set, List.length_set]
  unfold relabel
  by_cases h1 : m = i
  · subst h1; simp [hm]
  · have h1' : ¬ i = m := fun h => h1 h.symm
    by_cases h2 : 0 = i
    · subst h2; simp [h1, h1', h0, hm]
    · have h2' : ¬ i = 0 := fun h => h2 h.symm
      simp [h1, h1', h2, h2']

/-! ### prefix sums -/

theorem length_prefixSums (acc : K) (w : List K) : (prefixSums acc w).length = w.length := by
  induction w generalizing acc with
  | nil => rfl
  | cons a l ih => simp [prefixSums, ih]

theorem getElem?_prefixSums (acc : K) (w : List K) (k : ℕ) (hk : k < w.length) :
    (prefixSums acc w)[k]? = some (acc + (w.take (k + 1)).sum) := by
  induction w generalizing acc k with
  | nil => simp at hk
  | cons a l ih =>
    cases k with
    | zero => simp [prefixSums]
    | succ k =>
      simp only [prefixSums, List.getElem?_cons_succ]
      rw [ih (acc + a) k (by simpa using hk)]
      simp [add_assoc]

variable [IsStrictOrderedRing K]

/-- prefix sums `P k = w 0 + ... + w (k-1)` -/
def P (w : List K) (k : ℕ) : K := (w.take k).sum

theorem P_zero (w : List K) : P w 0 = 0 := by simp [P]

theorem P_length (w : List K) : P w w.length = w.sum := by simp [P]

theorem P_succ (w : List K) (k : ℕ) (h : k < w.length) : P w (k + 1) = P w k + w[k] := by
  rw [P, P, List.take_add_one, List.sum_append, List.getElem?_eq_getElem h, Option.toList_some,
    List.sum_singleton]

theorem P_le_succ (w : List K) (hw : ∀ a ∈ w, 0 ≤ a) (k : ℕ) : P w k ≤ P w (k + 1) := by
  by_cases h : k < w.length
  · rw [P_succ w k h]; have := hw _ (List.getElem_mem h); linarith
  · have h1 : w.take k = w := List.take_of_length_le (by omega)
    have h2 : w.take (k + 1) = w := List.take_of_length_le (by omega)
    rw [P, P, h1, h2]

theorem P_mono (w : List K) (hw : ∀ a ∈ w, 0 ≤ a) : Monotone (P w) :=
  monotone_nat_of_le_succ (P_le_succ w hw)

theorem P_nonneg (w : List K) (hw : ∀ a ∈ w, 0 ≤ a) (k : ℕ) : 0 ≤ P w k := by
  have := P_mono w hw (Nat.zero_le k); rwa [P_zero] at this

theorem P_le_sum (w : List K) (hw : ∀ a ∈ w, 0 ≤ a) (k : ℕ) (hk : k ≤ w.length) :
    P w k ≤ w.sum := by
  have := P_mono w hw hk; rwa [P_length] at this

theorem upperBound_eq_iff (w : List K) (hw : ∀ a ∈ w, 0 ≤ a) (x : K) (hx0 : 0 ≤ x)
    (j : ℕ) (hj : j < w.length) :
    upperBound (prefixSums 0 w) x = j ↔ P w j ≤ x ∧ x < P w (j + 1) := by
  have hlen := length_prefixSums (0 : K) w
  have hget : ∀ k (hk : k < (prefixSums 0 w).length), (prefixSums 0 w)[k] = P w (k + 1) := by
    intro k hk
    have := getElem?_prefixSums (0 : K) w k (by omega)
    rw [List.getElem?_eq_getElem hk] at this
    simpa [P] using this
  unfold upperBound
  rw [List.findIdx_eq (by omega)]
  simp only [hget, decide_eq_true_eq, decide_eq_false_iff_not, not_lt]
  constructor
  · rintro ⟨h1, h2⟩
    refine ⟨?_, h1⟩
    cases j with
    | zero => rw [P_zero]; exact hx0
    | succ j => exact h2 j (by omega)
  · rintro ⟨h1, h2⟩
    exact ⟨h2, fun k hk => le_trans (P_mono w hw (by omega : k + 1 ≤ j)) h1⟩

theorem upperBound_lt (w : List K) (x : K) (hx : x < w.sum) (hne : w ≠ []) :
    upperBound (prefixSums 0 w) x < w.length := by
  have hlen := length_prefixSums (0 : K) w
  have h0 : 0 < w.length := List.length_pos_iff.2 hne
  rw [← hlen]
  unfold upperBound
  rw [List.findIdx_lt_length]
  refine ⟨w.sum, ?_, by simpa using hx⟩
  have := getElem?_prefixSums (0 : K) w (w.length - 1) (by omega)
  have h2 : w.length - 1 + 1 = w.length := by omega
  rw [h2, List.take_length, zero_add] at this
  exact List.mem_of_getElem? this

/-- value of the sampled point on the ring -/
def point (w : List K) (i : ℕ) (h0 : 0 < w.length) (hi : i < w.length) (u : K) : K :=
  wrapOnce w.sum (wrapOnce w.sum (P w i + w[0]) + u * w[i])

theorem ringStep_eq (w : List K) (i : ℕ) (h0 : 0 < w.length) (hi : i < w.length) (u : K) :
    ringStep w w[0] w[i] i u = upperBound (prefixSums 0 w) (point w i h0 hi u) := by
  unfold ringStep point
  have : (if i = 0 then 0 else (prefixSums 0 w).getD (i - 1) 0) = P w i := by
    by_cases h : i = 0
    · subst h; simp [P_zero]
    · rw [if_neg h, List.getD_eq_getElem?_getD, getElem?_prefixSums _ _ _ (by omega)]
      have : i - 1 + 1 = i := by omega
      simp [P, this]
  simp only [this]

/-- the sampled point: representative in `[0, S)` of the unwrapped point -/
theorem point_spec (w : List K) (hw : ∀ a ∈ w, 0 ≤ a) (i : ℕ) (h0 : 0 < w.length)
    (hi : i < w.length) (hpos : 0 < w[i]) (u : K) (hu0 : 0 ≤ u) (hu1 : u < 1) :
    0 ≤ point w i h0 hi u ∧ point w i h0 hi u < w.sum ∧
      ∃ k : ℕ, point w i h0 hi u = P w i + w[0] + u * w[i] - k * w.sum := by
  have e1 : P w (i + 1) ≤ w.sum := P_le_sum w hw _ (by omega)
  have e2 := P_succ w i hi
  have e3 := P_nonneg w hw i
  have e4 : (0 : K) ≤ w[0] := hw _ (List.getElem_mem h0)
  have e5 : P w 1 ≤ w.sum := P_le_sum w hw _ (by omega)
  have e6 : P w 1 = w[0] := by rw [P_succ w 0 h0, P_zero, zero_add]
  have hS : 0 < w.sum := by linarith
  have hlt : P w i < w.sum := by linarith
  have uw0 : 0 ≤ u * w[i] := mul_nonneg hu0 hpos.le
  have uw1 : u * w[i] < w[i] := by
    have := mul_lt_mul_of_pos_right hu1 hpos; linarith
  unfold point wrapOnce
  split_ifs with h1 h2 h2
  · exact ⟨by linarith, by linarith, 2, by push_cast; ring⟩
  · exact ⟨by linarith, by linarith, 1, by push_cast; ring⟩
  · exact ⟨by linarith, by linarith, 1, by push_cast; ring⟩
  · exact ⟨by linarith, by linarith, 0, by push_cast; ring⟩

/-- unfolding of `suwaTodo` for in-range arguments -/
theorem suwaTodo_eq (w : List K) (init : ℕ) (hi : init < w.length) (u : K) :
    ∃ (v : List K) (h0 : 0 < v.length) (hi' : relabel (maxWeightId w) init < v.length),
      v.length = w.length ∧ (∀ k : ℕ, v[k]? = w[relabel (maxWeightId w) k]?) ∧
      suwaTodo w init u =
        some (relabel (maxWeightId w)
          (upperBound (prefixSums 0 v) (point v (relabel (maxWeightId w) init) h0 hi' u))) := by
  have hne : w ≠ [] := by rintro rfl; simp at hi
  have hm := maxWeightId_lt w hne
  have h0w : 0 < w.length := by omega
  have hr := relabel_lt hm hi
  by_cases hm0 : maxWeightId w = 0
  · refine ⟨w, h0w, hr, rfl, ?_, ?_⟩
    · intro k; rw [hm0]; congr 1; unfold relabel; split_ifs <;> omega
    · unfold suwaTodo
      rw [if_pos hi]
      have hid : ∀ k, relabel (maxWeightId w) k = k := by
        intro k; rw [hm0]; unfold relabel; split_ifs <;> omega
      simp only [hm0, ne_eq, not_true, if_false]
      rw [hm0] at hr
      rw [List.getElem?_eq_getElem h0w, List.getElem?_eq_getElem hr]
      simp only []
      rw [ringStep_eq w _ h0w hr]
      have : ∀ k, relabel 0 k = k := by intro k; unfold relabel; split_ifs <;> omega
      simp only [this]
  · have hl := length_swapFront w (maxWeightId w)
    refine ⟨swapFront w (maxWeightId w), by omega, by omega, hl,
      fun k => getElem?_swapFront w _ k hm, ?_⟩
    unfold suwaTodo
    rw [if_pos hi]
    simp only [ne_eq, hm0, not_false_iff, if_true]
    rw [List.getElem?_eq_getElem (by omega : 0 < (swapFront w (maxWeightId w)).length),
      List.getElem?_eq_getElem (by omega :
        relabel (maxWeightId w) init < (swapFront w (maxWeightId w)).length)]
    simp only []
    rw [ringStep_eq]

/-- entries of the swapped list are entries of the original one -/
theorem mem_of_relabel (v w : List K) (m : ℕ) (h : ∀ k : ℕ, v[k]? = w[relabel m k]?)
    (a : K) (ha : a ∈ v) : a ∈ w := by
  obtain ⟨k, hk⟩ := List.mem_iff_getElem?.1 ha
  rw [h] at hk
  exact List.mem_of_getElem? hk

end QLPeps.SuwaTodo
