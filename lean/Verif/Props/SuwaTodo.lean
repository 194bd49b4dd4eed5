import Verif.Lemmas.SuwaTodoMeasure
import Mathlib.Tactic.NormNum

/-!
# Properties C01, C02, C03, C61: the Suwa-Todo update
-/

open MeasureTheory Set

namespace QLPeps.SuwaTodo

/-- Specification: probability that the update moves from state `i` to state `j`
when the random number `u` is uniform in `[0,1)`: the length of the set of
random numbers for which the update returns `j`. -/
noncomputable def transProb (w : List ℝ) (i j : ℕ) : ℝ :=
  (volume {u : ℝ | u ∈ Ico (0 : ℝ) 1 ∧ suwaTodo w i u = some j}).toReal

/-- permuting the entries by the relabelling does not change the sum -/
theorem sum_relabel {K : Type*} [Field K] [LinearOrder K] (v w : List K) (m : ℕ)
    (hm : m < w.length) (hvl : v.length = w.length)
    (hvk : ∀ k, v[k]? = w[relabel m k]?) : v.sum = w.sum := by
  let e : Fin w.length ≃ Fin v.length :=
    { toFun := fun i => ⟨relabel m i, by rw [hvl]; exact relabel_lt hm i.2⟩
      invFun := fun i => ⟨relabel m i, relabel_lt hm (by rw [← hvl]; exact i.2)⟩
      left_inv := fun i => by ext; simp [relabel_relabel]
      right_inv := fun i => by ext; simp [relabel_relabel] }
  have h1 : v.sum = ∑ k : Fin v.length, v[k] := by
    rw [← Fin.sum_univ_getElem v]; rfl
  have h2 : w.sum = ∑ k : Fin w.length, w[k] := by
    rw [← Fin.sum_univ_getElem w]; rfl
  rw [h1, h2, ← Equiv.sum_comp e]
  refine Finset.sum_congr rfl fun i _ => ?_
  have := hvk (e i)
  rw [show relabel m (e i) = i from relabel_relabel m i,
    List.getElem?_eq_getElem (e i).2, List.getElem?_eq_getElem i.2] at this
  exact Option.some.inj this

/-- **C01** (global balance). If the current state is distributed proportionally
to the weights, so is the updated state: for every target `j`,
`∑ i, w i * P(i → j) = w j`. -/
theorem C01_global_balance (w : List ℝ) (hw : ∀ a ∈ w, 0 ≤ a) (hS : 0 < w.sum)
    (j : Fin w.length) :
    ∑ i : Fin w.length, w[i] * transProb w i j = w[j] := by
  have h0 : 0 < w.length := lt_of_le_of_lt (Nat.zero_le _) j.2
  have hne : w ≠ [] := List.length_pos_iff.1 h0
  have hm := maxWeightId_lt w hne
  set m := maxWeightId w with hmdef
  obtain ⟨v, hv0, -, hvl, hvk, -⟩ := suwaTodo_eq w 0 h0 0
  have hvw : ∀ a ∈ v, 0 ≤ a := fun a ha => hw a (mem_of_relabel v w _ hvk a ha)
  have hval : ∀ k (hk : k < v.length) (hk' : relabel m k < w.length),
      v[k] = w[relabel m k] := by
    intro k hk hk'
    have := hvk k
    rw [List.getElem?_eq_getElem hk, List.getElem?_eq_getElem hk'] at this
    exact Option.some.inj this
  -- the permutation of states
  let e : Fin w.length ≃ Fin v.length :=
    { toFun := fun i => ⟨relabel m i, by rw [hvl]; exact relabel_lt hm i.2⟩
      invFun := fun i => ⟨relabel m i, relabel_lt hm (by rw [← hvl]; exact i.2)⟩
      left_inv := fun i => by ext; simp [relabel_relabel]
      right_inv := fun i => by ext; simp [relabel_relabel] }
  have hvS : v.sum = w.sum := sum_relabel v w m hm hvl hvk
  have hb := ring_balance v hvw (by rw [hvS]; exact hS) hv0 (e j) (e j).2
  have hj : v[(e j : ℕ)] = w[j] := by
    rw [hval (e j) (e j).2 (relabel_lt hm (by have := (e j).2; omega))]
    simp only [Fin.getElem_fin]
    congr 1
    exact relabel_relabel m j
  rw [hj, ← Equiv.sum_comp e] at hb
  rw [← hb]
  refine Finset.sum_congr rfl fun i _ => ?_
  have hwi : v[e i] = w[i] := by
    have := hval (e i) (e i).2 (relabel_lt hm (by have := (e i).2; omega))
    simp only [Fin.getElem_fin, this]
    congr 1
    exact relabel_relabel m i
  rw [hwi, transProb]
  congr 3
  ext u
  simp only [mem_ofPred_eq]
  refine and_congr_right fun _ => ?_
  obtain ⟨v', hv0', hi', hvl', hvk', hst⟩ := suwaTodo_eq w i i.2 u
  have hvv : v' = v := List.ext_getElem? fun k => by rw [hvk', hvk]
  subst hvv
  rw [hst]
  constructor
  · intro h
    have := Option.some.inj h
    have h2 := congrArg (relabel m) this
    rw [relabel_relabel] at h2
    exact h2
  · intro h
    have h2 : upperBound (prefixSums 0 v') (point v' (relabel (maxWeightId w) i) hv0' hi' u)
        = relabel m j := h
    rw [h2, relabel_relabel]

/-- hypotheses of C01 are met, with a tie for the largest weight and a zero weight -/
example : (∀ a ∈ ([1, 3, 0, 3] : List ℝ), 0 ≤ a) ∧ 0 < ([1, 3, 0, 3] : List ℝ).sum := by
  norm_num

/-- **C02**. From a state of positive weight, every random number in `[0,1)` leads
to a valid state of positive weight. -/
theorem C02_in_range_positive {K : Type*} [Field K] [LinearOrder K] [IsStrictOrderedRing K]
    (w : List K) (hw : ∀ a ∈ w, 0 ≤ a) (i : ℕ) (hi : i < w.length) (hpos : 0 < w[i])
    (u : K) (hu0 : 0 ≤ u) (hu1 : u < 1) :
    ∃ j, ∃ hj : j < w.length, suwaTodo w i u = some j ∧ 0 < w[j] := by
  have hne : w ≠ [] := by rintro rfl; simp at hi
  have hm := maxWeightId_lt w hne
  obtain ⟨v, hv0, hi', hvl, hvk, hst⟩ := suwaTodo_eq w i hi u
  have hvw : ∀ a ∈ v, 0 ≤ a := fun a ha => hw a (mem_of_relabel v w _ hvk a ha)
  have hri : v[relabel (maxWeightId w) i] = w[i] := by
    have := hvk (relabel (maxWeightId w) i)
    rw [relabel_relabel, List.getElem?_eq_getElem hi', List.getElem?_eq_getElem hi] at this
    exact Option.some.inj this
  obtain ⟨a1, a2, -⟩ := point_spec v hvw _ hv0 hi' (by rw [hri]; exact hpos) u hu0 hu1
  have hlt := upperBound_lt v _ a2 (List.length_pos_iff.1 hv0)
  set k := upperBound (prefixSums 0 v) (point v (relabel (maxWeightId w) i) hv0 hi' u) with hk
  have hk' := (upperBound_eq_iff v hvw _ a1 k hlt).1 hk.symm
  have hkpos : 0 < v[k] := by
    have := P_succ v k hlt
    linarith [hk'.1, hk'.2]
  have hrk : relabel (maxWeightId w) k < w.length := relabel_lt hm (by omega)
  refine ⟨relabel (maxWeightId w) k, hrk, hst, ?_⟩
  have := hvk k
  rw [List.getElem?_eq_getElem hlt, List.getElem?_eq_getElem hrk] at this
  rw [← Option.some.inj this]; exact hkpos

/-- concrete case for C02: three states, one of zero weight -/
example : suwaTodo ([1, 0, 3] : List ℚ) 0 (1/2) = some 2 := by decide +kernel

theorem maxElementAux_scale {K : Type*} [Field K] [LinearOrder K] [IsStrictOrderedRing K]
    (c : K) (hc : 0 < c) (l : List K) (b : ℕ) (bv : K) (p : ℕ) :
    maxElementAux b (c * bv) p (l.map (c * ·)) = maxElementAux b bv p l := by
  induction l generalizing b bv p with
  | nil => rfl
  | cons a l ih =>
    simp only [List.map_cons, maxElementAux, mul_lt_mul_iff_right₀ hc, ih]

theorem maxWeightId_scale {K : Type*} [Field K] [LinearOrder K] [IsStrictOrderedRing K]
    (c : K) (hc : 0 < c) (w : List K) : maxWeightId (w.map (c * ·)) = maxWeightId w := by
  cases w with
  | nil => rfl
  | cons a l => exact maxElementAux_scale c hc l 0 a 1

theorem swapFront_map {K : Type*} [Field K] [LinearOrder K] (f : K → K) (w : List K) (m : ℕ) :
    swapFront (w.map f) m = (swapFront w m).map f := by
  unfold swapFront
  simp only [List.getElem?_map]
  cases h0 : w[0]? <;> cases hm : w[m]? <;> simp [List.map_set]

theorem prefixSums_scale {K : Type*} [Field K] (c : K) (acc : K) (l : List K) :
    prefixSums (c * acc) (l.map (c * ·)) = (prefixSums acc l).map (c * ·) := by
  induction l generalizing acc with
  | nil => rfl
  | cons a l ih => simp only [List.map_cons, prefixSums, ← mul_add, ih]

theorem wrapOnce_scale {K : Type*} [Field K] [LinearOrder K] [IsStrictOrderedRing K]
    (c : K) (hc : 0 < c) (S x : K) : wrapOnce (c * S) (c * x) = c * wrapOnce S x := by
  unfold wrapOnce
  simp only [mul_le_mul_iff_right₀ hc]
  split_ifs
  · ring
  · rfl

theorem upperBound_scale {K : Type*} [Field K] [LinearOrder K] [IsStrictOrderedRing K]
    (c : K) (hc : 0 < c) (s : List K) (x : K) :
    upperBound (s.map (c * ·)) (c * x) = upperBound s x := by
  unfold upperBound
  rw [List.findIdx_map]
  congr 1
  funext a
  simp [mul_lt_mul_iff_right₀ hc]

/-- **C03**. Rescaling all weights by the same positive factor does not change the
returned state (nor the undefined cases). -/
theorem C03_scale_invariant {K : Type*} [Field K] [LinearOrder K] [IsStrictOrderedRing K]
    (c : K) (hc : 0 < c) (w : List K) (i : ℕ) (u : K) :
    suwaTodo (w.map (c * ·)) i u = suwaTodo w i u := by
  unfold suwaTodo
  have hring : ∀ (v : List K) (a b : K) (i : ℕ),
      ringStep (v.map (c * ·)) (c * a) (c * b) i u = ringStep v a b i u := by
    intro v a b i
    unfold ringStep
    have hs : prefixSums 0 (v.map (c * ·)) = (prefixSums 0 v).map (c * ·) := by
      have := prefixSums_scale c 0 v; rwa [mul_zero] at this
    have hsum : (v.map (c * ·)).sum = c * v.sum := by
      simpa using List.sum_map_mul_left (l := v) (f := fun x => x) (r := c)
    have hg : (if i = 0 then (0 : K) else ((prefixSums 0 v).map (c * ·)).getD (i - 1) 0)
        = c * (if i = 0 then 0 else (prefixSums 0 v).getD (i - 1) 0) := by
      split_ifs
      · simp
      · rw [List.getD_eq_getElem?_getD, List.getD_eq_getElem?_getD, List.getElem?_map]
        cases (prefixSums 0 v)[i - 1]? <;> simp
    simp only [hs, hsum, hg]
    rw [← mul_add, wrapOnce_scale c hc]
    rw [show u * (c * b) = c * (u * b) by ring, ← mul_add, wrapOnce_scale c hc,
      upperBound_scale c hc]
  simp only [List.length_map, maxWeightId_scale c hc, swapFront_map]
  have hif : (if maxWeightId w ≠ 0 then (swapFront w (maxWeightId w)).map (c * ·)
      else w.map (c * ·)) = (if maxWeightId w ≠ 0 then swapFront w (maxWeightId w) else w).map
        (c * ·) := by split_ifs <;> rfl
  simp only [hif]
  set v := if maxWeightId w ≠ 0 then swapFront w (maxWeightId w) else w
  simp only [List.getElem?_map]
  cases v[0]? <;> cases v[relabel (maxWeightId w) i]? <;> simp [hring]

/-- concrete case for C03 -/
example : suwaTodo (([1, 2, 4] : List ℚ).map ((1/4) * ·)) 1 (1/3)
    = suwaTodo ([1, 2, 4] : List ℚ) 1 (1/3) ∧
    suwaTodo ([1, 2, 4] : List ℚ) 1 (1/3) = some 2 := by decide +kernel

/-- **C61** (rejection free). The update can only return the state it started from when
that state is a largest one and carries more than half of the total weight. -/
theorem C61_rejection_free {K : Type*} [Field K] [LinearOrder K] [IsStrictOrderedRing K]
    (w : List K) (hw : ∀ a ∈ w, 0 ≤ a) (i : ℕ) (hi : i < w.length) (hpos : 0 < w[i])
    (u : K) (hu0 : 0 ≤ u) (hu1 : u < 1) (hstay : suwaTodo w i u = some i) :
    (∀ a ∈ w, a ≤ w[i]) ∧ w.sum < 2 * w[i] := by
  have hne : w ≠ [] := by rintro rfl; simp at hi
  have hm := maxWeightId_lt w hne
  obtain ⟨v, hv0, hi', hvl, hvk, hst⟩ := suwaTodo_eq w i hi u
  have hvw : ∀ a ∈ v, 0 ≤ a := fun a ha => hw a (mem_of_relabel v w _ hvk a ha)
  set r := relabel (maxWeightId w) i with hr
  have hri : v[r] = w[i] := by
    have := hvk r
    rw [hr, relabel_relabel, List.getElem?_eq_getElem (by rw [← hr]; exact hi'),
      List.getElem?_eq_getElem hi] at this
    exact Option.some.inj this
  obtain ⟨mx, hmx, hmax⟩ := maxWeightId_spec w hne
  have hv0m : v[0] = mx := by
    have := hvk 0
    have h0 : relabel (maxWeightId w) 0 = maxWeightId w := by
      unfold relabel; split_ifs <;> omega
    rw [h0, hmx, List.getElem?_eq_getElem hv0] at this
    exact Option.some.inj this
  obtain ⟨a1, a2, k, a3⟩ := point_spec v hvw r hv0 hi' (by rw [hri]; exact hpos) u hu0 hu1
  have hub : upperBound (prefixSums 0 v) (point v r hv0 hi' u) = r := by
    rw [hst] at hstay
    have := congrArg (relabel (maxWeightId w)) (Option.some.inj hstay)
    rwa [relabel_relabel] at this
  have hrange := (upperBound_eq_iff v hvw _ a1 r hi').1 hub
  have hle : v[r] ≤ v[0] := by rw [hri, hv0m]; exact hmax _ (List.getElem_mem hi)
  have hPr := P_succ v r hi'
  have uw0 : 0 ≤ u * v[r] := mul_nonneg hu0 (by rw [hri]; exact hpos.le)
  have uw1 : u * v[r] < v[r] := by
    have := mul_lt_mul_of_pos_right hu1 (by rw [hri]; exact hpos : 0 < v[r]); linarith
  have hsum : v.sum = w.sum := sum_relabel v w _ hm hvl hvk
  have hk0 : k ≠ 0 := by
    rintro rfl
    simp only [Nat.cast_zero, zero_mul, sub_zero] at a3
    linarith [hrange.2]
  have hkS : v.sum ≤ k * v.sum := by
    have h1 : (1 : K) ≤ k := by exact_mod_cast Nat.one_le_iff_ne_zero.2 hk0
    have : 0 ≤ v.sum := List.sum_nonneg hvw
    nlinarith
  have hr0 : r = 0 := by
    by_contra hr0
    have hP1 : P v 1 = v[0] := by have := P_succ v 0 hv0; rw [P_zero] at this; simpa using this
    have h1 : P v 1 ≤ P v r := P_mono v hvw (by omega)
    have h2 : P v (r + 1) ≤ v.sum := P_le_sum v hvw _ hi'
    linarith [hrange.1]
  have h0i : v[0] = w[i] := by rw [← hri]; simp only [hr0]
  refine ⟨fun a ha => by rw [← h0i, hv0m]; exact hmax a ha, ?_⟩
  have hP0 : P v r = 0 := by rw [hr0, P_zero]
  rw [← hsum]
  linarith [hrange.1]

/-- concrete case for C61: state 1 has weight 5 of 8 and can stay -/
example : suwaTodo ([1, 5, 2] : List ℚ) 1 (4/5) = some 1 := by decide +kernel

end QLPeps.SuwaTodo
