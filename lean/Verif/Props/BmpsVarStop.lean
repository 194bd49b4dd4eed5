import Verif.Lemmas.BmpsVarStop
import Verif.Props.BmpsVar

/-!
# When the variational compressions of the boundary MPS end

Property C147.
-/

namespace QLPeps.BmpsVar

open QLPeps.Contractor QLPeps.Bmps QLPeps.Box QLPeps.BmpsVar.Spec
open QLPeps.Peps (Tn Lib dag transpose truncLib_factorizations)

noncomputable section

variable {𝕜 : Type*} [RCLike 𝕜]

theorem multiply_one (lib : Libs 𝕜) (te : ℝ) (dmin dmax : ℕ) (tol : ℝ) (max : ℕ) (p : Pos) {mps mpo res : List (Tn 𝕜)}
    (hn : 3 ≤ mps.length) (h : variational1 lib te dmin dmax tol max p mps (inOrder p mpo) = some res) :
    multiply lib .one te dmin dmax (some tol) (some max) p mps mpo = .ok res := by
  have e0 : ¬(mps.length = 2 ∨ Scheme.one = .svd) := by rintro (h | h); · omega
                                                        · exact absurd h (by decide)
  have e1 : ¬mps.length < 2 := by omega
  rw [multiply, if_neg e0]
  simp only [if_neg e1, reverse_eq, reduceCtorEq, if_false, h]

theorem multiply_two (lib : Libs 𝕜) (te : ℝ) (dmin dmax : ℕ) (tol : ℝ) (max : ℕ) (p : Pos) {mps mpo res : List (Tn 𝕜)}
    (hn : 3 ≤ mps.length) (h : variational2 lib te dmin dmax tol max p mps (inOrder p mpo) = some res) :
    multiply lib .two te dmin dmax (some tol) (some max) p mps mpo = .ok res := by
  have e0 : ¬(mps.length = 2 ∨ Scheme.two = .svd) := by rintro (h | h); · omega
                                                        · exact absurd h (by decide)
  have e1 : ¬mps.length < 2 := by omega
  rw [multiply, if_neg e0]
  simp only [if_neg e1, reverse_eq, if_true, h]

/-- C147: The one-site scheme. There is a result for every number of iterations (what a negative tolerance gives), and
a number for every iteration, between the norms of the results before and after it. For every tolerance and every
allowed number of iterations, the scheme returns the result of the first iteration from the second on in which this
number grew by at most the tolerance, and the result of the last allowed iteration if there is none. -/
theorem one_site_stops {lib : Libs 𝕜} (hf : ∀ te dmin dmax, Factorizations (lib te dmin dmax))
    (te : ℝ) (dmin dmax : ℕ) (p : Pos) {mps mpo : List (Tn 𝕜)} {ds fs : List ℕ}
    (h1 : IsMps mps 1 ds) (h2 : IsMpo p (inOrder p mpo) 1 ds fs) (hn : 3 ≤ mps.length) :
    ∃ (res : ℕ → List (Tn 𝕜)) (r : ℕ → ℝ),
      (∀ k, multiply lib .one te dmin dmax (some (-1)) (some k) p mps mpo = .ok (res k)) ∧
      (∀ k, 0 ≤ r (k + 1) ∧ normSq fs (fun ys => amp (res k) ys 0) ≤ r (k + 1) ^ 2 ∧
        r (k + 1) ^ 2 ≤ normSq fs (fun ys => amp (res (k + 1)) ys 0)) ∧
      ∀ tol max, 0 ≤ tol → ∃ k ≤ max, multiply lib .one te dmin dmax (some tol) (some max) p mps mpo = .ok (res k) ∧
        (∀ j, 2 ≤ j → j < k → tol * r j < r j - r (j - 1)) ∧
        (k < max → 2 ≤ k ∧ r k - r (k - 1) ≤ tol * r k) := by
  rw [isMps_iff] at h1
  rw [isMpo_iff] at h2
  obtain ⟨res, r, a1, a2, a3⟩ := variational1_seq hf te dmin dmax h1 h2 (by omega) (ne_nil_of h1 h2 hn)
  have hm : ∀ k, r (k + 1) ≤ r (k + 2) := fun k =>
    (abs_le_of_sq_le_sq' ((a2 k).2.trans (a2 (k + 1)).1) (a1 _)).2
  have hconv : ∀ tol, 0 ≤ tol → ∀ j, 1 ≤ j → (converged1 tol (prev r (j - 1)) (r j) = true ↔
      2 ≤ j ∧ r j - r (j - 1) ≤ tol * r j) := by
    intro tol ht j hj
    obtain ⟨j, rfl⟩ : ∃ i, j = i + 1 := ⟨j - 1, by omega⟩
    cases j with
    | zero => simp [prev, converged1]
    | succ j =>
      have h0 := a1 (j + 1)
      have h3 := hm j
      simp only [prev, converged1, Nat.add_sub_cancel, Bool.not_eq_true', decide_eq_false_iff_not, not_lt, gt_iff_lt]
      rw [abs_of_nonneg (by linarith), abs_of_nonneg h0]
      rcases h0.eq_or_lt with h | h
      · have h4 := a1 j
        have h5 : r (j + 1) = 0 := by linarith
        rw [← h, h5]
        simpa using ht
      · rw [div_le_iff₀ h]
        exact ⟨fun h => ⟨by omega, h⟩, fun h => h.2⟩
  refine ⟨res, r, fun k => ?_, fun k => ⟨a1 k, a2 k⟩, fun tol max ht => ?_⟩
  · obtain ⟨m, m1, m2, m3, m4⟩ := a3 (-1) k
    have : m = k := by
      by_contra hne
      obtain ⟨g1, g2⟩ := m4 (by omega)
      obtain ⟨m, rfl⟩ : ∃ i, m = i + 1 := ⟨m - 1, by omega⟩
      cases m with
      | zero => simp [prev, converged1] at g2
      | succ m =>
        simp only [prev, converged1, Nat.add_sub_cancel, Bool.not_eq_true', decide_eq_false_iff_not, not_lt, gt_iff_lt] at g2
        have : 0 ≤ |r (m + 1 + 1) - r (m + 1)| / |r (m + 1 + 1)| := div_nonneg (abs_nonneg _) (abs_nonneg _)
        linarith
    rw [this] at m2
    exact multiply_one lib te dmin dmax _ _ p hn m2
  · obtain ⟨m, m1, m2, m3, m4⟩ := a3 tol max
    refine ⟨m, m1, multiply_one lib te dmin dmax _ _ p hn m2, fun j hj hjm => ?_, fun h => ?_⟩
    · by_contra hlt
      have := (hconv tol ht j (by omega)).2 ⟨hj, not_lt.1 hlt⟩
      rw [m3 j (by omega) hjm] at this
      exact absurd this (by simp)
    · obtain ⟨g1, g2⟩ := m4 h
      exact (hconv tol ht m g1).1 g2

/-- C147: The one-site scheme with a positive tolerance ends by itself: beyond some number of iterations, allowing for more
of them changes nothing. -/
theorem one_site_terminates {lib : Libs 𝕜} (hf : ∀ te dmin dmax, Factorizations (lib te dmin dmax))
    (te : ℝ) (dmin dmax : ℕ) {tol : ℝ} (ht : 0 < tol) (p : Pos) {mps mpo : List (Tn 𝕜)} {ds fs : List ℕ}
    (h1 : IsMps mps 1 ds) (h2 : IsMpo p (inOrder p mpo) 1 ds fs) (hn : 3 ≤ mps.length) :
    ∃ K, ∀ max, K ≤ max → multiply lib .one te dmin dmax (some tol) (some max) p mps mpo =
      multiply lib .one te dmin dmax (some tol) (some K) p mps mpo := by
  obtain ⟨res, r, a1, a2, a3⟩ := one_site_stops hf te dmin dmax p h1 h2 hn
  have hm : ∀ k, r (k + 1) ≤ r (k + 2) := fun k =>
    (abs_le_of_sq_le_sq' ((a2 k).2.2.trans (a2 (k + 1)).2.1) (a2 _).1).2
  have hex : ∃ j, 2 ≤ j ∧ r j - r (j - 1) ≤ tol * r j := by
    by_contra hno
    push Not at hno
    have hb : ∀ k, r (k + 1) ^ 2 ≤ normSq fs (product p mps (inOrder p mpo) ds) := by
      intro k
      obtain ⟨f, rest, B, b1, _, _, _, _, b2⟩ := variational_best hf (scheme := .one) (by decide) te dmin dmax (-1) (k + 1) p h1 h2 hn
      rw [a1 (k + 1), Out.ok.injEq] at b1
      refine (a2 k).2.2.trans ?_
      rw [b2, b1]
      refine le_add_of_nonneg_right ?_
      rw [normSq, sumCoors_box]
      exact Finset.sum_nonneg fun _ _ => sq_nonneg _
    have hpos : 0 < r 2 := by
      have h3 := hno 2 le_rfl
      have h4 := (a2 0).1
      have h5 := (a2 1).1
      rcases h5.eq_or_lt with h | h
      · simp only [zero_add] at h4
        norm_num at h h3
        rw [← h] at h3
        simp only [mul_zero] at h3
        linarith
      · exact h
    have hgrow : ∀ k, r 2 + k * (tol * r 2) ≤ r (k + 2) := by
      intro k
      induction k with
      | zero => simp
      | succ k ih =>
        have h3 := hno (k + 1 + 2) (by omega)
        rw [show k + 1 + 2 - 1 = k + 2 by omega] at h3
        have h4 := hm (k + 1)
        have h5 : r 2 ≤ r (k + 1 + 2) := by
          have : 0 ≤ (k : ℝ) * (tol * r 2) := by positivity
          rw [show k + 1 + 1 = k + 2 by omega] at h4
          linarith
        have h6 := mul_le_mul_of_nonneg_left h5 ht.le
        push_cast
        linarith
    obtain ⟨k, hk⟩ := exists_nat_gt (Real.sqrt (normSq fs (product p mps (inOrder p mpo) ds)) / (tol * r 2))
    rw [div_lt_iff₀ (by positivity)] at hk
    have h3 := hgrow k
    have h4 := Real.le_sqrt_of_sq_le (hb (k + 1))
    rw [show k + 1 + 1 = k + 2 by omega] at h4
    linarith
  classical
  have hfirst : ∀ max, Nat.find hex ≤ max →
      multiply lib .one te dmin dmax (some tol) (some max) p mps mpo = .ok (res (Nat.find hex)) := by
    intro max hmax
    obtain ⟨k, k1, k2, k3, k4⟩ := a3 tol max ht.le
    have hle : k ≤ Nat.find hex := by
      by_contra hlt
      have h3 := Nat.find_spec hex
      have := k3 _ h3.1 (by omega)
      linarith [h3.2]
    have : k = Nat.find hex := by
      by_contra hne
      exact Nat.find_min hex (by omega) (k4 (by omega))
    rw [k2, this]
  exact ⟨Nat.find hex, fun max hmax => by rw [hfirst max hmax, hfirst _ le_rfl]⟩

/-- C147: The two-site scheme returns, for every tolerance and every allowed number of iterations, the result of the first
iteration from the second on after which the singular values between the second and the third tensor are as many as
before and changed in total by less than the tolerance times the first of them; the result of the last allowed
iteration if there is none. These are the singular values of the factorization whose other factor is the third tensor of
the result; their number is the dimension of that bond. -/
theorem two_site_stops {lib : Libs 𝕜} (hf : ∀ te dmin dmax, Factorizations (lib te dmin dmax))
    (te : ℝ) (dmin dmax : ℕ) (p : Pos) {mps mpo : List (Tn 𝕜)} {ds fs : List ℕ}
    (h1 : IsMps mps 1 ds) (h2 : IsMpo p (inOrder p mpo) 1 ds fs) (hn : 3 ≤ mps.length) :
    ∃ (res : ℕ → List (Tn 𝕜)) (s : ℕ → Peps.Diag),
      (∀ k, ∃ t, s (k + 1) = ((lib te dmin dmax).svd t 2).s ∧
        (res (k + 1)).getD 2 nil = dag (transpose [0, 2, 1] ((lib te dmin dmax).svd t 2).vt) ∧
        ((res (k + 1)).getD 2 nil).shape.getD 0 0 = (s (k + 1)).dim) ∧
      ∀ tol max, ∃ k ≤ max, multiply lib .two te dmin dmax (some tol) (some max) p mps mpo = .ok (res k) ∧
        let settled := fun j => (s j).dim = (s (j - 1)).dim ∧
          (∑ m ∈ Finset.range (s j).dim, |(s j).val m - (s (j - 1)).val m|) / (s j).val 0 < tol
        (∀ j, 2 ≤ j → j < k → ¬settled j) ∧ (k < max → 2 ≤ k ∧ settled k) := by
  rw [isMps_iff] at h1
  rw [isMpo_iff] at h2
  obtain ⟨res, s, a1, a3⟩ := variational2_seq hf te dmin dmax h1 h2 hn
  refine ⟨res, s, fun k => ?_, fun tol max => ?_⟩
  · obtain ⟨t, u1, u2⟩ := a1 k
    refine ⟨t, u1, u2, ?_⟩
    rw [u1, u2]
    simp [dag, transpose, (hf te dmin dmax).shape t 2]
  obtain ⟨m, m1, m2, m3, m4⟩ := a3 tol max
  refine ⟨m, m1, multiply_two lib te dmin dmax _ _ p hn m2, ?_⟩
  have hconv : ∀ j, 1 ≤ j → (converged2 tol (prev s (j - 1)) (s j) = true ↔
      2 ≤ j ∧ (s j).dim = (s (j - 1)).dim ∧
        (∑ m ∈ Finset.range (s j).dim, |(s j).val m - (s (j - 1)).val m|) / (s j).val 0 < tol) := by
    intro j hj
    obtain ⟨j, rfl⟩ : ∃ i, j = i + 1 := ⟨j - 1, by omega⟩
    cases j with
    | zero => simp [prev, converged2]
    | succ j =>
      simp only [prev, converged2, Nat.add_sub_cancel]
      by_cases hd : (s (j + 1 + 1)).dim = (s (j + 1)).dim <;> simp [hd]
  intro settled
  refine ⟨fun j hj hjm hs => ?_, fun h => ?_⟩
  · have := (hconv j (by omega)).2 ⟨hj, hs⟩
    rw [m3 j (by omega) hjm] at this
    exact absurd this (by simp)
  · obtain ⟨g1, g2⟩ := m4 h
    exact (hconv m g1).1 g2

/-! ## the hypotheses are met -/

/-- what `one_site_terminates` says of the row of `Props/BmpsVar` -/
example : ∃ K, ∀ max, K ≤ max → multiply (sample ℂ) .one 0 1 2 (some 1e-8) (some max) .down mps3 row3 =
    multiply (sample ℂ) .one 0 1 2 (some 1e-8) (some K) .down mps3 row3 :=
  one_site_terminates (lib := sample ℂ) (fun _ _ d => truncLib_factorizations d) 0 1 2 (by norm_num) .down
    (mps := mps3) (mpo := row3) (ds := [2, 2, 2]) (fs := [3, 3, 3])
    ⟨2, 2, [2, 2], rfl, rfl, 2, 2, [2], rfl, rfl, 2, 1, [], rfl, rfl, rfl, rfl⟩
    ⟨2, 2, 3, _, _, rfl, rfl, rfl, 2, 2, 3, _, _, rfl, rfl, rfl, 2, 1, 3, _, _, rfl, rfl, rfl, rfl, rfl, rfl⟩ le_rfl

/-- what `one_site_stops` says of it with at most one iteration: none is compared with the one before -/
example : multiply (sample ℂ) .one 0 1 2 (some 1e-8) (some 1) .down mps3 row3 =
    multiply (sample ℂ) .one 0 1 2 (some (-1)) (some 1) .down mps3 row3 := by
  obtain ⟨res, r, a, -, b⟩ := one_site_stops (lib := sample ℂ) (fun _ _ d => truncLib_factorizations d) 0 1 2 .down
    (mps := mps3) (mpo := row3) (ds := [2, 2, 2]) (fs := [3, 3, 3])
    ⟨2, 2, [2, 2], rfl, rfl, 2, 2, [2], rfl, rfl, 2, 1, [], rfl, rfl, rfl, rfl⟩
    ⟨2, 2, 3, _, _, rfl, rfl, rfl, 2, 2, 3, _, _, rfl, rfl, rfl, 2, 1, 3, _, _, rfl, rfl, rfl, rfl, rfl, rfl⟩ le_rfl
  obtain ⟨k, k1, k2, -, k3⟩ := b 1e-8 1 (by norm_num)
  have : k = 1 := by
    by_contra h
    have := (k3 (by omega)).1
    omega
  rw [k2, a 1, this]

/-- what `two_site_stops` says of it -/
example : ∃ res, multiply (sample ℂ) .two 0 1 2 (some 1e-8) (some 10) .down mps3 row3 = .ok res := by
  obtain ⟨res, s, -, b⟩ := two_site_stops (lib := sample ℂ) (fun _ _ d => truncLib_factorizations d) 0 1 2 .down
    (mps := mps3) (mpo := row3) (ds := [2, 2, 2]) (fs := [3, 3, 3])
    ⟨2, 2, [2, 2], rfl, rfl, 2, 2, [2], rfl, rfl, 2, 1, [], rfl, rfl, rfl, rfl⟩
    ⟨2, 2, 3, _, _, rfl, rfl, rfl, 2, 2, 3, _, _, rfl, rfl, rfl, 2, 1, 3, _, _, rfl, rfl, rfl, rfl, rfl, rfl⟩ le_rfl
  obtain ⟨k, -, h, -⟩ := b 1e-8 10
  exact ⟨res k, h⟩

end

end QLPeps.BmpsVar
