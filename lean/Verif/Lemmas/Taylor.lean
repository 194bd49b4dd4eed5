import Verif.Spec.Taylor
import Mathlib.Tactic
import Mathlib.Data.List.GetD
import Mathlib.Analysis.SpecialFunctions.Exponential

/-! # Lemmas on the Taylor expansion of evolution gates -/

namespace QLPeps.Taylor

open Spec
open scoped Nat Matrix.Norms.Frobenius

/-! ## Remainder of the exponential series in a Banach algebra -/

section Banach

variable {𝕜 : Type*} [RCLike 𝕜] {A : Type*} [NormedRing A] [NormedAlgebra 𝕜 A] [CompleteSpace A]

/-- order-`k` term of the exponential series -/
noncomputable def term (𝕜 : Type*) [RCLike 𝕜] {A : Type*} [Ring A] [Algebra 𝕜 A] (X : A) (k : ℕ) :
    A := ((k ! : 𝕜)⁻¹) • X ^ k

theorem term_succ (X : A) (k : ℕ) : term 𝕜 X (k + 1) = (1 / ((k + 1 : ℕ) : 𝕜)) • (term 𝕜 X k * X) := by
  unfold term
  rw [smul_mul_assoc, smul_smul, pow_succ, Nat.factorial_succ, Nat.cast_mul, mul_inv, one_div]

theorem norm_term_tail (X : A) (m k : ℕ) :
    ‖term 𝕜 X (k + (m + 1))‖ ≤ ‖term 𝕜 X m‖ * (‖X‖ ^ (k + 1) / (k + 1)!) := by
  have hm : (0 : ℝ) < (m ! : ℝ) := by exact_mod_cast m.factorial_pos
  have hk : (0 : ℝ) < ((k + 1)! : ℝ) := by exact_mod_cast (k + 1).factorial_pos
  have hmk : (0 : ℝ) < ((k + (m + 1))! : ℝ) := by exact_mod_cast (k + (m + 1)).factorial_pos
  have hle : ((m ! : ℝ) * ((k + 1)! : ℝ)) ≤ ((k + (m + 1))! : ℝ) := by
    have := Nat.le_of_dvd (Nat.factorial_pos _) (Nat.factorial_mul_factorial_dvd_factorial_add m (k + 1))
    rw [show m + (k + 1) = k + (m + 1) by ring] at this
    exact_mod_cast this
  have h1 : ‖X ^ (k + (m + 1))‖ ≤ ‖X ^ m‖ * ‖X‖ ^ (k + 1) := by
    rw [show k + (m + 1) = m + (k + 1) by ring, pow_add]
    exact (norm_mul_le _ _).trans (mul_le_mul_of_nonneg_left (norm_pow_le' _ (Nat.succ_pos k))
      (norm_nonneg _))
  simp only [term, norm_smul, norm_inv, RCLike.norm_natCast]
  rw [inv_mul_eq_div, inv_mul_eq_div, div_mul_div_comm]
  exact div_le_div₀ (mul_nonneg (norm_nonneg _) (pow_nonneg (norm_nonneg _) _)) h1
    (mul_pos hm hk) hle

theorem hasSum_tail (r : ℝ) : HasSum (fun k : ℕ => r ^ (k + 1) / (k + 1)!) (Real.exp r - 1) := by
  have h := NormedSpace.expSeries_div_hasSum_exp (𝔸 := ℝ) r
  rw [← Real.exp_eq_exp_ℝ] at h
  have := (hasSum_nat_add_iff' 1).2 h
  simpa using this

theorem remainder (X : A) (m : ℕ) :
    ‖(∑ k ∈ Finset.range (m + 1), term 𝕜 X k) - NormedSpace.exp X‖ ≤
      ‖term 𝕜 X m‖ * (Real.exp ‖X‖ - 1) := by
  have hs : HasSum (fun k => term 𝕜 X k) (NormedSpace.exp X) := NormedSpace.exp_series_hasSum_exp' (𝕂 := 𝕜) X
  have ht := (hasSum_nat_add_iff' (m + 1)).2 hs
  rw [norm_sub_rev]
  have hb := (hasSum_tail ‖X‖).mul_left ‖term 𝕜 X m‖
  exact ht.norm_le_of_bounded hb fun k => norm_term_tail X m k

theorem norm_term_le (X : A) (m : ℕ) (hm : 0 < m) : ‖term 𝕜 X m‖ ≤ ‖X‖ ^ m / m ! := by
  simp only [term, norm_smul, norm_inv, RCLike.norm_natCast]
  rw [inv_mul_eq_div]
  exact div_le_div_of_nonneg_right (norm_pow_le' _ hm) (Nat.cast_nonneg _)

end Banach

/-! ## Coordinates -/

variable {𝕜 : Type*} [RCLike 𝕜]

theorem nodup_allCoors (dims : List ℕ) : (allCoors dims).Nodup := by
  induction dims with
  | nil => simp [allCoors]
  | cons d ds ih =>
    rw [allCoors, List.nodup_flatMap]
    refine ⟨fun x _ => ih.map fun a b h => by simpa using h, ?_⟩
    refine List.nodup_range.imp ?_
    intro a b hab
    rw [Function.onFun, List.disjoint_left]
    intro l h1 h2
    simp only [List.mem_map] at h1 h2
    obtain ⟨x, _, rfl⟩ := h1
    obtain ⟨y, _, h⟩ := h2
    exact hab (by simpa using (List.cons.inj h).1.symm)

theorem sum_allCoors {M : Type*} [AddCommMonoid M] (dims : List ℕ) (f : List ℕ → M) :
    ((allCoors dims).map f).sum = ∑ x : State dims, f x.1 := by
  rw [← List.sum_toFinset f (nodup_allCoors dims)]
  exact (Finset.sum_subtype _ (fun x => by rw [List.mem_toFinset, mem_allCoors]) f)

theorem length_axes (N : ℕ) : (transposeAxes N).length = 2 * N := by
  simp [transposeAxes]; ring

theorem nodup_axes (N : ℕ) : (transposeAxes N).Nodup := by
  rw [transposeAxes, List.nodup_append]
  refine ⟨List.nodup_range.map fun a b h => by simpa using h,
    List.nodup_range.map fun a b h => by simpa using h, ?_⟩
  intro a ha b hb
  simp only [List.mem_map] at ha hb
  obtain ⟨i, _, rfl⟩ := ha
  obtain ⟨j, _, rfl⟩ := hb
  omega

theorem idx_even (N i : ℕ) (h : i < N) : (transposeAxes N).idxOf (2 * i) = i := by
  have hi : i < (transposeAxes N).length := by rw [length_axes]; omega
  have : (transposeAxes N)[i] = 2 * i := by
    simp only [transposeAxes]
    rw [List.getElem_append_left (by simpa using h)]
    simp
  rw [← this]
  exact List.Nodup.idxOf_getElem (nodup_axes N) i hi

theorem idx_odd (N i : ℕ) (h : i < N) : (transposeAxes N).idxOf (2 * i + 1) = N + i := by
  have hi : N + i < (transposeAxes N).length := by rw [length_axes]; omega
  have : (transposeAxes N)[N + i] = 2 * i + 1 := by
    simp only [transposeAxes]
    rw [List.getElem_append_right (by simp)]
    simp
  rw [← this]
  exact List.Nodup.idxOf_getElem (nodup_axes N) _ hi

theorem interleave_length (x y : List ℕ) (h : x.length = y.length) :
    (interleave x y).length = 2 * x.length := by
  induction x generalizing y with
  | nil => simp [interleave]
  | cons a x ih =>
    cases y with
    | nil => simp at h
    | cons b y =>
      have := ih y (by simpa using h)
      simp only [interleave, List.zip_cons_cons, List.flatMap_cons, List.length_append] at this ⊢
      rw [this]; simp; ring

theorem interleave_getD (x y : List ℕ) (h : x.length = y.length) (i : ℕ) :
    (interleave x y).getD (2 * i) 0 = x.getD i 0 ∧
    (interleave x y).getD (2 * i + 1) 0 = y.getD i 0 := by
  induction x generalizing y i with
  | nil =>
    cases y with
    | nil => simp [interleave]
    | cons => simp at h
  | cons a x ih =>
    cases y with
    | nil => simp at h
    | cons b y =>
      have := ih y (by simpa using h)
      have e : interleave (a :: x) (b :: y) = a :: b :: interleave x y := rfl
      rw [e]
      cases i with
      | zero => simp
      | succ i =>
        have := this i
        rw [show 2 * (i + 1) = 2 * i + 1 + 1 by ring]
        simpa using this

theorem interleave_inj {x y x' y' : List ℕ} (h : x.length = y.length) (h' : x'.length = y'.length)
    (e : interleave x y = interleave x' y') : x = x' ∧ y = y' := by
  induction x generalizing y x' y' with
  | nil =>
    cases y with
    | cons => simp at h
    | nil =>
      cases x' with
      | nil => cases y' with
        | nil => exact ⟨rfl, rfl⟩
        | cons => simp at h'
      | cons => cases y' with
        | nil => simp at h'
        | cons => exact absurd e (by simp [interleave])
  | cons a x ih =>
    cases y with
    | nil => simp at h
    | cons b y =>
      cases x' with
      | nil => cases y' with
        | nil => exact absurd e (by simp [interleave])
        | cons => simp at h'
      | cons a' x' => cases y' with
        | nil => simp at h'
        | cons b' y' =>
          have e' : a :: b :: interleave x y = a' :: b' :: interleave x' y' := e
          simp only [List.cons.injEq] at e'
          obtain ⟨h1, h2⟩ := ih (by simpa using h) (by simpa using h') e'.2.2
          rw [e'.1, e'.2.1, h1, h2]
          exact ⟨rfl, rfl⟩

theorem duplicate_eq (c : List ℕ) : duplicate c = interleave c c := by
  induction c with
  | nil => rfl
  | cons a c ih =>
    have e : interleave (a :: c) (a :: c) = a :: a :: interleave c c := rfl
    rw [e, ← ih]; rfl

theorem transpose_axes (t : Ten 𝕜) (x y : List ℕ) (h : x.length = y.length) :
    transpose (transposeAxes x.length) t (x ++ y) = t (interleave x y) := by
  unfold transpose
  congr 1
  refine List.ext_getElem (by rw [List.length_map, List.length_range, length_axes,
    interleave_length x y h]) fun a h1 h2 => ?_
  rw [List.getElem_map, List.getElem_range]
  have ha : a < 2 * x.length := by rw [interleave_length x y h] at h2; exact h2
  have hget := interleave_getD x y h (a / 2)
  have e2 : (interleave x y)[a] = (interleave x y).getD a 0 := by simp [List.getD, h2]
  rw [e2]
  rcases Nat.even_or_odd' a with ⟨i, rfl | rfl⟩
  · rw [idx_even _ _ (by omega), List.getD_append _ _ _ _ (by omega), (interleave_getD x y h i).1]
  · rw [idx_odd _ _ (by omega), (interleave_getD x y h i).2,
      List.getD_append_right _ _ _ _ (by omega), Nat.add_sub_cancel_left]

theorem state_length {dims : List ℕ} (x : State dims) : x.1.length = dims.length := x.2.length_eq

/-! ## Tensors as operators -/

theorem gateOp_transpose (dims : List ℕ) (t : Ten 𝕜) :
    gateOp dims (transpose (transposeAxes dims.length) t) = hamOp dims t := by
  funext x y
  have := transpose_axes t x.1 y.1 ((state_length x).trans (state_length y).symm)
  rw [state_length x] at this
  exact this

theorem gateOp_hamScale (dims : List ℕ) (tau : ℝ) (ham : Ten 𝕜) :
    gateOp dims (hamScale dims tau ham) = (-(tau : 𝕜)) • hamOp dims ham := by
  rw [hamScale, gateOp_transpose]
  rfl

theorem gateOp_identity (dims : List ℕ) : gateOp dims (identity dims : Ten 𝕜) = 1 := by
  rw [identity, gateOp_transpose]
  funext x y
  rw [hamOp, Matrix.one_apply]
  refine if_congr ?_ rfl rfl
  constructor
  · intro h
    obtain ⟨c, hc, he⟩ := List.mem_map.1 h
    rw [duplicate_eq] at he
    obtain ⟨h1, h2⟩ := interleave_inj rfl ((state_length x).trans (state_length y).symm) he
    exact Subtype.ext (h1.symm.trans h2)
  · rintro rfl
    exact List.mem_map.2 ⟨x.1, (mem_allCoors _ _).2 x.2, duplicate_eq _⟩

theorem gateOp_contract (dims : List ℕ) (a b : Ten 𝕜) :
    gateOp dims (contract dims a b) = gateOp dims a * gateOp dims b := by
  funext x y
  rw [Matrix.mul_apply, gateOp, contract, sum_allCoors]
  refine Finset.sum_congr rfl fun k _ => ?_
  rw [List.take_left' (state_length x), List.drop_left' (state_length x)]
  rfl

theorem norm_gateOp (dims : List ℕ) (t : Ten 𝕜) : quasi2Norm dims t = ‖gateOp dims t‖ := by
  rw [quasi2Norm, Matrix.frobenius_norm_def, Real.sqrt_eq_rpow]
  congr 1
  rw [sum_allCoors]
  refine Finset.sum_congr rfl fun x _ => ?_
  rw [sum_allCoors]
  refine Finset.sum_congr rfl fun y _ => ?_
  rw [Real.rpow_two]
  rfl

theorem gateOp_sum (dims : List ℕ) (l : List (Ten 𝕜)) :
    gateOp dims (fun c => (l.map fun t => t c).sum) = (l.map (gateOp dims)).sum := by
  induction l with
  | nil => rfl
  | cons t l ih =>
    rw [List.map_cons, List.sum_cons, ← ih]
    rfl

/-! ## The loop -/

theorem gateOp_next (dims : List ℕ) (x last : Ten 𝕜) (n : ℕ)
    (hl : gateOp dims last = term 𝕜 (gateOp dims x) n) :
    gateOp dims (fun c => contract dims last x c * (1 / ((n + 1 : ℕ) : 𝕜))) =
      term 𝕜 (gateOp dims x) (n + 1) := by
  rw [term_succ, ← hl, ← gateOp_contract]
  funext a b
  rw [Matrix.smul_apply, smul_eq_mul, mul_comm]
  rfl

theorem termsFrom_spec (dims : List ℕ) (eps : ℝ) (x : Ten 𝕜) (fuel : ℕ) :
    ∀ (n : ℕ) (ts : List (Ten 𝕜)) (last : Ten 𝕜),
    ts.map (gateOp dims) = (List.range (n + 1)).map (term 𝕜 (gateOp dims x)) →
    gateOp dims last = term 𝕜 (gateOp dims x) n →
    ∃ m, n ≤ m ∧ m ≤ n + fuel ∧
      (termsFrom dims eps x fuel (n + 1) ts last).map (gateOp dims) =
        (List.range (m + 1)).map (term 𝕜 (gateOp dims x)) ∧
      (∀ k, n < k → k < m → eps ≤ ‖term 𝕜 (gateOp dims x) k‖) ∧
      (n < m ∧ ‖term 𝕜 (gateOp dims x) m‖ < eps ∨
        m = n + fuel ∧ (n < m → eps ≤ ‖term 𝕜 (gateOp dims x) m‖)) := by
  induction fuel with
  | zero =>
    intro n ts last h1 h2
    exact ⟨n, le_rfl, le_rfl, h1, fun k h3 h4 => by omega, Or.inr ⟨rfl, fun h => by omega⟩⟩
  | succ fuel ih =>
    intro n ts last h1 h2
    have hnext := gateOp_next dims x last n h2
    have hts : (ts ++ [fun c => contract dims last x c * (1 / ((n + 1 : ℕ) : 𝕜))]).map (gateOp dims) =
        (List.range (n + 1 + 1)).map (term 𝕜 (gateOp dims x)) := by
      rw [List.map_append, h1, List.range_succ (n := n + 1), List.map_append, List.map_singleton,
        hnext]
      rfl
    rw [termsFrom]
    rw [norm_gateOp, hnext]
    by_cases hlt : ‖term 𝕜 (gateOp dims x) (n + 1)‖ < eps
    · rw [if_pos hlt]
      exact ⟨n + 1, by omega, by omega, hts, fun k h3 h4 => by omega, Or.inl ⟨by omega, hlt⟩⟩
    · rw [if_neg hlt]
      obtain ⟨m, h3, h4, h5, h6, h7⟩ := ih (n + 1) _ _ hts hnext
      refine ⟨m, by omega, by omega, h5, fun k h8 h9 => ?_, ?_⟩
      · rcases Nat.lt_or_ge (n + 1) k with h | h
        · exact h6 k h h9
        · obtain rfl : k = n + 1 := by omega
          exact not_lt.1 hlt
      · rcases h7 with h | h
        · exact Or.inl ⟨by omega, h.2⟩
        · refine Or.inr ⟨by omega, fun _ => ?_⟩
          rcases Nat.lt_or_ge (n + 1) m with h' | h'
          · exact h.2 h'
          · obtain rfl : m = n + 1 := by omega
            exact not_lt.1 hlt

theorem taylor_spec (dims : List ℕ) (eps : ℝ) (maxOrder : ℕ) (hmax : 2 ≤ maxOrder) (tau : ℝ)
    (ham : Ten 𝕜) :
    let X := (-(tau : 𝕜)) • hamOp dims ham
    ∃ m, 1 ≤ m ∧ m < maxOrder ∧
      gateOp dims (taylorExp dims eps maxOrder tau ham) =
        ∑ k ∈ Finset.range (m + 1), term 𝕜 X k ∧
      (∀ k, 1 < k → k < m → eps ≤ ‖term 𝕜 X k‖) ∧
      (1 < m ∧ ‖term 𝕜 X m‖ < eps ∨ m = maxOrder - 1 ∧ (1 < m → eps ≤ ‖term 𝕜 X m‖)) := by
  intro X
  have hX : gateOp dims (hamScale dims tau ham) = X := gateOp_hamScale dims tau ham
  obtain ⟨m, h1, h2, h3, h4, h5⟩ := termsFrom_spec dims eps (hamScale dims tau ham) (maxOrder - 2) 1
    [identity dims, hamScale dims tau ham] (hamScale dims tau ham)
    (by
      rw [hX]
      simp only [List.map_cons, List.map_nil, gateOp_identity, hX, List.range_succ, List.range_zero,
        List.nil_append, List.map_append]
      simp [term])
    (by rw [hX]; simp [term])
  rw [hX] at h3 h4 h5
  refine ⟨m, h1, by omega, ?_, h4, ?_⟩
  · unfold taylorExp
    rw [gateOp_sum]
    unfold terms
    rw [h3, Finset.sum_range, ← List.sum_ofFn, List.ofFn_eq_map]
    congr 1
    rw [← List.map_coe_finRange_eq_range, List.map_map]
    rfl
  · rcases h5 with h | h
    · exact Or.inl h
    · exact Or.inr ⟨by omega, h.2⟩

end QLPeps.Taylor
