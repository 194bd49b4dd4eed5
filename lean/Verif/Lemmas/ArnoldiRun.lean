import Verif.Lemmas.Arnoldi

/-!
# Lemmas: results of Arnoldi's method
-/

namespace QLPeps.Arnoldi

open Spec

variable {𝕜 : Type*} [RCLike 𝕜] {m : ℕ}

theorem maxElement_spec (e : EigPair 𝕜) (es : List (EigPair 𝕜)) :
    maxElement e es ∈ e :: es ∧ ∀ x ∈ e :: es, modulus x ≤ modulus (maxElement e es) := by
  induction es generalizing e with
  | nil => simp [maxElement]
  | cons y l ih =>
    rw [maxElement]
    split
    · rename_i h
      obtain ⟨h1, h2⟩ := ih y
      refine ⟨List.mem_cons_of_mem _ h1, fun x hx => ?_⟩
      rcases List.mem_cons.1 hx with rfl | hx
      · exact h.le.trans (h2 y (by simp))
      · exact h2 x hx
    · rename_i h
      obtain ⟨h1, h2⟩ := ih e
      refine ⟨?_, fun x hx => ?_⟩
      · rcases List.mem_cons.1 h1 with h1 | h1
        · rw [h1]; simp
        · simp [h1]
      · rcases List.mem_cons.1 hx with rfl | hx
        · exact h2 _ (by simp)
        · rcases List.mem_cons.1 hx with rfl | hx
          · exact (not_lt.1 h).trans (h2 e (by simp))
          · exact h2 x (by simp [hx])

theorem heiMatDiag_ok {geev : ℕ → (ℕ → ℕ → 𝕜) → Option (List (EigPair 𝕜))} {real : Bool}
    (hg : GeevExact real geev) {tol : ℝ} (ht : 0 ≤ tol) {n : ℕ} {h : ℕ → ℕ → 𝕜}
    (hz : ∀ i < n, ∀ j < n, j + 1 < i → h i j = 0) {w : 𝕜} {y : ℕ → 𝕜}
    (hok : heiMatDiag geev real tol n h = .ok w y) :
    ∃ (wi : ℝ) (z : ℕ → 𝕜), |wi| ≤ slack real tol * ‖w‖ ∧ (∃ i < n, y i ≠ 0) ∧
      ∑ i ∈ Finset.range n, ‖y i‖ ^ 2 ≤ 1 ∧ (wi = 0 → ∑ i ∈ Finset.range n, ‖y i‖ ^ 2 = 1) ∧
      ∑ i ∈ Finset.range n, ‖z i‖ ^ 2 ≤ 1 ∧
      (∀ i < n, ∑ j ∈ Finset.range n, h i j * y j = w * y i - (wi : 𝕜) * z i) ∧
      ∀ (μ : 𝕜) (x : ℕ → 𝕜), (∃ i < n, x i ≠ 0) →
        (∀ i < n, ∑ j ∈ Finset.range n, h i j * x j = μ * x i) → ‖μ‖ ^ 2 ≤ ‖w‖ ^ 2 + wi ^ 2 := by
  unfold heiMatDiag at hok
  have hh : ∀ (x : ℕ → 𝕜), ∀ i < n, ∑ j ∈ Finset.range n, (if i - 1 ≤ j then h i j else 0) * x j =
      ∑ j ∈ Finset.range n, h i j * x j := by
    intro x i hi
    refine Finset.sum_congr rfl fun j hj => ?_
    split
    · rfl
    · rw [hz i hi j (Finset.mem_range.1 hj) (by omega)]
  split at hok
  · simp at hok
  · simp at hok
  · rename_i e es he
    obtain ⟨d1, d2⟩ := maxElement_spec e es
    generalize maxElement e es = d at *
    dsimp only at hok
    split at hok
    · simp at hok
    · rename_i hdeg
      obtain ⟨rfl, rfl⟩ := HDiag.ok.inj hok
      obtain ⟨c1, c2, c3, z, c4, c5⟩ := hg.column _ _ _ he d d1
      refine ⟨d.wi, z, ?_, c1, c2, c3, c4, fun i hi => ?_, fun μ x hx hr => ?_⟩
      · cases real with
        | false => simp [hg.complex rfl _ _ _ he d d1, slack]
        | true =>
          simp only [degenerate, true_and, not_or, not_and, not_not, not_lt] at hdeg
          simp only [slack, if_true]
          by_cases hw : d.w = 0
          · simp [hdeg.1 hw, hw]
          · have := hdeg.2 hw
            rwa [div_le_iff₀ (norm_pos_iff.2 hw)] at this
      · rw [← hh _ i hi]
        exact c5 i hi
      · obtain ⟨e', h1, h2, h3⟩ := hg.all _ _ _ he μ x hx fun i hi => by
          rw [hh x i hi]
          exact hr i hi
        have := d2 e' h1
        rw [modulus, modulus, Real.sqrt_le_sqrt_iff (by positivity), h2, h3] at this
        simpa using this

variable {A : Vec 𝕜 m →ₗ[𝕜] Vec 𝕜 m} {x : Vec 𝕜 m} {bases : List (Vec 𝕜 m)} {cols : List (List 𝕜)}
  {maxh : ℝ}

theorem Inv.span_eq (h : Inv A x bases cols maxh) : krylov A x bases.length = sp bases := by
  refine le_antisymm h.above (Submodule.span_le.2 fun b hb => ?_)
  obtain ⟨i, hi, rfl⟩ := List.getElem_of_mem hb
  have := h.below i hi
  rwa [List.getD_eq_getElem _ _ hi] at this

theorem Inv.ritz (h : Inv A x bases cols maxh)
    {geev : ℕ → (ℕ → ℕ → 𝕜) → Option (List (EigPair 𝕜))} {real : Bool} (hg : GeevExact real geev)
    {tol : ℝ} (ht : 0 ≤ tol) {θ : 𝕜} {y : ℕ → 𝕜} :
    let o := orth bases (A (bases.getLastD 0))
    heiMatDiag geev real tol bases.length (entry (cols ++ [o.1 ++ [(‖o.2‖ : 𝕜)]])) = .ok θ y →
    Ritz A (krylov A x bases.length) (slack real tol) θ (combine bases y) ∧
      ‖A (combine bases y) - θ • combine bases y‖ ≤ ‖o.2‖ + slack real tol * ‖θ‖ := by
  intro o hok
  obtain ⟨o1, o2, o3, o4, o5⟩ := orth_spec h.on (A (bases.getLastD 0))
  have hk : bases.length = cols.length + 1 := h.clen.symm
  obtain ⟨wi, z, w1, w2, w3, w4, w5, w6, w7⟩ := heiMatDiag_ok hg ht (by
    intro i _ j hj hij
    rcases Nat.lt_succ_iff_lt_or_eq.1 (hk ▸ hj) with hj | rfl
    · rw [entry_old hj, h.zero j hj i hij]
    · rw [entry_new, List.getD_eq_default]
      rw [List.length_append, o1, List.length_singleton]
      omega) hok
  have hon := h.on
  have hres : A (combine bases y) - θ • combine bases y =
      (-(wi : 𝕜)) • combine bases z + y (bases.length - 1) • o.2 := by
    rw [h.image (c := (‖o.2‖ : 𝕜)) y]
    have : combine bases (fun i => ∑ j ∈ Finset.range bases.length,
        entry (cols ++ [o.1 ++ [(‖o.2‖ : 𝕜)]]) i j * y j) =
        θ • combine bases y + (-(wi : 𝕜)) • combine bases z := by
      rw [combine_congr (z := fun i => θ * y i + -(wi : 𝕜) * z i) fun i hi => by
        rw [w6 i hi]; ring]
      simp only [combine_sum, Finset.smul_sum, smul_smul, ← Finset.sum_add_distrib, ← add_smul]
    rw [this]
    abel
  have hy1 : ‖combine bases y‖ ^ 2 ≤ 1 := by rw [hon.norm_combine]; exact w3
  have hz1 : ‖combine bases z‖ ≤ 1 := by
    have : ‖combine bases z‖ ^ 2 ≤ 1 := by rw [hon.norm_combine]; exact w5
    nlinarith [norm_nonneg (combine bases z)]
  have hyk : ‖y (bases.length - 1)‖ ≤ 1 := by
    have h1 : ‖y (bases.length - 1)‖ ^ 2 ≤ ∑ i ∈ Finset.range bases.length, ‖y i‖ ^ 2 :=
      Finset.single_le_sum (f := fun i => ‖y i‖ ^ 2) (fun i _ => sq_nonneg _)
        (Finset.mem_range.2 (by have := h.pos; omega))
    nlinarith [norm_nonneg (y (bases.length - 1))]
  have hperp : ∀ b ∈ sp bases, inner 𝕜 b o.2 = (0 : 𝕜) := by
    intro b hb
    obtain ⟨a, rfl⟩ := sp_combine hb
    rw [combine_sum, sum_inner]
    exact Finset.sum_eq_zero fun i hi => by
      rw [inner_smul_left, o3 i (Finset.mem_range.1 hi), mul_zero]
  have hwz : ‖(-(wi : 𝕜)) • combine bases z‖ ≤ slack real tol * ‖θ‖ := by
    rw [norm_smul, norm_neg, RCLike.norm_ofReal]
    nlinarith [abs_nonneg wi, norm_nonneg (combine bases z)]
  refine ⟨⟨?_, ?_, ?_, ?_, ?_, ?_⟩, ?_⟩
  · rw [h.span_eq]
    exact combine_mem _ _
  · intro h0
    obtain ⟨i, hi, hyi⟩ := w2
    apply hyi
    rw [← hon.inner_combine hi y, h0, inner_zero_right]
  · nlinarith [norm_nonneg (combine bases y)]
  · intro hδ
    have : wi = 0 := by
      rw [hδ, zero_mul] at w1
      exact abs_nonpos_iff.1 w1
    have h1 : ‖combine bases y‖ ^ 2 = 1 := by rw [hon.norm_combine]; exact w4 this
    nlinarith [norm_nonneg (combine bases y)]
  · intro b hb
    rw [h.span_eq] at hb
    rw [hres, inner_add_right, inner_smul_right (r := y (bases.length - 1)), hperp b hb, mul_zero,
      add_zero]
    calc _ ≤ ‖b‖ * ‖(-(wi : 𝕜)) • combine bases z‖ := norm_inner_le_norm _ _
      _ ≤ ‖b‖ * (slack real tol * ‖θ‖) := mul_le_mul_of_nonneg_left hwz (norm_nonneg _)
      _ = _ := by ring
  · intro μ v hv hne hgal
    rw [h.span_eq] at hv hgal
    obtain ⟨a, rfl⟩ := sp_combine hv
    have h1 := w7 μ a (by
      by_contra hcon
      push Not at hcon
      apply hne
      rw [combine_sum]
      exact Finset.sum_eq_zero fun i hi => by rw [hcon i (Finset.mem_range.1 hi), zero_smul]) (by
      intro i hi
      have := hgal _ (mem_sp hi)
      rw [h.image (c := (‖o.2‖ : 𝕜)) a, inner_sub_right, inner_add_right, hon.inner_combine hi,
        inner_smul_right, hperp _ (mem_sp hi), inner_smul_right, hon.inner_combine hi, mul_zero,
        add_zero] at this
      exact sub_eq_zero.1 this)
    have h2 : wi ^ 2 ≤ (slack real tol * ‖θ‖) ^ 2 := by
      rw [← sq_abs]
      exact pow_le_pow_left₀ (abs_nonneg _) w1 2
    nlinarith
  · rw [hres]
    refine (norm_add_le _ _).trans ?_
    rw [norm_smul (y (bases.length - 1))]
    nlinarith [norm_nonneg o.2]

/-- the results of the loop -/
theorem loop_ret {geev : ℕ → (ℕ → ℕ → 𝕜) → Option (List (EigPair 𝕜))} {real : Bool}
    (hg : GeevExact real geev) {p : Params} (ht : 0 ≤ p.degeneracyTol) (he : 0 ≤ p.error) {θ : 𝕜}
    {v : Vec 𝕜 m} {warned : Bool} : ∀ (n : ℕ) {bases : List (Vec 𝕜 m)} {cols : List (List 𝕜)} {maxh : ℝ},
    Inv A x bases cols maxh → loop A geev real p n bases cols maxh = .ret θ v warned →
    ∃ k, bases.length ≤ k ∧ k < bases.length + n ∧ (warned = true ↔ k + 1 = bases.length + n) ∧
      Ritz A (krylov A x k) (slack real p.degeneracyTol) θ v ∧
      (warned = false → ∀ C, 0 ≤ C → (∀ y, ‖A y‖ ≤ C * ‖y‖) →
        ‖A v - θ • v‖ ≤ p.error * C + slack real p.degeneracyTol * ‖θ‖)
  | 0, _, _, _, _, h => by simp [loop] at h
  | n + 1, bases, cols, maxh, hinv, h => by
    have hgo : ∀ {b c mh}, Inv A x b c mh → b.length = bases.length + 1 →
        loop A geev real p n b c mh = .ret θ v warned →
        ∃ k, bases.length ≤ k ∧ k < bases.length + (n + 1) ∧
          (warned = true ↔ k + 1 = bases.length + (n + 1)) ∧
          Ritz A (krylov A x k) (slack real p.degeneracyTol) θ v ∧
          (warned = false → ∀ C, 0 ≤ C → (∀ y, ‖A y‖ ≤ C * ‖y‖) →
            ‖A v - θ • v‖ ≤ p.error * C + slack real p.degeneracyTol * ‖θ‖) := by
      intro b c mh hb hl hr
      obtain ⟨k, k1, k2, k3, k4, k5⟩ := loop_ret hg ht he n hb hr
      exact ⟨k, by omega, by omega, by rw [k3]; omega, k4, k5⟩
    have hnext := hinv.next
    rw [loop] at h
    dsimp only at h hnext
    generalize ho : orth bases (A (bases.getLastD 0)) = o at *
    have hgo' : (if n ≠ 0 ∧ ‖o.2‖ = 0 then Outcome.nan else loop A geev real p n
        (bases ++ [((1 / ‖o.2‖ : ℝ) : 𝕜) • o.2]) (cols ++ [o.1 ++ [(‖o.2‖ : 𝕜)]])
        (max (o.1.foldl (fun a c => max a ‖c‖) maxh) ‖o.2‖)) = .ret θ v warned →
        ∃ k, bases.length ≤ k ∧ k < bases.length + (n + 1) ∧
          (warned = true ↔ k + 1 = bases.length + (n + 1)) ∧
          Ritz A (krylov A x k) (slack real p.degeneracyTol) θ v ∧
          (warned = false → ∀ C, 0 ≤ C → (∀ y, ‖A y‖ ≤ C * ‖y‖) →
            ‖A v - θ • v‖ ≤ p.error * C + slack real p.degeneracyTol * ‖θ‖) := by
      intro hn
      split at hn
      · simp at hn
      · rename_i hcase
        cases n with
        | zero => simp [loop] at hn
        | succ n => exact hgo (hnext fun h0 => hcase ⟨by simp, h0⟩) (by simp) hn
    split at h
    · exact hgo' h
    · rename_i hstop
      split at h
      · simp at h
      · exact hgo' h
      · rename_i w y hok
        obtain ⟨rfl, rfl, rfl⟩ := Outcome.ret.inj h
        have hr := hinv.ritz hg ht (θ := w) (y := y)
        rw [ho] at hr
        obtain ⟨r1, r2⟩ := hr hok
        refine ⟨bases.length, le_rfl, by omega, by simp, r1, fun hw C hC hA => r2.trans ?_⟩
        have hn : n ≠ 0 := by simpa using hw
        have hb : max (o.1.foldl (fun a c => max a ‖c‖) maxh) ‖o.2‖ ≤ C := by
          by_cases h0 : ‖o.2‖ = 0
          · obtain ⟨o1, o2, o3, o4, o5⟩ := orth_spec hinv.on (A (bases.getLastD 0))
            have hx : ‖A (bases.getLastD 0)‖ ≤ C := by
              have h1 : ‖bases.getLastD 0‖ = 1 := by
                have hp := hinv.pos
                have := hinv.on (bases.length - 1) (by omega) (bases.length - 1) (by omega)
                rw [if_pos rfl, ← getLastD_eq hp, inner_self_eq_norm_sq_to_K] at this
                have h2 : ‖bases.getLastD 0‖ ^ 2 = 1 := by exact_mod_cast this
                nlinarith [norm_nonneg (bases.getLastD 0)]
              have := hA (bases.getLastD 0)
              rwa [h1, mul_one] at this
            rw [ho] at o4
            exact max_le ((foldl_max _ _).2 C (hinv.bound C hC hA) fun c hc => (o4 c hc).trans hx)
              (by rw [h0]; exact hC)
          · exact (hnext h0).bound C hC hA
        have hle : ‖o.2‖ ≤ p.error * C := by
          by_cases hm : max (o.1.foldl (fun a c => max a ‖c‖) maxh) ‖o.2‖ = 0
          · have : ‖o.2‖ ≤ 0 := hm ▸ le_max_right _ _
            exact this.trans (mul_nonneg he hC)
          · have hpos : 0 < max (o.1.foldl (fun a c => max a ‖c‖) maxh) ‖o.2‖ :=
              lt_of_le_of_ne ((norm_nonneg _).trans (le_max_right _ _)) (Ne.symm hm)
            have : ‖o.2‖ / max (o.1.foldl (fun a c => max a ‖c‖) maxh) ‖o.2‖ ≤ p.error := by
              by_contra hc
              exact hstop ⟨hm, not_le.1 hc, hn⟩
            rw [div_le_iff₀ hpos] at this
            exact this.trans (mul_le_mul_of_nonneg_left hb he)
        linarith

/-- the initial state -/
theorem inv_init (hx : ‖x‖ ≠ 0) : Inv A x [((1 / ‖x‖ : ℝ) : 𝕜) • x] [] 0 := by
  have hu := unit_smul (𝕜 := 𝕜) hx
  have hback : (‖x‖ : 𝕜) • ((1 / ‖x‖ : ℝ) : 𝕜) • x = x := by
    rw [smul_smul, ← RCLike.ofReal_mul]
    rw [show ‖x‖ * (1 / ‖x‖) = 1 by field_simp, RCLike.ofReal_one, one_smul]
  refine ⟨by simp, ?_, rfl, by simp, by simp, ?_, ?_, le_rfl, fun C hC _ => hC⟩
  · intro i hi j hj
    rw [List.length_singleton, Nat.lt_one_iff] at hi hj
    subst hi hj
    rw [List.getD_cons_zero, inner_self_eq_norm_sq_to_K, hu]
    simp
  · intro i hi
    rw [List.length_singleton, Nat.lt_one_iff] at hi
    subst hi
    rw [List.getD_cons_zero]
    exact Submodule.smul_mem _ _ (Submodule.subset_span ⟨0, by simp, rfl⟩)
  · refine Submodule.span_le.2 ?_
    rintro _ ⟨i, hi, rfl⟩
    rw [List.length_singleton, Nat.lt_one_iff] at hi
    subst hi
    have hm : (‖x‖ : 𝕜) • ((1 / ‖x‖ : ℝ) : 𝕜) • x ∈ sp [((1 / ‖x‖ : ℝ) : 𝕜) • x] :=
      Submodule.smul_mem _ _ (Submodule.subset_span (List.mem_singleton_self _))
    rwa [hback] at hm

/-- with a library that does not fail, and without invalid results, the loop returns -/
theorem loop_returns {geev : ℕ → (ℕ → ℕ → 𝕜) → Option (List (EigPair 𝕜))}
    (hg : GeevExact false geev) (hsome : ∀ n h, geev n h ≠ none) {p : Params} (he : 0 ≤ p.error)
    {f : Vec 𝕜 m → Vec 𝕜 m} : ∀ (n : ℕ) (bases : List (Vec 𝕜 m)) (cols : List (List 𝕜)) (maxh : ℝ),
    0 < bases.length → ∃ θ v b, loop f geev false p (n + 1) bases cols maxh = .ret θ v b
  | n, bases, cols, maxh, hb => by
    rw [loop]
    have hd : ∀ n h, 0 < n → ∃ w y, heiMatDiag geev false p.degeneracyTol n h = .ok w y := by
      intro n h hn
      unfold heiMatDiag
      split
      · rename_i e; exact absurd e (hsome _ _)
      · rename_i e; exact absurd e (hg.nonempty _ _ hn)
      · simp [degenerate]
    split
    · rename_i hc
      obtain ⟨h1, h2, h3⟩ := hc
      obtain ⟨n, rfl⟩ := Nat.exists_eq_succ_of_ne_zero h3
      have hne : ‖(orth bases (f (bases.getLastD 0))).2‖ ≠ 0 := by
        intro h0
        rw [h0, zero_div] at h2
        exact absurd he (not_le.2 h2)
      rw [if_neg (by tauto)]
      exact loop_returns hg hsome he n _ _ _ (by simp)
    · obtain ⟨w, y, e⟩ := hd bases.length (entry (cols ++ [(orth bases (f (bases.getLastD 0))).1 ++
        [(‖(orth bases (f (bases.getLastD 0))).2‖ : 𝕜)]])) hb
      rw [e]
      exact ⟨_, _, _, rfl⟩

/-! ## Power method -/

theorem sqrt_two_le {c t : ℝ} (h1 : 1 - t < c) (h0 : 0 ≤ c) (ht : 0 ≤ t) : 1 - c ^ 2 ≤ 2 * t := by
  by_cases h : 1 ≤ t
  · nlinarith
  · nlinarith

theorem power_residual {u v : Vec 𝕜 m} {w tol C : ℝ} (hw : w ≠ 0) (hu : ‖u‖ = 1) (hv : ‖v‖ = 1)
    (hvu : v = ((1 / w : ℝ) : 𝕜) • A u) (hc : |‖(inner 𝕜 u v : 𝕜)‖ - 1| < tol) (hC : 0 ≤ C)
    (hA : ∀ y, ‖A y‖ ≤ C * ‖y‖) :
    ‖A v - ((inner 𝕜 u v : 𝕜) * (w : 𝕜)) • v‖ ≤ C * Real.sqrt (2 * tol) := by
  set c : 𝕜 := inner 𝕜 u v with hcdef
  have h1 : (w : 𝕜) • v = A u := by
    rw [hvu, smul_smul, ← RCLike.ofReal_mul, show w * (1 / w) = 1 by field_simp, RCLike.ofReal_one,
      one_smul]
  have h2 : A v - (c * (w : 𝕜)) • v = A (v - c • u) := by
    rw [map_sub, map_smul, mul_smul, h1]
  have huu : inner 𝕜 u u = (1 : 𝕜) := by rw [inner_self_eq_norm_sq_to_K, hu]; simp
  have h3 : ‖v - c • u‖ ^ 2 = 1 - ‖c‖ ^ 2 := by
    have hx : v = (v - c • u) + c • u := by abel
    have h4 : ‖v‖ * ‖v‖ = ‖v - c • u‖ * ‖v - c • u‖ + ‖c • u‖ * ‖c • u‖ := by
      conv_lhs => rw [hx]
      refine norm_add_sq_eq_norm_sq_add_norm_sq_of_inner_eq_zero (𝕜 := 𝕜) _ _ ?_
      rw [inner_smul_right, ← inner_conj_symm, inner_sub_right, inner_smul_right, huu, ← hcdef]
      simp
    rw [hv, norm_smul, hu] at h4
    nlinarith
  rw [h2]
  refine (hA _).trans (mul_le_mul_of_nonneg_left ?_ hC)
  refine Real.le_sqrt_of_sq_le ?_
  rw [h3]
  have := abs_lt.1 hc
  exact sqrt_two_le (by linarith) (norm_nonneg _) ((abs_nonneg _).trans hc.le)

/-- the power method: `n` steps have been done -/
theorem powerLoop_ret {tol : ℝ} {burnIn : ℕ} {w : ℝ} {v : Vec 𝕜 m} {warned : Bool} :
    ∀ (n iter : ℕ) {u : Vec 𝕜 m} {last : ℝ}, ‖(A ^ iter) x‖ ≠ 0 →
    u = ((1 / ‖(A ^ iter) x‖ : ℝ) : 𝕜) • (A ^ iter) x →
    (∀ i, iter = i + 1 → last * ‖(A ^ i) x‖ = ‖(A ^ iter) x‖) →
    powerLoop A tol burnIn n iter u last = .ret w v warned →
    ∃ k, iter ≤ k ∧ k ≤ iter + n ∧ ‖(A ^ k) x‖ ≠ 0 ∧ v = ((1 / ‖(A ^ k) x‖ : ℝ) : 𝕜) • (A ^ k) x ∧
      (∀ i, k = i + 1 → w * ‖(A ^ i) x‖ = ‖(A ^ k) x‖) ∧ (warned = true → k = iter + n) ∧
      (warned = false → burnIn + 2 ≤ k ∧ 0 < w ∧ ∃ c : 𝕜, 1 - tol < ‖c‖ ∧ ‖c‖ ≤ 1 ∧
        ∀ C, 0 ≤ C → (∀ y, ‖A y‖ ≤ C * ‖y‖) →
          ‖A v - (c * (w : 𝕜)) • v‖ ≤ C * Real.sqrt (2 * tol))
  | 0, iter, u, last, h0, hu, hl, h => by
    rw [powerLoop] at h
    obtain ⟨rfl, rfl, rfl⟩ := PowerRes.ret.inj h
    exact ⟨iter, le_rfl, by omega, h0, hu, hl, by simp, by simp⟩
  | n + 1, iter, u, last, h0, hu, hl, h => by
    rw [powerLoop] at h
    dsimp only at h
    split at h
    · simp at h
    · rename_i hne
      have hAu : A u = ((1 / ‖(A ^ iter) x‖ : ℝ) : 𝕜) • (A ^ (iter + 1)) x := by
        rw [hu, map_smul, pow_succ']
        rfl
      have hnorm : ‖A u‖ = ‖(A ^ (iter + 1)) x‖ / ‖(A ^ iter) x‖ := by
        rw [hAu, norm_smul, RCLike.norm_ofReal, abs_of_nonneg (by positivity)]
        ring
      have hk : ‖(A ^ (iter + 1)) x‖ ≠ 0 := by
        intro h1
        rw [hnorm, h1, zero_div] at hne
        exact hne rfl
      have hv' : ((1 / ‖A u‖ : ℝ) : 𝕜) • A u =
          ((1 / ‖(A ^ (iter + 1)) x‖ : ℝ) : 𝕜) • (A ^ (iter + 1)) x := by
        rw [hnorm, hAu, smul_smul, ← RCLike.ofReal_mul]
        congr 2
        field_simp
      have hlast : ∀ i, iter + 1 = i + 1 → ‖A u‖ * ‖(A ^ i) x‖ = ‖(A ^ (iter + 1)) x‖ := by
        intro i hi
        obtain rfl : i = iter := by omega
        rw [hnorm]
        field_simp
      split at h
      · rename_i hc
        obtain ⟨rfl, rfl, rfl⟩ := PowerRes.ret.inj h
        obtain ⟨c1, c2, c3⟩ := hc
        have hu1 : ‖u‖ = 1 := by rw [hu]; exact unit_smul h0
        have hv1 := unit_smul (𝕜 := 𝕜) hne
        refine ⟨iter + 1, by omega, by omega, hk, hv', hlast, by simp, fun _ => ⟨by omega,
          lt_of_le_of_ne (norm_nonneg _) (Ne.symm hne), inner 𝕜 u (((1 / ‖A u‖ : ℝ) : 𝕜) • A u),
          by have := abs_lt.1 c3; linarith, ?_, fun C hC hA =>
            power_residual hne hu1 hv1 rfl c3 hC hA⟩⟩
        have := norm_inner_le_norm (𝕜 := 𝕜) u (((1 / ‖A u‖ : ℝ) : 𝕜) • A u)
        rwa [hu1, hv1, one_mul] at this
      · obtain ⟨k, k1, k2, k3, k4, k5, k6, k7⟩ := powerLoop_ret n (iter + 1) hk hv' hlast h
        exact ⟨k, by omega, by omega, k3, k4, k5, fun hw => by have := k6 hw; omega, k7⟩

end QLPeps.Arnoldi
