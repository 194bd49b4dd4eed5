import Verif.Lemmas.PsiConsistency
import Mathlib.Analysis.Complex.Basic
import Mathlib.Tactic.NormNum

/-!
# C120, C121: the consistency check of the amplitudes

`summary l` models `ComputePsiConsistencySummaryAligned` on the amplitudes `l` that a solver collected
for one configuration.
-/

namespace QLPeps.Psi

variable {𝕜 : Type*} [RCLike 𝕜]

/-- Specification: some amplitude is large enough for both absolute floors of the code (`1e-14` for the
reference, machine epsilon `2⁻⁵²` for the mean), given `n` amplitudes. -/
def Resolved (l : List 𝕜) : Prop :=
  ∃ v ∈ l, 1 / 10 ^ 14 < ‖v‖ ∧ (l.length : ℝ) / 2 ^ 52 ≤ ‖v‖

omit 𝕜 in
theorem Resolved.ne {𝕜 : Type*} [RCLike 𝕜] {l : List 𝕜} (h : Resolved l) : l ≠ [] := by
  obtain ⟨v, hv, _⟩ := h
  exact List.ne_nil_of_mem hv

theorem Resolved.valid {l : List 𝕜} (h : Resolved l) : refTol < (reference l).1 := by
  obtain ⟨v, hv, h1, _⟩ := h
  exact lt_of_lt_of_le h1 (reference_le l v hv)

theorem Resolved.floor {l : List 𝕜} (h : Resolved l) : eps ≤ ‖mean l‖ := by
  have hv := h.valid
  have hne := h.ne
  have hg := mean_ge hne hv
  have hlen : 0 < (l.length : ℝ) := by
    have := List.length_pos_of_ne_nil hne
    exact_mod_cast this
  obtain ⟨v, hm, _, h2⟩ := h
  have h3 := le_trans h2 (le_trans (reference_le l v hm) hg)
  have h4 : (l.length : ℝ) * eps ≤ l.length * ‖mean l‖ := by
    unfold eps; rw [mul_one_div]; exact h3
  exact le_of_mul_le_mul_left h4 hlen

/-- **C120** The reported mean is the average of the amplitudes after some of them were negated so that
all have non-negative overlap with a largest one, and the reported relative error is the largest
distance of an aligned amplitude from that mean, divided by the magnitude of the mean. -/
theorem C120_summary (l : List 𝕜) (h : Resolved l) :
    ∃ (a : List 𝕜) (r : 𝕜), r ∈ l ∧ (∀ v ∈ l, ‖v‖ ≤ ‖r‖) ∧
      List.Forall₂ (fun v w => (w = v ∨ w = -v) ∧ 0 ≤ RCLike.re (w * (starRingEnd 𝕜) r)) l a ∧
      (summary l).mean = a.sum / (l.length : 𝕜) ∧
      IsGreatest {d : ℝ | ∃ w ∈ a, d = ‖w - (summary l).mean‖}
        ((summary l).relErr * ‖(summary l).mean‖) := by
  have hne := h.ne
  have hv := h.valid
  have hfl := h.floor
  obtain ⟨hmem, hn⟩ := reference_spec l hne
  refine ⟨aligned l, refVal l, hmem, ?_, ?_, ?_, ?_⟩
  · intro v hv'; rw [hn]; exact reference_le l v hv'
  · rw [aligned_eq, List.forall₂_map_right_iff, List.forall₂_same]
    intro v _
    exact ⟨alignOne_eq_or _ _ _, re_alignOne hv _ _⟩
  · rw [summary_of_ne hne, mean_eq]; simp
  · have hpos : 0 < ‖mean l‖ := lt_of_lt_of_le eps_pos hfl
    have hmul : (summary l).relErr * ‖(summary l).mean‖ = maxDev (aligned l) (mean l) := by
      rw [summary_of_ne hne]
      simp only [max_eq_left hfl]
      field_simp
    rw [hmul]
    have hmean : (summary l).mean = mean l := by rw [summary_of_ne hne]
    rw [hmean]
    constructor
    · rcases (maxDev_aux (aligned l) (mean l) 0).2.2 with h3 | ⟨v, hv', h3⟩
      · have hal : refVal l ∈ aligned l := by
          rw [aligned_eq]
          exact List.mem_map.2 ⟨refVal l, hmem, alignOne_self _⟩
        refine ⟨refVal l, hal, ?_⟩
        have h4 := le_maxDev (aligned l) (mean l) _ hal
        change maxDev (aligned l) (mean l) = 0 at h3
        rw [h3] at h4 ⊢
        exact le_antisymm (norm_nonneg _) h4
      · exact ⟨v, hv', h3⟩
    · rintro d ⟨w, hw, rfl⟩
      exact le_maxDev _ _ w hw

/-- **C120** A relative error of zero means exactly that all amplitudes agree up to sign. -/
theorem C120_zero_iff (l : List 𝕜) (h : Resolved l) :
    (summary l).relErr = 0 ↔ ∃ a : 𝕜, ∀ v ∈ l, v = a ∨ v = -a := by
  have hne := h.ne
  have hv := h.valid
  have hpos : 0 < ‖mean l‖ := lt_of_lt_of_le eps_pos h.floor
  have hden : 0 < max ‖mean l‖ eps := lt_of_lt_of_le hpos (le_max_left _ _)
  have h0 : (summary l).relErr = 0 ↔ ∀ w ∈ aligned l, w = mean l := by
    rw [summary_of_ne hne]
    simp only [div_eq_zero_iff, hden.ne', or_false]
    constructor
    · intro h0 w hw
      have := le_maxDev (aligned l) (mean l) w hw
      rw [h0] at this
      exact sub_eq_zero.1 (norm_le_zero_iff.1 this)
    · intro h0
      apply le_antisymm _ (maxDev_nonneg _ _)
      apply maxDev_le _ _ _ le_rfl
      intro w hw
      rw [h0 w hw]; simp
  rw [h0]
  constructor
  · intro h1
    refine ⟨mean l, fun v hv' => ?_⟩
    have h2 := h1 (alignOne (refTol < (reference l).1) (refVal l) v)
      (by rw [aligned_eq]; exact List.mem_map.2 ⟨v, hv', rfl⟩)
    rcases alignOne_eq_or (refTol < (reference l).1) (refVal l) v with h3 | h3
    · left; rw [← h2, h3]
    · right; rw [← h2, h3, neg_neg]
  · rintro ⟨a, ha⟩
    obtain ⟨hmem, hn⟩ := reference_spec l hne
    have hr0 : refVal l ≠ 0 := by
      intro h0'
      rw [h0', norm_zero] at hn
      rw [← hn] at hv
      exact absurd hv (not_lt.2 refTol_pos.le)
    -- all aligned amplitudes are the reference
    have hall : ∀ w ∈ aligned l, w = refVal l := by
      intro w hw
      rw [aligned_eq] at hw
      obtain ⟨v, hv', rfl⟩ := List.mem_map.1 hw
      have hvr : v = refVal l ∨ v = -refVal l := by
        rcases ha v hv' with h1 | h1 <;> rcases ha _ hmem with h2 | h2
        · left; rw [h1, h2]
        · right; rw [h1, h2, neg_neg]
        · right; rw [h1, h2]
        · left; rw [h1, h2]
      rcases hvr with h1 | h1
      · rw [h1]; exact alignOne_self _
      · rw [h1]
        unfold alignOne
        rw [if_pos hv, if_pos, neg_neg]
        rw [neg_mul, map_neg, RCLike.mul_conj]
        have : 0 < ‖refVal l‖ := norm_pos_iff.2 hr0
        norm_cast
        exact neg_neg_of_pos (by positivity)
    have hmean : mean l = refVal l := by
      rw [mean_eq]
      have hs : aligned l = List.replicate l.length (refVal l) := by
        rw [List.eq_replicate_iff]
        exact ⟨by simp [aligned_eq], hall⟩
      have hlen : ((l.length : ℝ) : 𝕜) ≠ 0 := by
        have := List.length_pos_of_ne_nil hne
        exact_mod_cast this.ne'
      rw [hs, List.sum_replicate, nsmul_eq_mul]
      field_simp
      push_cast
      rfl
    intro w hw
    rw [hall w hw, hmean]

/-- **C120** Equal amplitudes (an exact contraction) are reported as such, whatever their size. -/
theorem C120_exact (a : 𝕜) (n : ℕ) (hn : 0 < n) :
    (summary (List.replicate n a)).mean = a ∧ (summary (List.replicate n a)).relErr = 0 := by
  have hne : List.replicate n a ≠ [] := by simp; omega
  have hr : refVal (List.replicate n a) = a :=
    List.eq_of_mem_replicate (reference_spec _ hne).1
  have hal : aligned (List.replicate n a) = List.replicate n a := by
    rw [aligned_eq, hr, List.map_replicate, alignOne_self]
  have hlen : ((n : ℝ) : 𝕜) ≠ 0 := by exact_mod_cast hn.ne'
  have hm : mean (List.replicate n a) = a := by
    rw [mean_eq, hal, List.sum_replicate, nsmul_eq_mul, List.length_replicate]
    field_simp
    push_cast
    ring
  rw [summary_of_ne hne]
  refine ⟨hm, ?_⟩
  simp only [hal, hm]
  have : maxDev (List.replicate n a) a = 0 := by
    apply le_antisymm _ (maxDev_nonneg _ _)
    apply maxDev_le _ _ _ le_rfl
    intro v hv
    rw [List.eq_of_mem_replicate hv]; simp
  rw [this, zero_div]

/-- **C121 (part)** Multiplying the wave function by a number changes the mean by that number and leaves the
relative error alone, as long as the amplitudes stay resolved. In particular a global phase or sign
never matters (`‖z‖ = 1`). -/
theorem C121_scale_partial (l : List 𝕜) (z : 𝕜) (h : Resolved l) (hz : Resolved (l.map (z * ·))) :
    (summary (l.map (z * ·))).mean = z * (summary l).mean ∧
      (summary (l.map (z * ·))).relErr = (summary l).relErr := by
  have hz0 : z ≠ 0 := by
    rintro rfl
    obtain ⟨v, hv, h1, _⟩ := hz
    simp only [zero_mul, List.mem_map] at hv
    obtain ⟨_, _, rfl⟩ := hv
    rw [norm_zero] at h1
    exact absurd h1 (by norm_num)
  have hiff : refTol < ‖z‖ * (reference l).1 ↔ refTol < (reference l).1 := by
    refine ⟨fun _ => h.valid, fun _ => ?_⟩
    have := hz.valid
    rwa [reference_mul z hz0] at this
  have hm := mean_mul z hz0 l hiff
  have ha := aligned_mul z hz0 l hiff
  rw [summary_of_ne h.ne, summary_of_ne hz.ne]
  refine ⟨hm, ?_⟩
  simp only
  rw [max_eq_left h.floor, max_eq_left hz.floor, ha, hm, maxDev_mul, norm_mul,
    mul_div_mul_left _ _ (norm_pos_iff.2 hz0).ne']

/-- **C121 (part)** Order of the amplitudes: if those of largest magnitude are all equal, the summary does not
depend on the order in which the solver lists the amplitudes. -/
theorem C121_order_partial (l l' : List 𝕜) (hp : l.Perm l')
    (hu : ∀ v ∈ l, ∀ w ∈ l, (∀ x ∈ l, ‖x‖ ≤ ‖v‖) → (∀ x ∈ l, ‖x‖ ≤ ‖w‖) → v = w) :
    summary l = summary l' := by
  by_cases hne : l = []
  · subst hne; rw [List.nil_perm.1 hp]
  · have hne' : l' ≠ [] := fun h0 => hne (by subst h0; exact List.perm_nil.1 hp)
    obtain ⟨hm, hn⟩ := reference_spec l hne
    obtain ⟨hm', hn'⟩ := reference_spec l' hne'
    have hr : refVal l = refVal l' := by
      apply hu _ hm _ (hp.mem_iff.2 hm')
      · intro x hx; rw [hn]; exact reference_le l x hx
      · intro x hx; rw [hn']; exact reference_le l' x (hp.mem_iff.1 hx)
    have hr1 : (reference l).1 = (reference l').1 := by rw [← hn, ← hn', hr]
    have ha : (aligned l).Perm (aligned l') := by
      rw [aligned_eq, aligned_eq, hr, hr1]
      exact hp.map _
    have hme : mean l = mean l' := by
      rw [mean_eq, mean_eq, ha.sum_eq, hp.length_eq]
    rw [summary_of_ne hne, summary_of_ne hne', hme, maxDev_perm ha]

/-- **C120** Real amplitudes: the summary only depends on the magnitudes, so neither signs nor order
matter: `|mean|` is the average magnitude and the relative error the largest deviation from it. -/
theorem C120_real (l : List ℝ) (h : Resolved l) :
    |(summary l).mean| = (l.map (fun v => |v|)).sum / l.length ∧
      IsGreatest {d : ℝ | ∃ v ∈ l, d = abs (|v| - |(summary l).mean|)}
        ((summary l).relErr * |(summary l).mean|) := by
  have hne := h.ne
  have hv := h.valid
  obtain ⟨hm, hn⟩ := reference_spec l hne
  have hr0 : refVal l ≠ 0 := by
    intro h0'
    rw [h0', norm_zero] at hn
    rw [← hn] at hv
    exact absurd hv (not_lt.2 refTol_pos.le)
  obtain ⟨σ, hσ, hal⟩ : ∃ σ : ℝ, |σ| = 1 ∧ aligned l = (l.map (fun v => |v|)).map (σ * ·) := by
    rw [aligned_eq]
    simp only [List.map_map]
    rcases lt_or_gt_of_ne hr0 with hlt | hgt
    · refine ⟨-1, by norm_num, List.map_congr_left (fun v _ => ?_)⟩
      simp only [alignOne, if_pos hv, Function.comp, conj_trivial, RCLike.re_to_real]
      split_ifs with hs
      · have : 0 < v := by
          by_contra h0
          exact absurd hs (not_lt.2 (mul_nonneg_of_nonpos_of_nonpos (not_lt.1 h0) hlt.le))
        rw [abs_of_pos this]; ring
      · have : v ≤ 0 := by
          by_contra h0
          exact hs (mul_neg_of_pos_of_neg (not_le.1 h0) hlt)
        rw [abs_of_nonpos this]; ring
    · refine ⟨1, by norm_num, List.map_congr_left (fun v _ => ?_)⟩
      simp only [alignOne, if_pos hv, Function.comp, conj_trivial, RCLike.re_to_real]
      split_ifs with hs
      · have : v < 0 := by
          by_contra h0
          exact absurd hs (not_lt.2 (mul_nonneg (not_lt.1 h0) hgt.le))
        rw [abs_of_neg this]; ring
      · have : 0 ≤ v := by
          by_contra h0
          exact hs (mul_neg_of_neg_of_pos (not_le.1 h0) hgt)
        rw [abs_of_nonneg this]; ring
  have hsum : 0 ≤ (l.map (fun v => |v|)).sum / l.length := by
    apply div_nonneg _ (Nat.cast_nonneg _)
    apply List.sum_nonneg
    intro x hx
    obtain ⟨v, _, rfl⟩ := List.mem_map.1 hx
    exact abs_nonneg v
  have hmean : mean l = σ * ((l.map (fun v => |v|)).sum / l.length) := by
    rw [mean_eq, hal, List.sum_map_mul_left]
    simp only [List.map_id', RCLike.ofReal_real_eq_id, id_eq, mul_div_assoc]
  have h1 : |(summary l).mean| = (l.map (fun v => |v|)).sum / l.length := by
    rw [summary_of_ne hne]
    simp only
    rw [hmean, abs_mul, hσ, one_mul, abs_of_nonneg hsum]
  refine ⟨h1, ?_⟩
  have hfl := h.floor
  have hpos : 0 < ‖mean l‖ := lt_of_lt_of_le eps_pos hfl
  have hdev : (summary l).relErr * |(summary l).mean| = maxDev (aligned l) (mean l) := by
    rw [summary_of_ne hne]
    simp only [max_eq_left hfl]
    rw [← Real.norm_eq_abs]
    field_simp
  have hd : maxDev (aligned l) (mean l)
      = maxDev (l.map (fun v => |v|)) ((l.map (fun v => |v|)).sum / l.length) := by
    rw [hal, hmean, maxDev_mul, Real.norm_eq_abs, hσ, one_mul]
  rw [hdev, hd, h1]
  constructor
  · rcases (maxDev_aux (l.map (fun v => |v|)) ((l.map (fun v => |v|)).sum / l.length) 0).2.2 with
      h3 | ⟨v, hv', h3⟩
    · have hx : |refVal l| ∈ l.map (fun v => |v|) := List.mem_map.2 ⟨_, hm, rfl⟩
      have h4 := le_maxDev _ ((l.map (fun v => |v|)).sum / l.length) _ hx
      refine ⟨refVal l, hm, ?_⟩
      have h5 : maxDev (l.map (fun v => |v|)) ((l.map (fun v => |v|)).sum / l.length) = 0 := h3
      rw [h5] at h4 ⊢
      exact le_antisymm (abs_nonneg _) h4
    · obtain ⟨w, hw, rfl⟩ := List.mem_map.1 hv'
      exact ⟨w, hw, h3⟩
  · rintro d ⟨w, hw, rfl⟩
    exact le_maxDev (l.map (fun v => |v|)) _ (|w|) (List.mem_map.2 ⟨w, hw, rfl⟩)

/-- **C120** The relative error is non-negative and at most the number of amplitudes plus one. -/
theorem C120_bounds (l : List 𝕜) (h : Resolved l) :
    0 ≤ (summary l).relErr ∧ (summary l).relErr ≤ l.length + 1 := by
  have hne := h.ne
  have hpos : 0 < ‖mean l‖ := lt_of_lt_of_le eps_pos h.floor
  rw [summary_of_ne hne]
  simp only [max_eq_left h.floor]
  refine ⟨div_nonneg (maxDev_nonneg _ _) hpos.le, ?_⟩
  rw [div_le_iff₀ hpos]
  have hg := mean_ge hne h.valid
  apply maxDev_le
  · positivity
  · intro w hw
    rw [aligned_eq] at hw
    obtain ⟨v, hv, rfl⟩ := List.mem_map.1 hw
    have h1 := norm_sub_le (alignOne (refTol < (reference l).1) (refVal l) v) (mean l)
    rw [norm_alignOne] at h1
    have h2 := reference_le l v hv
    linarith

/-- the hypotheses are met: three amplitudes, one of them of the other sign branch -/
example : Resolved ([1, -1.5, 1.25] : List ℝ) := ⟨-1.5, by simp, by norm_num, by norm_num⟩
example : Resolved ([1, Complex.I * 2] : List ℂ) := ⟨1, by simp, by norm_num, by norm_num⟩

/-- `|mean|` and the spread of these amplitudes -/
example : |(summary ([1, -1.5, 1.25] : List ℝ)).mean| = 1.25 := by
  rw [(C120_real _ ⟨-1.5, by simp, by norm_num, by norm_num⟩).1]
  norm_num [abs_of_pos]

/-- **C121 (fails below machine epsilon)** The reported relative error is not relative: amplitudes of
magnitude at most `t · 2⁻⁵³` are always reported with an error of at most `t`, however much they
disagree. -/
theorem C121_small_blind (l : List 𝕜) (t : ℝ) (ht : 0 ≤ t)
    (hs : ∀ v ∈ l, ‖v‖ ≤ t * (1 / 2 ^ 53)) : (summary l).relErr ≤ t := by
  by_cases hne : l = []
  · subst hne; simpa [summary] using ht
  · rw [summary_of_ne hne]
    simp only
    have hb : 0 ≤ t * (1 / 2 ^ 53) := by positivity
    have hd : maxDev (aligned l) (mean l) ≤ t * eps := by
      apply maxDev_le _ _ _ (mul_nonneg ht eps_pos.le)
      intro w hw
      rw [aligned_eq] at hw
      obtain ⟨v, hv, rfl⟩ := List.mem_map.1 hw
      have h1 := norm_sub_le (alignOne (refTol < (reference l).1) (refVal l) v) (mean l)
      rw [norm_alignOne] at h1
      have h2 := hs v hv
      have h3 := mean_le hne hs
      have h4 : t * eps = t * (1 / 2 ^ 53) + t * (1 / 2 ^ 53) := by unfold eps; ring
      linarith
    rw [div_le_iff₀ (lt_of_lt_of_le eps_pos (le_max_right _ _))]
    exact le_trans hd (mul_le_mul_of_nonneg_left (le_max_right _ _) ht)

/-- **C121 (fails)** For every set of amplitudes and every positive threshold, the same wave function
with a smaller normalisation is reported below the threshold: no warning can be issued. -/
theorem C121_scale_fails (l : List 𝕜) (t : ℝ) (ht : 0 < t) :
    ∃ c : ℝ, 0 < c ∧ (summary (l.map ((c : 𝕜) * ·))).relErr ≤ t := by
  refine ⟨t * (1 / 2 ^ 53) / ((reference l).1 + 1), ?_, ?_⟩
  · have h0 := (reference_aux l 0 (0, 0)).1
    change 0 ≤ (reference l).1 at h0
    positivity
  · have h0 := (reference_aux l 0 (0, 0)).1
    change 0 ≤ (reference l).1 at h0
    apply C121_small_blind _ t ht.le
    intro v hv
    obtain ⟨w, hw, rfl⟩ := List.mem_map.1 hv
    have h1 := reference_le l w hw
    rw [norm_mul, RCLike.norm_ofReal, abs_of_nonneg (by positivity), div_mul_eq_mul_div,
      div_le_iff₀ (by positivity)]
    apply mul_le_mul_of_nonneg_left _ (by positivity)
    linarith

/-- amplitudes that differ by a factor of three, at scale one and at scale `2⁻¹⁰⁰` -/
theorem relErr_one_three : (summary ([1, 3] : List ℝ)).relErr = 1 / 2 := by
  have hR : Resolved ([1, 3] : List ℝ) := ⟨3, by simp, by norm_num, by norm_num⟩
  obtain ⟨h1, h2⟩ := C120_real _ hR
  have h3 : |(summary ([1, 3] : List ℝ)).mean| = 2 := by rw [h1]; norm_num [abs_of_pos]
  rw [h3] at h2
  have h4 : IsGreatest {d : ℝ | ∃ v ∈ ([1, 3] : List ℝ), d = abs (|v| - 2)} 1 := by
    constructor
    · exact ⟨3, by simp, by norm_num [abs_of_pos]⟩
    · rintro d ⟨v, hv, rfl⟩
      simp only [List.mem_cons, List.not_mem_nil, or_false] at hv
      rcases hv with rfl | rfl <;> norm_num [abs_of_pos]
  have := h2.unique h4
  linarith
example : (summary ([1 / 2 ^ 100, 3 / 2 ^ 100] : List ℝ)).relErr ≤ 1 / 1000 := by
  apply C121_small_blind _ _ (by norm_num)
  intro v hv
  simp only [List.mem_cons, List.not_mem_nil, or_false] at hv
  rcases hv with rfl | rfl <;> rw [Real.norm_eq_abs, abs_of_pos (by norm_num)] <;> norm_num

theorem reference_head (a : 𝕜) (t : List 𝕜) (ha : 0 < ‖a‖) (ht : ∀ v ∈ t, ‖v‖ ≤ ‖a‖) :
    reference (a :: t) = (‖a‖, 0) := by
  have key : ∀ (t : List 𝕜) (k : ℕ), (∀ v ∈ t, ‖v‖ ≤ ‖a‖) →
      (t.zipIdx k).foldl (fun acc p => if acc.1 < ‖p.1‖ then (‖p.1‖, p.2) else acc) (‖a‖, 0)
        = (‖a‖, 0) := by
    intro t
    induction t with
    | nil => intro _ _; rfl
    | cons b t ih =>
      intro k hb
      simp only [List.zipIdx_cons, List.foldl_cons, not_lt.2 (hb b (by simp)), if_false]
      exact ih (k + 1) (fun v hv => hb v (by simp [hv]))
  unfold reference
  simp only [List.zipIdx_cons, List.foldl_cons, ha, if_true]
  exact key t _ ht

/-- **C121 (fails)** For complex amplitudes of equal magnitude the order in which they are listed
matters: the same three amplitudes are reported with a relative error of at least 2 in one order and of
at most 1 in another. -/
theorem C121_order_fails : ∃ l l' : List ℂ, l.Perm l' ∧ Resolved l ∧
    2 ≤ (summary l).relErr ∧ (summary l').relErr ≤ 1 := by
  have hn : ∀ (x y b : ℝ), 0 ≤ b → x * x + y * y = b * b → ‖(⟨x, y⟩ : ℂ)‖ = b := by
    intro x y b hb h
    have h1 : ‖(⟨x, y⟩ : ℂ)‖ ^ 2 = b ^ 2 := by
      rw [Complex.sq_norm, Complex.normSq_mk, h]; ring
    exact (pow_left_inj₀ (norm_nonneg _) hb two_ne_zero).1 h1
  have hle : ∀ (x y b : ℝ), 0 ≤ b → x * x + y * y ≤ b * b → ‖(⟨x, y⟩ : ℂ)‖ ≤ b := by
    intro x y b hb h
    have h1 : ‖(⟨x, y⟩ : ℂ)‖ ^ 2 ≤ b ^ 2 := by
      rw [Complex.sq_norm, Complex.normSq_mk]; linarith [sq b]
    exact (pow_le_pow_iff_left₀ (norm_nonneg _) hb two_ne_zero).1 h1
  have e : (⟨1, 0⟩ : ℂ) = 1 := rfl
  have n1 : ‖(⟨1, 0⟩ : ℂ)‖ = 1 := hn _ _ _ (by norm_num) (by norm_num)
  have n2 : ‖(⟨-3 / 5, 4 / 5⟩ : ℂ)‖ = 1 := hn _ _ _ (by norm_num) (by norm_num)
  have n3 : ‖(⟨0, 1⟩ : ℂ)‖ = 1 := hn _ _ _ (by norm_num) (by norm_num)
  have hR : Resolved ([⟨1, 0⟩, ⟨-3 / 5, 4 / 5⟩, ⟨0, 1⟩] : List ℂ) :=
    ⟨⟨1, 0⟩, by simp, by rw [n1]; norm_num, by rw [n1]; norm_num⟩
  have hR' : Resolved ([⟨-3 / 5, 4 / 5⟩, ⟨1, 0⟩, ⟨0, 1⟩] : List ℂ) :=
    ⟨⟨-3 / 5, 4 / 5⟩, by simp, by rw [n2]; norm_num, by rw [n2]; norm_num⟩
  have r1 : reference ([⟨1, 0⟩, ⟨-3 / 5, 4 / 5⟩, ⟨0, 1⟩] : List ℂ) = (1, 0) := by
    rw [reference_head _ _ (by rw [n1]; norm_num) (by simp [n1, n2, n3]), n1]
  have r2 : reference ([⟨-3 / 5, 4 / 5⟩, ⟨1, 0⟩, ⟨0, 1⟩] : List ℂ) = (1, 0) := by
    rw [reference_head _ _ (by rw [n2]; norm_num) (by simp [n1, n2, n3]), n2]
  have hv : refTol < 1 := by unfold refTol; norm_num
  have a1 : aligned ([⟨1, 0⟩, ⟨-3 / 5, 4 / 5⟩, ⟨0, 1⟩] : List ℂ)
      = [⟨1, 0⟩, ⟨3 / 5, -4 / 5⟩, ⟨0, 1⟩] := by
    unfold aligned
    simp only [r1, List.getD_cons_zero, List.map_cons, List.map_nil, alignOne, hv, if_true]
    norm_num [Complex.mul_re, Complex.ext_iff]
  have a2 : aligned ([⟨-3 / 5, 4 / 5⟩, ⟨1, 0⟩, ⟨0, 1⟩] : List ℂ)
      = [⟨-3 / 5, 4 / 5⟩, ⟨-1, 0⟩, ⟨0, 1⟩] := by
    unfold aligned
    simp only [r2, List.getD_cons_zero, List.map_cons, List.map_nil, alignOne, hv, if_true]
    norm_num [Complex.mul_re, Complex.ext_iff]
  have m1 : mean ([⟨1, 0⟩, ⟨-3 / 5, 4 / 5⟩, ⟨0, 1⟩] : List ℂ) = ⟨8 / 15, 1 / 15⟩ := by
    rw [mean_eq, a1]
    apply Complex.ext <;> simp <;> norm_num
  have m2 : mean ([⟨-3 / 5, 4 / 5⟩, ⟨1, 0⟩, ⟨0, 1⟩] : List ℂ) = ⟨-8 / 15, 9 / 15⟩ := by
    rw [mean_eq, a2]
    apply Complex.ext <;> simp <;> norm_num
  have hden : ∀ l : List ℂ, Resolved l →
      (summary l).relErr = maxDev (aligned l) (mean l) / ‖mean l‖ := by
    intro l hl
    rw [summary_of_ne hl.ne]
    simp only [max_eq_left hl.floor]
  refine ⟨[⟨1, 0⟩, ⟨-3 / 5, 4 / 5⟩, ⟨0, 1⟩], [⟨-3 / 5, 4 / 5⟩, ⟨1, 0⟩, ⟨0, 1⟩],
    List.Perm.swap _ _ _, hR, ?_, ?_⟩
  · rw [hden _ hR, le_div_iff₀ (lt_of_lt_of_le eps_pos hR.floor), a1, m1]
    have h1 := le_maxDev ([⟨1, 0⟩, ⟨3 / 5, -4 / 5⟩, ⟨0, 1⟩] : List ℂ) ⟨8 / 15, 1 / 15⟩ ⟨0, 1⟩ (by simp)
    refine le_trans ?_ h1
    have h2 : (⟨0, 1⟩ - ⟨8 / 15, 1 / 15⟩ : ℂ) = ⟨-8 / 15, 14 / 15⟩ := by
      apply Complex.ext <;> simp <;> norm_num
    rw [h2]
    refine (pow_le_pow_iff_left₀ (by positivity) (norm_nonneg _) two_ne_zero).1 ?_
    rw [mul_pow, Complex.sq_norm, Complex.sq_norm, Complex.normSq_mk, Complex.normSq_mk]
    norm_num
  · rw [hden _ hR', div_le_one (lt_of_lt_of_le eps_pos hR'.floor), a2, m2]
    apply maxDev_le _ _ _ (norm_nonneg _)
    intro v hv'
    refine (pow_le_pow_iff_left₀ (norm_nonneg _) (norm_nonneg _) two_ne_zero).1 ?_
    simp only [List.mem_cons, List.not_mem_nil, or_false] at hv'
    rcases hv' with rfl | rfl | rfl <;>
      rw [Complex.sq_norm, Complex.sq_norm, Complex.normSq_mk, Complex.normSq_apply] <;>
      norm_num

end QLPeps.Psi
