import Mathlib.Analysis.InnerProductSpace.PiL2

/-! # Truncating a decomposition to its largest singular values is optimal -/

namespace QLPeps.EckartYoung

noncomputable section

variable {𝕜 : Type*} [RCLike 𝕜]

/-- the distance from a combination of orthonormal vectors -/
theorem dist_sq {E : Type*} [NormedAddCommGroup E] [InnerProductSpace 𝕜 E] {ι : Type*} [Fintype ι] {e : ι → E} (he : Orthonormal 𝕜 e)
    (a : E) (c : ι → 𝕜) :
    ‖a - ∑ i, c i • e i‖ ^ 2 = ‖a‖ ^ 2 - ∑ i, ‖inner 𝕜 (e i) a‖ ^ 2 + ∑ i, ‖inner 𝕜 (e i) a - c i‖ ^ 2 := by
  classical
  have hsum : ∀ b : ι → 𝕜, ‖∑ i, b i • e i‖ ^ 2 = ∑ i, ‖b i‖ ^ 2 := by
    intro b
    apply RCLike.ofReal_injective (K := 𝕜)
    push_cast
    rw [← inner_self_eq_norm_sq_to_K (𝕜 := 𝕜), he.inner_sum]
    exact Finset.sum_congr rfl fun i _ => by rw [RCLike.conj_mul]
  have ho : ∀ b : ι → 𝕜, inner 𝕜 (a - ∑ i, inner 𝕜 (e i) a • e i) (∑ i, b i • e i) = 0 := by
    intro b
    rw [inner_sum]
    refine Finset.sum_eq_zero fun i _ => ?_
    rw [inner_smul_right, inner_sub_left, he.inner_left_fintype, ← inner_conj_symm a (e i), sub_self, mul_zero]
  have h1 := norm_add_sq_eq_norm_sq_add_norm_sq_of_inner_eq_zero _ _ (ho fun i => inner 𝕜 (e i) a)
  have h2 := norm_add_sq_eq_norm_sq_add_norm_sq_of_inner_eq_zero _ _ (ho fun i => inner 𝕜 (e i) a - c i)
  rw [sub_add_cancel] at h1
  have e2 : a - ∑ i, inner 𝕜 (e i) a • e i + ∑ i, (inner 𝕜 (e i) a - c i) • e i = a - ∑ i, c i • e i := by
    simp only [sub_smul, Finset.sum_sub_distrib]
    abel
  rw [e2] at h2
  simp only [← pow_two, hsum] at h1 h2
  linarith

variable {X Y ι : Type*} [Fintype X] [Fintype Y] [Fintype ι]

theorem inner_def (f g : Y → 𝕜) : inner 𝕜 (WithLp.toLp 2 f : EuclideanSpace 𝕜 Y) (WithLp.toLp 2 g) = ∑ y, (starRingEnd 𝕜) (f y) * g y := by
  rw [PiLp.inner_apply]
  exact Finset.sum_congr rfl fun y _ => by rw [RCLike.inner_apply, mul_comm]

theorem norm_def (f : Y → 𝕜) : ‖(WithLp.toLp 2 f : EuclideanSpace 𝕜 Y)‖ ^ 2 = ∑ y, ‖f y‖ ^ 2 := EuclideanSpace.norm_sq_eq _

theorem sum_smul (c : ι → 𝕜) (f : ι → Y → 𝕜) :
    ∑ i, c i • (WithLp.toLp 2 (f i) : EuclideanSpace 𝕜 Y) = WithLp.toLp 2 fun y => ∑ i, c i * f i y := by
  ext y
  simp

/-- orthonormal functions do not catch more than the kept singular values -/
theorem ky_fan [DecidableEq ι] {A : X → Y → 𝕜} {u : ι → X → 𝕜} {s : ι → ℝ} {v : ι → Y → 𝕜}
    (uu : ∀ m m', ∑ x, (starRingEnd 𝕜) (u m x) * u m' x = if m = m' then 1 else 0)
    (vv : ∀ m m', ∑ y, (starRingEnd 𝕜) (v m y) * v m' y = if m = m' then 1 else 0)
    (ut : ∀ m y, ∑ x, (starRingEnd 𝕜) (u m x) * A x y = (s m : 𝕜) * v m y)
    (tv : ∀ m x, ∑ y, A x y * (starRingEnd 𝕜) (v m y) = u m x * (s m : 𝕜))
    (lg : ∀ w : Y → 𝕜, (∀ m, ∑ y, v m y * w y = 0) → ∀ m, ∑ x, ‖∑ y, A x y * w y‖ ^ 2 ≤ s m ^ 2 * ∑ y, ‖w y‖ ^ 2)
    {κ : Type*} [Fintype κ] {w : κ → EuclideanSpace 𝕜 Y} (hw : Orthonormal 𝕜 w) (hc : Fintype.card κ ≤ Fintype.card ι) :
    ∑ j, ∑ x, ‖inner 𝕜 (w j) (WithLp.toLp 2 (A x))‖ ^ 2 ≤ ∑ m, s m ^ 2 := by
  have hu : Orthonormal 𝕜 fun m => (WithLp.toLp 2 (u m) : EuclideanSpace 𝕜 X) :=
    orthonormal_iff_ite.2 fun m m' => by rw [inner_def, uu]
  have hv : Orthonormal 𝕜 fun m => (WithLp.toLp 2 (v m) : EuclideanSpace 𝕜 Y) :=
    orthonormal_iff_ite.2 fun m m' => by rw [inner_def, vv]
  have ew : ∀ j, w j = WithLp.toLp 2 fun y => w j y := fun j => by ext y; rfl
  set c : κ → ι → 𝕜 := fun j m => inner 𝕜 (w j) (WithLp.toLp 2 (v m)) with hcdef
  have hcv : ∀ j m, c j m = ∑ y, v m y * (starRingEnd 𝕜) (w j y) := fun j m => by
    rw [hcdef]; dsimp only; rw [ew j, inner_def]
    exact Finset.sum_congr rfl fun y _ => mul_comm _ _
  -- the part of `w j` orthogonal to the kept vectors
  set r : κ → Y → 𝕜 := fun j y => w j y - ∑ m, (starRingEnd 𝕜) (c j m) * v m y with hr
  have hcc : ∀ j m, inner 𝕜 (WithLp.toLp 2 (v m) : EuclideanSpace 𝕜 Y) (w j) = (starRingEnd 𝕜) (c j m) := fun j m => by
    rw [hcdef, inner_conj_symm]
  have hrn : ∀ j, ∑ y, ‖r j y‖ ^ 2 = 1 - ∑ m, ‖c j m‖ ^ 2 := by
    intro j
    have := dist_sq hv (w j) fun m => (starRingEnd 𝕜) (c j m)
    rw [sum_smul, hw.1 j] at this
    simp only [hcc, sub_self, norm_zero, RCLike.norm_conj] at this
    have e : w j - (WithLp.toLp 2 fun y => ∑ m, (starRingEnd 𝕜) (c j m) * v m y) = (WithLp.toLp 2 (r j) : EuclideanSpace 𝕜 Y) := by
      ext y; simp [hr]
    rw [e, norm_def] at this
    rw [this]; simp
  have hro : ∀ j m, ∑ y, v m y * (starRingEnd 𝕜) (r j y) = 0 := by
    intro j m
    have hin : inner 𝕜 (WithLp.toLp 2 (r j) : EuclideanSpace 𝕜 Y) (WithLp.toLp 2 (v m)) = 0 := by
      have e : (WithLp.toLp 2 (r j) : EuclideanSpace 𝕜 Y) = w j - ∑ m, (starRingEnd 𝕜) (c j m) • (WithLp.toLp 2 (v m) : EuclideanSpace 𝕜 Y) := by
        rw [sum_smul]; ext y; simp [hr]
      rw [e, inner_sub_left, hv.inner_left_fintype, RCLike.conj_conj, sub_self]
    rw [inner_def] at hin
    rw [← hin]
    exact Finset.sum_congr rfl fun y _ => mul_comm _ _
  -- the image of `w j`
  have hA : ∀ j, ∑ x, ‖inner 𝕜 (w j) (WithLp.toLp 2 (A x))‖ ^ 2 =
      ∑ m, s m ^ 2 * ‖c j m‖ ^ 2 + ∑ x, ‖∑ y, A x y * (starRingEnd 𝕜) (r j y)‖ ^ 2 := by
    intro j
    set a : X → 𝕜 := fun x => ∑ y, A x y * (starRingEnd 𝕜) (w j y) with ha
    have e1 : ∀ x, inner 𝕜 (w j) (WithLp.toLp 2 (A x)) = a x := fun x => by
      conv_lhs => rw [ew j, inner_def]
      exact Finset.sum_congr rfl fun y _ => mul_comm _ _
    have e2 : ∀ m, inner 𝕜 (WithLp.toLp 2 (u m) : EuclideanSpace 𝕜 X) (WithLp.toLp 2 a) = (s m : 𝕜) * c j m := fun m => by
      rw [inner_def, hcv, Finset.mul_sum]
      simp only [ha, Finset.mul_sum]
      rw [Finset.sum_comm]
      refine Finset.sum_congr rfl fun y _ => ?_
      rw [← mul_assoc, ← ut m y, Finset.sum_mul]
      exact Finset.sum_congr rfl fun x _ => by ring
    have e3 := dist_sq hu (WithLp.toLp 2 a) fun m => (s m : 𝕜) * c j m
    rw [sum_smul] at e3
    simp only [e2, sub_self, norm_zero] at e3
    have e4 : (WithLp.toLp 2 a : EuclideanSpace 𝕜 X) - (WithLp.toLp 2 fun x => ∑ m, (s m : 𝕜) * c j m * u m x) =
        WithLp.toLp 2 fun x => ∑ y, A x y * (starRingEnd 𝕜) (r j y) := by
      ext x
      simp only [PiLp.sub_apply, hr, ha, map_sub, map_sum, map_mul, RCLike.conj_conj, mul_sub, Finset.sum_sub_distrib, Finset.mul_sum]
      congr 1
      rw [Finset.sum_comm]
      refine Finset.sum_congr rfl fun m _ => ?_
      rw [mul_comm (s m : 𝕜), mul_assoc, mul_comm (s m : 𝕜), ← tv m x, Finset.mul_sum]
      exact Finset.sum_congr rfl fun y _ => by ring
    rw [e4, norm_def, norm_def] at e3
    simp only [norm_mul, RCLike.norm_ofReal, mul_pow, sq_abs] at e3
    simp only [e1]
    rw [e3]
    simp
  have hp : ∀ m, ∑ j, ‖c j m‖ ^ 2 ≤ 1 := by
    intro m
    have := hw.sum_inner_products_le (s := Finset.univ) (WithLp.toLp 2 (v m))
    rwa [hv.1 m, one_pow] at this
  simp only [hA]
  rcases isEmpty_or_nonempty ι with h | h
  · have : IsEmpty κ := Fintype.card_eq_zero_iff.1 (by have := Fintype.card_eq_zero_iff.2 h; omega)
    simp
  · obtain ⟨m0, -, hm0⟩ := Finset.exists_min_image Finset.univ (fun m => s m ^ 2) Finset.univ_nonempty
    have hq : ∀ j, ∑ x, ‖∑ y, A x y * (starRingEnd 𝕜) (r j y)‖ ^ 2 ≤ s m0 ^ 2 * (1 - ∑ m, ‖c j m‖ ^ 2) := by
      intro j
      have := lg (fun y => (starRingEnd 𝕜) (r j y)) (hro j) m0
      simp only [RCLike.norm_conj, hrn] at this
      exact this
    calc _ ≤ ∑ j, (∑ m, s m ^ 2 * ‖c j m‖ ^ 2 + s m0 ^ 2 * (1 - ∑ m, ‖c j m‖ ^ 2)) :=
          Finset.sum_le_sum fun j _ => add_le_add le_rfl (hq j)
      _ = ∑ m, s m ^ 2 * ∑ j, ‖c j m‖ ^ 2 + s m0 ^ 2 * (Fintype.card κ - ∑ m, ∑ j, ‖c j m‖ ^ 2) := by
          have a1 : ∑ j, ∑ m, s m ^ 2 * ‖c j m‖ ^ 2 = ∑ m, s m ^ 2 * ∑ j, ‖c j m‖ ^ 2 := by
            rw [Finset.sum_comm]
            exact Finset.sum_congr rfl fun m _ => (Finset.mul_sum _ _ _).symm
          have a2 : ∑ j, ∑ m, ‖c j m‖ ^ 2 = ∑ m, ∑ j, ‖c j m‖ ^ 2 := Finset.sum_comm
          rw [Finset.sum_add_distrib, a1, ← Finset.mul_sum, Finset.sum_sub_distrib, a2]
          simp
      _ ≤ ∑ m, s m ^ 2 * ∑ j, ‖c j m‖ ^ 2 + s m0 ^ 2 * ∑ m, (1 - ∑ j, ‖c j m‖ ^ 2) := by
          refine add_le_add le_rfl (mul_le_mul_of_nonneg_left ?_ (sq_nonneg _))
          rw [Finset.sum_sub_distrib]
          have : (Fintype.card κ : ℝ) ≤ Fintype.card ι := by exact_mod_cast hc
          simp only [Finset.sum_const, Finset.card_univ, nsmul_eq_mul, mul_one]
          linarith
      _ ≤ ∑ m, s m ^ 2 * ∑ j, ‖c j m‖ ^ 2 + ∑ m, s m ^ 2 * (1 - ∑ j, ‖c j m‖ ^ 2) := by
          rw [Finset.mul_sum]
          exact add_le_add le_rfl (Finset.sum_le_sum fun m _ =>
            mul_le_mul_of_nonneg_right (hm0 m (Finset.mem_univ _)) (by linarith [hp m]))
      _ = _ := by
          rw [← Finset.sum_add_distrib]
          exact Finset.sum_congr rfl fun m _ => by ring

/-- the error of the truncation -/
theorem error [DecidableEq ι] {A : X → Y → 𝕜} {u : ι → X → 𝕜} {s : ι → ℝ} {v : ι → Y → 𝕜}
    (uu : ∀ m m', ∑ x, (starRingEnd 𝕜) (u m x) * u m' x = if m = m' then 1 else 0)
    (vv : ∀ m m', ∑ y, (starRingEnd 𝕜) (v m y) * v m' y = if m = m' then 1 else 0)
    (tv : ∀ m x, ∑ y, A x y * (starRingEnd 𝕜) (v m y) = u m x * (s m : 𝕜)) :
    ∑ x, ∑ y, ‖A x y - ∑ m, u m x * (s m : 𝕜) * v m y‖ ^ 2 = ∑ x, ∑ y, ‖A x y‖ ^ 2 - ∑ m, s m ^ 2 := by
  have hv : Orthonormal 𝕜 fun m => (WithLp.toLp 2 (v m) : EuclideanSpace 𝕜 Y) :=
    orthonormal_iff_ite.2 fun m m' => by rw [inner_def, vv]
  have hx : ∀ x, ∑ y, ‖A x y - ∑ m, u m x * (s m : 𝕜) * v m y‖ ^ 2 = ∑ y, ‖A x y‖ ^ 2 - ∑ m, ‖u m x‖ ^ 2 * s m ^ 2 := by
    intro x
    have h1 := dist_sq hv (WithLp.toLp 2 (A x)) fun m => u m x * (s m : 𝕜)
    have h2 : ∀ m, inner 𝕜 (WithLp.toLp 2 (v m) : EuclideanSpace 𝕜 Y) (WithLp.toLp 2 (A x)) = u m x * (s m : 𝕜) := fun m => by
      rw [inner_def, ← tv m x]
      exact Finset.sum_congr rfl fun y _ => mul_comm _ _
    rw [sum_smul, ← WithLp.toLp_sub, norm_def, norm_def] at h1
    simp only [h2, sub_self, norm_zero, norm_mul, RCLike.norm_ofReal, mul_pow, sq_abs] at h1
    simp only [Pi.sub_apply] at h1
    rw [h1]
    simp
  simp only [hx]
  have a1 : ∑ x, ∑ m, ‖u m x‖ ^ 2 * s m ^ 2 = ∑ m, ∑ x, ‖u m x‖ ^ 2 * s m ^ 2 := Finset.sum_comm
  rw [Finset.sum_sub_distrib, a1]
  congr 1
  refine Finset.sum_congr rfl fun m _ => ?_
  rw [← Finset.sum_mul]
  have : ∑ x, ‖u m x‖ ^ 2 = 1 := by
    apply RCLike.ofReal_injective (K := 𝕜)
    push_cast
    have := uu m m
    rw [if_pos rfl] at this
    rw [← this]
    exact Finset.sum_congr rfl fun x _ => by rw [RCLike.conj_mul]
  rw [this, one_mul]

/-- no decomposition with as few terms is closer -/
theorem best [DecidableEq ι] {A : X → Y → 𝕜} {u : ι → X → 𝕜} {s : ι → ℝ} {v : ι → Y → 𝕜}
    (uu : ∀ m m', ∑ x, (starRingEnd 𝕜) (u m x) * u m' x = if m = m' then 1 else 0)
    (vv : ∀ m m', ∑ y, (starRingEnd 𝕜) (v m y) * v m' y = if m = m' then 1 else 0)
    (ut : ∀ m y, ∑ x, (starRingEnd 𝕜) (u m x) * A x y = (s m : 𝕜) * v m y)
    (tv : ∀ m x, ∑ y, A x y * (starRingEnd 𝕜) (v m y) = u m x * (s m : 𝕜))
    (lg : ∀ w : Y → 𝕜, (∀ m, ∑ y, v m y * w y = 0) → ∀ m, ∑ x, ‖∑ y, A x y * w y‖ ^ 2 ≤ s m ^ 2 * ∑ y, ‖w y‖ ^ 2)
    {κ : Type*} [Fintype κ] (hc : Fintype.card κ ≤ Fintype.card ι) (f : κ → X → 𝕜) (g : κ → Y → 𝕜) :
    ∑ x, ∑ y, ‖A x y - ∑ m, u m x * (s m : 𝕜) * v m y‖ ^ 2 ≤ ∑ x, ∑ y, ‖A x y - ∑ k, f k x * g k y‖ ^ 2 := by
  rw [error uu vv tv]
  set W := Submodule.span 𝕜 (Set.range fun k => (WithLp.toLp 2 (g k) : EuclideanSpace 𝕜 Y)) with hW
  set e := stdOrthonormalBasis 𝕜 W
  have he : Orthonormal 𝕜 fun i => (e i : EuclideanSpace 𝕜 Y) := e.orthonormal.comp_linearIsometry W.subtypeₗᵢ
  have hcard : Fintype.card (Fin (Module.finrank 𝕜 W)) ≤ Fintype.card ι := by
    rw [Fintype.card_fin]
    exact (finrank_range_le_card _).trans hc
  have h1 := ky_fan uu vv ut tv lg he hcard
  have h2 : ∀ x, ∑ y, ‖A x y‖ ^ 2 - ∑ i, ‖inner 𝕜 (e i : EuclideanSpace 𝕜 Y) (WithLp.toLp 2 (A x))‖ ^ 2 ≤
      ∑ y, ‖A x y - ∑ k, f k x * g k y‖ ^ 2 := by
    intro x
    have hb : ∑ k, f k x • (WithLp.toLp 2 (g k) : EuclideanSpace 𝕜 Y) ∈ W :=
      Submodule.sum_mem _ fun k _ => Submodule.smul_mem _ _ (Submodule.subset_span ⟨k, rfl⟩)
    have h3 := congrArg (fun z : W => (z : EuclideanSpace 𝕜 Y)) (e.sum_repr ⟨_, hb⟩)
    simp only [Submodule.coe_sum, Submodule.coe_smul] at h3
    obtain ⟨c, h3⟩ : ∃ c : Fin (Module.finrank 𝕜 W) → 𝕜, ∑ i, c i • (e i : EuclideanSpace 𝕜 Y) =
        ∑ k, f k x • (WithLp.toLp 2 (g k) : EuclideanSpace 𝕜 Y) := ⟨_, h3⟩
    have h4 := dist_sq he (WithLp.toLp 2 (A x)) c
    rw [h3, sum_smul, ← WithLp.toLp_sub, norm_def, norm_def] at h4
    simp only [Pi.sub_apply] at h4
    rw [h4]
    exact le_add_of_nonneg_right (Finset.sum_nonneg fun _ _ => sq_nonneg _)
  have h5 := Finset.sum_le_sum fun x (_ : x ∈ Finset.univ) => h2 x
  rw [Finset.sum_sub_distrib] at h5
  rw [Finset.sum_comm] at h1
  linarith

end

end QLPeps.EckartYoung
