import Verif.Lemmas.State
import Mathlib.Analysis.InnerProductSpace.PiL2

/-!
# C78, C79, C80, C81: the tensor-product state as a vector, and the start-up of the engine
-/

namespace QLPeps.State

open Finset

variable {Ten : Type*} {𝕜 : Type*} [RCLike 𝕜] [NormedAddCommGroup Ten] [InnerProductSpace 𝕜 Ten]

/-! ## C78: arithmetic is linear algebra on all tensor entries -/

/-- C78. On states with the same lattice and `d` components at every site, the overloaded
operators succeed and act on every tensor of every site as vector addition, scaling, negation and
subtraction, whichever components are default-constructed. -/
theorem C78_state_arithmetic_is_linear {d : ℕ} {a b : Sitps Ten} (ha : Uniform d a)
    (hb : Uniform d b) (hr : b.rows = a.rows) (hc : b.cols = a.cols) (k : 𝕜) :
    Has (add a b) a d (fun r c i => a.vec r c i + b.vec r c i) ∧
    Has (addAssign a b) a d (fun r c i => a.vec r c i + b.vec r c i) ∧
    Has (sub a b) a d (fun r c i => a.vec r c i - b.vec r c i) ∧
    Has (subAssign a b) a d (fun r c i => a.vec r c i - b.vec r c i) ∧
    Has (neg a) a d (fun r c i => -a.vec r c i) ∧
    Has (smul k a) a d (fun r c i => k • a.vec r c i) ∧
    Has (smulAssign k a) a d (fun r c i => k • a.vec r c i) := by
  have hsub : Has (sub a b) a d (fun r c i => a.vec r c i - b.vec r c i) := by
    obtain ⟨n, hn, n1, n2, -, nu, nc⟩ := unary_uniform (fun x : Ten => -x) hb
    obtain ⟨s, hs, s1, s2, -, su, sc⟩ := binary_uniform addComp ha nu (n1.trans hr) (n2.trans hc)
    refine ⟨s, ?_, s1, s2, su, fun r _ c _ i hi => ?_⟩
    · rw [sub, neg, hn]; exact hs
    · rw [Sitps.vec, sc r c i hi, addComp_value, nc r c i hi,
        map_value _ neg_zero]
      exact (sub_eq_add_neg _ _).symm
  refine ⟨?_, ?_, hsub, hsub, ?_, ?_, ?_⟩
  · obtain ⟨s, hs, s1, s2, -, su, sc⟩ := binary_uniform addComp ha hb hr hc
    exact ⟨s, hs, s1, s2, su, fun r _ c _ i hi => by
      rw [Sitps.vec, sc r c i hi, addComp_value]; rfl⟩
  · obtain ⟨s, hs, s1, s2, -, su, sc⟩ := addAssign_uniform ha hb hr hc
    exact ⟨s, hs, s1, s2, su, fun r h1 c h2 i hi => by
      rw [Sitps.vec, sc r h1 c h2 i hi, addAssignComp_eq, addComp_value]; rfl⟩
  · obtain ⟨s, hs, s1, s2, -, su, sc⟩ := unary_uniform (fun x : Ten => -x) ha
    exact ⟨s, hs, s1, s2, su, fun r _ c _ i hi => by
      rw [Sitps.vec, sc r c i hi, map_value _ neg_zero]; rfl⟩
  · obtain ⟨s, hs, s1, s2, -, su, sc⟩ := unary_uniform (fun x : Ten => k • x) ha
    exact ⟨s, hs, s1, s2, su, fun r _ c _ i hi => by
      rw [Sitps.vec, sc r c i hi, map_value _ (smul_zero k)]; rfl⟩
  · obtain ⟨s, hs, s1, s2, -, su, sc⟩ := inPlace_uniform (fun x : Ten => k • x) ha
    exact ⟨s, hs, s1, s2, su, fun r h1 c h2 i hi => by
      rw [Sitps.vec, sc r h1 c h2 i hi, map_value _ (smul_zero k)]; rfl⟩

/-- C78. The inner product and the squared norm are those of the vector of all tensor entries. -/
theorem C78_inner_product_and_norm {d : ℕ} {a b : Sitps Ten} (ha : Uniform d a)
    (hb : Uniform d b) (hr : b.rows = a.rows) (hc : b.cols = a.cols) :
    dot (𝕜 := 𝕜) a b = some (∑ r ∈ range a.rows, ∑ c ∈ range a.cols, ∑ i ∈ range d,
      inner 𝕜 (a.vec r c i) (b.vec r c i)) ∧
    normSquare a = some (∑ r ∈ range a.rows, ∑ c ∈ range a.cols, ∑ i ∈ range d,
      ‖a.vec r c i‖ ^ 2) := by
  constructor
  · rw [dot, if_pos ⟨ha.has_self, ha.has hb hr hc⟩, triple_foldl, ha.phys]
    simp only [innerComp_value]; rfl
  · rw [normSquare, if_pos ha.has_self, triple_foldl, ha.phys]
    simp only [normSqComp_value]; rfl

/-- C78. The squared norm is the inner product of the state with itself. -/
theorem C78_norm_is_self_inner_product {d : ℕ} {a : Sitps Ten} (ha : Uniform d a) :
    ∃ x : ℝ, normSquare a = some x ∧ 0 ≤ x ∧ dot (𝕜 := 𝕜) a a = some (x : 𝕜) := by
  obtain ⟨h1, h2⟩ := C78_inner_product_and_norm (𝕜 := 𝕜) ha ha rfl rfl
  refine ⟨_, h2, sum_nonneg fun _ _ => sum_nonneg fun _ _ => sum_nonneg fun _ _ => by positivity, ?_⟩
  rw [h1]
  simp only [inner_self_eq_norm_sq_to_K, RCLike.ofReal_sum, RCLike.ofReal_pow]

/-- a state on a 1 × 2 lattice with a default-constructed component -/
def demo (bc : BC) : Sitps ℝ :=
  ⟨1, 2, bc, fun _ c => if c = 0 then [some 1, none] else [some 2, some (-3)]⟩

theorem demo_uniform (bc : BC) : Uniform 2 (demo bc) := by
  refine ⟨Nat.one_pos, Nat.two_pos, fun r _ c _ => ?_⟩
  simp only [demo]; split <;> rfl

example : Uniform 2 (demo .obc) ∧ Uniform 2 (demo .pbc) ∧ (demo .pbc).rows = (demo .obc).rows ∧
    (demo .pbc).cols = (demo .obc).cols ∧ (demo .obc).vec 0 1 1 = -3 ∧ (demo .obc).vec 0 0 1 = 0 :=
  ⟨demo_uniform _, demo_uniform _, rfl, rfl, rfl, rfl⟩

/-! ## C79: arithmetic and the boundary condition -/

/-- C79 (partial: only the in-place operators; see `C79_out_of_place_forgets_boundary` for the
others). `+=`, `*=` and the site rescalings keep the boundary condition. -/
theorem C79_in_place_keeps_boundary_partial {d : ℕ} {a b : Sitps Ten} (ha : Uniform d a)
    (hb : Uniform d b) (hr : b.rows = a.rows) (hc : b.cols = a.cols) (k : 𝕜) :
    (∃ s, addAssign a b = some s ∧ s.bc = a.bc) ∧ (∃ s, smulAssign k a = some s ∧ s.bc = a.bc) ∧
    (normalizeAll (𝕜 := 𝕜) a).1.bc = a.bc := by
  obtain ⟨s, h1, -, -, h2, -⟩ := addAssign_uniform ha hb hr hc
  obtain ⟨t, h3, -, -, h4, -⟩ := inPlace_uniform (fun x : Ten => k • x) ha
  refine ⟨⟨s, h1, h2⟩, ⟨t, h3, h4⟩, ?_⟩
  rw [normalizeAll_eq]
  exact (rescale_fold _ _ _ a [] (grid_nodup _ _)).2.2.1

/-- C79, negation. Every out-of-place operator, and `-=`, returns a state marked open, also for
periodic operands: adding, subtracting, negating or scaling periodic states loses the boundary
condition. -/
theorem C79_out_of_place_forgets_boundary {d : ℕ} {a b : Sitps Ten} (ha : Uniform d a)
    (hb : Uniform d b) (hr : b.rows = a.rows) (hc : b.cols = a.cols) (k : 𝕜)
    (hp : a.bc = .pbc) :
    (∃ s, add a b = some s ∧ s.bc ≠ a.bc) ∧ (∃ s, sub a b = some s ∧ s.bc ≠ a.bc) ∧
    (∃ s, subAssign a b = some s ∧ s.bc ≠ a.bc) ∧
    (∃ s, neg a = some s ∧ s.bc ≠ a.bc) ∧ (∃ s, smul k a = some s ∧ s.bc ≠ a.bc) := by
  have ne : BC.obc ≠ a.bc := by rw [hp]; decide
  have hsub : ∃ s, sub a b = some s ∧ s.bc ≠ a.bc := by
    obtain ⟨n, hn, n1, n2, -, nu, -⟩ := unary_uniform (fun x : Ten => -x) hb
    obtain ⟨s, hs, -, -, s3, -⟩ := binary_uniform addComp ha nu (n1.trans hr) (n2.trans hc)
    refine ⟨s, ?_, s3 ▸ ne⟩
    rw [sub, neg, hn]; exact hs
  refine ⟨?_, hsub, hsub, ?_, ?_⟩
  · obtain ⟨s, hs, -, -, s3, -⟩ := binary_uniform addComp ha hb hr hc
    exact ⟨s, hs, s3 ▸ ne⟩
  · obtain ⟨s, hs, -, -, s3, -⟩ := unary_uniform (fun x : Ten => -x) ha
    exact ⟨s, hs, s3 ▸ ne⟩
  · obtain ⟨s, hs, -, -, s3, -⟩ := unary_uniform (fun x : Ten => k • x) ha
    exact ⟨s, hs, s3 ▸ ne⟩

example : (demo .pbc).bc = .pbc ∧ ((smul (2 : ℝ) (demo .pbc)).map Sitps.bc) = some .obc := by
  refine ⟨rfl, ?_⟩
  obtain ⟨s, h, -, -, hb, -⟩ := unary_uniform (fun x : ℝ => (2 : ℝ) • x) (demo_uniform .pbc)
  rw [smul, h, Option.map_some, hb]

/-! ## C80: rescaling sites leaves the physical state alone -/

/-- The exact contraction of a network (sum over all bond states of the product of the entries of
the site tensors) is homogeneous in every site tensor, so the hypothesis of the theorems below is
met by what the amplitude stands for. -/
theorem exact_contraction_homogeneous {ι B : Type*} [Fintype ι] [Fintype B] (rows cols : ℕ)
    (leg : ℕ × ℕ → B → ι) :
    Homogeneous rows cols (fun t : ℕ × ℕ → EuclideanSpace 𝕜 ι =>
      ∑ β : B, ∏ r ∈ range rows ×ˢ range cols, t r (leg r β)) := by
  refine ⟨fun t t' h => ?_, fun t r c hr hc k => ?_⟩
  · refine sum_congr rfl fun β _ => prod_congr rfl fun s hs => ?_
    simp only [mem_product, mem_range] at hs
    rw [show s = (s.1, s.2) from rfl, h s.1 hs.1 s.2 hs.2]
  · rw [mul_sum]
    refine sum_congr rfl fun β _ => ?_
    have hm : (r, c) ∈ range rows ×ˢ range cols := by simp [hr, hc]
    rw [← mul_prod_erase _ _ hm, ← mul_prod_erase _ _ hm, Function.update_self, ← mul_assoc]
    congr 1
    refine prod_congr rfl fun s hs => ?_
    rw [Function.update_of_ne (mem_erase.1 hs).1]

/-- C80. `NormalizeSite` on a site with a nonzero tensor returns the norm of the site, makes the
squared norms of its components sum to one, changes no other site, and divides the amplitude of
every configuration by the returned number. -/
theorem C80_normalize_site {d : ℕ} {a : Sitps Ten} (ha : Uniform d a) (r c : ℕ) (hr : r < a.rows)
    (hc : c < a.cols) (hne : siteNormSq a r c d ≠ 0) (Ψ : (ℕ × ℕ → Ten) → 𝕜)
    (hΨ : Homogeneous a.rows a.cols Ψ) :
    (normalizeSite (𝕜 := 𝕜) (r, c) a).2 ^ 2 = siteNormSq a r c d ∧
    0 < (normalizeSite (𝕜 := 𝕜) (r, c) a).2 ∧
    siteNormSq (normalizeSite (𝕜 := 𝕜) (r, c) a).1 r c d = 1 ∧
    (∀ r' c', (r', c') ≠ (r, c) →
      (normalizeSite (𝕜 := 𝕜) (r, c) a).1.comps r' c' = a.comps r' c') ∧
    ∀ S, (((normalizeSite (𝕜 := 𝕜) (r, c) a).2 : ℝ) : 𝕜)
      * ampOf Ψ (normalizeSite (𝕜 := 𝕜) (r, c) a).1 S = ampOf Ψ a S := by
  obtain ⟨h1, h2⟩ := normalizeSite_spec (𝕜 := 𝕜) ha r c hr hc
  have pos : 0 < siteNormSq a r c d := lt_of_le_of_ne (siteNormSq_nonneg a r c d) (Ne.symm hne)
  have spos := Real.sqrt_pos.2 pos
  rw [h1, h2]
  refine ⟨Real.sq_sqrt pos.le, spos, ?_, fun r' c' h => by simp only [scaleSite, if_neg h], ?_⟩
  · rw [siteNormSq_scale, div_pow, one_pow, Real.sq_sqrt pos.le, one_div_mul_cancel hne]
  · intro S
    rw [scaleSite_amp Ψ hΨ _ r c hr hc, ← mul_assoc, ← RCLike.ofReal_mul,
      mul_one_div_cancel spos.ne', RCLike.ofReal_one, one_mul]

/-- C80. `NormalizeAllSite` on a state without a vanishing site makes every site normalised,
keeps lattice, boundary condition and number of components, and divides all amplitudes by one
positive number, so that every ratio of amplitudes is unchanged. -/
theorem C80_normalize_all {d : ℕ} {a : Sitps Ten} (ha : Uniform d a)
    (hne : ∀ r < a.rows, ∀ c < a.cols, siteNormSq a r c d ≠ 0) (Ψ : (ℕ × ℕ → Ten) → 𝕜)
    (hΨ : Homogeneous a.rows a.cols Ψ) :
    Uniform d (normalizeAll (𝕜 := 𝕜) a).1 ∧ (normalizeAll (𝕜 := 𝕜) a).1.rows = a.rows ∧
    (normalizeAll (𝕜 := 𝕜) a).1.cols = a.cols ∧ (normalizeAll (𝕜 := 𝕜) a).1.bc = a.bc ∧
    (∀ r < a.rows, ∀ c < a.cols, siteNormSq (normalizeAll (𝕜 := 𝕜) a).1 r c d = 1) ∧
    (∃ F : ℝ, 0 < F ∧ ∀ S, (F : 𝕜) * ampOf Ψ (normalizeAll (𝕜 := 𝕜) a).1 S = ampOf Ψ a S) ∧
    ∀ S S', ampOf Ψ (normalizeAll (𝕜 := 𝕜) a).1 S / ampOf Ψ (normalizeAll (𝕜 := 𝕜) a).1 S'
      = ampOf Ψ a S / ampOf Ψ a S' := by
  obtain ⟨h1, h2, h3, h4, -, h6, -, h8⟩ := rescale_fold
    (fun l : List (Option Ten) => ((1 / normOf l : ℝ) : 𝕜)) normOf
    ((List.range a.rows).flatMap fun r => (List.range a.cols).map fun c => (r, c)) a []
    (grid_nodup _ _)
  rw [← normalizeAll_eq] at h1 h2 h3 h4 h6 h8
  have npos : ∀ r < a.rows, ∀ c < a.cols, 0 < normOf (a.comps r c) := by
    intro r hr c hc
    rw [normOf_eq ha r c hr hc]
    exact Real.sqrt_pos.2 (lt_of_le_of_ne (siteNormSq_nonneg a r c d) (Ne.symm (hne r hr c hc)))
  have hF : ∃ F : ℝ, 0 < F ∧
      ∀ S, (F : 𝕜) * ampOf Ψ (normalizeAll (𝕜 := 𝕜) a).1 S = ampOf Ψ a S := by
    refine ⟨_, ?_, h8 a.rows a.cols Ψ hΨ ?_⟩
    · refine List.prod_pos fun x hx => ?_
      obtain ⟨p, hp, rfl⟩ := List.mem_map.1 hx
      obtain ⟨hr, hc⟩ := (mem_grid a.rows a.cols p.1 p.2).1 hp
      exact npos p.1 hr p.2 hc
    · intro p hp
      obtain ⟨hr, hc⟩ := (mem_grid a.rows a.cols p.1 p.2).1 hp
      refine ⟨hr, hc, ?_⟩
      rw [← RCLike.ofReal_mul, mul_one_div_cancel (npos p.1 hr p.2 hc).ne', RCLike.ofReal_one]
  refine ⟨h4 d ha, h1, h2, h3, fun r hr c hc => ?_, hF, ?_⟩
  · have e : siteNormSq (normalizeAll (𝕜 := 𝕜) a).1 r c d
        = siteNormSq (scaleSite ((1 / normOf (a.comps r c) : ℝ) : 𝕜) (r, c) a) r c d := by
      unfold siteNormSq Sitps.vec Sitps.comp
      rw [h6 r c ((mem_grid _ _ _ _).2 ⟨hr, hc⟩)]
    rw [e, siteNormSq_scale, normOf_eq ha r c hr hc, div_pow, one_pow,
      Real.sq_sqrt (siteNormSq_nonneg a r c d), one_div_mul_cancel (hne r hr c hc)]
  · obtain ⟨F, Fpos, hF⟩ := hF
    intro S S'
    have : (F : 𝕜) ≠ 0 := RCLike.ofReal_ne_zero.2 Fpos.ne'
    rw [← hF S, ← hF S', mul_div_mul_left _ _ this]

/-- C80. `ScaleMaxAbsForAllSite(aim)`, `aim > 0`, on a state with a nonzero entry at every site:
afterwards the largest entry modulus of every site is exactly `aim`, and every ratio of amplitudes
is unchanged. `maxAbs` is the largest entry modulus of a tensor. -/
theorem C80_scale_max_abs_all {d : ℕ} {a : Sitps Ten} (ha : Uniform d a) (maxAbs : Ten → ℝ)
    (hmax : ∀ (k : ℝ) (x : Ten), maxAbs ((k : 𝕜) • x) = |k| * maxAbs x) (aim : ℝ) (haim : 0 < aim)
    (hne : ∀ r < a.rows, ∀ c < a.cols, ∃ x, some x ∈ a.comps r c ∧ 0 < maxAbs x)
    (Ψ : (ℕ × ℕ → Ten) → 𝕜) (hΨ : Homogeneous a.rows a.cols Ψ) :
    Uniform d (scaleMaxAbsAll (𝕜 := 𝕜) maxAbs aim a).1 ∧
    (scaleMaxAbsAll (𝕜 := 𝕜) maxAbs aim a).1.bc = a.bc ∧
    (∀ r < a.rows, ∀ c < a.cols,
      (∀ x, some x ∈ (scaleMaxAbsAll (𝕜 := 𝕜) maxAbs aim a).1.comps r c → maxAbs x ≤ aim) ∧
      ∃ x, some x ∈ (scaleMaxAbsAll (𝕜 := 𝕜) maxAbs aim a).1.comps r c ∧ maxAbs x = aim) ∧
    (∃ F : ℝ, 0 < F ∧
      ∀ S, (F : 𝕜) * ampOf Ψ (scaleMaxAbsAll (𝕜 := 𝕜) maxAbs aim a).1 S = ampOf Ψ a S) ∧
    ∀ S S', ampOf Ψ (scaleMaxAbsAll (𝕜 := 𝕜) maxAbs aim a).1 S
        / ampOf Ψ (scaleMaxAbsAll (𝕜 := 𝕜) maxAbs aim a).1 S'
      = ampOf Ψ a S / ampOf Ψ a S' := by
  obtain ⟨-, -, h3, h4, -, h6, -, h8⟩ := rescale_fold
    (fun l : List (Option Ten) => ((aim / maxOf maxAbs l : ℝ) : 𝕜))
    (fun l => 1 / (aim / maxOf maxAbs l))
    ((List.range a.rows).flatMap fun r => (List.range a.cols).map fun c => (r, c)) a []
    (grid_nodup _ _)
  rw [← scaleMaxAbsAll_eq] at h3 h4 h6 h8
  have spec : ∀ r < a.rows, ∀ c < a.cols, 0 < maxOf maxAbs (a.comps r c) ∧
      (∀ x, some x ∈ a.comps r c → maxAbs x ≤ maxOf maxAbs (a.comps r c)) ∧
      ∃ x, some x ∈ a.comps r c ∧ maxAbs x = maxOf maxAbs (a.comps r c) := by
    intro r hr c hc
    obtain ⟨x, hx, h0⟩ := hne r hr c hc
    exact maxOf_spec maxAbs _ (maxOf_ne maxAbs _ hx h0)
  have hF : ∃ F : ℝ, 0 < F ∧
      ∀ S, (F : 𝕜) * ampOf Ψ (scaleMaxAbsAll (𝕜 := 𝕜) maxAbs aim a).1 S = ampOf Ψ a S := by
    refine ⟨_, ?_, h8 a.rows a.cols Ψ hΨ ?_⟩
    · refine List.prod_pos fun x hx => ?_
      obtain ⟨p, hp, rfl⟩ := List.mem_map.1 hx
      obtain ⟨hr, hc⟩ := (mem_grid a.rows a.cols p.1 p.2).1 hp
      have := (spec p.1 hr p.2 hc).1
      positivity
    · intro p hp
      obtain ⟨hr, hc⟩ := (mem_grid a.rows a.cols p.1 p.2).1 hp
      have := (spec p.1 hr p.2 hc).1
      refine ⟨hr, hc, ?_⟩
      rw [← RCLike.ofReal_mul, one_div_mul_cancel (by positivity), RCLike.ofReal_one]
  refine ⟨h4 d ha, h3, fun r hr c hc => ?_, hF, ?_⟩
  · obtain ⟨pos, hle, x, hx, he⟩ := spec r hr c hc
    have hcomps : (scaleMaxAbsAll (𝕜 := 𝕜) maxAbs aim a).1.comps r c
        = (a.comps r c).map
          (Option.map fun x => ((aim / maxOf maxAbs (a.comps r c) : ℝ) : 𝕜) • x) := by
      rw [h6 r c ((mem_grid _ _ _ _).2 ⟨hr, hc⟩)]
      simp only [scaleSite, if_true]
    have kpos : 0 < aim / maxOf maxAbs (a.comps r c) := by positivity
    constructor
    · intro y hy
      rw [hcomps, List.mem_map] at hy
      obtain ⟨z, hz, e⟩ := hy
      cases z with
      | none => simp at e
      | some z =>
        rw [Option.map_some, Option.some.injEq] at e
        rw [← e, hmax, abs_of_pos kpos, div_mul_eq_mul_div, div_le_iff₀ pos]
        exact mul_le_mul_of_nonneg_left (hle z hz) haim.le
    · refine ⟨((aim / maxOf maxAbs (a.comps r c) : ℝ) : 𝕜) • x, ?_, ?_⟩
      · rw [hcomps, List.mem_map]
        exact ⟨some x, hx, rfl⟩
      · rw [hmax, abs_of_pos kpos, he, div_mul_cancel₀ _ pos.ne']
  · obtain ⟨F, Fpos, hF⟩ := hF
    intro S S'
    have : (F : 𝕜) ≠ 0 := RCLike.ofReal_ne_zero.2 Fpos.ne'
    rw [← hF S, ← hF S', mul_div_mul_left _ _ this]

/-- C80. `NormalizeStateOrder1`: with the amplitudes of the configurations held by the ranks, at
least one of them nonzero, every rank rescales the state by the same number, all amplitudes are
divided by the largest modulus among the ranks, and the largest modulus becomes one. -/
theorem C80_normalize_order_one {d : ℕ} {a : Sitps Ten} (ha : Uniform d a)
    (Ψ : (ℕ × ℕ → Ten) → 𝕜) (hΨ : Homogeneous a.rows a.cols Ψ) (confs : List (ℕ × ℕ → ℕ))
    (hconf : ∀ S ∈ confs, ∀ s, S s < d) (hne : ∃ S ∈ confs, ampOf Ψ a S ≠ 0) :
    ∃ a', normalizeOrder1 (confs.map (ampOf Ψ a)) a = some a' ∧ Uniform d a' ∧ a'.bc = a.bc ∧
      a'.rows = a.rows ∧ a'.cols = a.cols ∧
      ∃ M : ℝ, 0 < M ∧ (∀ S, (∀ s, S s < d) → ampOf Ψ a' S = ampOf Ψ a S / (M : 𝕜)) ∧
        (∀ S ∈ confs, ‖ampOf Ψ a' S‖ ≤ 1) ∧ ∃ S ∈ confs, ‖ampOf Ψ a' S‖ = 1 := by
  obtain ⟨S0, hS0, hne⟩ := hne
  obtain ⟨m, hm, mpos, hmax, -, hpow⟩ := order1Factor_spec (a.rows * a.cols)
    (Nat.mul_pos ha.1 ha.2.1) (confs.map (ampOf Ψ a)) (List.mem_map_of_mem hS0) hne
  obtain ⟨a', h1, h2, h3, h4, h5, h6⟩ := inPlace_uniform (fun x : Ten =>
    ((order1Factor (a.rows * a.cols) (confs.map (ampOf Ψ a)) : ℝ) : 𝕜) • x) ha
  have hamp : ∀ S, (∀ s, S s < d) → ampOf Ψ a' S = ampOf Ψ a S / ((‖m‖ : ℝ) : 𝕜) := by
    intro S hS
    have := homogeneous_all Ψ hΨ
      ((order1Factor (a.rows * a.cols) (confs.map (ampOf Ψ a)) : ℝ) : 𝕜)
      (fun s => a.vec s.1 s.2 (S s)) (fun s => a'.vec s.1 s.2 (S s)) (by
        intro r hr c hc
        simp only [Sitps.vec]
        rw [h6 r hr c hc _ (hS _), map_value _ (smul_zero _)])
    rw [ampOf, this, ← RCLike.ofReal_pow, hpow, RCLike.ofReal_div, RCLike.ofReal_one,
      div_mul_eq_mul_div, one_mul]
    rfl
  have hnorm : ∀ S, (∀ s, S s < d) → ‖ampOf Ψ a' S‖ = ‖ampOf Ψ a S‖ / ‖m‖ := by
    intro S hS
    rw [hamp S hS, norm_div, RCLike.norm_ofReal, abs_of_pos mpos]
  refine ⟨a', h1, h5, h4, h2, h3, ‖m‖, mpos, hamp, fun S hS => ?_, ?_⟩
  · rw [hnorm S (hconf S hS), div_le_one mpos]
    exact hmax _ (List.mem_map_of_mem hS)
  · obtain ⟨S, hS, e⟩ := List.mem_map.1 hm
    refine ⟨S, hS, ?_⟩
    rw [hnorm S (hconf S hS), e, div_self mpos.ne']

/-- the product of the site tensors: the amplitude of a network with trivial bonds -/
def prodAmp (t : ℕ × ℕ → ℝ) : ℝ := t (0, 0) * t (0, 1)

theorem prodAmp_homogeneous : Homogeneous 1 2 prodAmp := by
  refine ⟨fun t t' h => ?_, fun t r c hr hc k => ?_⟩
  · simp only [prodAmp, h 0 (by omega) 0 (by omega), h 0 (by omega) 1 (by omega)]
  · obtain rfl : r = 0 := by omega
    have : c = 0 ∨ c = 1 := by omega
    rcases this with rfl | rfl <;> simp [prodAmp, Function.update, smul_eq_mul] <;> ring

/-- the hypotheses of the theorems of C80 hold for `demo` -/
example : (∀ r < (demo .pbc).rows, ∀ c < (demo .pbc).cols, siteNormSq (demo .pbc) r c 2 ≠ 0) ∧
    (∀ r < (demo .pbc).rows, ∀ c < (demo .pbc).cols, ∃ x, some x ∈ (demo .pbc).comps r c ∧ 0 < |x|) ∧
    ampOf prodAmp (demo .pbc) (fun s => if s = (0, 1) then 1 else 0) = -3 ∧
    Homogeneous (demo .pbc).rows (demo .pbc).cols prodAmp := by
  refine ⟨?_, ?_, ?_, prodAmp_homogeneous⟩
  · intro r _ c hc
    have : c = 0 ∨ c = 1 := by simp only [demo] at hc; omega
    rcases this with rfl | rfl <;>
      norm_num [siteNormSq, demo, Sitps.vec, Sitps.comp, Finset.sum_range_succ]
  · intro r _ c _
    by_cases h : c = 0
    · exact ⟨1, by simp [demo, h], by norm_num⟩
    · exact ⟨2, by simp [demo, h], by norm_num⟩
  · norm_num [ampOf, prodAmp, demo, Sitps.vec, Sitps.comp]

/-! ## C81: start-up of the ranks -/

section Engine
variable {Conf A : Type*}

/-- a configuration from which the rank can start: the wave function is constructed and its
amplitude is legal -/
def Startable (construct : Conf → Option A) (legal : A → Bool) (cfg : Conf) : Prop :=
  ∃ a, construct cfg = some a ∧ legal a = true

/-- C81. After a successful start-up there are as many ranks as before; each holds a startable
configuration with its amplitude; a rank whose own configuration is startable keeps it (and its
warm-up state), and every other rank has taken the configuration of the first startable rank and
is marked as not warmed up. -/
theorem C81_startup_ranks_valid (construct : Conf → Option A) (legal : A → Bool) (enabled : Bool)
    (ranks out : List (Rank Conf A)) (h : initRanks construct legal enabled ranks = .ok out) :
    out.length = ranks.length ∧ ∀ (i : ℕ) (r r' : Rank Conf A), ranks[i]? = some r →
      out[i]? = some r' →
      (construct r'.config = some r'.amp ∧ legal r'.amp = true ∧ r'.initValid = true) ∧
      (Startable construct legal r.config → r'.config = r.config ∧ r'.warmUp = r.warmUp) ∧
      (¬ Startable construct legal r.config → r'.warmUp = false ∧
        ∃ (j : ℕ) (src : Rank Conf A), ranks[j]? = some src ∧ r'.config = src.config ∧
          Startable construct legal src.config ∧
          ∀ k < j, ∀ q : Rank Conf A, ranks[k]? = some q →
            ¬ Startable construct legal q.config) := by
  have hT : ∀ r ∈ ranks.map (tried construct),
      (r.initValid && legal r.amp) = true → construct r.config = some r.amp := by
    intro r hr hv
    obtain ⟨q, -, rfl⟩ := List.mem_map.1 hr
    obtain ⟨a, h1, -, h3⟩ := (tried_valid construct legal q).1 hv
    rw [(tried_config construct q).1, h1, h3]
  have start : ∀ r : Rank Conf A, Startable construct legal r.config ↔
      ((tried construct r).initValid && legal (tried construct r).amp) = true := by
    intro r
    rw [tried_valid]
    constructor
    · rintro ⟨a, h1, h2⟩
      refine ⟨a, h1, h2, ?_⟩
      unfold tried tryConstruct; rw [h1]
    · rintro ⟨a, h1, h2, -⟩; exact ⟨a, h1, h2⟩
  obtain ⟨e1, e2⟩ := ensure_eq construct legal enabled _ hT
  change ensureValidity construct legal enabled (ranks.map (tried construct)) = .ok out at h
  by_cases hall : ∀ r ∈ ranks.map (tried construct), (r.initValid && legal r.amp) = true
  · rw [e1 hall, Startup.ok.injEq] at h
    subst h
    refine ⟨List.length_map _, fun i r r' hr hr' => ?_⟩
    rw [List.getElem?_map, hr, Option.map_some, Option.some.injEq] at hr'
    subst hr'
    have hv := hall _ (List.mem_map_of_mem (List.mem_of_getElem? hr))
    obtain ⟨a, h1, h2, h3⟩ := (tried_valid construct legal r).1 hv
    refine ⟨⟨?_, ?_, ?_⟩, fun _ => tried_config construct r, fun hn => absurd ((start r).2 hv) hn⟩
    · rw [(tried_config construct r).1, h1, h3]
    · rw [h3]; exact h2
    · exact (Bool.and_eq_true_iff.1 hv).1
  · obtain ⟨e3, e4⟩ := e2 hall
    cases enabled with
    | false => rw [e3 rfl] at h; cases h
    | true =>
      obtain ⟨e5, e6⟩ := e4 rfl
      cases hs : (ranks.map (tried construct))[((ranks.map (tried construct)).map
          fun r => r.initValid && legal r.amp).findIdx id]? with
      | none =>
        have : ∀ r ∈ ranks.map (tried construct), (r.initValid && legal r.amp) = false := by
          intro r hr
          by_contra hv
          rw [Bool.not_eq_false] at hv
          rw [List.getElem?_eq_none_iff] at hs
          have := List.findIdx_lt_length_of_exists (p := id)
            (xs := (ranks.map (tried construct)).map fun r => r.initValid && legal r.amp)
            ⟨true, List.mem_map.2 ⟨r, hr, hv⟩, rfl⟩
          rw [List.length_map] at this
          omega
        rw [e5 this] at h; cases h
      | some src =>
        rw [e6 src hs, Startup.ok.injEq] at h
        subst h
        have hlt : ((ranks.map (tried construct)).map
            fun r => r.initValid && legal r.amp).findIdx id < ranks.length := by
          by_contra hge
          rw [List.getElem?_eq_none (by rw [List.length_map]; exact not_lt.1 hge)] at hs
          simp at hs
        rw [List.getElem?_map, List.getElem?_eq_getElem hlt, Option.map_some,
          Option.some.injEq] at hs
        have hv := List.findIdx_getElem
          (xs := (ranks.map (tried construct)).map fun r => r.initValid && legal r.amp) (p := id)
          (w := by rw [List.length_map, List.length_map]; exact hlt)
        simp only [List.getElem_map, hs, id] at hv
        have hsrc := hT src (by rw [← hs]; exact List.mem_map_of_mem (List.getElem_mem _)) hv
        have hcfg := (tried_config construct (ranks[((ranks.map (tried construct)).map
            fun r => r.initValid && legal r.amp).findIdx id])).1
        rw [hs] at hcfg
        refine ⟨by simp, fun i r r' hr hr' => ?_⟩
        rw [List.getElem?_map, List.getElem?_map, hr, Option.map_some, Option.map_some,
          Option.some.injEq] at hr'
        subst hr'
        by_cases hvr : ((tried construct r).initValid && legal (tried construct r).amp) = true
        · obtain ⟨a, h1, h2, h3⟩ := (tried_valid construct legal r).1 hvr
          rw [rescued, if_pos hvr]
          refine ⟨⟨?_, ?_, ?_⟩, fun _ => tried_config construct r,
            fun hn => absurd ((start r).2 hvr) hn⟩
          · rw [(tried_config construct r).1, h1, h3]
          · rw [h3]; exact h2
          · exact (Bool.and_eq_true_iff.1 hvr).1
        · rw [rescued, if_neg hvr]
          refine ⟨⟨hsrc, (Bool.and_eq_true_iff.1 hv).2, rfl⟩,
            fun hn => absurd ((start r).1 hn) hvr, fun _ => ⟨rfl, _, _,
              List.getElem?_eq_getElem hlt, hcfg, ?_, ?_⟩⟩
          · exact ⟨src.amp, hcfg ▸ hsrc, (Bool.and_eq_true_iff.1 hv).2⟩
          · intro k hk q hq hst
            have := List.not_of_lt_findIdx (p := id) hk
            rw [List.getElem?_eq_some_iff] at hq
            obtain ⟨hkl, rfl⟩ := hq
            simp only [List.getElem_map, id] at this
            have h2 := (start _).1 hst
            rw [h2] at this
            simp at this

/-- C81. Start-up succeeds exactly when all configurations are startable, or the rescue is enabled
and at least one is; otherwise the program aborts. -/
theorem C81_startup_succeeds_iff (construct : Conf → Option A) (legal : A → Bool) (enabled : Bool)
    (ranks : List (Rank Conf A)) :
    (∃ out, initRanks construct legal enabled ranks = .ok out) ↔
      (∀ r ∈ ranks, Startable construct legal r.config) ∨
      (enabled = true ∧ ∃ r ∈ ranks, Startable construct legal r.config) := by
  have hT : ∀ r ∈ ranks.map (tried construct),
      (r.initValid && legal r.amp) = true → construct r.config = some r.amp := by
    intro r hr hv
    obtain ⟨q, -, rfl⟩ := List.mem_map.1 hr
    obtain ⟨a, h1, -, h3⟩ := (tried_valid construct legal q).1 hv
    rw [(tried_config construct q).1, h1, h3]
  have start : ∀ r : Rank Conf A, Startable construct legal r.config ↔
      ((tried construct r).initValid && legal (tried construct r).amp) = true := by
    intro r
    rw [tried_valid]
    constructor
    · rintro ⟨a, h1, h2⟩
      refine ⟨a, h1, h2, ?_⟩
      unfold tried tryConstruct; rw [h1]
    · rintro ⟨a, h1, h2, -⟩; exact ⟨a, h1, h2⟩
  have all_iff : (∀ r ∈ ranks.map (tried construct), (r.initValid && legal r.amp) = true) ↔
      ∀ r ∈ ranks, Startable construct legal r.config := by
    simp only [List.forall_mem_map, start]
  obtain ⟨e1, e2⟩ := ensure_eq construct legal enabled _ hT
  change (∃ out, ensureValidity construct legal enabled (ranks.map (tried construct)) = .ok out) ↔ _
  by_cases hall : ∀ r ∈ ranks.map (tried construct), (r.initValid && legal r.amp) = true
  · exact ⟨fun _ => Or.inl (all_iff.1 hall), fun _ => ⟨_, e1 hall⟩⟩
  · obtain ⟨e3, e4⟩ := e2 hall
    rw [all_iff] at hall
    cases enabled with
    | false =>
      rw [e3 rfl]
      constructor
      · rintro ⟨_, h⟩; cases h
      · rintro (h | ⟨h, -⟩)
        · exact absurd h hall
        · cases h
    | true =>
      obtain ⟨e5, e6⟩ := e4 rfl
      constructor
      · rintro ⟨out, h⟩
        refine Or.inr ⟨rfl, ?_⟩
        by_contra hn
        push Not at hn
        rw [e5] at h
        · cases h
        · simp only [List.forall_mem_map]
          intro r hr
          have := hn r hr
          rw [start] at this
          simpa using this
      · rintro (h | ⟨-, r, hr, hst⟩)
        · exact absurd h hall
        · have hlt := List.findIdx_lt_length_of_exists (p := id)
            (xs := (ranks.map (tried construct)).map fun r => r.initValid && legal r.amp)
            ⟨true, List.mem_map.2 ⟨_, List.mem_map_of_mem hr, (start r).1 hst⟩, rfl⟩
          rw [List.length_map] at hlt
          exact ⟨_, e6 _ (List.getElem?_eq_getElem hlt)⟩

/-- three ranks: the first cannot construct its wave function, the third has an illegal amplitude;
both are rescued with the configuration of the second -/
example :
    (match initRanks (Conf := ℕ) (A := ℕ) (fun c => if c = 0 then none else some (10 * c))
        (fun a => decide (a < 25)) true
        [⟨0, 0, false, true⟩, ⟨2, 0, false, true⟩, ⟨3, 0, false, true⟩] with
      | .ok out => out.map fun r => (r.config, r.amp, r.warmUp)
      | .abort => []) = [(2, 20, false), (2, 20, true), (2, 20, false)] := by
  decide

end Engine

end QLPeps.State
