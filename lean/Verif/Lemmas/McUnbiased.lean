import Verif.Lemmas.McMean
import Mathlib.Analysis.SpecialFunctions.Log.Deriv

/-! # Helper lemmas: expectations of the Monte Carlo evaluator -/

open MeasureTheory ProbabilityTheory

namespace QLPeps.McRun

universe u

open QLPeps.Contractor QLPeps.Bmps QLPeps.Bmps.Spec QLPeps.Sweep QLPeps.Chain QLPeps.Chain.Spec Spec
open QLPeps.Updaters
open QLPeps.Peps (Tn Lib)
open QLPeps.Tps.Spec (Bond)
open QLPeps.ExactRun (Solver Solves overlapL)
open QLPeps.SolverRun.Spec (amplitude FitsAll GoodHoles)
open QLPeps.Evaluator (Sample mcEnergy mcGradient mcOstarMean sampleMean logDeriv)
open QLPeps.Spec (SpinCfg toConfig)

noncomputable section

variable {𝕜 : Type u} [RCLike 𝕜] {rows cols : ℕ} {lib : Lib 𝕜} {dim : Bond .obc rows cols → ℕ}
  {sitps : QLPeps.Site → ℕ → Tn 𝕜} {S : Type*} [MeasurableSpace S] {μ : Measure S} [IsProbabilityMeasure μ]

theorem toConfig_injective : Function.Injective (toConfig (rows := rows) (cols := cols)) := by
  intro s s' h
  funext p
  have := congrFun h p.1
  unfold toConfig at this
  rw [dif_pos p.2, dif_pos p.2] at this
  exact Fin.ext this

theorem walk_samples {U : ℕ → S → ℝ} (hU : IidUniform μ U) (u : Updater) (phys : ℕ) (ab : Option 𝕜 → ℝ)
    (hab0 : ∀ z, 0 ≤ ab z) (hab : ∀ z, ab (some z) = ‖z‖) (Ω : Finset Config)
    (hΩ : Stays u phys rows cols Ω) (k : ℕ) :
    Samples μ U Ω (fun c => ‖amplitude dim sitps c‖ ^ 2) (walk dim sitps u phys ab k) := by
  have e : (fun c => ‖amplitude dim sitps c‖ ^ 2) =
      fun c => ab (some (value dim (project sitps c))) ^ 2 := by
    funext c; rw [hab]; rfl
  rw [e]
  cases u with
  | exchange =>
    exact C105_exchange_exact (fun c => some (value dim (project sitps c))) ab rows cols k 0 Ω hU hab0 hΩ
  | fullSpace =>
    exact C105_full_space_exact (fun c => some (value dim (project sitps c))) ab rows cols k 0 Ω hU hab0
      phys hΩ.1 hΩ.2
  | threeSite =>
    exact C105_three_site_exact (fun c => some (value dim (project sitps c))) ab rows cols k 0 Ω hU hab0 hΩ

theorem total_ne {Ω : Finset Config} {wt : Config → ℝ} {U : ℕ → S → ℝ} {start : S → Config}
    (hE : Equilibrium μ Ω wt U start) : ∑ c ∈ Ω, wt c ≠ 0 := by
  intro h0
  have h : μ.real (⋃ c ∈ Ω, {ω | start ω = c}) = ∑ c ∈ Ω, μ.real {ω | start ω = c} := by
    refine measureReal_biUnion_finset ?_ fun c _ => hE.measurable c
    intro a _ b _ hab
    exact Set.disjoint_left.2 fun ω h h' => hab (h.symm.trans h')
  have h1 : (⋃ c ∈ Ω, {ω | start ω = c}) = Set.univ := by
    ext ω
    simp only [Set.mem_iUnion, Set.mem_univ, iff_true]
    exact ⟨start ω, hE.mem ω, rfl⟩
  rw [h1, Finset.sum_eq_zero fun c hc => by
    rw [Measure.real, hE.law c hc, h0, div_zero]] at h
  simp at h

section

variable (hl : Lossless lib) (hf : ∀ cfg : Config, Fits (project sitps cfg) dim) (u : Updater)
    (hb : Big u rows cols) (phys : ℕ) (ab : Option 𝕜 → ℝ) (hab0 : ∀ z, 0 ≤ ab z)
    (hab : ∀ z, ab (some z) = ‖z‖)
    (H : (SpinCfg rows cols → 𝕜) → SpinCfg rows cols → 𝕜) (solver : Solver 𝕜) (writes : Bool)
    (hsol : ∀ s, amplitude dim sitps (toConfig s) ≠ 0 → Solves lib dim sitps solver H s) (between n : ℕ)
    (L : List (SpinCfg rows cols)) (Ω : Finset Config) (hΩL : ∀ c, c ∈ Ω ↔ ∃ s ∈ L, toConfig s = c)
    (hΩ : Stays u phys rows cols Ω)

/-- the `k`-th sample of a rank -/
def smp (lib : Lib 𝕜) (rows cols : ℕ) (sitps : QLPeps.Site → ℕ → Tn 𝕜) (u : Updater) (phys : ℕ)
    (ab : Option 𝕜 → ℝ) (solver : Solver 𝕜) (writes : Bool) (between n k : ℕ) (ξ : ℕ → ℝ) (c : Config) :
    Sample QLPeps.Site (List ℕ) 𝕜 :=
  match rankRun lib rows cols sitps u phys ab solver writes between n ξ c with
  | .ok l => l.getD k ⟨fun _ => 0, 0, 0, fun _ _ => 0⟩
  | .error _ => ⟨fun _ => 0, 0, 0, fun _ _ => 0⟩

include hab0 hab hΩL hΩ in
theorem ae_sigma {U : ℕ → S → ℝ} {start : S → Config}
    (hE : Equilibrium μ Ω (fun c => ‖amplitude dim sitps c‖ ^ 2) U start) :
    ∀ᵐ ω ∂μ, ∃ σ : ℕ → SpinCfg rows cols, ∀ k, σ k ∈ L ∧ amplitude dim sitps (toConfig (σ k)) ≠ 0 ∧
      EndsIn (walk dim sitps u phys ab (k * between) (fun j => U j ω) (start ω)) (toConfig (σ k)) := by
  have h : ∀ᵐ ω ∂μ, ∀ k, ∃ c' ∈ Ω, ‖amplitude dim sitps c'‖ ^ 2 ≠ 0 ∧
      ω ∈ endEvent U start (walk dim sitps u phys ab (k * between)) c' :=
    ae_all_iff.2 fun k => ae_end hE (walk_samples hE.stream u phys ab hab0 hab Ω hΩ _)
  filter_upwards [h] with ω hω
  choose c' h1 h2 h3 using hω
  choose σ h4 h5 using fun k => (hΩL (c' k)).1 (h1 k)
  refine ⟨σ, fun k => ⟨h4 k, fun h0 => h2 k ?_, ?_⟩⟩
  · rw [← h5 k, h0]; simp
  · rw [h5 k]; exact h3 k

include hl hf hb hsol in
theorem smp_good (ξ : ℕ → ℝ) (c : Config) (σ : ℕ → SpinCfg rows cols)
    (hσ : ∀ k, amplitude dim sitps (toConfig (σ k)) ≠ 0 ∧
      EndsIn (walk dim sitps u phys ab (k * between) ξ c) (toConfig (σ k))) :
    ∃ l, rankRun lib rows cols sitps u phys ab solver writes between n ξ c = .ok l ∧ l.length = n ∧
      ∀ k < n, l.getD k ⟨fun _ => 0, 0, 0, fun _ _ => 0⟩ =
          smp lib rows cols sitps u phys ab solver writes between n k ξ c ∧
        GoodSample dim sitps H (smp lib rows cols sitps u phys ab solver writes between n k ξ c)
          (σ (k + 1)) := by
  obtain ⟨l, h1, h2, h3⟩ := rankRun_ok hl hf u hb phys ab ξ c H solver writes hsol between n σ
    fun k _ _ => hσ k
  refine ⟨l, h1, h2, fun k hk => ?_⟩
  have e : smp lib rows cols sitps u phys ab solver writes between n k ξ c =
      l.getD k ⟨fun _ => 0, 0, 0, fun _ _ => 0⟩ := by
    unfold smp; rw [h1]
  obtain ⟨x, h4, h5⟩ := h3 k hk
  refine ⟨e.symm, ?_⟩
  rw [e, List.getD_eq_getElem?_getD, h4]
  exact h5

include hΩL in
theorem sum_image (f : SpinCfg rows cols → 𝕜) (wt : Config → 𝕜) :
    ∑ c ∈ Ω, wt c * Function.extend toConfig f 0 c = ∑ s ∈ L.toFinset, wt (toConfig s) * f s := by
  refine (Finset.sum_nbij toConfig ?_ ?_ ?_ ?_).symm
  · exact fun s hs => (hΩL _).2 ⟨s, List.mem_toFinset.1 hs, rfl⟩
  · exact fun _ _ _ _ h => toConfig_injective h
  · intro c hc
    obtain ⟨s, hs, e⟩ := (hΩL c).1 hc
    exact ⟨s, List.mem_toFinset.2 hs, e⟩
  · intro s _
    rw [toConfig_injective.extend_apply]

include hl hf hb hsol hab0 hab hΩL hΩ in
theorem integral_smp {U : ℕ → S → ℝ} {start : S → Config}
    (hE : Equilibrium μ Ω (fun c => ‖amplitude dim sitps c‖ ^ 2) U start)
    (F : Sample QLPeps.Site (List ℕ) 𝕜 → 𝕜) (f : SpinCfg rows cols → 𝕜)
    (hF : ∀ x s, GoodSample dim sitps H x s → amplitude dim sitps (toConfig s) ≠ 0 → F x = f s)
    (k : ℕ) (hk : k < n) :
    let X := fun ω => F (smp lib rows cols sitps u phys ab solver writes between n k (fun j => U j ω) (start ω))
    Integrable X μ ∧ ∫ ω, X ω ∂μ = ∑ s ∈ L.toFinset,
        ((‖amplitude dim sitps (toConfig s)‖ ^ 2 / ∑ c ∈ Ω, ‖amplitude dim sitps c‖ ^ 2 : ℝ) : 𝕜) * f s ∧
      ∀ᵐ ω ∂μ, ‖X ω‖ ≤ ∑ s ∈ L.toFinset, ‖f s‖ := by
  intro X
  have hX : ∀ᵐ ω ∂μ, ∃ σ ∈ L, amplitude dim sitps (toConfig σ) ≠ 0 ∧ X ω = f σ ∧
      EndsIn (walk dim sitps u phys ab ((k + 1) * between) (fun j => U j ω) (start ω)) (toConfig σ) := by
    filter_upwards [ae_sigma u phys ab hab0 hab between L Ω hΩL hΩ hE] with ω hω
    obtain ⟨σ, hσ⟩ := hω
    obtain ⟨l, -, -, h⟩ := smp_good hl hf u hb phys ab H solver writes hsol between n (fun j => U j ω)
      (start ω) σ fun k => (hσ k).2
    exact ⟨σ (k + 1), (hσ _).1, (hσ _).2.1, hF _ _ (h k hk).2 (hσ _).2.1, (hσ _).2.2⟩
  obtain ⟨h1, h2⟩ := integral_end hE
    (walk_samples hE.stream u phys ab hab0 hab Ω hΩ ((k + 1) * between)) (Function.extend toConfig f 0) X (by
      filter_upwards [hX] with ω hω c' _ _ hc'
      obtain ⟨σ, -, -, e1, e2⟩ := hω
      rw [EndsIn.unique hc' e2, toConfig_injective.extend_apply, e1])
  refine ⟨h1, ?_, ?_⟩
  · rw [h2]
    exact sum_image L Ω hΩL f fun c =>
      ((‖amplitude dim sitps c‖ ^ 2 / ∑ c ∈ Ω, ‖amplitude dim sitps c‖ ^ 2 : ℝ) : 𝕜)
  · filter_upwards [hX] with ω hω
    obtain ⟨σ, hσ, -, e1, -⟩ := hω
    rw [e1]
    exact Finset.single_le_sum (f := fun s => ‖f s‖) (fun s _ => norm_nonneg _) (List.mem_toFinset.2 hσ)

include hl hf hb hsol hab0 hab hΩL hΩ in
/-- the mean over all ranks and the first `m` samples of each -/
theorem integral_mean (size : ℕ) (hsize : 0 < size) {U : Fin size → ℕ → S → ℝ} {start : Fin size → S → Config}
    (hE : ∀ i, Equilibrium μ Ω (fun c => ‖amplitude dim sitps c‖ ^ 2) (U i) (start i))
    (F : Sample QLPeps.Site (List ℕ) 𝕜 → 𝕜) (f : SpinCfg rows cols → 𝕜)
    (hF : ∀ x s, GoodSample dim sitps H x s → amplitude dim sitps (toConfig s) ≠ 0 → F x = f s)
    (m : ℕ) (hm0 : 0 < m) (hm : m ≤ n) :
    let X := fun ω => (∑ i, ∑ k ∈ Finset.range m, F (smp lib rows cols sitps u phys ab solver writes between
      n k (fun j => U i j ω) (start i ω))) / ((size * m : ℕ) : 𝕜)
    Integrable X μ ∧ ∫ ω, X ω ∂μ = ∑ s ∈ L.toFinset,
        ((‖amplitude dim sitps (toConfig s)‖ ^ 2 / ∑ c ∈ Ω, ‖amplitude dim sitps c‖ ^ 2 : ℝ) : 𝕜) * f s ∧
      ∃ B : ℝ, ∀ᵐ ω ∂μ, ‖X ω‖ ≤ B := by
  intro X
  have h := fun (i : Fin size) (k : ℕ) (hk : k < m) => integral_smp hl hf u hb phys ab hab0 hab H solver writes
    hsol between n L Ω hΩL hΩ (hE i) F f hF k (hk.trans_le hm)
  have hi : ∀ i ∈ (Finset.univ : Finset (Fin size)), Integrable (fun ω => ∑ k ∈ Finset.range m,
      F (smp lib rows cols sitps u phys ab solver writes between
      n k (fun j => U i j ω) (start i ω))) μ :=
    fun i _ => integrable_finset_sum _ fun k hk => (h i k (Finset.mem_range.1 hk)).1
  have hn0 : ((size * m : ℕ) : 𝕜) ≠ 0 := by
    rw [Nat.cast_ne_zero]; positivity
  refine ⟨(integrable_finset_sum _ hi).div_const _, ?_, ?_⟩
  · change ∫ ω, _ / _ ∂μ = _
    rw [integral_div, integral_finset_sum _ hi]
    rw [Finset.sum_congr rfl fun i _ => by
      rw [integral_finset_sum _ fun k hk => (h i k (Finset.mem_range.1 hk)).1,
        Finset.sum_congr rfl fun k hk => (h i k (Finset.mem_range.1 hk)).2.1]]
    simp only [Finset.sum_const, Finset.card_range, Finset.card_univ, Fintype.card_fin, smul_smul]
    rw [nsmul_eq_mul, mul_div_cancel_left₀ _ hn0]
  · have hB : ∀ᵐ ω ∂μ, ∀ i, ∀ k : Fin m, ‖F (smp lib rows cols sitps u phys ab solver writes between
        n k (fun j => U i j ω) (start i ω))‖ ≤ ∑ s ∈ L.toFinset, ‖f s‖ :=
      ae_all_iff.2 fun i => ae_all_iff.2 fun k => (h i k k.2).2.2
    refine ⟨(∑ i : Fin size, ∑ k ∈ Finset.range m, ∑ s ∈ L.toFinset, ‖f s‖) / ‖((size * m : ℕ) : 𝕜)‖, ?_⟩
    filter_upwards [hB] with ω hω
    simp only [X]
    rw [norm_div]
    refine div_le_div_of_nonneg_right ?_ (norm_nonneg _)
    refine (norm_sum_le _ _).trans (Finset.sum_le_sum fun i _ => ?_)
    exact (norm_sum_le _ _).trans (Finset.sum_le_sum fun k hk => hω i ⟨k, Finset.mem_range.1 hk⟩)

theorem mapM_ofFn_ok {α β ε : Type*} (size : ℕ) (x : Fin size → α) (y : Fin size → β) (f : α → Except ε β)
    (h : ∀ i, f (x i) = .ok (y i)) : (List.ofFn x).mapM f = .ok (List.ofFn y) := by
  induction size with
  | zero => rfl
  | succ n ih =>
    rw [List.ofFn_succ, List.ofFn_succ, List.mapM_cons, h 0, ih _ _ fun i => h i.succ]
    rfl

include hl hf hb hsol in
/-- the results of a run in terms of its samples -/
theorem evaluate_eq (size : ℕ) (hsize : 0 < size) (hn : 0 < n) (ξ : Fin size → ℕ → ℝ) (c : Fin size → Config)
    (σ : Fin size → ℕ → SpinCfg rows cols)
    (hσ : ∀ i k, amplitude dim sitps (toConfig (σ i k)) ≠ 0 ∧
      EndsIn (walk dim sitps u phys ab (k * between) (ξ i) (c i)) (toConfig (σ i k))) :
    let x := fun i k => smp lib rows cols sitps u phys ab solver writes between n k (ξ i) (c i)
    let mean := fun (m : ℕ) (F : Sample QLPeps.Site (List ℕ) 𝕜 → 𝕜) =>
      (∑ i, ∑ k ∈ Finset.range m, F (x i k)) / ((size * m : ℕ) : 𝕜)
    ∃ o, evaluate lib rows cols sitps u phys ab solver writes between n (List.ofFn fun i => (ξ i, c i)) = .ok o ∧
      o.energy = mean (n - n % Nat.sqrt n) (·.eloc) ∧
      ∀ v, overlapL rows cols 2 v o.ostarMean = mean n (fun x => overlapL rows cols 2 v (logDeriv x)) ∧
        overlapL rows cols 2 v o.gradient =
          mean n (fun x => star x.eloc * overlapL rows cols 2 v (logDeriv x)) -
            star o.energy * overlapL rows cols 2 v o.ostarMean := by
  intro x mean
  choose l h1 h2 h3 using fun i => smp_good hl hf u hb phys ab H solver writes hsol between n (ξ i) (c i) (σ i) (hσ i)
  have hmap := mapM_ofFn_ok size (fun i => (ξ i, c i)) l
    (fun p => rankRun lib rows cols sitps u phys ab solver writes between n p.1 p.2) h1
  have hlen : ∀ a ∈ List.ofFn l, a.length = n := by
    intro a ha
    obtain ⟨i, rfl⟩ := (List.mem_ofFn' l a).1 ha
    exact h2 i
  have hne : List.ofFn l ≠ [] := by
    rw [Ne, List.ofFn_eq_nil_iff]; omega
  have hmean : ∀ m ≤ n, ∀ F : Sample QLPeps.Site (List ℕ) 𝕜 → 𝕜,
      sampleMean ((List.ofFn l).flatMap fun l => l.take m) F = mean m F := by
    intro m hm F
    rw [QLPeps.Evaluator.sampleMean_ofFn size n m l h2 hm ⟨fun _ => 0, 0, 0, fun _ _ => 0⟩ F]
    refine congrArg (· / _) (Finset.sum_congr rfl fun i _ => Finset.sum_congr rfl fun k hk => ?_)
    rw [(h3 i k ((Finset.mem_range.1 hk).trans_le hm)).1]
  have hflat : (List.ofFn l).flatten = (List.ofFn l).flatMap fun l => l.take n := by
    rw [← List.flatMap_id]
    refine List.flatMap_congr fun a ha => ?_
    rw [List.take_of_length_le (hlen a ha).le]; rfl
  have hO : ∀ v, overlapL rows cols 2 v (mcOstarMean n (List.ofFn l)) =
      mean n (fun x => overlapL rows cols 2 v (logDeriv x)) := by
    intro v
    have e : mcOstarMean n (List.ofFn l) =
        fun r b x => sampleMean (List.ofFn l).flatten fun s => 1 * logDeriv s r b x := by
      funext r b x
      simp only [one_mul]
      exact QLPeps.Evaluator.mcOstarMean_eq n _ hlen r b x
    rw [e, QLPeps.Evaluator.sampleMean_linear, hflat, hmean n le_rfl]
    simp only [one_mul]
  refine ⟨⟨mcEnergy (List.ofFn l), mcGradient n (List.ofFn l), mcOstarMean n (List.ofFn l)⟩, ?_, ?_, fun v => ⟨hO v, ?_⟩⟩
  · unfold evaluate
    rw [hmap]; rfl
  · dsimp only
    rw [QLPeps.Evaluator.mcEnergy_take n hn _ hne hlen, hmean _ (Nat.sub_le _ _)]
  · dsimp only
    have e : mcGradient n (List.ofFn l) =
        (fun r b x => sampleMean (List.ofFn l).flatten fun s => star s.eloc * logDeriv s r b x) -
          star (mcEnergy (List.ofFn l)) • mcOstarMean n (List.ofFn l) := by
      funext r b x
      rw [QLPeps.Evaluator.mcGradient_eq n _ hlen]
      simp only [Pi.sub_apply, Pi.smul_apply, smul_eq_mul]
      rw [QLPeps.Evaluator.mcOstarMean_eq n _ hlen]
    rw [e, map_sub, map_smul, QLPeps.Evaluator.sampleMean_linear, hflat, hmean n le_rfl, smul_eq_mul]

include hl hf hb hsol hab0 hab hΩL hΩ in
theorem unbiased (hL : L.Nodup) (hH : QLPeps.ExactRun.Herm H) (hcl : QLPeps.ExactRun.Spec.Closed H L)
    (size : ℕ) (hsize : 0 < size) (hn : 0 < n) {U : Fin size → ℕ → S → ℝ} {start : Fin size → S → Config}
    (hE : ∀ i, Equilibrium μ Ω (fun c => ‖amplitude dim sitps c‖ ^ 2) (U i) (start i)) :
    Unbiased μ dim sitps H L fun ω => evaluate lib rows cols sitps u phys ab solver writes between n
      (List.ofFn fun i => ((fun j => U i j ω), start i ω)) := by
  obtain ⟨M, hM, hherm⟩ := hH
  set ψ : SpinCfg rows cols → 𝕜 := fun s => amplitude dim sitps (toConfig s) with hψ
  set Z : ℝ := ∑ c ∈ Ω, ‖amplitude dim sitps c‖ ^ 2 with hZ
  have hZ0 : Z ≠ 0 := total_ne (hE ⟨0, hsize⟩)
  have hZ0' : (Z : 𝕜) ≠ 0 := by rwa [Ne, RCLike.ofReal_eq_zero]
  have hZL : Z = (L.map fun s => ‖ψ s‖ ^ 2).sum := by
    rw [← List.sum_toFinset _ hL, hZ]
    refine (Finset.sum_nbij toConfig ?_ ?_ ?_ ?_).symm
    · exact fun s hs => (hΩL _).2 ⟨s, List.mem_toFinset.1 hs, rfl⟩
    · exact fun _ _ _ _ h => toConfig_injective h
    · intro c hc
      obtain ⟨s, hs, e⟩ := (hΩL c).1 hc
      exact ⟨s, List.mem_toFinset.2 hs, e⟩
    · intro s _; rfl
  have hZW : Z = QLPeps.Evaluator.totalWeight (fun i => ψ (L.getD i 0)) L.length := by
    rw [hZL, ← QLPeps.ExactRun.sum_range_getD L 0]; rfl
  -- the samples
  have hae : ∀ᵐ ω ∂μ, ∃ σ : Fin size → ℕ → SpinCfg rows cols, ∀ i k, amplitude dim sitps (toConfig (σ i k)) ≠ 0 ∧
      EndsIn (walk dim sitps u phys ab (k * between) (fun j => U i j ω) (start i ω)) (toConfig (σ i k)) := by
    have := ae_all_iff.2 fun i => ae_sigma u phys ab hab0 hab between L Ω hΩL hΩ (hE i)
    filter_upwards [this] with ω hω
    choose σ hσ using hω
    exact ⟨σ, fun i k => (hσ i k).2⟩
  have hm0 : 0 < n - n % Nat.sqrt n := by
    have h1 : n % Nat.sqrt n < Nat.sqrt n := Nat.mod_lt _ (Nat.sqrt_pos.2 hn)
    have h2 := Nat.sqrt_le_self n
    omega
  -- the three kinds of means
  obtain ⟨iE, vE, ⟨B, bE⟩⟩ := integral_mean hl hf u hb phys ab hab0 hab H solver writes hsol between n L Ω hΩL hΩ
    size hsize hE (·.eloc) (fun s => star (H ψ s) / star (ψ s))
    (fun x s hx h0 => by
      have : star (amplitude dim sitps (toConfig s)) ≠ 0 := star_ne_zero.2 h0
      exact eq_div_of_mul_eq this hx.eloc) _ hm0 (Nat.sub_le _ _)
  have hld : ∀ (v : QLPeps.Site → ℕ → Tn 𝕜), (∀ s, ∀ k < 2, (v s k).shape = (sitps s k).shape) →
      ∀ x s, GoodSample dim sitps H x s → amplitude dim sitps (toConfig s) ≠ 0 →
        overlapL rows cols 2 v (logDeriv x) = star (dpsi dim sitps v s) / star (ψ s) := by
    intro v hv x s hx h0
    have h1 : x.amplitude = ψ s := hx.amp
    have h0' : ψ s ≠ 0 := h0
    have h2 : star (ψ s) ≠ 0 := star_ne_zero.2 h0
    rw [QLPeps.Evaluator.logDeriv_increment x (by rw [h1]; exact h0), map_smul, smul_eq_mul, hx.holes v hv, h1]
    change (ψ s * star (ψ s))⁻¹ * (star (dpsi dim sitps v s) * ψ s) = _
    field_simp
  have hmO := fun v hv => integral_mean hl hf u hb phys ab hab0 hab H solver writes hsol between n L Ω hΩL hΩ
    size hsize hE (fun x => overlapL rows cols 2 v (logDeriv x))
    (fun s => star (dpsi dim sitps v s) / star (ψ s)) (hld v hv) n hn le_rfl
  have hmG := fun v hv => integral_mean hl hf u hb phys ab hab0 hab H solver writes hsol between n L Ω hΩL hΩ
    size hsize hE (fun x => star x.eloc * overlapL rows cols 2 v (logDeriv x))
    (fun s => H ψ s / ψ s * (star (dpsi dim sitps v s) / star (ψ s)))
    (fun x s hx h0 => by
      rw [hld v hv x s hx h0]
      congr 1
      have : star (amplitude dim sitps (toConfig s)) ≠ 0 := star_ne_zero.2 h0
      rw [eq_div_of_mul_eq this hx.eloc, star_div₀, star_star, star_star]) n hn le_rfl
  -- weights
  have hw : ∀ s (g : 𝕜), ((‖amplitude dim sitps (toConfig s)‖ ^ 2 / Z : ℝ) : 𝕜) * (g / star (ψ s)) =
      g * ψ s / (Z : 𝕜) := by
    intro s g
    change ((‖ψ s‖ ^ 2 / Z : ℝ) : 𝕜) * (g / star (ψ s)) = _
    rw [RCLike.ofReal_div, QLPeps.Evaluator.normSq_eq]
    by_cases h0 : ψ s = 0
    · simp [h0]
    · have h2 : star (ψ s) ≠ 0 := star_ne_zero.2 h0
      field_simp
  obtain ⟨key, hen⟩ := QLPeps.ExactRun.energy_eq H L hL M hM hcl ψ
  have key' : ∀ s ∈ L.toFinset, H ψ s = ∑ s' ∈ L.toFinset, M s s' * ψ s' := by
    intro s hs
    rw [← key s (List.mem_toFinset.1 hs), QLPeps.ExactRun.sum_range_getD L 0 fun s' => M s s' * ψ s',
      ← List.sum_toFinset _ hL]
  have hreal : ∑ s ∈ L.toFinset, star (H ψ s) * ψ s = ∑ s ∈ L.toFinset, star (ψ s) * H ψ s := by
    rw [Finset.sum_congr rfl fun s hs => by rw [key' s hs, star_sum, Finset.sum_mul]]
    rw [Finset.sum_comm]
    refine Finset.sum_congr rfl fun s hs => ?_
    rw [key' s hs, Finset.mul_sum]
    refine Finset.sum_congr rfl fun s' _ => ?_
    rw [star_mul', hherm]; ring
  have hZ2 : (L.map fun s => star (ψ s) * ψ s).sum = (Z : 𝕜) := by
    rw [hZL, ← List.sum_toFinset _ hL, ← List.sum_toFinset _ hL, RCLike.ofReal_sum]
    exact Finset.sum_congr rfl fun s _ => (QLPeps.Evaluator.normSq_eq _).symm
  have hvE : ∑ s ∈ L.toFinset, ((‖amplitude dim sitps (toConfig s)‖ ^ 2 / Z : ℝ) : 𝕜) *
      (star (H ψ s) / star (ψ s)) = QLPeps.ExactRun.Spec.energy H L ψ := by
    rw [Finset.sum_congr rfl fun s _ => hw s _, ← Finset.sum_div, hreal]
    unfold QLPeps.ExactRun.Spec.energy
    rw [hZ2, ← List.sum_toFinset _ hL]
  rw [hvE] at vE
  let mean : ℕ → (Sample QLPeps.Site (List ℕ) 𝕜 → 𝕜) → S → 𝕜 := fun m F ω =>
    (∑ i, ∑ k ∈ Finset.range m, F (smp lib rows cols sitps u phys ab solver writes between n k
      (fun j => U i j ω) (start i ω))) / ((size * m : ℕ) : 𝕜)
  have hrun : ∀ᵐ ω ∂μ, ∃ o, evaluate lib rows cols sitps u phys ab solver writes between n
      (List.ofFn fun i => ((fun j => U i j ω), start i ω)) = .ok o ∧
      o.energy = mean (n - n % Nat.sqrt n) (·.eloc) ω ∧
      ∀ v, overlapL rows cols 2 v o.ostarMean = mean n (fun x => overlapL rows cols 2 v (logDeriv x)) ω ∧
        overlapL rows cols 2 v o.gradient =
          mean n (fun x => star x.eloc * overlapL rows cols 2 v (logDeriv x)) ω -
            star o.energy * overlapL rows cols 2 v o.ostarMean := by
    filter_upwards [hae] with ω hω
    obtain ⟨σ, hσ⟩ := hω
    exact evaluate_eq hl hf u hb phys ab H solver writes hsol between n size hsize hn
      (fun i j => U i j ω) (fun i => start i ω) σ hσ
  -- the variables of the statement agree with the means almost surely
  have aeE : ∀ E : S → 𝕜, (∀ ω o, evaluate lib rows cols sitps u phys ab solver writes between n
      (List.ofFn fun i => ((fun j => U i j ω), start i ω)) = .ok o → E ω = o.energy) →
      E =ᵐ[μ] mean (n - n % Nat.sqrt n) (·.eloc) := by
    intro E hEE
    filter_upwards [hrun] with ω hω
    obtain ⟨o, h1, h2, -⟩ := hω
    rw [hEE ω o h1, h2]
  have aeO : ∀ v (O : S → 𝕜), (∀ ω o, evaluate lib rows cols sitps u phys ab solver writes between n
      (List.ofFn fun i => ((fun j => U i j ω), start i ω)) = .ok o →
        O ω = QLPeps.ExactRun.Spec.overlap rows cols 2 v o.ostarMean) →
      O =ᵐ[μ] mean n (fun x => overlapL rows cols 2 v (logDeriv x)) := by
    intro v O hO
    filter_upwards [hrun] with ω hω
    obtain ⟨o, h1, -, h2⟩ := hω
    exact (hO ω o h1).trans (h2 v).1
  have hderiv := fun (v : QLPeps.Site → ℕ → Tn 𝕜) (s : SpinCfg rows cols) =>
    QLPeps.ExactRun.amplitude_deriv dim sitps v (toConfig s)
  have h00 : ∀ v : QLPeps.Site → ℕ → Tn 𝕜, ∀ s : SpinCfg rows cols,
      amplitude dim (QLPeps.ExactRun.Spec.along sitps v 0) (toConfig s) = ψ s := by
    intro v s
    change value dim _ = value dim _
    congr 1
    funext p
    simp [project, QLPeps.ExactRun.Spec.along]
  refine ⟨?_, ?_, ?_, ?_⟩
  · filter_upwards [hrun] with ω hω
    obtain ⟨o, h, -⟩ := hω
    exact ⟨o, h⟩
  · intro E hEE
    have e := aeE E hEE
    exact ⟨(integrable_congr e).2 iE, (integral_congr_ae e).trans vE⟩
  · intro v O hv hO
    have e := aeO v O hO
    obtain ⟨iO, vO, -⟩ := hmO v hv
    refine ⟨(integrable_congr e).2 iO, ?_⟩
    rw [integral_congr_ae e, vO]
    rw [Finset.sum_congr rfl fun s _ => hw s _, ← Finset.sum_div]
    have hsum : HasDerivAt (fun t : ℝ => (L.map fun s =>
        ‖amplitude dim (QLPeps.ExactRun.Spec.along sitps v t) (toConfig s)‖ ^ 2).sum)
        (∑ s ∈ L.toFinset, 2 * RCLike.re (star (dpsi dim sitps v s) * ψ s)) 0 := by
      have e1 : (fun t : ℝ => (L.map fun s =>
          ‖amplitude dim (QLPeps.ExactRun.Spec.along sitps v t) (toConfig s)‖ ^ 2).sum) =
          fun t => ∑ s ∈ L.toFinset,
            ‖amplitude dim (QLPeps.ExactRun.Spec.along sitps v t) (toConfig s)‖ ^ 2 := by
        funext t; rw [← List.sum_toFinset _ hL]
      rw [e1]
      refine HasDerivAt.fun_sum fun s _ => ?_
      have e2 := (hderiv v s).star.mul (hderiv v s)
      have e3 := (RCLike.reCLM (K := 𝕜)).hasFDerivAt.comp_hasDerivAt (0 : ℝ) e2
      have e4 : (fun t : ℝ => ‖amplitude dim (QLPeps.ExactRun.Spec.along sitps v t) (toConfig s)‖ ^ 2) =
          (⇑(RCLike.reCLM (K := 𝕜))) ∘ fun t : ℝ => star (amplitude dim (QLPeps.ExactRun.Spec.along sitps v t) (toConfig s)) *
            amplitude dim (QLPeps.ExactRun.Spec.along sitps v t) (toConfig s) := by
        funext t
        simp only [Function.comp, RCLike.reCLM_apply]
        rw [← QLPeps.Evaluator.normSq_eq, RCLike.ofReal_re]
      rw [e4]
      refine e3.congr_deriv ?_
      rw [h00 v s]
      change RCLike.re (star (dpsi dim sitps v s) * ψ s + star (ψ s) * dpsi dim sitps v s) = _
      rw [map_add, two_mul]
      congr 1
      rw [← RCLike.conj_re, ← RCLike.star_def, star_mul', star_star, mul_comm]
    have h2 := hsum.log (by
      rw [show (L.map fun s => ‖amplitude dim (QLPeps.ExactRun.Spec.along sitps v 0) (toConfig s)‖ ^ 2).sum = Z from by
        rw [hZL]; simp only [h00]]
      exact hZ0)
    refine h2.congr_deriv ?_
    rw [show (L.map fun s => ‖amplitude dim (QLPeps.ExactRun.Spec.along sitps v 0) (toConfig s)‖ ^ 2).sum = Z from by
        rw [hZL]; simp only [h00]]
    rw [← Finset.mul_sum, mul_div_assoc]
    congr 1
    rw [← map_sum, ← RCLike.ofReal_re (K := 𝕜) Z]
    rw [RCLike.ofReal_re, RCLike.div_re_ofReal]
  · intro h0 v E O G hv hEOG
    have eE := aeE E fun ω o h => (hEOG ω o h).1
    have eO := aeO v O fun ω o h => (hEOG ω o h).2.1
    have eG : G =ᵐ[μ] fun ω => mean n (fun x => star x.eloc * overlapL rows cols 2 v (logDeriv x)) ω -
        star (E ω) * O ω := by
      filter_upwards [hrun] with ω hω
      obtain ⟨o, h1, -, h2⟩ := hω
      obtain ⟨a1, a2, a3⟩ := hEOG ω o h1
      rw [a1, a2]
      exact a3.trans (h2 v).2
    obtain ⟨iO, vO, -⟩ := hmO v hv
    obtain ⟨iG, vG, -⟩ := hmG v hv
    have iO' : Integrable O μ := (integrable_congr eO).2 iO
    have iE' : Integrable E μ := (integrable_congr eE).2 iE
    have bE' : ∀ᵐ ω ∂μ, ‖star (E ω)‖ ≤ B := by
      filter_upwards [bE, eE] with ω h1 h2
      rw [norm_star, h2]; exact h1
    have iEO : Integrable (fun ω => star (E ω) * O ω) μ :=
      iO'.bdd_mul (continuous_star.comp_aestronglyMeasurable iE'.aestronglyMeasurable) bE'
    refine ⟨(integrable_congr eG).2 (iG.sub iEO), ?_⟩
    rw [integral_congr_ae eG, integral_sub iG iEO, integral_congr_ae eO, integral_congr_ae eE, vO, vG, vE]
    have hd := QLPeps.Evaluator.energy_deriv (fun i j => M (L.getD i 0) (L.getD j 0)) L.length
      (fun i j => hherm _ _)
      (fun t i => amplitude dim (QLPeps.ExactRun.Spec.along sitps v t) (toConfig (L.getD i 0)))
      (fun i => dpsi dim sitps v (L.getD i 0)) (fun i => hderiv v (L.getD i 0))
      (by simp only [h00]; rw [← hZW]; exact hZ0)
    have hfun : (fun t => QLPeps.ExactRun.Spec.energy H L
        fun s => amplitude dim (QLPeps.ExactRun.Spec.along sitps v t) (toConfig s)) =
        fun t => QLPeps.Evaluator.energyOf (fun i j => M (L.getD i 0) (L.getD j 0)) L.length
          fun i => amplitude dim (QLPeps.ExactRun.Spec.along sitps v t) (toConfig (L.getD i 0)) := by
      funext t
      exact ((QLPeps.ExactRun.energy_eq H L hL M hM hcl
        fun s => amplitude dim (QLPeps.ExactRun.Spec.along sitps v t) (toConfig s)).2).symm
    rw [hfun]
    refine hd.congr_deriv ?_
    simp only [h00]
    congr 3
    rw [← hZW, hen, sub_add_sub_cancel]
    rw [Finset.sum_congr rfl fun s _ => hw s _]
    rw [QLPeps.ExactRun.sum_range_getD L 0 fun s => star (dpsi dim sitps v s) *
      ((∑ j ∈ Finset.range L.length, M s (L.getD j 0) * ψ (L.getD j 0)) -
        star (QLPeps.ExactRun.Spec.energy H L ψ) * ψ s), ← List.sum_toFinset _ hL, Finset.mul_sum,
      ← Finset.sum_sub_distrib, Finset.sum_div]
    refine Finset.sum_congr rfl fun s hs => ?_
    have hs' := List.mem_toFinset.1 hs
    have hn0 : ψ s ≠ 0 := h0 s hs'
    rw [key s hs', mul_div_assoc' (H ψ s / ψ s), hw]
    field_simp

end

end

end QLPeps.McRun
