import Verif.Spec.GradScale
import Verif.Props.McRun
import Verif.Props.SR
import Mathlib.Analysis.InnerProductSpace.PiL2

/-!
# Property C158: what the optimizer is given does not rescale the tensors of a site

Multiplying the tensors of one site by a number multiplies the state by it, and the energy does not
change. The estimates of energy gradient and natural gradient respect this sample by sample, not only
on average.
-/

open MeasureTheory ProbabilityTheory

namespace QLPeps.GradScale

universe u

open Spec
open QLPeps.McRun QLPeps.McRun.Spec QLPeps.Chain.Spec QLPeps.Contractor QLPeps.Energy QLPeps.Updaters
open QLPeps.ExactRun (Solver Solves overlapL solves_xxz solves_tfim solves_triangle)
open QLPeps.ExactRun.Spec (overlap along)
open QLPeps.SolverRun (pairSolver tfimSolver twoState ones_amplitude)
open QLPeps.SolverRun.Spec (amplitude)
open QLPeps.Evaluator (Sample logDeriv)
open QLPeps.Peps (Tn Lib)
open QLPeps.Bmps (idLib_lossless)
open QLPeps.Bmps.Spec (Lossless Fits value)
open QLPeps.Tps.Spec (Bond)
open QLPeps.Spec

noncomputable section

variable {𝕜 : Type u} [RCLike 𝕜] {rows cols : ℕ} {lib : Lib 𝕜} {dim : Bond .obc rows cols → ℕ}
  {sitps : QLPeps.Site → ℕ → Tn 𝕜}

/-- Every amplitude of the state moved by `t` along the direction is multiplied by `1 + t`. -/
theorem own_rescales (dim : Bond .obc rows cols → ℕ) (sitps : QLPeps.Site → ℕ → Tn 𝕜)
    (p : QLPeps.Tps.Spec.Site rows cols) (t : ℝ) (cfg : Config) :
    amplitude dim (along sitps (own sitps (p.1, p.2)) t) cfg = (1 + (t : 𝕜)) * amplitude dim sitps cfg := by
  change value dim _ = _ * value dim _
  unfold value
  rw [Finset.mul_sum]
  refine Finset.sum_congr rfl fun β _ => ?_
  rw [← Finset.mul_prod_erase Finset.univ _ (Finset.mem_univ p),
    ← Finset.mul_prod_erase Finset.univ (fun s => (project sitps cfg (s.1, s.2)).elem _) (Finset.mem_univ p),
    ← mul_assoc]
  congr 1
  · change (sitps _ _).elem _ + (t : 𝕜) * (if _ = _ then (sitps _ _).elem _ else 0) = (1 + (t : 𝕜)) * (sitps _ _).elem _
    rw [if_pos rfl]; ring
  · refine Finset.prod_congr rfl fun j hj => ?_
    have : ((j.1 : ℕ), (j.2 : ℕ)) ≠ ((p.1 : ℕ), (p.2 : ℕ)) := fun h =>
      (Finset.mem_erase.1 hj).1 (Prod.ext (Fin.ext (Prod.mk.inj h).1) (Fin.ext (Prod.mk.inj h).2))
    change (sitps _ _).elem _ + (t : 𝕜) * (if _ = _ then (sitps _ _).elem _ else 0) = (sitps _ _).elem _
    rw [if_neg this, mul_zero, add_zero]

theorem dpsi_own (p : QLPeps.Tps.Spec.Site rows cols) (s : SpinCfg rows cols) :
    dpsi dim sitps (own sitps (p.1, p.2)) s = amplitude dim sitps (toConfig s) := by
  unfold dpsi
  rw [Finset.sum_eq_single p]
  · change value dim _ = value dim _
    congr 1
    funext q
    by_cases h : q = ((p.1 : ℕ), (p.2 : ℕ))
    · subst h
      simp [own, project]
    · rw [Function.update_of_ne h]
  · intro q _ hq
    have hne : ((q.1 : ℕ), (q.2 : ℕ)) ≠ ((p.1 : ℕ), (p.2 : ℕ)) := fun h =>
      hq (Prod.ext (Fin.ext (Prod.mk.inj h).1) (Fin.ext (Prod.mk.inj h).2))
    unfold value
    refine Finset.sum_eq_zero fun β _ => Finset.prod_eq_zero (Finset.mem_univ q) ?_
    simp [own, hne]
  · simp

/-- **C158.** A sample's `O*` paired with the tensors of any site is one -/
theorem sample_own {H : (SpinCfg rows cols → 𝕜) → SpinCfg rows cols → 𝕜} {x : Sample QLPeps.Site (List ℕ) 𝕜}
    {s : SpinCfg rows cols} (hx : GoodSample dim sitps H x s) (h0 : amplitude dim sitps (toConfig s) ≠ 0)
    (p : QLPeps.Tps.Spec.Site rows cols) :
    overlapL rows cols 2 (own sitps (p.1, p.2)) (logDeriv x) = 1 := by
  have h1 := hx.amp
  have h2 : star (amplitude dim sitps (toConfig s)) ≠ 0 := star_ne_zero.2 h0
  rw [QLPeps.Evaluator.logDeriv_increment x (by rw [h1]; exact h0), map_smul, smul_eq_mul,
    hx.holes (own sitps (p.1, p.2)) (fun _ _ _ => rfl), dpsi_own, h1]
  rw [mul_comm (star _)]
  exact inv_mul_cancel₀ (mul_ne_zero h0 h2)

/-- What a run delivers, for every site of the lattice. -/
structure ScaleFree (rows cols n : ℕ) (sitps : QLPeps.Site → ℕ → Tn 𝕜) (o : Outcome 𝕜) : Prop where
  /-- the mean of `O*` has component one along the tensors of every site -/
  ostar : ∀ p : QLPeps.Tps.Spec.Site rows cols, overlap rows cols 2 (own sitps (p.1, p.2)) o.ostarMean = 1
  /-- the gradient has the same component along the tensors of all sites -/
  same : ∀ p q : QLPeps.Tps.Spec.Site rows cols, overlap rows cols 2 (own sitps (p.1, p.2)) o.gradient =
    overlap rows cols 2 (own sitps (q.1, q.2)) o.gradient
  /-- and none, if the samples of a rank fill the bins of the energy -/
  gradient : Nat.sqrt n ∣ n → ∀ p : QLPeps.Tps.Spec.Site rows cols,
    overlap rows cols 2 (own sitps (p.1, p.2)) o.gradient = 0

/-- **C158.** For every stream of random numbers and start of every rank for which the walker visits
states of nonzero amplitude only. -/
theorem run_scale_free (hl : Lossless lib) (hf : ∀ cfg : Config, Fits (project sitps cfg) dim) (u : Updater)
    (hb : Big u rows cols) (phys : ℕ) (ab : Option 𝕜 → ℝ)
    (H : (SpinCfg rows cols → 𝕜) → SpinCfg rows cols → 𝕜) (solver : Solver 𝕜) (writes : Bool)
    (hsol : ∀ s, amplitude dim sitps (toConfig s) ≠ 0 → Solves lib dim sitps solver H s) (between n : ℕ)
    (size : ℕ) (hsize : 0 < size) (hn : 0 < n) (ξ : Fin size → ℕ → ℝ) (c : Fin size → Config)
    (σ : Fin size → ℕ → SpinCfg rows cols)
    (hσ : ∀ i k, amplitude dim sitps (toConfig (σ i k)) ≠ 0 ∧
      EndsIn (walk dim sitps u phys ab (k * between) (ξ i) (c i)) (toConfig (σ i k))) :
    ∃ o, evaluate lib rows cols sitps u phys ab solver writes between n (List.ofFn fun i => (ξ i, c i)) = .ok o ∧
      ScaleFree rows cols n sitps o := by
  obtain ⟨o, h1, h2, h3⟩ := evaluate_eq hl hf u hb phys ab H solver writes hsol between n size hsize hn ξ c σ hσ
  have hx : ∀ (p : QLPeps.Tps.Spec.Site rows cols) i, ∀ k ∈ Finset.range n, overlapL rows cols 2 (own sitps (p.1, p.2))
      (logDeriv (smp lib rows cols sitps u phys ab solver writes between n k (ξ i) (c i))) = 1 := by
    intro p i k hk
    obtain ⟨l, -, -, h⟩ := smp_good hl hf u hb phys ab H solver writes hsol between n (ξ i) (c i) (σ i) (hσ i)
    exact sample_own (h k (Finset.mem_range.1 hk)).2 (hσ i (k + 1)).1 p
  have hcard : ((size * n : ℕ) : 𝕜) ≠ 0 := Nat.cast_ne_zero.2 (Nat.mul_pos hsize hn).ne'
  have hO : ∀ p : QLPeps.Tps.Spec.Site rows cols, overlapL rows cols 2 (own sitps (p.1, p.2)) o.ostarMean = 1 := by
    intro p
    rw [(h3 _).1]
    dsimp only
    rw [Finset.sum_congr rfl fun i _ => Finset.sum_congr rfl fun k hk => hx p i k hk]
    simp only [Finset.sum_const, Finset.card_range, Finset.card_univ, Fintype.card_fin, nsmul_eq_mul, mul_one]
    rw [← Nat.cast_mul, div_self hcard]
  have hG : ∀ p : QLPeps.Tps.Spec.Site rows cols, overlapL rows cols 2 (own sitps (p.1, p.2)) o.gradient =
      (∑ i, ∑ k ∈ Finset.range n, star (smp lib rows cols sitps u phys ab solver writes between n k
        (ξ i) (c i)).eloc) / ((size * n : ℕ) : 𝕜) - star o.energy := by
    intro p
    rw [(h3 _).2, hO, mul_one]
    refine congrArg (· / _ - _) (Finset.sum_congr rfl fun i _ => Finset.sum_congr rfl fun k hk => ?_)
    dsimp only
    rw [hx p i k hk, mul_one]
  refine ⟨o, h1, hO, fun p q => (hG p).trans (hG q).symm, fun hd p => (hG p).trans ?_⟩
  rw [h2, Nat.mod_eq_zero_of_dvd hd, Nat.sub_zero]
  simp only [star_div₀, star_sum, star_natCast, sub_self]

section
variable {S : Type*} [MeasurableSpace S] {μ : Measure S} [IsProbabilityMeasure μ]

/-- **C158.** Any model whose solver is exact, any of the three updaters, any number of ranks, samples
and sweeps between them, every rank in equilibrium. With probability one the run returns, and what it
returns does not rescale the tensors of a site. -/
theorem equilibrium_scale_free (hl : Lossless lib) (hf : ∀ cfg : Config, Fits (project sitps cfg) dim) (u : Updater)
    (hb : Big u rows cols) (phys : ℕ) (ab : Option 𝕜 → ℝ) (hab0 : ∀ z, 0 ≤ ab z)
    (hab : ∀ z, ab (some z) = ‖z‖)
    (H : (SpinCfg rows cols → 𝕜) → SpinCfg rows cols → 𝕜) (solver : Solver 𝕜) (writes : Bool)
    (hsol : ∀ s, amplitude dim sitps (toConfig s) ≠ 0 → Solves lib dim sitps solver H s) (between n : ℕ)
    (hn : 0 < n) (L : List (SpinCfg rows cols)) (Ω : Finset Config)
    (hΩL : ∀ c, c ∈ Ω ↔ ∃ s ∈ L, toConfig s = c) (hΩ : Stays u phys rows cols Ω)
    (size : ℕ) (hsize : 0 < size) (U : Fin size → ℕ → S → ℝ) (start : Fin size → S → Config)
    (hE : ∀ i, Equilibrium μ Ω (fun c => ‖amplitude dim sitps c‖ ^ 2) (U i) (start i)) :
    ∀ᵐ ω ∂μ, ∃ o, evaluate lib rows cols sitps u phys ab solver writes between n
      (List.ofFn fun i => ((fun j => U i j ω), start i ω)) = .ok o ∧ ScaleFree rows cols n sitps o := by
  have := ae_all_iff.2 fun i => ae_sigma u phys ab hab0 hab between L Ω hΩL hΩ (hE i)
  filter_upwards [this] with ω hω
  choose σ hσ using hω
  exact run_scale_free hl hf u hb phys ab H solver writes hsol between n size hsize hn
    (fun i j => U i j ω) (fun i => start i ω) σ fun i k => (hσ i k).2

/-- **C158.** For the XXZ and J1-J2 models, with or without a pinning field. -/
theorem xxz_scale_free (hl : Lossless lib) (hf : ∀ cfg : Config, Fits (project sitps cfg) dim) (upd : Updater)
    (hb : Big upd rows cols) (nnn : Bool) (jz jxy jz2 jxy2 pin : 𝕜) (h1 : star jz = jz)
    (h2 : star jxy = jxy) (h3 : star jz2 = jz2) (h4 : star jxy2 = jxy2) (h5 : star pin = pin)
    (isZero : 𝕜 → Bool) (hz : ∀ a, isZero a = true ↔ a = 0) (ab : Option 𝕜 → ℝ) (hab0 : ∀ z, 0 ≤ ab z)
    (hab : ∀ z, ab (some z) = ‖z‖) (writes : Bool) (between n : ℕ) (hn : 0 < n)
    (L : List (SpinCfg rows cols))
    (Ω : Finset Config) (hΩL : ∀ c, c ∈ Ω ↔ ∃ s ∈ L, toConfig s = c) (hΩ : Stays upd 2 rows cols Ω)
    (size : ℕ) (hsize : 0 < size) (U : Fin size → ℕ → S → ℝ) (start : Fin size → S → Config)
    (hE : ∀ i, Equilibrium μ Ω (fun c => ‖amplitude dim sitps c‖ ^ 2) (U i) (start i)) :
    ∀ᵐ ω ∂μ, ∃ o, evaluate lib rows cols sitps upd 2 ab
        (fun cfg => pairSolver lib rows cols sitps cfg isZero true (xxz nnn jz jxy jz2 jxy2 pin))
        writes between n (List.ofFn fun i => ((fun j => U i j ω), start i ω)) = .ok o ∧
      ScaleFree rows cols n sitps o := by
  have hb2 : 2 ≤ rows ∧ 2 ≤ cols := by
    cases upd <;> simp only [Big] at hb <;> omega
  exact equilibrium_scale_free hl hf upd hb 2 ab hab0 hab _ _ writes
    (fun s h0 => solves_xxz hl (fun cfg _ => hf cfg) hb2.1 hb2.2 nnn jz jxy jz2 jxy2 pin h1 h2 h3 h4 h5
      isZero hz s h0) between n hn L Ω hΩL hΩ size hsize U start hE

/-- **C158.** For the transverse-field Ising model. -/
theorem tfim_scale_free (hl : Lossless lib) (hf : ∀ cfg : Config, Fits (project sitps cfg) dim)
    (upd : Updater) (hb : Big upd rows cols) (h : 𝕜) (hh : star h = h)
    (ab : Option 𝕜 → ℝ) (hab0 : ∀ z, 0 ≤ ab z)
    (hab : ∀ z, ab (some z) = ‖z‖) (writes : Bool) (between n : ℕ) (hn : 0 < n)
    (L : List (SpinCfg rows cols))
    (Ω : Finset Config) (hΩL : ∀ c, c ∈ Ω ↔ ∃ s ∈ L, toConfig s = c) (hΩ : Stays upd 2 rows cols Ω)
    (size : ℕ) (hsize : 0 < size) (U : Fin size → ℕ → S → ℝ) (start : Fin size → S → Config)
    (hE : ∀ i, Equilibrium μ Ω (fun c => ‖amplitude dim sitps c‖ ^ 2) (U i) (start i)) :
    ∀ᵐ ω ∂μ, ∃ o, evaluate lib rows cols sitps upd 2 ab
        (fun cfg => tfimSolver lib rows cols sitps cfg true h)
        writes between n (List.ofFn fun i => ((fun j => U i j ω), start i ω)) = .ok o ∧
      ScaleFree rows cols n sitps o := by
  have hb2 : 2 ≤ rows ∧ 2 ≤ cols := by
    cases upd <;> simp only [Big] at hb <;> omega
  exact equilibrium_scale_free hl hf upd hb 2 ab hab0 hab _ _ writes
    (fun s h0 => solves_tfim hl (fun cfg _ => hf cfg) (by omega) hb2.2 h hh s h0) between n hn L Ω hΩL hΩ size hsize U start hE

end

/-- a nontrivial case: the J1-J2 model with pinning field on a 2×2 lattice of spins, in the sector of
two up spins; three ranks, nine samples each, which fill the three bins -/
example : ∃ (S : Type) (_ : MeasurableSpace S) (μ : Measure S) (U : Fin 3 → ℕ → S → ℝ)
    (start : Fin 3 → S → Config) (_ : IsProbabilityMeasure μ),
    ∀ᵐ ω ∂μ, ∃ o, evaluate QLPeps.Peps.idLib 2 2 (twoState 2 2 fun _ _ _ => (1 : ℝ)) .exchange 2
        (fun o => ‖o.getD 0‖)
        (fun cfg => pairSolver QLPeps.Peps.idLib 2 2 (twoState 2 2 fun _ _ _ => (1 : ℝ)) cfg
          (fun a => decide (a = 0)) true (xxz true 1 1 (1 / 2) (1 / 2) (1 / 3)))
        false 2 9 (List.ofFn fun i => ((fun j => U i j ω), start i ω)) = .ok o ∧
      ∀ p : QLPeps.Tps.Spec.Site 2 2,
        overlap 2 2 2 (own (twoState 2 2 fun _ _ _ => (1 : ℝ)) (p.1, p.2)) o.gradient = 0 := by
  classical
  let L := (Finset.univ.filter fun s : SpinCfg 2 2 => ∑ a, (s a : ℕ) = 2).toList
  let Ω : Finset Config := L.toFinset.image toConfig
  have hL : ∀ s, s ∈ L ↔ ∑ a, (s a : ℕ) = 2 := fun s => by
    rw [Finset.mem_toList, Finset.mem_filter]; exact and_iff_right (Finset.mem_univ s)
  have hΩL : ∀ c, c ∈ Ω ↔ ∃ s ∈ L, toConfig s = c := fun c => by
    simp only [Ω, Finset.mem_image, List.mem_toFinset]
  have hne : (∑ c ∈ Ω, ‖amplitude (QLPeps.Bmps.twoDim : Bond .obc 2 2 → ℕ)
      (twoState 2 2 fun _ _ _ => (1 : ℝ)) c‖ ^ 2) ≠ 0 := by
    simp only [ones_amplitude, Finset.sum_const, nsmul_eq_mul]
    have : Ω.Nonempty := by
      refine ⟨toConfig fun a => if (a : QLPeps.Site).1 = 0 then 1 else 0, (hΩL _).2 ⟨_, (hL _).2 ?_, rfl⟩⟩
      decide +kernel
    have h : (Ω.card : ℝ) ≠ 0 := Nat.cast_ne_zero.2 this.card_pos.ne'
    exact mul_ne_zero h (by norm_num)
  obtain ⟨S, mS, μ, U, start, hμ, hE⟩ := exists_equilibrium Ω _ (fun c => sq_nonneg _) hne
  refine ⟨S, mS, μ, fun _ => U, fun _ => start, hμ, ?_⟩
  have := xxz_scale_free (idLib_lossless (𝕜 := ℝ)) (dim := (QLPeps.Bmps.twoDim : Bond .obc 2 2 → ℕ))
    (sitps := twoState 2 2 fun _ _ _ => (1 : ℝ))
    (fun cfg => QLPeps.Bmps.twoNet_fits (rows := 2) (cols := 2) fun s _ => (1 : ℝ)) .exchange
    ⟨le_rfl, le_rfl⟩ true 1 1 (1 / 2) (1 / 2) (1 / 3) (by simp) (by simp) (by simp) (by simp) (by simp)
    (fun a => decide (a = 0)) (by simp) (fun o => ‖o.getD 0‖) (fun _ => norm_nonneg _) (fun _ => rfl) false 2 9
    (by omega) L Ω hΩL (C106_sector_stays L 2 hL Ω hΩL).1 3 (by omega) (fun _ => U) (fun _ => start) fun _ => hE
  filter_upwards [this] with ω hω
  obtain ⟨o, h1, h2⟩ := hω
  exact ⟨o, h1, h2.gradient (by rw [show Nat.sqrt 9 = 3 from Nat.sqrt_eq 3]; decide)⟩

/-! ## Exact summation -/

/-- **C158.** Exact summation over any list of configurations for which the solver is exact, complete or
not, on any number of processes: the gradient has no component along the tensors of any site. -/
theorem exact_scale_free (hl : Lossless lib) (hf : QLPeps.SolverRun.Spec.FitsAll dim sitps 2) (hr : 1 ≤ rows)
    (hc : 2 ≤ cols) (H : (SpinCfg rows cols → 𝕜) → SpinCfg rows cols → 𝕜) (L : List (SpinCfg rows cols))
    (solver : Solver 𝕜) (hsol : ∀ s ∈ L, Solves lib dim sitps solver H s) (size : ℕ) (hs : 0 < size) :
    ∃ e g, QLPeps.ExactRun.exactRun lib rows cols sitps solver (L.map toConfig) size = .ok (some (e, g)) ∧
      ∀ p : QLPeps.Tps.Spec.Site rows cols, overlap rows cols 2 (own sitps (p.1, p.2)) g = 0 := by
  have hx : ∀ s : SpinCfg rows cols, ∃ x : Sample QLPeps.Site (List ℕ) 𝕜, s ∈ L →
      QLPeps.ExactRun.sample lib rows cols sitps solver (toConfig s) = .ok x ∧
      ∀ p : QLPeps.Tps.Spec.Site rows cols, overlapL rows cols 2 (own sitps (p.1, p.2))
        (QLPeps.Evaluator.increment x) = ((‖x.amplitude‖ ^ 2 : ℝ) : 𝕜) := by
    intro s
    by_cases hs : s ∈ L
    · obtain ⟨c', e1, e2⟩ := QLPeps.Bmps.C99_initial_amplitude_exact hl
        (hf _ (QLPeps.SolverRun.toConfig_lt s)) hr hc QLPeps.Contractor.empty
      obtain ⟨r, e3, e4, e5, -, -⟩ := hsol s hs c' e2
      refine ⟨_, fun _ => ⟨QLPeps.ExactRun.sample_ok e1 e3, fun p => ?_⟩⟩
      refine (QLPeps.ExactRun.overlap_increment (own sitps (p.1, p.2)) sitps 2 (toConfig s)
        (QLPeps.SolverRun.toConfig_lt s) (fun _ _ _ => rfl) r.holes e5 _ _).trans ?_
      have := dpsi_own (dim := dim) (sitps := sitps) p s
      unfold dpsi at this
      rw [this, QLPeps.Evaluator.normSq_eq, mul_comm]
      exact mul_comm _ _
    · exact ⟨⟨fun _ => 0, 0, 0, fun _ _ => 0⟩, fun h => absurd h hs⟩
  choose x hx using hx
  have hmap := QLPeps.ExactRun.mapM_ok L toConfig (QLPeps.ExactRun.sample lib rows cols sitps solver) x
    fun s hs => (hx s hs).1
  let ev : ℕ → Sample QLPeps.Site (List ℕ) 𝕜 := fun i => (L.map x).getD i ⟨fun _ => 0, 0, 0, fun _ _ => 0⟩
  have hev : ∀ i ∈ Finset.range L.length, ∀ p : QLPeps.Tps.Spec.Site rows cols,
      overlapL rows cols 2 (own sitps (p.1, p.2)) (QLPeps.Evaluator.increment (ev i)) =
        ((‖(ev i).amplitude‖ ^ 2 : ℝ) : 𝕜) := by
    intro i hi p
    have hi' := Finset.mem_range.1 hi
    have : ev i = x L[i] := by
      simp only [ev]
      rw [List.getD_eq_getElem _ _ (by simpa using hi'), List.getElem_map]
    rw [this]
    exact (hx _ (List.getElem_mem hi')).2 p
  have hsum := QLPeps.Evaluator.exactSum_eq ev L.length size hs
  have hrun : QLPeps.ExactRun.exactRun lib rows cols sitps solver (L.map toConfig) size =
      .ok (QLPeps.Evaluator.exactSum ev L.length size) := by
    unfold QLPeps.ExactRun.exactRun
    rw [hmap]
    change Except.ok (QLPeps.Evaluator.exactSum ev (L.map toConfig).length size) = _
    rw [List.length_map]
  rw [hsum] at hrun
  refine ⟨_, _, hrun, fun p => ?_⟩
  · set W : ℝ := ∑ i ∈ Finset.range L.length, ‖(ev i).amplitude‖ ^ 2 with hW
    set E : 𝕜 := (∑ i ∈ Finset.range L.length, (ev i).eloc * ((‖(ev i).amplitude‖ ^ 2 : ℝ) : 𝕜)) / (W : 𝕜) with hE
    have hg : (fun r b y => ((∑ i ∈ Finset.range L.length, star (ev i).eloc * QLPeps.Evaluator.increment (ev i) r b y)
              - star E * ∑ i ∈ Finset.range L.length, QLPeps.Evaluator.increment (ev i) r b y)
              * ((1 / W : ℝ) : 𝕜)) =
        ((1 / W : ℝ) : 𝕜) • ((∑ i ∈ Finset.range L.length, star (ev i).eloc • QLPeps.Evaluator.increment (ev i))
          - star E • ∑ i ∈ Finset.range L.length, QLPeps.Evaluator.increment (ev i)) := by
      funext r b y
      simp only [Pi.smul_apply, Pi.sub_apply, Finset.sum_apply, smul_eq_mul]
      rw [mul_comm]
    refine (congrArg (overlap rows cols 2 (own sitps (p.1, p.2))) hg).trans ?_
    suffices h : overlapL rows cols 2 (own sitps (p.1, p.2)) (((1 / W : ℝ) : 𝕜) •
        ((∑ i ∈ Finset.range L.length, star (ev i).eloc • QLPeps.Evaluator.increment (ev i))
          - star E • ∑ i ∈ Finset.range L.length, QLPeps.Evaluator.increment (ev i))) = 0 from h
    rw [map_smul, map_sub, map_sum, map_smul, map_sum]
    simp only [map_smul, smul_eq_mul]
    rw [Finset.sum_congr rfl fun i hi => by rw [hev i hi p],
      Finset.sum_congr rfl fun i hi => hev i hi p, ← RCLike.ofReal_sum, ← hW]
    by_cases h0 : W = 0
    · simp [h0]
    · have h0' : (W : 𝕜) ≠ 0 := by rwa [Ne, RCLike.ofReal_eq_zero]
      rw [hE, star_div₀, star_sum, RCLike.star_def, RCLike.conj_ofReal, div_mul_cancel₀ _ h0']
      rw [Finset.sum_congr rfl fun i _ => show (starRingEnd 𝕜) (ev i).eloc * ((‖(ev i).amplitude‖ ^ 2 : ℝ) : 𝕜) =
          (starRingEnd 𝕜) ((ev i).eloc * ((‖(ev i).amplitude‖ ^ 2 : ℝ) : 𝕜)) by rw [map_mul, RCLike.conj_ofReal],
        sub_self, mul_zero]

/-- a nontrivial case: the J1-J2 model on an incomplete list of two configurations -/
example (s s' : SpinCfg 2 2) : ∃ e g, QLPeps.ExactRun.exactRun QLPeps.Peps.idLib 2 2
      (twoState 2 2 fun _ _ _ => (1 : ℝ))
      (fun cfg => pairSolver QLPeps.Peps.idLib 2 2 (twoState 2 2 fun _ _ _ => (1 : ℝ)) cfg
          (fun a => decide (a = 0)) true (xxz true 1 1 (1 / 2) (1 / 2) (1 / 3)))
      ([s, s'].map toConfig) 3 = .ok (some (e, g)) ∧
    ∀ p : QLPeps.Tps.Spec.Site 2 2,
        overlap 2 2 2 (own (twoState 2 2 fun _ _ _ => (1 : ℝ)) (p.1, p.2)) g = 0 := by
  have hf : QLPeps.SolverRun.Spec.FitsAll (QLPeps.Bmps.twoDim : Bond .obc 2 2 → ℕ)
      (twoState 2 2 fun _ _ _ => (1 : ℝ)) 2 :=
    fun cfg _ => QLPeps.Bmps.twoNet_fits (rows := 2) (cols := 2) fun s _ => (1 : ℝ)
  exact exact_scale_free (idLib_lossless (𝕜 := ℝ)) hf (by omega) le_rfl _ [s, s'] _
    (fun s _ => solves_xxz idLib_lossless hf le_rfl le_rfl true 1 1 (1 / 2) (1 / 2) (1 / 3) (by simp) (by simp)
      (by simp) (by simp) (by simp) (fun a => decide (a = 0)) (by simp) s (by rw [ones_amplitude]; norm_num)) 3 (by omega)

/-! ## Stochastic reconfiguration -/

section sr
open QLPeps.SR
variable {V : Type*} [NormedAddCommGroup V] [InnerProductSpace 𝕜 V]

theorem inner_mean (s : Multiset V) (hs : s.card ≠ 0) (v : V) (c : 𝕜) (h : ∀ o ∈ s, inner 𝕜 o v = c) :
    inner 𝕜 (mean 𝕜 s) v = c := by
  have e := inner_sum_left' (𝕜 := 𝕜) s id v
  rw [Multiset.map_id] at e
  simp only [id] at e
  unfold mean
  rw [inner_smul_left, e, Multiset.map_congr rfl (g := fun _ => c) (fun o ho => h o ho), Multiset.map_const', Multiset.sum_replicate,
    nsmul_eq_mul, ← mul_assoc, map_inv₀, map_natCast, inv_mul_cancel₀ (by exact_mod_cast hs), one_mul]

/-- **C158.** A direction in which all samples have the same component is one the S matrix does not
see: the product with it is the diagonal shift times it. -/
theorem smatrix_scale_free {P B : ℕ} (hP : 0 < P) (hB : 0 < B) (samples : Fin P → List V)
    (hlen : ∀ r, (samples r).length = B) (shift : 𝕜) (v w : V) (c : 𝕜)
    (h : ∀ r, ∀ o ∈ samples r, inner 𝕜 o v = c) (ha : Applied samples shift v w) : w = shift • v := by
  rw [C41_apply hP hB samples hlen] at ha
  subst ha
  have hcard : (all samples).card ≠ 0 := by
    rw [card_all samples hlen]; exact (Nat.mul_pos hB hP).ne'
  have hall : ∀ o ∈ all samples, inner 𝕜 o v = c := by
    intro o ho
    unfold all at ho
    obtain ⟨r, -, hr⟩ := Multiset.mem_sum.1 ho
    exact h r o (Multiset.mem_coe.1 hr)
  have hm := inner_mean (all samples) hcard v c hall
  unfold cov
  rw [Multiset.map_congr rfl (g := fun _ => (0 : V)) (fun o ho => by
    rw [inner_sub_left, hall o ho, hm, sub_self, zero_smul])]
  simp

/-- **C158.** Solutions of the shifted equations have no component along such a direction if the right
hand side has none. -/
theorem natural_scale_free {P B : ℕ} (hP : 0 < P) (hB : 0 < B) (samples : Fin P → List V)
    (hlen : ∀ r, (samples r).length = B) (shift : ℝ) (hs : shift ≠ 0) (v x g : V) (c : 𝕜)
    (h : ∀ r, ∀ o ∈ samples r, inner 𝕜 o v = c) (ha : Applied samples (shift : 𝕜) x g)
    (hg : inner 𝕜 v g = 0) : inner 𝕜 v x = 0 := by
  obtain ⟨w, hw⟩ : ∃ w, Applied samples (shift : 𝕜) v w := ⟨_, (C41_apply hP hB samples hlen _ _ _).2 rfl⟩
  have h1 := (C41_hermitian_and_bounded hP hB samples hlen shift v x w g hw ha).1
  rw [smatrix_scale_free hP hB samples hlen _ v w c h hw, hg, inner_smul_left] at h1
  have : (starRingEnd 𝕜) (shift : 𝕜) ≠ 0 := by simpa using hs
  exact (mul_eq_zero.1 h1).resolve_left this

/-- **C158.** The MinSR direction has no component along such a direction, whatever eigenvalues are
kept. -/
theorem minsr_scale_free {ι : Type*} [Fintype ι] [DecidableEq ι] [Nonempty ι] (O : ι → V) (E : ι → 𝕜) (z : ι → ι → 𝕜)
    (lamPlus : ι → ℝ) (v : V) (c : 𝕜) (h : ∀ i, inner 𝕜 (O i) v = c) :
    inner 𝕜 v (minsrDirection O E z lamPlus) = 0 := by
  have hm : inner 𝕜 (mean 𝕜 (samplesSet O)) v = c := inner_mean _ (by
    simp [samplesSet]) v c (by
      intro o ho
      obtain ⟨i, -, rfl⟩ := Multiset.mem_map.1 ho
      exact h i)
  unfold minsrDirection
  rw [backSubst_eq, inner_sum]
  refine Finset.sum_eq_zero fun i _ => ?_
  rw [inner_smul_right, ← inner_conj_symm, inner_sub_left, h, hm, sub_self, map_zero, mul_zero]

/-- a nontrivial case: two processes with two samples each, of component one along the first axis -/
example (x : EuclideanSpace ℝ (Fin 2))
    (hx : Applied (fun r : Fin 2 => [!₂[(1 : ℝ), r + 1], !₂[1, 3]]) (1 / 10 : ℝ) x !₂[0, 5]) :
    inner ℝ !₂[(1 : ℝ), 0] x = 0 := by
  refine natural_scale_free (𝕜 := ℝ) (by omega) (B := 2) (by omega) _ (fun _ => rfl) (1 / 10) (by norm_num) _ x
    !₂[0, 5] 1 ?_ hx ?_
  · intro r o ho
    fin_cases r <;> rcases List.mem_cons.1 ho with rfl | ho <;>
      simp_all [PiLp.inner_apply, Fin.sum_univ_two]
  · simp [PiLp.inner_apply, Fin.sum_univ_two]

example (E : Fin 3 → ℝ) (z : Fin 3 → Fin 3 → ℝ) (f : Fin 3 → ℝ) :
    inner ℝ !₂[(1 : ℝ), 0] (minsrDirection (fun i : Fin 3 => !₂[(1 : ℝ), (i : ℝ)]) E z f) = 0 :=
  minsr_scale_free _ E z f _ 1 fun i => by simp [PiLp.inner_apply, Fin.sum_univ_two]

end sr

end

end QLPeps.GradScale
