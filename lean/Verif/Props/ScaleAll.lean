import Verif.Spec.ScaleAll
import Verif.Props.ScaleRun
import Verif.Model.State

/-!
# Property C163: normalizing the state does not change what a run measures

The engine multiplies all site tensors by one positive number so that the largest amplitude of the ranks has
absolute value one. More generally the tensors of every site may be multiplied by a nonzero number of the site:
with the same random numbers the run visits the same configurations and measures the same energy, and the
gradient and the mean of `O*` are divided by the complex conjugates of the numbers.
-/

open MeasureTheory ProbabilityTheory

namespace QLPeps.ScaleAll

universe u

open Spec
open QLPeps.ScaleRun (SameUpTo sweeps_hom onAmp delta overlap_delta scale_one)
open QLPeps.ScaleRun.Spec (scaleSite)
open QLPeps.McRun QLPeps.McRun.Spec QLPeps.Chain.Spec QLPeps.Contractor QLPeps.Energy QLPeps.Updaters
open QLPeps.ExactRun (Solver Solves overlapL solves_xxz solves_tfim herm_xxz herm_tfim Herm)
open QLPeps.ExactRun.Spec (overlap)
open QLPeps.SolverRun (pairSolver tfimSolver twoState ones_amplitude)
open QLPeps.SolverRun.Spec (amplitude)
open QLPeps.Evaluator (Sample logDeriv)
open QLPeps.Peps (Tn Lib)
open QLPeps.Bmps (idLib_lossless)
open QLPeps.Bmps.Spec (Lossless Fits value)
open QLPeps.Tps.Spec (Bond)
open QLPeps.Spec

noncomputable section

variable {𝕜 : Type u} [RCLike 𝕜] {rows cols : ℕ} {lib : Lib 𝕜} {dim : Bond .obc rows cols → ℕ}
  {sitps : QLPeps.Site → ℕ → Tn 𝕜}

/-- the product of the numbers -/
def total (rows cols : ℕ) (κ : QLPeps.Site → 𝕜) : 𝕜 := ∏ q : QLPeps.Tps.Spec.Site rows cols, κ (q.1, q.2)

theorem total_ne {κ : QLPeps.Site → 𝕜} (hκ : ∀ s, κ s ≠ 0) : total rows cols κ ≠ 0 :=
  Finset.prod_ne_zero_iff.2 fun _ _ => hκ _

theorem value_scale (κ : QLPeps.Site → 𝕜) (t t' : QLPeps.Site → Tn 𝕜)
    (h : ∀ s x, (t' s).elem x = κ s * (t s).elem x) : value dim t' = total rows cols κ * value dim t := by
  unfold value total
  rw [Finset.mul_sum]
  refine Finset.sum_congr rfl fun β _ => ?_
  rw [← Finset.prod_mul_distrib]
  exact Finset.prod_congr rfl fun j _ => h _ _

/-- All amplitudes are multiplied by the product of the numbers. -/
theorem amplitude_scale (κ : QLPeps.Site → 𝕜) (cfg : Config) :
    amplitude dim (scaleBy κ sitps) cfg = total rows cols κ * amplitude dim sitps cfg :=
  value_scale κ _ _ fun _ _ => rfl

theorem dpsi_scale {κ : QLPeps.Site → 𝕜} (hκ : ∀ s, κ s ≠ 0) (v : QLPeps.Site → ℕ → Tn 𝕜)
    (s : SpinCfg rows cols) : dpsi dim (scaleBy κ sitps) v s =
      total rows cols κ * dpsi dim sitps (scaleBy (fun s => (κ s)⁻¹) v) s := by
  unfold dpsi
  rw [Finset.mul_sum]
  refine Finset.sum_congr rfl fun q _ => value_scale κ _ _ fun r x => ?_
  by_cases h : r = ((q.1 : ℕ), (q.2 : ℕ))
  · rw [← h, Function.update_self, Function.update_self]
    simp only [scaleBy]
    rw [← mul_assoc, mul_inv_cancel₀ (hκ r), one_mul]
  · rw [Function.update_of_ne h, Function.update_of_ne h]
    rfl

/-- **C163.** With the same random numbers the walkers visit the same configurations. -/
theorem walk_scale {κ : QLPeps.Site → 𝕜} (hκ : ∀ s, κ s ≠ 0) (u : Updater) (phys : ℕ)
    (ab : Option 𝕜 → ℝ) (hab : ∀ o, ab o = ‖o.getD 0‖) (n : ℕ) (ξ : ℕ → ℝ) (c c' : Config) :
    EndsIn (walk dim (scaleBy κ sitps) u phys ab n ξ c) c' ↔
      EndsIn (walk dim sitps u phys ab n ξ c) c' := by
  have hC : SameUpTo (Option.map (total rows cols κ * ·))
      (exactContractor fun cfg => some (value dim (project sitps cfg)))
      (exactContractor fun cfg => some (value dim (project (scaleBy κ sitps) cfg))) := by
    constructor <;> intros <;> first | rfl | exact congrArg some (amplitude_scale κ _)
  have hs : ∀ o, ab (Option.map (total rows cols κ * ·) o) = ‖total rows cols κ‖ * ab o := by
    intro o
    cases o <;> simp [hab]
  have e := sweeps_hom hC (norm_pos_iff.2 (total_ne hκ)) hs ξ u phys rows cols n
    (some ⟨c, some (value dim (project sitps c)), (), 0⟩)
  have e1 : walk dim (scaleBy κ sitps) u phys ab n ξ c =
      (walk dim sitps u phys ab n ξ c).map (onAmp (Option.map (total rows cols κ * ·))) := by
    refine Eq.trans ?_ e
    unfold walk
    rw [show value dim (project (scaleBy κ sitps) c) = total rows cols κ * value dim (project sitps c) from
      amplitude_scale κ c]
    rfl
  rw [e1]
  unfold EndsIn
  cases walk dim sitps u phys ab n ξ c <;> simp [onAmp]

theorem sample_scale {κ : QLPeps.Site → 𝕜} (hκ : ∀ s, κ s ≠ 0)
    {H : (SpinCfg rows cols → 𝕜) → SpinCfg rows cols → 𝕜} (hH : Herm H) {x x' : Sample QLPeps.Site (List ℕ) 𝕜}
    {s : SpinCfg rows cols} (hx : GoodSample dim sitps H x s)
    (hx' : GoodSample dim (scaleBy κ sitps) H x' s)
    (h0 : amplitude dim sitps (toConfig s) ≠ 0) :
    x'.eloc = x.eloc ∧ ∀ v : QLPeps.Site → ℕ → Tn 𝕜, (∀ s, ∀ b < 2, (v s b).shape = (sitps s b).shape) →
      overlapL rows cols 2 v (logDeriv x') = overlapL rows cols 2 (scaleBy (fun s => (κ s)⁻¹) v) (logDeriv x) := by
  have hs : star (amplitude dim sitps (toConfig s)) ≠ 0 := star_ne_zero.2 h0
  have hk : total rows cols κ ≠ 0 := total_ne hκ
  have hks : star (total rows cols κ) ≠ 0 := star_ne_zero.2 hk
  have ha := hx'.amp
  have he := hx'.eloc
  rw [amplitude_scale] at ha he
  constructor
  · obtain ⟨M, hM, -⟩ := hH
    have : H (fun s => amplitude dim (scaleBy κ sitps) (toConfig s)) s =
        total rows cols κ * H (fun s => amplitude dim sitps (toConfig s)) s := by
      rw [hM, hM, Finset.mul_sum]
      refine Finset.sum_congr rfl fun s' _ => ?_
      rw [amplitude_scale]; ring
    rw [this, star_mul', star_mul', ← hx.eloc] at he
    refine mul_right_cancel₀ (mul_ne_zero hks hs) (he.trans ?_)
    ring
  · intro v hv
    rw [QLPeps.Evaluator.logDeriv_increment x' (by rw [ha]; exact mul_ne_zero hk h0),
      QLPeps.Evaluator.logDeriv_increment x (by rw [hx.amp]; exact h0), map_smul, map_smul, smul_eq_mul,
      smul_eq_mul, hx'.holes v (fun s b hb => hv s b hb), hx.holes (scaleBy (fun s => (κ s)⁻¹) v) (fun s b hb => hv s b hb), ha, hx.amp,
      dpsi_scale hκ, amplitude_scale]
    simp only [star_mul']
    field_simp

theorem scaledBy_of (κ : QLPeps.Site → 𝕜) {g g' : QLPeps.Evaluator.Tps QLPeps.Site (List ℕ) 𝕜}
    (h : ∀ v : QLPeps.Site → ℕ → Tn 𝕜, (∀ s, ∀ b < 2, (v s b).shape = (sitps s b).shape) →
      overlap rows cols 2 v g' = overlap rows cols 2 (scaleBy (fun s => (κ s)⁻¹) v) g) :
    ScaledBy rows cols sitps (fun s => (star (κ s))⁻¹) g g' := by
  intro q b hb i hi j hj l hl m hm
  have e := h (delta sitps (q.1, q.2) b [i, j, l, m]) fun _ _ _ => rfl
  have e1 := overlap_delta (1 : 𝕜) (q.1, q.2) q hb hi hj hl hm g'
  rw [scale_one] at e1
  have e2 : scaleBy (fun s => (κ s)⁻¹) (delta sitps (q.1, q.2) b [i, j, l, m]) =
      scaleSite (κ (q.1, q.2))⁻¹ (q.1, q.2) (delta sitps (q.1, q.2) b [i, j, l, m]) := by
    funext s a
    simp only [scaleBy, scaleSite, delta]
    congr 1
    funext x
    by_cases hs : s = ((q.1 : ℕ), (q.2 : ℕ))
    · subst hs; simp
    · simp [hs]
  rw [e2, overlap_delta _ (q.1, q.2) q hb hi hj hl hm g, e1] at e
  rw [star_inv₀] at e
  simpa using e

/-- what two runs have to do with each other -/
structure Rescaled (rows cols : ℕ) (sitps : QLPeps.Site → ℕ → Tn 𝕜) (κ : QLPeps.Site → 𝕜)
    (o o' : Outcome 𝕜) : Prop where
  energy : o'.energy = o.energy
  ostar : ScaledBy rows cols sitps (fun s => (star (κ s))⁻¹) o.ostarMean o'.ostarMean
  gradient : ScaledBy rows cols sitps (fun s => (star (κ s))⁻¹) o.gradient o'.gradient

/-- **C163.** For every stream of random numbers and start of every rank for which the walker visits
states of nonzero amplitude only: the runs with the state and with the rescaled state both succeed, with the
same energy and with mean `O*` and gradient divided at each site by the number of the site. -/
theorem run_scale (hl : Lossless lib) (hf : ∀ cfg : Config, Fits (project sitps cfg) dim) (u : Updater)
    (hb : Big u rows cols) (phys : ℕ) (ab : Option 𝕜 → ℝ) (hab : ∀ o, ab o = ‖o.getD 0‖)
    (H : (SpinCfg rows cols → 𝕜) → SpinCfg rows cols → 𝕜) (hH : Herm H) (solver solver' : Solver 𝕜) (writes : Bool)
    {κ : QLPeps.Site → 𝕜} (hκ : ∀ s, κ s ≠ 0)
    (hsol : ∀ s, amplitude dim sitps (toConfig s) ≠ 0 → Solves lib dim sitps solver H s)
    (hsol' : ∀ s, amplitude dim (scaleBy κ sitps) (toConfig s) ≠ 0 →
      Solves lib dim (scaleBy κ sitps) solver' H s) (between n : ℕ)
    (size : ℕ) (hsize : 0 < size) (hn : 0 < n) (ξ : Fin size → ℕ → ℝ) (c : Fin size → Config)
    (σ : Fin size → ℕ → SpinCfg rows cols)
    (hσ : ∀ i k, amplitude dim sitps (toConfig (σ i k)) ≠ 0 ∧
      EndsIn (walk dim sitps u phys ab (k * between) (ξ i) (c i)) (toConfig (σ i k))) :
    ∃ o o', evaluate lib rows cols sitps u phys ab solver writes between n
        (List.ofFn fun i => (ξ i, c i)) = .ok o ∧
      evaluate lib rows cols (scaleBy κ sitps) u phys ab solver' writes between n
        (List.ofFn fun i => (ξ i, c i)) = .ok o' ∧
      Rescaled rows cols sitps κ o o' := by
  have hf' : ∀ cfg : Config, Fits (project (scaleBy κ sitps) cfg) dim := fun cfg =>
    ⟨(hf cfg).shape, (hf cfg).external⟩
  have hσ' : ∀ i j, amplitude dim (scaleBy κ sitps) (toConfig (σ i j)) ≠ 0 ∧
      EndsIn (walk dim (scaleBy κ sitps) u phys ab (j * between) (ξ i) (c i)) (toConfig (σ i j)) := by
    intro i j
    refine ⟨?_, (walk_scale hκ u phys ab hab _ _ _ _).2 (hσ i j).2⟩
    rw [amplitude_scale]
    exact mul_ne_zero (total_ne hκ) (hσ i j).1
  obtain ⟨o, h1, h2, h3⟩ := evaluate_eq hl hf u hb phys ab H solver writes hsol between n size hsize hn ξ c σ hσ
  obtain ⟨o', h1', h2', h3'⟩ := evaluate_eq hl hf' u hb phys ab H solver' writes hsol' between n size hsize hn ξ c σ hσ'
  have hx : ∀ i, ∀ j < n, (smp lib rows cols (scaleBy κ sitps) u phys ab solver' writes between n j (ξ i) (c i)).eloc =
        (smp lib rows cols sitps u phys ab solver writes between n j (ξ i) (c i)).eloc ∧
      ∀ v : QLPeps.Site → ℕ → Tn 𝕜, (∀ s, ∀ b < 2, (v s b).shape = (sitps s b).shape) →
        overlapL rows cols 2 v (logDeriv
          (smp lib rows cols (scaleBy κ sitps) u phys ab solver' writes between n j (ξ i) (c i))) =
        overlapL rows cols 2 (scaleBy (fun s => (κ s)⁻¹) v)
          (logDeriv (smp lib rows cols sitps u phys ab solver writes between n j (ξ i) (c i))) := by
    intro i j hj
    obtain ⟨l, -, -, h⟩ := smp_good hl hf u hb phys ab H solver writes hsol between n (ξ i) (c i) (σ i) (hσ i)
    obtain ⟨l', -, -, h'⟩ := smp_good hl hf' u hb phys ab H solver' writes hsol' between n (ξ i) (c i) (σ i) (hσ' i)
    exact sample_scale hκ hH (h j hj).2 (h' j hj).2 (hσ i (j + 1)).1
  have hE : o'.energy = o.energy := by
    rw [h2, h2']
    refine congrArg (· / _) (Finset.sum_congr rfl fun i _ => Finset.sum_congr rfl fun j hj => ?_)
    exact (hx i j ((Finset.mem_range.1 hj).trans_le (Nat.sub_le _ _))).1
  have hO : ∀ v : QLPeps.Site → ℕ → Tn 𝕜, (∀ s, ∀ b < 2, (v s b).shape = (sitps s b).shape) →
      overlapL rows cols 2 v o'.ostarMean = overlapL rows cols 2 (scaleBy (fun s => (κ s)⁻¹) v) o.ostarMean := by
    intro v hv
    rw [(h3 _).1, (h3' _).1]
    refine congrArg (· / _) (Finset.sum_congr rfl fun i _ => Finset.sum_congr rfl fun j hj => ?_)
    exact (hx i j (Finset.mem_range.1 hj)).2 v hv
  refine ⟨o, o', h1, h1', hE, scaledBy_of κ hO, scaledBy_of κ fun v hv => ?_⟩
  refine ((h3' v).2.trans ?_).trans (h3 _).2.symm
  rw [hO v hv, hE]
  refine congrArg (· / _ - _) (Finset.sum_congr rfl fun i _ => Finset.sum_congr rfl fun j hj => ?_)
  dsimp only
  rw [(hx i j (Finset.mem_range.1 hj)).1, (hx i j (Finset.mem_range.1 hj)).2 v hv]

section
variable {S : Type*} [MeasurableSpace S] {μ : Measure S} [IsProbabilityMeasure μ]

/-- **C163.** Walkers in equilibrium, XXZ and J1-J2 models with or without a pinning field: almost surely. -/
theorem xxz_scale (hl : Lossless lib) (hf : ∀ cfg : Config, Fits (project sitps cfg) dim) (upd : Updater)
    (hb : Big upd rows cols) (nnn : Bool) (jz jxy jz2 jxy2 pin : 𝕜) (h1 : star jz = jz)
    (h2 : star jxy = jxy) (h3 : star jz2 = jz2) (h4 : star jxy2 = jxy2) (h5 : star pin = pin)
    (isZero : 𝕜 → Bool) (hz : ∀ a, isZero a = true ↔ a = 0) (ab : Option 𝕜 → ℝ) (hab : ∀ o, ab o = ‖o.getD 0‖)
    (writes : Bool) (between n : ℕ) (hn : 0 < n) {κ : QLPeps.Site → 𝕜} (hκ : ∀ s, κ s ≠ 0)
    (L : List (SpinCfg rows cols))
    (Ω : Finset Config) (hΩL : ∀ c, c ∈ Ω ↔ ∃ s ∈ L, toConfig s = c) (hΩ : Stays upd 2 rows cols Ω)
    (size : ℕ) (hsize : 0 < size) (U : Fin size → ℕ → S → ℝ) (start : Fin size → S → Config)
    (hE : ∀ i, Equilibrium μ Ω (fun c => ‖amplitude dim sitps c‖ ^ 2) (U i) (start i)) :
    let run := fun t ω => evaluate lib rows cols t upd 2 ab
      (fun cfg => pairSolver lib rows cols t cfg isZero true (xxz nnn jz jxy jz2 jxy2 pin))
      writes between n (List.ofFn fun i => ((fun j => U i j ω), start i ω))
    ∀ᵐ ω ∂μ, ∃ o o', run sitps ω = .ok o ∧ run (scaleBy κ sitps) ω = .ok o' ∧
      Rescaled rows cols sitps κ o o' := by
  intro run
  have hb2 : 2 ≤ rows ∧ 2 ≤ cols := by
    cases upd <;> simp only [Big] at hb <;> omega
  have hf' : ∀ cfg : Config, Fits (project (scaleBy κ sitps) cfg) dim := fun cfg =>
    ⟨(hf cfg).shape, (hf cfg).external⟩
  have h : ∀ᵐ ω ∂μ, ∀ i, ∃ σ : ℕ → SpinCfg rows cols, ∀ k, σ k ∈ L ∧ amplitude dim sitps (toConfig (σ k)) ≠ 0 ∧
      EndsIn (walk dim sitps upd 2 ab (k * between) (fun j => U i j ω) (start i ω)) (toConfig (σ k)) :=
    ae_all_iff.2 fun i => ae_sigma upd 2 ab (fun z => by rw [hab]; exact norm_nonneg _)
      (fun z => by rw [hab]; rfl) between L Ω hΩL hΩ (hE i)
  filter_upwards [h] with ω hω
  choose σ hσ using hω
  exact run_scale hl hf upd hb 2 ab hab _
    (herm_xxz jz jxy (if nnn then jz2 else 0) (if nnn then jxy2 else 0) pin h1 h2
      (by split_ifs <;> simp [h3]) (by split_ifs <;> simp [h4]) h5) _ _ writes hκ
    (fun s h0 => solves_xxz hl (fun cfg _ => hf cfg) hb2.1 hb2.2 nnn jz jxy jz2 jxy2 pin h1 h2 h3 h4 h5
      isZero hz s h0)
    (fun s h0 => solves_xxz hl (fun cfg _ => hf' cfg) hb2.1 hb2.2 nnn jz jxy jz2 jxy2 pin h1 h2 h3 h4 h5
      isZero hz s h0) between n size hsize hn (fun i j => U i j ω) (fun i => start i ω) σ fun i k => (hσ i k).2

/-- **C163.** Walkers in equilibrium, transverse-field Ising model: almost surely. -/
theorem tfim_scale (hl : Lossless lib) (hf : ∀ cfg : Config, Fits (project sitps cfg) dim) (upd : Updater)
    (hb : Big upd rows cols) (h : 𝕜) (hh : star h = h) (ab : Option 𝕜 → ℝ) (hab : ∀ o, ab o = ‖o.getD 0‖)
    (writes : Bool) (between n : ℕ) (hn : 0 < n) {κ : QLPeps.Site → 𝕜} (hκ : ∀ s, κ s ≠ 0)
    (L : List (SpinCfg rows cols))
    (Ω : Finset Config) (hΩL : ∀ c, c ∈ Ω ↔ ∃ s ∈ L, toConfig s = c) (hΩ : Stays upd 2 rows cols Ω)
    (size : ℕ) (hsize : 0 < size) (U : Fin size → ℕ → S → ℝ) (start : Fin size → S → Config)
    (hE : ∀ i, Equilibrium μ Ω (fun c => ‖amplitude dim sitps c‖ ^ 2) (U i) (start i)) :
    let run := fun t ω => evaluate lib rows cols t upd 2 ab
      (fun cfg => tfimSolver lib rows cols t cfg true h)
      writes between n (List.ofFn fun i => ((fun j => U i j ω), start i ω))
    ∀ᵐ ω ∂μ, ∃ o o', run sitps ω = .ok o ∧ run (scaleBy κ sitps) ω = .ok o' ∧
      Rescaled rows cols sitps κ o o' := by
  intro run
  have hb2 : 2 ≤ rows ∧ 2 ≤ cols := by
    cases upd <;> simp only [Big] at hb <;> omega
  have hf' : ∀ cfg : Config, Fits (project (scaleBy κ sitps) cfg) dim := fun cfg =>
    ⟨(hf cfg).shape, (hf cfg).external⟩
  have hae : ∀ᵐ ω ∂μ, ∀ i, ∃ σ : ℕ → SpinCfg rows cols, ∀ k, σ k ∈ L ∧ amplitude dim sitps (toConfig (σ k)) ≠ 0 ∧
      EndsIn (walk dim sitps upd 2 ab (k * between) (fun j => U i j ω) (start i ω)) (toConfig (σ k)) :=
    ae_all_iff.2 fun i => ae_sigma upd 2 ab (fun z => by rw [hab]; exact norm_nonneg _)
      (fun z => by rw [hab]; rfl) between L Ω hΩL hΩ (hE i)
  filter_upwards [hae] with ω hω
  choose σ hσ using hω
  exact run_scale hl hf upd hb 2 ab hab _
    (herm_tfim h hh) _ _ writes hκ
    (fun s h0 => solves_tfim hl (fun cfg _ => hf cfg) (by omega) hb2.2 h hh s h0)
    (fun s h0 => solves_tfim hl (fun cfg _ => hf' cfg) (by omega) hb2.2 h hh s h0) between n size hsize hn (fun i j => U i j ω) (fun i => start i ω) σ fun i k => (hσ i k).2

theorem fold_mem (l : List 𝕜) : ∀ b : 𝕜, l.foldl (fun best a => if ‖best‖ < ‖a‖ then a else best) b ∈ b :: l := by
  induction l with
  | nil => intro b; simp
  | cons x l ih =>
    intro b
    rw [List.foldl_cons]
    split_ifs
    · exact List.mem_cons_of_mem _ (ih x)
    · rcases List.mem_cons.1 (ih b) with h | h
      · rw [h]; exact List.mem_cons_self ..
      · exact List.mem_cons_of_mem _ (List.mem_cons_of_mem _ h)

/-- The number the engine multiplies the tensors by is positive if no rank has amplitude zero. -/
theorem factor_pos (sites : ℕ) (amps : List 𝕜) (hne : amps ≠ []) (h : ∀ a ∈ amps, a ≠ 0) :
    0 < QLPeps.State.order1Factor sites amps := by
  unfold QLPeps.State.order1Factor
  refine Real.rpow_pos_of_pos (one_div_pos.2 (norm_pos_iff.2 (h _ ?_))) _
  cases amps with
  | nil => exact absurd rfl hne
  | cons a l =>
    rcases List.mem_cons.1 (fold_mem (a :: l) a) with h1 | h1
    · simp only [List.headD_cons]
      rw [h1]; exact List.mem_cons_self ..
    · exact h1

/-- **C163.** The normalization of the engine, for any amplitudes of the ranks other than zero. -/
theorem normalize_keeps (hl : Lossless lib) (hf : ∀ cfg : Config, Fits (project sitps cfg) dim) (upd : Updater)
    (hb : Big upd rows cols) (nnn : Bool) (jz jxy jz2 jxy2 pin : 𝕜) (h1 : star jz = jz)
    (h2 : star jxy = jxy) (h3 : star jz2 = jz2) (h4 : star jxy2 = jxy2) (h5 : star pin = pin)
    (isZero : 𝕜 → Bool) (hz : ∀ a, isZero a = true ↔ a = 0) (ab : Option 𝕜 → ℝ) (hab : ∀ o, ab o = ‖o.getD 0‖)
    (writes : Bool) (between n : ℕ) (hn : 0 < n) (amps : List 𝕜) (hne : amps ≠ []) (ha : ∀ a ∈ amps, a ≠ 0)
    (L : List (SpinCfg rows cols))
    (Ω : Finset Config) (hΩL : ∀ c, c ∈ Ω ↔ ∃ s ∈ L, toConfig s = c) (hΩ : Stays upd 2 rows cols Ω)
    (size : ℕ) (hsize : 0 < size) (U : Fin size → ℕ → S → ℝ) (start : Fin size → S → Config)
    (hE : ∀ i, Equilibrium μ Ω (fun c => ‖amplitude dim sitps c‖ ^ 2) (U i) (start i)) :
    let run := fun t ω => evaluate lib rows cols t upd 2 ab
      (fun cfg => pairSolver lib rows cols t cfg isZero true (xxz nnn jz jxy jz2 jxy2 pin))
      writes between n (List.ofFn fun i => ((fun j => U i j ω), start i ω))
    let f := QLPeps.State.order1Factor (rows * cols) amps
    ∀ᵐ ω ∂μ, ∃ o o', run sitps ω = .ok o ∧ run (scaleBy (fun _ => (f : 𝕜)) sitps) ω = .ok o' ∧
      o'.energy = o.energy ∧ ScaledBy rows cols sitps (fun _ => ((f⁻¹ : ℝ) : 𝕜)) o.gradient o'.gradient := by
  intro run f
  have hfpos : 0 < f := factor_pos (rows * cols) amps hne ha
  have := xxz_scale hl hf upd hb nnn jz jxy jz2 jxy2 pin h1 h2 h3 h4 h5 isZero hz ab hab writes between n hn
    (κ := fun _ => (f : 𝕜)) (fun _ => by rw [Ne, RCLike.ofReal_eq_zero]; exact hfpos.ne') L Ω hΩL hΩ size hsize U start hE
  filter_upwards [this] with ω hω
  obtain ⟨o, o', e1, e2, e3⟩ := hω
  refine ⟨o, o', e1, e2, e3.energy, ?_⟩
  have hg := e3.gradient
  simp only [RCLike.star_def, RCLike.conj_ofReal, ← RCLike.ofReal_inv] at hg
  exact hg

end

/-- a nontrivial case: the J1-J2 model with pinning field on a 2×2 lattice of spins, in the sector of
two up spins, three ranks, ten samples each; the tensors of the sites
multiplied by 1, 2, 3 and 4 -/
example : ∃ (S : Type) (_ : MeasurableSpace S) (μ : Measure S) (U : Fin 3 → ℕ → S → ℝ)
    (start : Fin 3 → S → Config) (_ : IsProbabilityMeasure μ),
    let run := fun t ω => evaluate QLPeps.Peps.idLib 2 2 t .exchange 2 (fun o => ‖o.getD 0‖)
        (fun cfg => pairSolver QLPeps.Peps.idLib 2 2 t cfg
          (fun a => decide (a = 0)) true (xxz true 1 1 (1 / 2) (1 / 2) (1 / 3)))
        false 2 10 (List.ofFn fun i => ((fun j => U i j ω), start i ω))
    ∀ᵐ ω ∂μ, ∃ o o', run (twoState 2 2 fun _ _ _ => (1 : ℝ)) ω = .ok o ∧
      run (scaleBy (fun s => 1 + s.1 + 2 * s.2) (twoState 2 2 fun _ _ _ => (1 : ℝ))) ω = .ok o' ∧
      Rescaled 2 2 (twoState 2 2 fun _ _ _ => (1 : ℝ)) (fun s => 1 + s.1 + 2 * s.2) o o' := by
  classical
  let L := (Finset.univ.filter fun s : SpinCfg 2 2 => ∑ a, (s a : ℕ) = 2).toList
  let Ω : Finset Config := L.toFinset.image toConfig
  have hL : ∀ s, s ∈ L ↔ ∑ a, (s a : ℕ) = 2 := fun s => by
    rw [Finset.mem_toList, Finset.mem_filter]; exact and_iff_right (Finset.mem_univ s)
  have hΩL : ∀ c, c ∈ Ω ↔ ∃ s ∈ L, toConfig s = c := fun c => by
    simp only [Ω, Finset.mem_image, List.mem_toFinset]
  have hne : (∑ c ∈ Ω, ‖amplitude (QLPeps.Bmps.twoDim : Bond .obc 2 2 → ℕ)
      (twoState 2 2 fun _ _ _ => (1 : ℝ)) c‖ ^ 2) ≠ 0 := by
    simp only [ones_amplitude, Finset.sum_const, nsmul_eq_mul]
    have : Ω.Nonempty := by
      refine ⟨toConfig fun a => if (a : QLPeps.Site).1 = 0 then 1 else 0, (hΩL _).2 ⟨_, (hL _).2 ?_, rfl⟩⟩
      decide +kernel
    have h : (Ω.card : ℝ) ≠ 0 := Nat.cast_ne_zero.2 this.card_pos.ne'
    exact mul_ne_zero h (by norm_num)
  obtain ⟨S, mS, μ, U, start, hμ, hE⟩ := exists_equilibrium Ω _ (fun c => sq_nonneg _) hne
  refine ⟨S, mS, μ, fun _ => U, fun _ => start, hμ, ?_⟩
  exact xxz_scale (idLib_lossless (𝕜 := ℝ)) (dim := (QLPeps.Bmps.twoDim : Bond .obc 2 2 → ℕ))
    (sitps := twoState 2 2 fun _ _ _ => (1 : ℝ))
    (fun cfg => QLPeps.Bmps.twoNet_fits (rows := 2) (cols := 2) fun s _ => (1 : ℝ)) .exchange
    ⟨le_rfl, le_rfl⟩ true 1 1 (1 / 2) (1 / 2) (1 / 3) (by simp) (by simp) (by simp) (by simp) (by simp)
    (fun a => decide (a = 0)) (by simp) (fun o => ‖o.getD 0‖) (fun _ => rfl) false 2 10
    (by omega) (κ := fun s => 1 + s.1 + 2 * s.2) (fun s => by positivity) L Ω hΩL (C106_sector_stays L 2 hL Ω hΩL).1 3 (by omega) (fun _ => U)
    (fun _ => start) fun _ => hE

end

end QLPeps.ScaleAll
