import Verif.Model.McRun
import Verif.Spec.McRun
import Verif.Props.Chain
import Verif.Lemmas.ExactModels
import Mathlib.MeasureTheory.Integral.Bochner.Set

/-! # Helper lemmas: the Monte Carlo evaluator -/

open MeasureTheory ProbabilityTheory

namespace QLPeps.McRun

open QLPeps.Chain.Spec Spec QLPeps.Updaters

section prob

variable {S : Type*} [MeasurableSpace S] {μ : Measure S} [IsProbabilityMeasure μ] {Ω : Finset Config}
  {wt : Config → ℝ} {U : ℕ → S → ℝ} {start : S → Config} {A Γ : Type*}
  {sim : (ℕ → ℝ) → Config → Option (Walker A Γ)}

theorem sigma_le (hU : IidUniform μ U) :
    (⨆ i, MeasurableSpace.comap (U i) inferInstance) ≤ ‹MeasurableSpace S› :=
  iSup_le fun i => (hU.measurable i).comap_le

theorem EndsIn.unique {x : Option (Walker A Γ)} {c c' : Config} (h : EndsIn x c) (h' : EndsIn x c') :
    c = c' := by
  obtain ⟨w, e, rfl⟩ := h
  obtain ⟨w', e', rfl⟩ := h'
  rw [e] at e'
  injection e' with e'
  rw [e']

/-- the event that a run from a random start ends in `c'` -/
def endEvent (U : ℕ → S → ℝ) (start : S → Config) (sim : (ℕ → ℝ) → Config → Option (Walker A Γ))
    (c' : Config) : Set S := {ω | EndsIn (sim (fun i => U i ω) (start ω)) c'}

theorem endEvent_eq (hE : Equilibrium μ Ω wt U start) (c' : Config) :
    endEvent U start sim c' = ⋃ c ∈ Ω, ({ω | start ω = c} ∩ {ω | EndsIn (sim (fun i => U i ω) c) c'}) := by
  ext ω
  simp only [endEvent, Set.mem_iUnion, Set.mem_inter_iff, exists_prop, Set.mem_ofPred_eq]
  constructor
  · exact fun h => ⟨start ω, hE.mem ω, rfl, h⟩
  · rintro ⟨c, -, rfl, h⟩
    exact h

theorem endEvent_measurable (hE : Equilibrium μ Ω wt U start) (hS : Samples μ U Ω wt sim) (c' : Config) :
    MeasurableSet (endEvent U start sim c') := by
  rw [endEvent_eq hE]
  exact Finset.measurableSet_biUnion _ fun c hc =>
    (hE.measurable c).inter (sigma_le hE.stream _ (hS.measurable c hc c'))

theorem prob_end (hE : Equilibrium μ Ω wt U start) (hS : Samples μ U Ω wt sim) (c' : Config)
    (hc' : c' ∈ Ω) : μ.real (endEvent U start sim c') = wt c' / ∑ c ∈ Ω, wt c := by
  rw [endEvent_eq hE, measureReal_biUnion_finset]
  · rw [← hS.invariant c' hc', Finset.sum_div]
    refine Finset.sum_congr rfl fun c hc => ?_
    rw [Measure.real, hE.indep c _ (hS.measurable c hc c'), ENNReal.toReal_mul, hE.law c hc]
    ring
  · intro a _ b _ hab
    refine Set.disjoint_left.2 fun ω h h' => hab ?_
    exact h.1.symm.trans h'.1
  · exact fun c hc => (hE.measurable c).inter (sigma_le hE.stream _ (hS.measurable c hc c'))

/-- the run ends, with probability one, in a configuration of nonzero weight -/
theorem ae_end (hE : Equilibrium μ Ω wt U start) (hS : Samples μ U Ω wt sim) :
    ∀ᵐ ω ∂μ, ∃ c' ∈ Ω, wt c' ≠ 0 ∧ ω ∈ endEvent U start sim c' := by
  have h : ∀ c ∈ Ω, ∀ᵐ ω ∂μ, start ω = c →
      ∃ c' ∈ Ω, wt c' ≠ 0 ∧ EndsIn (sim (fun i => U i ω) c) c' := by
    intro c hc
    by_cases h0 : wt c = 0
    · have h1 : (μ {ω | start ω = c}).toReal = 0 := by rw [hE.law c hc, h0, zero_div]
      have h2 : μ {ω | start ω = c} = 0 :=
        (ENNReal.toReal_eq_zero_iff _).1 h1 |>.resolve_right (measure_ne_top _ _)
      have h3 : ∀ᵐ ω ∂μ, ¬ start ω = c := by
        rw [ae_iff]
        simpa using h2
      filter_upwards [h3] with ω hω e using absurd e hω
    · have h1 := hS.defined c hc h0
      have hm : MeasurableSet {ω | ∃ c' ∈ Ω, wt c' ≠ 0 ∧ EndsIn (sim (fun i => U i ω) c) c'} := by
        have : {ω | ∃ c' ∈ Ω, wt c' ≠ 0 ∧ EndsIn (sim (fun i => U i ω) c) c'} =
            ⋃ c' ∈ Ω.filter (fun c' => wt c' ≠ 0), {ω | EndsIn (sim (fun i => U i ω) c) c'} := by
          ext ω
          simp only [Set.mem_ofPred_eq, Set.mem_iUnion, Finset.mem_filter, exists_prop, and_assoc]
        rw [this]
        exact Finset.measurableSet_biUnion _ fun c' _ => sigma_le hE.stream _ (hS.measurable c hc c')
      have h2 := (prob_compl_eq_zero_iff hm).2 h1
      have h3 : ∀ᵐ ω ∂μ, ∃ c' ∈ Ω, wt c' ≠ 0 ∧ EndsIn (sim (fun i => U i ω) c) c' := by
        rw [ae_iff]
        exact h2
      filter_upwards [h3] with ω hω _ using hω
  have h' : ∀ᵐ ω ∂μ, ∀ c ∈ Ω, start ω = c →
      ∃ c' ∈ Ω, wt c' ≠ 0 ∧ EndsIn (sim (fun i => U i ω) c) c' := by
    rw [Filter.eventually_all_finset]
    exact h
  filter_upwards [h'] with ω hω
  exact hω (start ω) (hE.mem ω) rfl

/-- the expectation of a function of the last configuration -/
theorem integral_end {𝕜 : Type*} [RCLike 𝕜] (hE : Equilibrium μ Ω wt U start)
    (hS : Samples μ U Ω wt sim) (f : Config → 𝕜) (X : S → 𝕜)
    (hX : ∀ᵐ ω ∂μ, ∀ c' ∈ Ω, wt c' ≠ 0 → ω ∈ endEvent U start sim c' → X ω = f c') :
    Integrable X μ ∧ ∫ ω, X ω ∂μ = ∑ c ∈ Ω, ((wt c / ∑ c ∈ Ω, wt c : ℝ) : 𝕜) * f c := by
  classical
  have e : X =ᵐ[μ] fun ω => ∑ c ∈ Ω.filter (fun c => wt c ≠ 0),
      (endEvent U start sim c).indicator (fun _ => f c) ω := by
    filter_upwards [ae_end hE hS, hX] with ω h h2
    obtain ⟨c', h1, h3, h4⟩ := h
    rw [h2 c' h1 h3 h4, Finset.sum_eq_single c']
    · rw [Set.indicator_of_mem h4]
    · intro b _ hb
      exact Set.indicator_of_notMem (fun h : ω ∈ endEvent U start sim b => hb (EndsIn.unique h h4)) _
    · intro h
      exact absurd (Finset.mem_filter.2 ⟨h1, h3⟩) h
  have hi : ∀ c ∈ Ω.filter (fun c => wt c ≠ 0),
      Integrable ((endEvent U start sim c).indicator (fun _ => f c)) μ := fun c _ =>
    (integrable_const _).indicator (endEvent_measurable hE hS c)
  refine ⟨(integrable_congr e).2 (integrable_finset_sum _ hi), ?_⟩
  rw [integral_congr_ae e, integral_finset_sum _ hi]
  rw [← Finset.sum_filter_of_ne (s := Ω) (p := fun c => wt c ≠ 0)
    (f := fun c => ((wt c / ∑ c ∈ Ω, wt c : ℝ) : 𝕜) * f c)]
  · refine Finset.sum_congr rfl fun c hc => ?_
    rw [integral_indicator_const _ (endEvent_measurable hE hS c),
      prob_end hE hS c (Finset.mem_filter.1 hc).1, RCLike.real_smul_eq_coe_mul]
  · intro c _ hne h0
    exact hne (by rw [h0, zero_div]; simp)

end prob


section det

universe u

open QLPeps.Contractor QLPeps.Bmps QLPeps.Bmps.Spec QLPeps.Sweep QLPeps.Chain
open QLPeps.Peps (Tn Lib)
open QLPeps.Tps.Spec (Bond)
open QLPeps.ExactRun (Solver Solves overlapL holesDag overlap_increment)
open QLPeps.SolverRun.Spec (amplitude FitsAll GoodHoles)
open QLPeps.SolverRun (toConfig_lt)
open QLPeps.Evaluator (Sample)
open QLPeps.Spec (SpinCfg toConfig)

noncomputable section

variable {𝕜 : Type u} [RCLike 𝕜] {rows cols : ℕ} {lib : Lib 𝕜} {dim : Bond .obc rows cols → ℕ}
  {sitps : QLPeps.Site → ℕ → Tn 𝕜}

/-- sweeps on the contractor and sweeps with exact amplitudes go together, and the caches stay usable -/
theorem sweep_rel (hl : Lossless lib) (hf : ∀ cfg : Config, Fits (project sitps cfg) dim) (u : Updater)
    (hb : Big u rows cols) (phys : ℕ) (ab : Option 𝕜 → ℝ) (ξ : ℕ → ℝ) (n : ℕ) (config : Config)
    (amp : Option 𝕜) (draws : ℕ) (c : Ctr (List (Tn 𝕜)) (Tn 𝕜) (Tn 𝕜))
    (hfresh : Fresh (tensorOps lib rows cols) rows cols (project sitps config) c) :
    let x := (sweep (bmpsContractor (tensorOps lib rows cols) rows cols sitps) u phys rows cols ab ξ)^[n]
      (some ⟨config, amp, some c, draws⟩)
    let y := (sweep (exactContractor fun cfg => some (value dim (project sitps cfg))) u phys rows cols
      ab ξ)^[n] (some ⟨config, amp, (), draws⟩)
    (x = none ∧ y = none) ∨ ∃ w w' c', x = some w ∧ y = some w' ∧ w.config = w'.config ∧ w.amp = w'.amp ∧
      w.draws = w'.draws ∧ w.env = some c' ∧
      Fresh (tensorOps lib rows cols) rows cols (project sitps w.config) c' := by
  have comb : ∀ {x : Option (Comp 𝕜)} {y y' : Option (Walker (Option 𝕜) Unit)},
      ((x = none ∧ y = none) ∨ ∃ w w', x = some w ∧ y = some w' ∧ w.config = w'.config ∧ w.amp = w'.amp ∧
        w.draws = w'.draws) →
      ((x = none ∧ y' = none) ∨ ∃ w w', x = some w ∧ y' = some w' ∧ w.config = w'.config ∧
        w.amp = w'.amp ∧ w.draws = w'.draws ∧ ∃ c', w.env = some c' ∧
          Fresh (tensorOps lib rows cols) rows cols (project sitps w.config) c') →
      (x = none ∧ y = none) ∨ ∃ w w' c', x = some w ∧ y = some w' ∧ w.config = w'.config ∧
        w.amp = w'.amp ∧ w.draws = w'.draws ∧ w.env = some c' ∧
        Fresh (tensorOps lib rows cols) rows cols (project sitps w.config) c' := by
    rintro x y y' (h | ⟨w, w', h1, h2, h3, h4, h5⟩) h'
    · exact Or.inl h
    · rcases h' with ⟨e, -⟩ | ⟨w1, w1', e1, -, -, -, -, c', e2, e3⟩
      · rw [h1] at e; cases e
      · rw [h1] at e1; injection e1 with e1; subst e1
        exact Or.inr ⟨w, w', c', h1, h2, h3, h4, h5, e2, e3⟩
  cases u with
  | exchange =>
    obtain ⟨hr, hc⟩ := hb
    have e := (C99_sweeps_exact hl sitps hf hr hc (exchangeDec ab ξ) n config amp draws c hfresh).2
    have e' := (C09_sweeps_use_current_amplitudes (tensorOps lib rows cols) rows cols hr hc sitps
      (exchangeDec ab ξ) n config amp draws c hfresh).2
    have h := comb e e'
    have hm : ∀ a b d, moveBy (exchangeDec ab ξ) (bmpsContractor (tensorOps lib rows cols) rows cols sitps)
        a b d = fun w => some (nnExchange _ ab ξ a b d w) :=
      fun a b d => funext (nnExchange_moveBy ab ξ _ a b d)
    have hm' : ∀ a b d, moveBy (exchangeDec ab ξ)
        (exactContractor fun c => some (value dim (project sitps c))) a b d =
          fun w => some (nnExchange _ ab ξ a b d w) :=
      fun a b d => funext (nnExchange_moveBy ab ξ _ a b d)
    simp only [hm, hm'] at h
    exact h
  | fullSpace =>
    obtain ⟨hr, hc⟩ := hb
    have e := (C99_sweeps_exact hl sitps hf hr hc (fullSpaceDec ab ξ phys) n config amp draws c hfresh).2
    have e' := (C09_sweeps_use_current_amplitudes (tensorOps lib rows cols) rows cols hr hc sitps
      (fullSpaceDec ab ξ phys) n config amp draws c hfresh).2
    have h := comb e e'
    have hm : ∀ a b d, moveBy (fullSpaceDec ab ξ phys)
        (bmpsContractor (tensorOps lib rows cols) rows cols sitps) a b d = fullSpace _ ab ξ phys a b d :=
      fun a b d => funext (fullSpace_moveBy ab ξ phys _ a b d)
    have hm' : ∀ a b d, moveBy (fullSpaceDec ab ξ phys)
        (exactContractor fun c => some (value dim (project sitps c))) a b d = fullSpace _ ab ξ phys a b d :=
      fun a b d => funext (fullSpace_moveBy ab ξ phys _ a b d)
    simp only [hm, hm'] at h
    exact h
  | threeSite =>
    obtain ⟨hr, hc⟩ := hb
    have e := (C99_three_site_sweeps_exact hl sitps hf hr hc (tnn3Dec ab ξ) n config amp draws c hfresh).2
    have e' := (C76_three_site_sweeps_use_current_amplitudes (tensorOps lib rows cols) rows cols hr hc sitps
      (tnn3Dec ab ξ) n config amp draws c hfresh).2
    have h := comb e e'
    have hlen : ∀ x y z L, permutations3 x y z = some L → ∀ v ∈ L, v.length = 3 :=
      fun x y z L hL v hv => (((permutations3_spec x y z L hL).2 v).1 hv).length_eq
    have hm : ∀ a b e d, moveBy3 (tnn3Dec ab ξ)
        (bmpsContractor (tensorOps lib rows cols) rows cols sitps) a b e d = tnn3Exchange _ ab ξ a b e d :=
      fun a b e d => funext fun w => tnn3_moveBy ab ξ _ a b e d w hlen
    have hm' : ∀ a b e d, moveBy3 (tnn3Dec ab ξ)
        (exactContractor fun c => some (value dim (project sitps c))) a b e d =
          tnn3Exchange _ ab ξ a b e d :=
      fun a b e d => funext fun w => tnn3_moveBy ab ξ _ a b e d w hlen
    simp only [hm, hm'] at h
    exact h

/-- with exact amplitudes, the amplitude kept is that of the configuration -/
theorem sweep_emb {A : Type*} (ψ : Config → A) (u : Updater) (phys rows cols : ℕ) (ab : A → ℝ) (ξ : ℕ → ℝ)
    (n : ℕ) (c : Config) (d : ℕ) (w : Walker A Unit)
    (h : (sweep (exactContractor ψ) u phys rows cols ab ξ)^[n] (some ⟨c, ψ c, (), d⟩) = some w) :
    w.amp = ψ w.config := by
  have key : Runs Set.univ ψ fun ξ s => (sweep (exactContractor ψ) u phys rows cols ab ξ s.1, s.2) := by
    cases u with
    | exchange =>
      exact Runs.sweep rows cols (exchangeStep ψ ab) (fun a b _ => exchangeK ψ ab a b)
        (exchange_reads ψ ab) fun _ _ _ _ => trivial
    | fullSpace =>
      exact Runs.sweep rows cols (fun a b d ξ => fullSpace (exactContractor ψ) ab ξ phys a b d)
        (fun _ _ _ _ => 1) (fullSpace_reads ψ ab phys) fun _ _ _ _ => trivial
    | threeSite =>
      exact Runs.sweep3 rows cols
        (fun a b e d ξ => tnn3Exchange (exactContractor ψ) ab ξ a b e d)
        (fun a b e _ => tnn3K a b e) (tnn3_reads ψ ab) fun _ _ _ _ _ _ _ => trivial
  obtain ⟨L, -, e⟩ := Runs.iterate (T := fun ξ x => sweep (exactContractor ψ) u phys rows cols ab ξ x) key n
  have e1 := e ξ 0 (some (c, d))
  dsimp only [Option.map_some, Option.bind_some] at e1
  have e2 : (sweep (exactContractor ψ) u phys rows cols ab ξ)^[n] (some ⟨c, ψ c, (), d⟩) =
    (run L ξ c d).map (emb ψ) := e1
  rw [h] at e2
  cases hr : run L ξ c d with
  | none => rw [hr] at e2; cases e2
  | some p => rw [hr] at e2; injection e2 with e2; rw [e2]; rfl

/-! ### the sampling loop of one rank -/

theorem foldl_update_congr {ι β : Type*} [DecidableEq ι] (l : List (ι × β)) (f g : ι → β)
    (h : ∀ s, s ∉ l.map Prod.fst → f s = g s) :
    l.foldl (fun f p => Function.update f p.1 p.2) f = l.foldl (fun f p => Function.update f p.1 p.2) g := by
  induction l generalizing f g with
  | nil => exact funext fun s => h s (by simp)
  | cons p l ih =>
    refine ih _ _ fun s hs => ?_
    by_cases e : s = p.1
    · subst e; simp
    · dsimp only
      rw [Function.update_of_ne e, Function.update_of_ne e]
      exact h s (by simp only [List.map_cons, List.mem_cons, not_or]; exact ⟨e, hs⟩)

theorem foldl_update_off {ι β : Type*} [DecidableEq ι] (l : List (ι × β)) (f : ι → β) (s : ι)
    (h : s ∉ l.map Prod.fst) : l.foldl (fun f p => Function.update f p.1 p.2) f s = f s := by
  induction l generalizing f with
  | nil => rfl
  | cons p l ih =>
    simp only [List.map_cons, List.mem_cons, not_or] at h
    rw [List.foldl_cons, ih _ h.2, Function.update_of_ne h.1]

theorem fillHoles_eq (d : ℕ) (cfg : Config) (hs : List (QLPeps.Site × Tn 𝕜))
    (hg : GoodHoles dim d sitps cfg hs) (buf : QLPeps.Site → List ℕ → 𝕜)
    (hbuf : ∀ s, ¬ QLPeps.Contractor.inside rows cols s → buf s = fun _ => 0) :
    fillHoles buf hs = holesDag hs ∧
      ∀ s, ¬ QLPeps.Contractor.inside rows cols s → fillHoles buf hs s = fun _ => 0 := by
  have e : ∀ b, fillHoles b hs =
      (hs.map fun p => (p.1, p.2.elem)).foldl (fun f p => Function.update f p.1 p.2) b := by
    intro b; rw [List.foldl_map]; rfl
  have hk : (hs.map fun p => (p.1, p.2.elem)).map Prod.fst = hs.map Prod.fst := by
    rw [List.map_map]; rfl
  constructor
  · rw [e]
    have e' : holesDag hs = fillHoles (fun _ _ => 0) hs := rfl
    rw [e', e]
    refine foldl_update_congr _ _ _ fun s hs' => ?_
    rw [hk] at hs'
    exact hbuf s fun h => hs' ((hg.2.1 s).2 h)
  · intro s hs'
    rw [e, foldl_update_off _ _ _ (by rw [hk]; exact fun h => hs' ((hg.2.1 s).1 h)), hbuf s hs']

/-- the derivative of the amplitude of `s` in the direction `v` -/
def dpsi (dim : Bond .obc rows cols → ℕ) (sitps v : QLPeps.Site → ℕ → Tn 𝕜) (s : SpinCfg rows cols) : 𝕜 :=
  ∑ p : QLPeps.Tps.Spec.Site rows cols, value dim (Function.update
    (project sitps (toConfig s)) (p.1, p.2) (v (p.1, p.2) (toConfig s (p.1, p.2))))

/-- what a sample of the configuration `s` has to be -/
structure GoodSample (dim : Bond .obc rows cols → ℕ) (sitps : QLPeps.Site → ℕ → Tn 𝕜)
    (H : (SpinCfg rows cols → 𝕜) → SpinCfg rows cols → 𝕜) (x : Sample QLPeps.Site (List ℕ) 𝕜)
    (s : SpinCfg rows cols) : Prop where
  amp : x.amplitude = amplitude dim sitps (toConfig s)
  eloc : x.eloc * star (amplitude dim sitps (toConfig s)) =
    star (H (fun s => amplitude dim sitps (toConfig s)) s)
  holes : ∀ v : QLPeps.Site → ℕ → Tn 𝕜, (∀ s, ∀ k < 2, (v s k).shape = (sitps s k).shape) →
    overlapL rows cols 2 v (QLPeps.Evaluator.increment x) =
      star (dpsi dim sitps v s) * amplitude dim sitps (toConfig s)

/-- the configurations with exact amplitudes, `k` sweeps after the start -/
def walk (dim : Bond .obc rows cols → ℕ) (sitps : QLPeps.Site → ℕ → Tn 𝕜) (u : Updater) (phys : ℕ)
    (ab : Option 𝕜 → ℝ) (k : ℕ) (ξ : ℕ → ℝ) (c : Config) : Option (Walker (Option 𝕜) Unit) :=
  (sweep (exactContractor fun cfg => some (value dim (project sitps cfg))) u phys rows cols ab ξ)^[k]
    (some ⟨c, some (value dim (project sitps c)), (), 0⟩)

theorem samples_ok (hl : Lossless lib) (hf : ∀ cfg : Config, Fits (project sitps cfg) dim) (u : Updater)
    (hb : Big u rows cols) (phys : ℕ) (ab : Option 𝕜 → ℝ) (ξ : ℕ → ℝ) (c0 : Config)
    (H : (SpinCfg rows cols → 𝕜) → SpinCfg rows cols → 𝕜) (solver : Solver 𝕜) (writes : Bool)
    (hsol : ∀ s, amplitude dim sitps (toConfig s) ≠ 0 → Solves lib dim sitps solver H s) (between n : ℕ) :
    ∀ (j : ℕ) (w : Comp 𝕜) (buf : QLPeps.Site → List ℕ → 𝕜) (σ : ℕ → SpinCfg rows cols)
      (w' : Walker (Option 𝕜) Unit) (c : Ctr (List (Tn 𝕜)) (Tn 𝕜) (Tn 𝕜)),
      walk dim sitps u phys ab j ξ c0 = some w' → w.config = w'.config → w.amp = w'.amp →
      w.draws = w'.draws → w.env = some c →
      Fresh (tensorOps lib rows cols) rows cols (project sitps w.config) c →
      (∀ s, ¬ QLPeps.Contractor.inside rows cols s → buf s = fun _ => 0) →
      (∀ k, 1 ≤ k → k ≤ n → amplitude dim sitps (toConfig (σ k)) ≠ 0 ∧
        EndsIn (walk dim sitps u phys ab (j + k * between) ξ c0) (toConfig (σ k))) →
      ∃ l, samples (nextSample (sweep (bmpsContractor (tensorOps lib rows cols) rows cols sitps) u phys
          rows cols ab ξ) between solver writes) n w buf = .ok l ∧ l.length = n ∧
        ∀ k < n, ∃ x, l[k]? = some x ∧ GoodSample dim sitps H x (σ (k + 1)) := by
  induction n with
  | zero => intro j w buf σ w' c _ _ _ _ _ _ _ _; exact ⟨[], rfl, rfl, fun k hk => absurd hk (by omega)⟩
  | succ n ih =>
    intro j w buf σ w' c hw h1 h2 h3 h4 h5 hbuf hσ
    obtain ⟨wc, wa, we, wd⟩ := w
    obtain ⟨wc', wa', ⟨⟩, wd'⟩ := w'
    dsimp only at h1 h2 h3 h4 h5
    subst h1 h2 h3 h4
    obtain ⟨hne, z, hz, hzc⟩ := hσ 1 le_rfl (by omega)
    rw [one_mul] at hz
    have hy : (sweep (exactContractor fun cfg => some (value dim (project sitps cfg))) u phys rows cols
        ab ξ)^[between] (some ⟨wc, wa, (), wd⟩) = some z := by
      rw [← hz, add_comm, ← hw]
      unfold walk
      rw [Function.iterate_add_apply]
    have hza : z.amp = some (amplitude dim sitps (toConfig (σ 1))) := by
      have := sweep_emb (fun cfg => some (value dim (project sitps cfg))) u phys rows cols ab ξ
        (j + between) c0 0 z hz
      rw [this, hzc]; rfl
    rcases sweep_rel hl hf u hb phys ab ξ between wc wa wd c h5 with ⟨-, e⟩ | ⟨x, x', c', e1, e2, e3, e4, e5, e6, e7⟩
    · rw [hy] at e; cases e
    · rw [hy] at e2
      injection e2 with e2
      subst e2
      have hxc : x.config = toConfig (σ 1) := e3.trans hzc
      have hxa : x.amp = some (amplitude dim sitps (toConfig (σ 1))) := e4.trans hza
      rw [hxc] at e7
      obtain ⟨r, r1, r2, r3, ⟨m, r4⟩, r5⟩ := hsol (σ 1) hne c' e7
      obtain ⟨f1, f2⟩ := fillHoles_eq 2 _ r.holes r3 buf hbuf
      have hstep : nextSample (sweep (bmpsContractor (tensorOps lib rows cols) rows cols sitps) u phys
          rows cols ab ξ) between solver writes ⟨wc, wa, some c, wd⟩ buf =
          .ok (⟨toConfig (σ 1), amplitude dim sitps (toConfig (σ 1)), r.energy, fillHoles buf r.holes⟩,
            ⟨toConfig (σ 1), some (amplitude dim sitps (toConfig (σ 1))), some r.caches, x.draws⟩) := by
        unfold nextSample
        rw [e1]
        dsimp only
        rw [e6]
        dsimp only
        rw [hxc, r1]
        dsimp only
        have : (if writes then r.psi.getLast? else x.amp) = some (amplitude dim sitps (toConfig (σ 1))) := by
          rw [hxa, r4]
          cases writes
          · rfl
          · simp [List.getLast?_replicate]
        rw [this]
      obtain ⟨l, l1, l2, l3⟩ := ih (j + between)
        ⟨toConfig (σ 1), some (amplitude dim sitps (toConfig (σ 1))), some r.caches, x.draws⟩
        (fillHoles buf r.holes) (fun k => σ (k + 1)) z r.caches hz hzc.symm hza.symm e5 rfl r5 f2
        fun k hk1 hk2 => by
          have := hσ (k + 1) (by omega) (by omega)
          rwa [add_mul, one_mul, add_comm (k * between), ← add_assoc] at this
      refine ⟨⟨toConfig (σ 1), amplitude dim sitps (toConfig (σ 1)), r.energy, fillHoles buf r.holes⟩ :: l,
        ?_, by simp [l2], fun k hk => ?_⟩
      · rw [samples, hstep]
        change (samples _ n _ _ >>= fun rest => _) = _
        rw [l1]
        rfl
      · cases k with
        | zero =>
          refine ⟨_, rfl, rfl, r2, fun v hv => ?_⟩
          rw [f1]
          exact overlap_increment v sitps 2 (toConfig (σ 1)) (toConfig_lt _) hv r.holes r3 _ _
        | succ k => exact l3 k (by omega)

theorem rankRun_ok (hl : Lossless lib) (hf : ∀ cfg : Config, Fits (project sitps cfg) dim) (u : Updater)
    (hb : Big u rows cols) (phys : ℕ) (ab : Option 𝕜 → ℝ) (ξ : ℕ → ℝ) (c0 : Config)
    (H : (SpinCfg rows cols → 𝕜) → SpinCfg rows cols → 𝕜) (solver : Solver 𝕜) (writes : Bool)
    (hsol : ∀ s, amplitude dim sitps (toConfig s) ≠ 0 → Solves lib dim sitps solver H s) (between n : ℕ)
    (σ : ℕ → SpinCfg rows cols)
    (hσ : ∀ k, 1 ≤ k → k ≤ n → amplitude dim sitps (toConfig (σ k)) ≠ 0 ∧
        EndsIn (walk dim sitps u phys ab (k * between) ξ c0) (toConfig (σ k))) :
    ∃ l, rankRun lib rows cols sitps u phys ab solver writes between n ξ c0 = .ok l ∧ l.length = n ∧
        ∀ k < n, ∃ x, l[k]? = some x ∧ GoodSample dim sitps H x (σ (k + 1)) := by
  have hb2 : 2 ≤ rows ∧ 2 ≤ cols := by
    cases u <;> simp only [Big] at hb <;> omega
  obtain ⟨c', e1, e2⟩ := C99_initial_amplitude_exact hl (hf c0) (by omega) hb2.2 empty
  have hr : refresh lib rows cols sitps c0 0 = .ok ⟨c0, some (value dim (project sitps c0)), some c', 0⟩ := by
    unfold refresh
    rw [e1]
  obtain ⟨l, h1, h2, h3⟩ := samples_ok hl hf u hb phys ab ξ c0 H solver writes hsol between n 0
    ⟨c0, some (value dim (project sitps c0)), some c', 0⟩ (fun _ _ => 0) σ
    ⟨c0, some (value dim (project sitps c0)), (), 0⟩ c' rfl rfl rfl rfl rfl e2 (fun _ _ => rfl)
    (fun k hk1 hk2 => by rw [zero_add]; exact hσ k hk1 hk2)
  refine ⟨l, ?_, h2, h3⟩
  unfold rankRun
  rw [hr]
  exact h1

end

end det

end QLPeps.McRun
