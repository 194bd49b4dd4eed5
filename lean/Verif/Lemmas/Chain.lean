import Verif.Spec.Chain

/-!
# Chains of updates that read at most one random number each
-/

open MeasureTheory ProbabilityTheory Set

namespace QLPeps.Chain

open Spec

/-- an update as seen from the current state: where the number `u` leads, and how many numbers it
takes from the stream -/
structure Upd (X : Type*) where
  move : X → ℝ → Option X
  draws : X → ℕ

/-- probability of a defined move from `c` to `c'` -/
noncomputable def Upd.prob {X : Type*} (v : Upd X) (c c' : X) : ℝ :=
  (volume {u : ℝ | u ∈ Ico (0 : ℝ) 1 ∧ v.move c u = some c'}).toReal

structure Upd.Good {X : Type*} (Ω : Finset X) (v : Upd X) : Prop where
  closed : ∀ c ∈ Ω, ∀ u ∈ Ico (0 : ℝ) 1, ∀ c', v.move c u = some c' → c' ∈ Ω
  const : ∀ c ∈ Ω, v.draws c = 0 → ∀ u ∈ Ico (0 : ℝ) 1, v.move c u = v.move c 0
  meas : ∀ c ∈ Ω, ∀ c', MeasurableSet {u : ℝ | u ∈ Ico (0 : ℝ) 1 ∧ v.move c u = some c'}

/-- the chain driven by the stream `ξ`, read from position `n` -/
def run {X : Type*} : List (Upd X) → (ℕ → ℝ) → X → ℕ → Option (X × ℕ)
  | [], _, c, n => some (c, n)
  | v :: L, ξ, c, n => (v.move c (ξ n)).bind fun c' => run L ξ c' (n + v.draws c)

/-- transition probabilities of the chain on `Ω` -/
noncomputable def kernel {X : Type*} [DecidableEq X] (Ω : Finset X) : List (Upd X) → X → X → ℝ
  | [], c, c' => if c = c' then 1 else 0
  | v :: L, c, c' => ∑ x ∈ Ω, v.prob c x * kernel Ω L x c'

variable {X : Type*} {S : Type*} [MeasurableSpace S] {μ : Measure S} [IsProbabilityMeasure μ]
  {U : ℕ → S → ℝ}

theorem run_append (L M : List (Upd X)) (ξ : ℕ → ℝ) (c : X) (n : ℕ) :
    run (L ++ M) ξ c n = (run L ξ c n).bind fun p => run M ξ p.1 p.2 := by
  induction L generalizing c n with
  | nil => rfl
  | cons v L ih =>
    simp only [List.cons_append, run]
    cases v.move c (ξ n) with
    | none => rfl
    | some c' => exact ih c' _

/-- the event that the chain ends in `c'` -/
def event (L : List (Upd X)) (U : ℕ → S → ℝ) (c c' : X) (n : ℕ) : Set S :=
  {ω | (run L (fun i => U i ω) c n).map Prod.fst = some c'}

/-- the event that the first update leads to `x` -/
def first (v : Upd X) (U : ℕ → S → ℝ) (c x : X) (n : ℕ) : Set S := {ω | v.move c (U n ω) = some x}

theorem event_cons (hU : IidUniform μ U) (Ω : Finset X) (v : Upd X) (hv : v.Good Ω)
    (L : List (Upd X)) (c c' : X) (hc : c ∈ Ω) (n : ℕ) :
    event (v :: L) U c c' n =
      ⋃ x ∈ Ω, first v U c x n ∩ event L U x c' (n + v.draws c) := by
  ext ω
  simp only [event, first, mem_iUnion, mem_inter_iff, mem_ofPred_eq, run, exists_prop]
  constructor
  · intro h
    cases hm : v.move c (U n ω) with
    | none => rw [hm] at h; cases h
    | some x =>
      rw [hm] at h
      exact ⟨x, hv.closed c hc _ (hU.range n ω) x hm, rfl, h⟩
  · rintro ⟨x, -, h1, h2⟩
    rw [h1]
    exact h2

/-- what the numbers from position `n` on determine -/
def tail (U : ℕ → S → ℝ) (n : ℕ) : MeasurableSpace S :=
  ⨆ i ∈ {i | n ≤ i}, MeasurableSpace.comap (U i) inferInstance

theorem first_preimage (hU : IidUniform μ U) (v : Upd X) (c x : X) (n : ℕ) :
    first v U c x n = U n ⁻¹' {u : ℝ | u ∈ Ico (0 : ℝ) 1 ∧ v.move c u = some x} := by
  ext ω
  exact ⟨fun h => ⟨hU.range n ω, h⟩, fun h => h.2⟩

theorem first_comap (hU : IidUniform μ U) (Ω : Finset X) (v : Upd X) (hv : v.Good Ω)
    (c x : X) (hc : c ∈ Ω) (n : ℕ) :
    MeasurableSet[MeasurableSpace.comap (U n) inferInstance] (first v U c x n) :=
  ⟨_, hv.meas c hc x, (first_preimage hU v c x n).symm⟩

theorem comap_le_tail (n i : ℕ) (h : n ≤ i) :
    MeasurableSpace.comap (U i) inferInstance ≤ tail U n :=
  le_iSup₂_of_le (f := fun i (_ : i ∈ {i | n ≤ i}) => MeasurableSpace.comap (U i) inferInstance) i h
    le_rfl

theorem tail_mono {n m : ℕ} (h : n ≤ m) : tail U m ≤ tail U n :=
  iSup₂_le fun i hi => comap_le_tail n i (h.trans hi)

theorem event_tail (hU : IidUniform μ U) (Ω : Finset X) (L : List (Upd X))
    (hL : ∀ v ∈ L, v.Good Ω) (c c' : X) (hc : c ∈ Ω) (n : ℕ) :
    MeasurableSet[tail U n] (event L U c c' n) := by
  induction L generalizing c n with
  | nil =>
    by_cases h : c = c'
    · have : event [] U c c' n = univ := by ext ω; simp [event, run, h]
      rw [this]; exact @MeasurableSet.univ _ (tail U n)
    · have : event [] U c c' n = ∅ := by ext ω; simp [event, run, h]
      rw [this]; exact @MeasurableSet.empty _ (tail U n)
  | cons v L ih =>
    have hv := hL v (by simp)
    rw [event_cons hU Ω v hv L c c' hc n]
    refine @Finset.measurableSet_biUnion _ _ (tail U n) _ _ fun x hx => ?_
    refine @MeasurableSet.inter _ (tail U n) _ _ ?_ ?_
    · exact comap_le_tail n n le_rfl _ (first_comap hU Ω v hv c x hc n)
    · exact tail_mono (by omega) _ (ih (fun w hw => hL w (by simp [hw])) x hx _)

theorem tail_le (hU : IidUniform μ U) (n : ℕ) : tail U n ≤ ‹MeasurableSpace S› :=
  iSup₂_le fun i _ => (hU.measurable i).comap_le

theorem tail_le_all (n : ℕ) : tail U n ≤ ⨆ i, MeasurableSpace.comap (U i) inferInstance :=
  iSup₂_le fun i _ => le_iSup (fun i => MeasurableSpace.comap (U i) inferInstance) i

theorem prob_first (hU : IidUniform μ U) (Ω : Finset X) (v : Upd X) (hv : v.Good Ω)
    (c x : X) (hc : c ∈ Ω) (n : ℕ) : (μ (first v U c x n)).toReal = v.prob c x := by
  rw [first_preimage hU, ← Measure.map_apply (hU.measurable n) (hv.meas c hc x), hU.law n,
    Measure.restrict_apply (hv.meas c hc x), Upd.prob]
  congr 2
  ext u
  simp only [mem_inter_iff, mem_ofPred_eq]
  tauto

/-- the first move and the rest of the chain are independent -/
theorem indep_step (hU : IidUniform μ U) (Ω : Finset X) (v : Upd X) (hv : v.Good Ω)
    (L : List (Upd X)) (hL : ∀ v ∈ L, v.Good Ω) (c c' x : X) (hc : c ∈ Ω) (hx : x ∈ Ω) (n : ℕ) :
    μ (first v U c x n ∩ event L U x c' (n + v.draws c)) =
      μ (first v U c x n) * μ (event L U x c' (n + v.draws c)) := by
  by_cases h0 : v.draws c = 0
  · by_cases hm : v.move c 0 = some x
    · have : first v U c x n = univ := by
        ext ω
        simp only [first, mem_ofPred_eq, mem_univ, iff_true]
        rw [hv.const c hc h0 _ (hU.range n ω), hm]
      rw [this]; simp
    · have : first v U c x n = ∅ := by
        ext ω
        simp only [first, mem_ofPred_eq, mem_empty_iff_false, iff_false]
        rw [hv.const c hc h0 _ (hU.range n ω)]
        exact hm
      rw [this]; simp
  · have hind := indep_iSup_of_disjoint (m := fun i => MeasurableSpace.comap (U i) inferInstance)
      (fun i => (hU.measurable i).comap_le) hU.indep (S := {n}) (T := {i | n + v.draws c ≤ i})
      (by rw [Set.disjoint_singleton_left]; simp only [mem_ofPred_eq]; omega)
    rw [Indep_iff] at hind
    refine hind _ _ ?_ (event_tail hU Ω L hL x c' hx _)
    exact le_iSup₂_of_le (f := fun i (_ : i ∈ ({n} : Set ℕ)) =>
      MeasurableSpace.comap (U i) inferInstance) n rfl le_rfl _ (first_comap hU Ω v hv c x hc n)

/-- the kernel is the law of the chain, wherever in the stream it starts -/
theorem prob_event [DecidableEq X] (hU : IidUniform μ U) (Ω : Finset X) (L : List (Upd X))
    (hL : ∀ v ∈ L, v.Good Ω) (c c' : X) (hc : c ∈ Ω) (n : ℕ) :
    (μ (event L U c c' n)).toReal = kernel Ω L c c' := by
  induction L generalizing c n with
  | nil =>
    by_cases h : c = c'
    · have : event [] U c c' n = univ := by ext ω; simp [event, run, h]
      rw [this]; simp [kernel, h]
    · have : event [] U c c' n = ∅ := by ext ω; simp [event, run, h]
      rw [this]; simp [kernel, h]
  | cons v L ih =>
    have hv := hL v (by simp)
    have hL' : ∀ w ∈ L, w.Good Ω := fun w hw => hL w (by simp [hw])
    rw [event_cons hU Ω v hv L c c' hc n, measure_biUnion_finset, ENNReal.toReal_sum]
    · refine Finset.sum_congr rfl fun x hx => ?_
      rw [indep_step hU Ω v hv L hL' c c' x hc hx n, ENNReal.toReal_mul,
        prob_first hU Ω v hv c x hc n, ih hL' x hx]
    · exact fun x _ => measure_ne_top _ _
    · intro x _ y _ hxy
      refine Set.disjoint_left.2 fun ω h1 h2 => hxy ?_
      have a1 : v.move c (U n ω) = some x := h1.1
      have a2 : v.move c (U n ω) = some y := h2.1
      rw [a1] at a2
      exact Option.some.inj a2
    · intro x hx
      exact ((tail_le hU n) _ (comap_le_tail n n le_rfl _ (first_comap hU Ω v hv c x hc n))).inter
        ((tail_le hU _) _ (event_tail hU Ω L hL' x c' hx _))

/-- weights left invariant by each update are left invariant by the chain -/
theorem kernel_stationary [DecidableEq X] (Ω : Finset X) (wt : X → ℝ) (L : List (Upd X))
    (h : ∀ v ∈ L, ∀ c' ∈ Ω, ∑ c ∈ Ω, wt c * v.prob c c' = wt c') (c' : X) (hc' : c' ∈ Ω) :
    ∑ c ∈ Ω, wt c * kernel Ω L c c' = wt c' := by
  induction L with
  | nil => simp [kernel, hc']
  | cons v L ih =>
    have hv := h v (by simp)
    rw [← ih (fun w hw => h w (by simp [hw]))]
    simp only [kernel, Finset.mul_sum]
    rw [Finset.sum_comm]
    refine Finset.sum_congr rfl fun x hx => ?_
    rw [← hv x hx, Finset.sum_mul]
    exact Finset.sum_congr rfl fun c _ => by ring

theorem stationary [DecidableEq X] (hU : IidUniform μ U) (Ω : Finset X) (wt : X → ℝ)
    (L : List (Upd X)) (hL : ∀ v ∈ L, v.Good Ω)
    (h : ∀ v ∈ L, ∀ c' ∈ Ω, ∑ c ∈ Ω, wt c * v.prob c c' = wt c') (n : ℕ) (c' : X) (hc' : c' ∈ Ω) :
    ∑ c ∈ Ω, wt c * (μ {ω | (run L (fun i => U i ω) c n).map Prod.fst = some c'}).toReal = wt c' := by
  rw [← kernel_stationary Ω wt L h c' hc']
  refine Finset.sum_congr rfl fun c hc => ?_
  rw [← prob_event hU Ω L hL c c' hc n]
  rfl

theorem event_disjoint (L : List (Upd X)) (c x y : X) (n : ℕ) (h : x ≠ y) :
    Disjoint (event L U c x n) (event L U c y n) := by
  refine Set.disjoint_left.2 fun ω h1 h2 => h ?_
  have a1 : (run L (fun i => U i ω) c n).map Prod.fst = some x := h1
  have a2 : (run L (fun i => U i ω) c n).map Prod.fst = some y := h2
  rw [a1] at a2
  exact Option.some.inj a2

theorem event_measurable (hU : IidUniform μ U) (Ω : Finset X) (L : List (Upd X))
    (hL : ∀ v ∈ L, v.Good Ω) (c c' : X) (hc : c ∈ Ω) (n : ℕ) : MeasurableSet (event L U c c' n) :=
  tail_le hU n _ (event_tail hU Ω L hL c c' hc n)

/-- from a state of nonzero weight the chain ends, with probability one, in one of nonzero weight -/
theorem reach [DecidableEq X] (hU : IidUniform μ U) (Ω : Finset X) (wt : X → ℝ)
    (hwt : ∀ c, 0 ≤ wt c) (L : List (Upd X)) (hL : ∀ v ∈ L, v.Good Ω)
    (h : ∀ v ∈ L, ∀ c' ∈ Ω, ∑ c ∈ Ω, wt c * v.prob c c' = wt c') (n : ℕ) (c : X) (hc : c ∈ Ω)
    (hpos : wt c ≠ 0) : μ (⋃ x ∈ Ω.filter (fun x => wt x ≠ 0), event L U c x n) = 1 := by
  have hst := fun c' (hc' : c' ∈ Ω) => kernel_stationary Ω wt L h c' hc'
  have hnn : ∀ x ∈ Ω, ∀ y, 0 ≤ kernel Ω L x y := fun x hx y => by
    rw [← prob_event hU Ω L hL x y hx 0]; exact ENNReal.toReal_nonneg
  have hsum : ∀ x ∈ Ω, ∀ s : Finset X, μ (⋃ y ∈ s, event L U x y n) =
      ENNReal.ofReal (∑ y ∈ s, kernel Ω L x y) := by
    intro x hx s
    rw [measure_biUnion_finset (fun a _ b _ hab => event_disjoint L x a b n hab)
      (fun y _ => event_measurable hU Ω L hL x y hx n), ENNReal.ofReal_sum_of_nonneg
      (fun y _ => hnn x hx y)]
    refine Finset.sum_congr rfl fun y _ => ?_
    rw [← prob_event hU Ω L hL x y hx n, ENNReal.ofReal_toReal (measure_ne_top _ _)]
  have hle : ∀ x ∈ Ω, ∑ y ∈ Ω, kernel Ω L x y ≤ 1 := by
    intro x hx
    have := prob_le_one (μ := μ) (s := ⋃ y ∈ Ω, event L U x y n)
    rw [hsum x hx Ω] at this
    exact ENNReal.ofReal_le_one.1 this
  have htot : ∑ x ∈ Ω, wt x * (1 - ∑ y ∈ Ω, kernel Ω L x y) = 0 := by
    have : ∑ x ∈ Ω, wt x * ∑ y ∈ Ω, kernel Ω L x y = ∑ y ∈ Ω, wt y := by
      simp only [Finset.mul_sum]
      rw [Finset.sum_comm]
      exact Finset.sum_congr rfl fun y hy => hst y hy
    simp only [mul_sub, mul_one, Finset.sum_sub_distrib, this, sub_self]
  have h1 : ∑ y ∈ Ω, kernel Ω L c y = 1 := by
    have := (Finset.sum_eq_zero_iff_of_nonneg fun x hx =>
      mul_nonneg (hwt x) (by have := hle x hx; linarith)).1 htot c hc
    rcases mul_eq_zero.1 this with h0 | h0
    · exact absurd h0 hpos
    · linarith
  have h2 : ∀ y ∈ Ω, wt y = 0 → kernel Ω L c y = 0 := by
    intro y hy h0
    have := hst y hy
    rw [h0] at this
    have := (Finset.sum_eq_zero_iff_of_nonneg fun x hx => mul_nonneg (hwt x) (hnn x hx y)).1 this c hc
    exact (mul_eq_zero.1 this).resolve_left hpos
  rw [hsum c hc, Finset.sum_filter_of_ne (p := fun y => wt y ≠ 0)
    (fun y hy hne h0 => hne (h2 y hy h0)), h1]
  simp

end QLPeps.Chain
