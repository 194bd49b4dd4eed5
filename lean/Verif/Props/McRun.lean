import Verif.Lemmas.McUnbiased
import Verif.Props.ExactRun
import Mathlib.MeasureTheory.Measure.Prod

/-!
# Property C106: Monte Carlo estimates in equilibrium

`evaluate` models `MCEnergyGradEvaluator::Evaluate` from the tensor product state and the random numbers
of all ranks to energy, gradient and `Ostar_mean`: sweeps of an updater and a solver take turns on the
same boundary-MPS contractor.
-/

open MeasureTheory ProbabilityTheory

namespace QLPeps.McRun

universe u

open Spec QLPeps.Chain.Spec QLPeps.Contractor QLPeps.Energy QLPeps.Updaters
open QLPeps.ExactRun (herm_xxz herm_triangle herm_triangle_j1j2 herm_tfim solves_xxz solves_triangle
  solves_triangle_j1j2 solves_tfim)
open QLPeps.ExactRun.Spec (Closed)
open QLPeps.SolverRun (pairSolver triSolver tfimSolver twoState twoState_fits ones_amplitude)
open QLPeps.SolverRun.Spec (amplitude)
open QLPeps.Peps (Tn Lib)
open QLPeps.Bmps (idLib_lossless)
open QLPeps.Bmps.Spec (Lossless Fits)
open QLPeps.Tps.Spec (Bond)
open QLPeps.Spec

noncomputable section

variable {𝕜 : Type u} [RCLike 𝕜] {rows cols : ℕ} {lib : Lib 𝕜} {dim : Bond .obc rows cols → ℕ}
  {sitps : QLPeps.Site → ℕ → Tn 𝕜} {S : Type*} [MeasurableSpace S] {μ : Measure S} [IsProbabilityMeasure μ]

/-- **C106.** XXZ and J1-J2 models with real couplings, any of the three updaters, any number of ranks,
samples and sweeps between them. Let the factorizations truncate nothing, let `L` be a list of distinct
configurations that neither the updater nor the Hamiltonian leaves, and let every rank be in equilibrium
on `L`. Then the run succeeds with probability one, the expectation of the energy is the energy of the
state, and those of `Ostar_mean` and of the gradient give the derivatives of norm and energy. The ranks
need not be independent of each other. -/
theorem C106_xxz (hl : Lossless lib) (hf : ∀ cfg : Config, Fits (project sitps cfg) dim) (upd : Updater)
    (hb : Big upd rows cols) (nnn : Bool) (jz jxy jz2 jxy2 pin : 𝕜) (h1 : star jz = jz)
    (h2 : star jxy = jxy) (h3 : star jz2 = jz2) (h4 : star jxy2 = jxy2) (h5 : star pin = pin)
    (isZero : 𝕜 → Bool) (hz : ∀ a, isZero a = true ↔ a = 0) (ab : Option 𝕜 → ℝ) (hab0 : ∀ z, 0 ≤ ab z)
    (hab : ∀ z, ab (some z) = ‖z‖) (writes : Bool) (between n : ℕ) (hn : 0 < n)
    (L : List (SpinCfg rows cols)) (hL : L.Nodup)
    (hcl : Closed (xxzH jz jxy (if nnn then jz2 else 0) (if nnn then jxy2 else 0) pin) L)
    (Ω : Finset Config) (hΩL : ∀ c, c ∈ Ω ↔ ∃ s ∈ L, toConfig s = c) (hΩ : Stays upd 2 rows cols Ω)
    (size : ℕ) (hsize : 0 < size) (U : Fin size → ℕ → S → ℝ) (start : Fin size → S → Config)
    (hE : ∀ i, Equilibrium μ Ω (fun c => ‖amplitude dim sitps c‖ ^ 2) (U i) (start i)) :
    Unbiased μ dim sitps (xxzH jz jxy (if nnn then jz2 else 0) (if nnn then jxy2 else 0) pin) L fun ω =>
      evaluate lib rows cols sitps upd 2 ab
        (fun cfg => pairSolver lib rows cols sitps cfg isZero true (xxz nnn jz jxy jz2 jxy2 pin))
        writes between n (List.ofFn fun i => ((fun j => U i j ω), start i ω)) := by
  have hb2 : 2 ≤ rows ∧ 2 ≤ cols := by
    cases upd <;> simp only [Big] at hb <;> omega
  exact unbiased hl hf upd hb 2 ab hab0 hab _ _ writes
    (fun s h0 => solves_xxz hl (fun cfg _ => hf cfg) hb2.1 hb2.2 nnn jz jxy jz2 jxy2 pin h1 h2 h3 h4 h5
      isZero hz s h0) between n L Ω hΩL hΩ hL
    (herm_xxz _ _ _ _ _ h1 h2 (by split_ifs <;> simp [h3]) (by split_ifs <;> simp [h4]) h5) hcl size hsize
    hn hE

/-- **C106.** The same for the Heisenberg model on the triangular lattice. -/
theorem C106_triangle (hl : Lossless lib) (hf : ∀ cfg : Config, Fits (project sitps cfg) dim)
    (upd : Updater) (hb : Big upd rows cols)
    (isZero : 𝕜 → Bool) (hz : ∀ a, isZero a = true ↔ a = 0) (ab : Option 𝕜 → ℝ) (hab0 : ∀ z, 0 ≤ ab z)
    (hab : ∀ z, ab (some z) = ‖z‖) (writes : Bool) (between n : ℕ) (hn : 0 < n)
    (L : List (SpinCfg rows cols)) (hL : L.Nodup) (hcl : Closed (triangularH (K := 𝕜)) L)
    (Ω : Finset Config) (hΩL : ∀ c, c ∈ Ω ↔ ∃ s ∈ L, toConfig s = c) (hΩ : Stays upd 2 rows cols Ω)
    (size : ℕ) (hsize : 0 < size) (U : Fin size → ℕ → S → ℝ) (start : Fin size → S → Config)
    (hE : ∀ i, Equilibrium μ Ω (fun c => ‖amplitude dim sitps c‖ ^ 2) (U i) (start i)) :
    Unbiased μ dim sitps triangularH L fun ω =>
      evaluate lib rows cols sitps upd 2 ab
        (fun cfg => pairSolver lib rows cols sitps cfg isZero true triangle)
        writes between n (List.ofFn fun i => ((fun j => U i j ω), start i ω)) := by
  have hb2 : 2 ≤ rows ∧ 2 ≤ cols := by
    cases upd <;> simp only [Big] at hb <;> omega
  exact unbiased hl hf upd hb 2 ab hab0 hab _ _ writes
    (fun s h0 => solves_triangle hl (fun cfg _ => hf cfg) hb2.1 hb2.2 isZero hz s h0) between n L Ω hΩL hΩ hL
    herm_triangle hcl size hsize hn hE

/-- **C106.** The same for the triangular J1-J2 model, from three rows on. -/
theorem C106_triangle_j1j2 (hl : Lossless lib) (hf : ∀ cfg : Config, Fits (project sitps cfg) dim)
    (upd : Updater) (hb : Big upd rows cols) (hr : 3 ≤ rows) (j2 : 𝕜) (hj : star j2 = j2)
    (ab : Option 𝕜 → ℝ) (hab0 : ∀ z, 0 ≤ ab z)
    (hab : ∀ z, ab (some z) = ‖z‖) (writes : Bool) (between n : ℕ) (hn : 0 < n)
    (L : List (SpinCfg rows cols)) (hL : L.Nodup) (hcl : Closed (triangularJ1J2H j2) L)
    (Ω : Finset Config) (hΩL : ∀ c, c ∈ Ω ↔ ∃ s ∈ L, toConfig s = c) (hΩ : Stays upd 2 rows cols Ω)
    (size : ℕ) (hsize : 0 < size) (U : Fin size → ℕ → S → ℝ) (start : Fin size → S → Config)
    (hE : ∀ i, Equilibrium μ Ω (fun c => ‖amplitude dim sitps c‖ ^ 2) (U i) (start i)) :
    Unbiased μ dim sitps (triangularJ1J2H j2) L fun ω =>
      evaluate lib rows cols sitps upd 2 ab
        (fun cfg => triSolver lib rows cols sitps cfg true j2)
        writes between n (List.ofFn fun i => ((fun j => U i j ω), start i ω)) := by
  have hb2 : 2 ≤ cols := by
    cases upd <;> simp only [Big] at hb <;> omega
  exact unbiased hl hf upd hb 2 ab hab0 hab _ _ writes
    (fun s h0 => solves_triangle_j1j2 hl (fun cfg _ => hf cfg) hr hb2 j2 hj s h0) between n L Ω hΩL hΩ hL
    (herm_triangle_j1j2 j2 hj) hcl size hsize hn hE

/-- **C106.** The same for the transverse-field Ising model. -/
theorem C106_tfim (hl : Lossless lib) (hf : ∀ cfg : Config, Fits (project sitps cfg) dim)
    (upd : Updater) (hb : Big upd rows cols) (h : 𝕜) (hh : star h = h)
    (ab : Option 𝕜 → ℝ) (hab0 : ∀ z, 0 ≤ ab z)
    (hab : ∀ z, ab (some z) = ‖z‖) (writes : Bool) (between n : ℕ) (hn : 0 < n)
    (L : List (SpinCfg rows cols)) (hL : L.Nodup) (hcl : Closed (tfimH h) L)
    (Ω : Finset Config) (hΩL : ∀ c, c ∈ Ω ↔ ∃ s ∈ L, toConfig s = c) (hΩ : Stays upd 2 rows cols Ω)
    (size : ℕ) (hsize : 0 < size) (U : Fin size → ℕ → S → ℝ) (start : Fin size → S → Config)
    (hE : ∀ i, Equilibrium μ Ω (fun c => ‖amplitude dim sitps c‖ ^ 2) (U i) (start i)) :
    Unbiased μ dim sitps (tfimH h) L fun ω =>
      evaluate lib rows cols sitps upd 2 ab
        (fun cfg => tfimSolver lib rows cols sitps cfg true h)
        writes between n (List.ofFn fun i => ((fun j => U i j ω), start i ω)) := by
  have hb2 : 2 ≤ rows ∧ 2 ≤ cols := by
    cases upd <;> simp only [Big] at hb <;> omega
  exact unbiased hl hf upd hb 2 ab hab0 hab _ _ writes
    (fun s h0 => solves_tfim hl (fun cfg _ => hf cfg) (by omega) hb2.2 h hh s h0) between n L Ω hΩL hΩ hL
    (herm_tfim h hh) hcl size hsize hn hE

/-! ## Sets of configurations no updater leaves -/

theorem mem_image_iff {p : SpinCfg rows cols → Prop} (q : Config → Prop)
    (hpq : ∀ s, p s ↔ q (toConfig s)) (c : Config) :
    (∃ s, p s ∧ toConfig s = c) ↔ (∀ a, a ∈ sites rows cols → c a < 2) ∧ (∀ a, a ∉ sites rows cols → c a = 0) ∧
      q c := by
  constructor
  · rintro ⟨s, hs, rfl⟩
    refine ⟨fun a _ => QLPeps.SolverRun.toConfig_lt s a, fun a ha => by unfold toConfig; rw [dif_neg ha],
      (hpq s).1 hs⟩
  · rintro ⟨h1, h2, h3⟩
    have e : toConfig (fun a : ↥(sites rows cols) => (⟨c a, h1 a a.2⟩ : Fin 2)) = c := by
      funext a
      unfold toConfig
      split_ifs with h
      · rfl
      · exact (h2 a h).symm
    exact ⟨_, (hpq _).2 (by rw [e]; exact h3), e⟩

theorem sum_toConfig (s : SpinCfg rows cols) : ∑ a ∈ sites rows cols, toConfig s a = ∑ a, (s a : ℕ) := by
  rw [← Finset.sum_coe_sort]
  refine Finset.sum_congr rfl fun a _ => ?_
  unfold toConfig
  rw [dif_pos a.2]

theorem sum_setSite (c : Config) (a : QLPeps.Site) (ha : a ∈ sites rows cols) (x : ℕ) :
    ∑ p ∈ sites rows cols, setSite c a x p + c a = ∑ p ∈ sites rows cols, c p + x := by
  rw [← Finset.add_sum_erase _ _ ha, ← Finset.add_sum_erase _ c ha]
  have : ∑ p ∈ (sites rows cols).erase a, setSite c a x p = ∑ p ∈ (sites rows cols).erase a, c p :=
    Finset.sum_congr rfl fun p hp => if_neg (Finset.ne_of_mem_erase hp)
  rw [this]
  simp only [setSite, if_true]
  ring

/-- **C106.** Neither of the exchange updaters leaves the configurations with a given number of up
spins. -/
theorem C106_sector_stays (L : List (SpinCfg rows cols)) (m : ℕ) (hm : ∀ s, s ∈ L ↔ ∑ a, (s a : ℕ) = m)
    (Ω : Finset Config) (hΩL : ∀ c, c ∈ Ω ↔ ∃ s ∈ L, toConfig s = c) :
    Stays .exchange 2 rows cols Ω ∧ Stays .threeSite 2 rows cols Ω := by
  have key : ∀ c, c ∈ Ω ↔ (∀ a, a ∈ sites rows cols → c a < 2) ∧ (∀ a, a ∉ sites rows cols → c a = 0) ∧
      ∑ a ∈ sites rows cols, c a = m := fun c => by
    rw [hΩL]
    exact mem_image_iff (fun c => ∑ a ∈ sites rows cols, c a = m)
      (fun s => by rw [hm, sum_toConfig]) c
  have hin : ∀ {a : QLPeps.Site}, InLattice rows cols a → a ∈ sites rows cols := fun h => mem_sites.2 h
  constructor
  · intro c hc a b hab
    rw [key] at hc ⊢
    have hmem : ∀ p, Equiv.swap a b p ∈ sites rows cols ↔ p ∈ sites rows cols := by
      intro p
      rcases Equiv.swap_apply_def a b p with h
      rw [h]
      split_ifs with h1 h2
      · rw [h1]; exact ⟨fun _ => hin hab.1, fun _ => hin hab.2.1⟩
      · rw [h2]; exact ⟨fun _ => hin hab.2.1, fun _ => hin hab.1⟩
      · rfl
    refine ⟨fun p hp => hc.1 _ ((hmem p).2 hp), fun p hp => hc.2.1 _ fun h => hp ((hmem p).1 h), ?_⟩
    rw [← hc.2.2]
    exact Finset.sum_equiv (Equiv.swap a b) (fun p => (hmem p).symm) fun _ _ => rfl
  · intro c hc a b e hab hbe x y z hp
    rw [key] at hc ⊢
    have ha := hin hab.1
    have hb := hin hab.2.1
    have he := hin hbe.2.1
    have hne1 : a ≠ b := QLPeps.Chain.Spec.Neighbours.ne hab
    have hne2 : b ≠ e := QLPeps.Chain.Spec.Neighbours.ne hbe
    have hne3 : a ≠ e := by
      rintro rfl
      rcases hab.2.2 with ⟨h0, h1⟩ | ⟨h0, h1⟩ <;> rcases hbe.2.2 with ⟨h3, h2⟩ | ⟨h3, h2⟩ <;> omega
    have hlt : ∀ w ∈ [x, y, z], w < 2 := by
      intro w hw
      have := hp.mem_iff.1 hw
      simp only [List.mem_cons, List.not_mem_nil, or_false] at this
      rcases this with rfl | rfl | rfl
      · exact hc.1 _ ha
      · exact hc.1 _ hb
      · exact hc.1 _ he
    have hsum := hp.sum_eq
    simp only [List.sum_cons, List.sum_nil] at hsum
    refine ⟨fun p hps => ?_, fun p hps => ?_, ?_⟩
    · simp only [setSite]
      split_ifs
      · exact hlt z (by simp)
      · exact hlt y (by simp)
      · exact hlt x (by simp)
      · exact hc.1 p hps
    · simp only [setSite]
      rw [if_neg (by rintro rfl; exact hps he), if_neg (by rintro rfl; exact hps hb),
        if_neg (by rintro rfl; exact hps ha)]
      exact hc.2.1 p hps
    · have s1 := sum_setSite (rows := rows) (cols := cols) c a ha x
      have s2 := sum_setSite (rows := rows) (cols := cols) (setSite c a x) b hb y
      have s3 := sum_setSite (rows := rows) (cols := cols) (setSite (setSite c a x) b y) e he z
      have e2 : setSite c a x b = c b := if_neg hne1.symm
      have e3 : setSite (setSite c a x) b y e = c e := by
        simp only [setSite]; rw [if_neg hne2.symm, if_neg hne3.symm]
      rw [e2] at s2
      rw [e3] at s3
      omega

/-- **C106.** No updater leaves the set of all configurations. -/
theorem C106_all_stay (L : List (SpinCfg rows cols)) (hall : ∀ s, s ∈ L) (Ω : Finset Config)
    (hΩL : ∀ c, c ∈ Ω ↔ ∃ s ∈ L, toConfig s = c) (upd : Updater) : Stays upd 2 rows cols Ω := by
  have key : ∀ c, c ∈ Ω ↔ (∀ a, a ∈ sites rows cols → c a < 2) ∧ (∀ a, a ∉ sites rows cols → c a = 0) :=
    fun c => by
    rw [hΩL, mem_image_iff (fun _ => True) (fun s => iff_of_true (hall s) trivial) c]
    simp
  have hin : ∀ {a : QLPeps.Site}, InLattice rows cols a → a ∈ sites rows cols := fun h => mem_sites.2 h
  have hset : ∀ c ∈ Ω, ∀ a, InLattice rows cols a → ∀ x < 2, setSite c a x ∈ Ω := by
    intro c hc a ha x hx
    rw [key] at hc ⊢
    refine ⟨fun p hp => ?_, fun p hp => ?_⟩
    · simp only [setSite]; split_ifs
      · exact hx
      · exact hc.1 p hp
    · simp only [setSite]
      rw [if_neg (by rintro rfl; exact hp (hin ha))]
      exact hc.2 p hp
  cases upd with
  | exchange =>
    intro c hc a b hab
    have e : (fun p => c (Equiv.swap a b p)) = setSite (setSite c a (c b)) b (c a) := by
      funext p
      simp only [setSite, Equiv.swap_apply_def]
      split_ifs with h1 h2 h2
      · rw [← h1, h2]
      · rfl
      · rfl
      · rfl
    rw [e]
    exact hset _ (hset _ hc a hab.1 _ (((key c).1 hc).1 _ (hin hab.2.1))) b hab.2.1 _
      (((key c).1 hc).1 _ (hin hab.1))
  | fullSpace =>
    refine ⟨fun c hc a ha => ((key c).1 hc).1 a (hin ha), fun c hc a b hab x y hx hy => ?_⟩
    exact hset _ (hset _ hc a hab.1 x hx) b hab.2.1 y hy
  | threeSite =>
    intro c hc a b e hab hbe x y z hp
    have hlt : ∀ w ∈ [x, y, z], w < 2 := by
      intro w hw
      have := hp.mem_iff.1 hw
      simp only [List.mem_cons, List.not_mem_nil, or_false] at this
      rcases this with rfl | rfl | rfl
      · exact ((key c).1 hc).1 _ (hin hab.1)
      · exact ((key c).1 hc).1 _ (hin hab.2.1)
      · exact ((key c).1 hc).1 _ (hin hbe.2.1)
    exact hset _ (hset _ (hset _ hc a hab.1 x (hlt x (by simp))) b hab.2.1 y (hlt y (by simp))) e hbe.2.1 z
      (hlt z (by simp))

/-! ## Equilibrium exists -/

/-- For all weights that do not all vanish there is a rank in equilibrium. -/
theorem exists_equilibrium (Ω : Finset Config) (wt : Config → ℝ) (h0 : ∀ c, 0 ≤ wt c)
    (hpos : ∑ c ∈ Ω, wt c ≠ 0) :
    ∃ (S : Type) (_ : MeasurableSpace S) (μ : Measure S) (U : ℕ → S → ℝ) (start : S → Config),
      IsProbabilityMeasure μ ∧ Equilibrium μ Ω wt U start := by
  classical
  obtain ⟨P, V, hP, hV⟩ := QLPeps.Chain.exists_iidUniform
  letI : MeasurableSpace ↥Ω := ⊤
  let ν : Measure ↥Ω := ∑ c : ↥Ω, ENNReal.ofReal (wt c / ∑ c ∈ Ω, wt c) • Measure.dirac c
  have hZ : 0 < ∑ c ∈ Ω, wt c := lt_of_le_of_ne (Finset.sum_nonneg fun c _ => h0 c) (Ne.symm hpos)
  have hν : ∀ c : ↥Ω, ν {c} = ENNReal.ofReal (wt c / ∑ c ∈ Ω, wt c) := by
    intro c
    simp only [ν, Measure.finset_sum_apply, Measure.smul_apply, smul_eq_mul]
    rw [Finset.sum_eq_single c]
    · rw [Measure.dirac_apply' _ (MeasurableSpace.measurableSet_top)]; simp
    · intro b _ hb
      rw [Measure.dirac_apply' _ (MeasurableSpace.measurableSet_top)]
      simp [hb]
    · simp
  have hνp : IsProbabilityMeasure ν := by
    refine ⟨?_⟩
    simp only [ν, Measure.finset_sum_apply, Measure.smul_apply, smul_eq_mul, measure_univ, mul_one]
    rw [← ENNReal.ofReal_sum_of_nonneg fun c _ => div_nonneg (h0 _) hZ.le, ← Finset.sum_div,
      Finset.sum_coe_sort Ω wt, div_self hpos, ENNReal.ofReal_one]
  have hset : ∀ c, {ω : (ℕ → ℝ) × ↥Ω | (ω.2 : Config) = c} = Set.univ ×ˢ {x : ↥Ω | (x : Config) = c} := by
    intro c; ext ω; simp
  have hm2 : ∀ c : Config, MeasurableSet {x : ↥Ω | (x : Config) = c} :=
    fun c => MeasurableSpace.measurableSet_top
  refine ⟨(ℕ → ℝ) × ↥Ω, inferInstance, P.prod ν, fun i ω => V i ω.1, fun ω => ω.2, inferInstance, ?_⟩
  have hstream : IidUniform (P.prod ν) fun i (ω : (ℕ → ℝ) × ↥Ω) => V i ω.1 := by
    refine ⟨fun i => (hV.measurable i).comp measurable_fst, ?_, fun i => ?_, fun i ω => hV.range i _⟩
    · have hi := hV.indep
      rw [iIndepFun_iff_measure_inter_preimage_eq_mul] at hi ⊢
      have hfst : ∀ A : Set (ℕ → ℝ), (P.prod ν) (Prod.fst ⁻¹' A) = P A := by
        intro A
        rw [show (Prod.fst ⁻¹' A : Set ((ℕ → ℝ) × ↥Ω)) = A ×ˢ Set.univ from by ext ω; simp,
          Measure.prod_prod, measure_univ, mul_one]
      intro T sets hs
      have e1 : (⋂ i ∈ T, (fun ω : (ℕ → ℝ) × ↥Ω => V i ω.1) ⁻¹' sets i) =
          Prod.fst ⁻¹' (⋂ i ∈ T, V i ⁻¹' sets i) := by
        ext ω; simp
      rw [e1, hfst, hi T hs]
      refine Finset.prod_congr rfl fun i _ => ?_
      exact (hfst (V i ⁻¹' sets i)).symm
    · have h1 : (P.prod ν).map (fun ω => V i ω.1) = ((P.prod ν).map Prod.fst).map (V i) := by
        rw [Measure.map_map (hV.measurable i) measurable_fst]; rfl
      rw [h1, Measure.map_fst_prod, measure_univ, one_smul, hV.law i]
  refine ⟨hstream, fun ω => ω.2.2, fun c => ?_, fun c hc => ?_, fun c B hB => ?_⟩
  · rw [hset]; exact MeasurableSet.univ.prod (hm2 c)
  · rw [hset, Measure.prod_prod, measure_univ, one_mul]
    have : {x : ↥Ω | (x : Config) = c} = {⟨c, hc⟩} := by
      ext x; simp [Subtype.ext_iff]
    rw [this, hν, ENNReal.toReal_ofReal (div_nonneg (h0 c) hZ.le)]
  · have hB' : ∃ B' : Set (ℕ → ℝ), MeasurableSet B' ∧ B = Prod.fst ⁻¹' B' := by
      have hle : (⨆ i, MeasurableSpace.comap (fun ω : (ℕ → ℝ) × ↥Ω => V i ω.1) inferInstance) ≤
          MeasurableSpace.comap Prod.fst (inferInstance : MeasurableSpace (ℕ → ℝ)) :=
        iSup_le fun i => by
          rintro _ ⟨A, hA, rfl⟩
          exact ⟨V i ⁻¹' A, hV.measurable i hA, rfl⟩
      obtain ⟨B', h1, h2⟩ := hle _ hB
      exact ⟨B', h1, h2.symm⟩
    obtain ⟨B', hB'm, rfl⟩ := hB'
    have e1 : {ω : (ℕ → ℝ) × ↥Ω | (ω.2 : Config) = c} ∩ Prod.fst ⁻¹' B' =
        B' ×ˢ {x : ↥Ω | (x : Config) = c} := by
      ext ω; simp [and_comm]
    have e2 : (Prod.fst ⁻¹' B' : Set ((ℕ → ℝ) × ↥Ω)) = B' ×ˢ Set.univ := by
      ext ω; simp
    rw [e1, e2, hset, Measure.prod_prod, Measure.prod_prod, Measure.prod_prod, measure_univ, measure_univ,
      mul_one, one_mul, mul_comm]

/-! ## A case -/

/-- a nontrivial case: the J1-J2 model with pinning field on a 2×2 lattice of spins, in the sector of
two up spins, for the state of bond dimension two whose tensors have elements `1`; three ranks, ten
samples each, two exchange sweeps before every sample -/
example : ∃ (S : Type) (_ : MeasurableSpace S) (μ : Measure S) (U : Fin 3 → ℕ → S → ℝ)
    (start : Fin 3 → S → Config),
    Unbiased μ (QLPeps.Bmps.twoDim : Bond .obc 2 2 → ℕ) (twoState 2 2 fun _ _ _ => (1 : ℝ))
      (xxzH 1 1 (1 / 2) (1 / 2) (1 / 3)) (Finset.univ.filter fun s : SpinCfg 2 2 => ∑ a, (s a : ℕ) = 2).toList
      fun ω => evaluate QLPeps.Peps.idLib 2 2 (twoState 2 2 fun _ _ _ => (1 : ℝ)) .exchange 2
        (fun o => ‖o.getD 0‖)
        (fun cfg => pairSolver QLPeps.Peps.idLib 2 2 (twoState 2 2 fun _ _ _ => (1 : ℝ)) cfg
          (fun a => decide (a = 0)) true (xxz true 1 1 (1 / 2) (1 / 2) (1 / 3)))
        false 2 10 (List.ofFn fun i => ((fun j => U i j ω), start i ω)) := by
  classical
  let L := (Finset.univ.filter fun s : SpinCfg 2 2 => ∑ a, (s a : ℕ) = 2).toList
  let Ω : Finset Config := L.toFinset.image toConfig
  have hL : ∀ s, s ∈ L ↔ ∑ a, (s a : ℕ) = 2 := fun s => by
    rw [Finset.mem_toList, Finset.mem_filter]; exact and_iff_right (Finset.mem_univ s)
  have hΩL : ∀ c, c ∈ Ω ↔ ∃ s ∈ L, toConfig s = c := fun c => by
    simp only [Ω, Finset.mem_image, List.mem_toFinset]
  have hne : (∑ c ∈ Ω, ‖amplitude (QLPeps.Bmps.twoDim : Bond .obc 2 2 → ℕ)
      (twoState 2 2 fun _ _ _ => (1 : ℝ)) c‖ ^ 2) ≠ 0 := by
    simp only [ones_amplitude, Finset.sum_const, nsmul_eq_mul]
    have : Ω.Nonempty := by
      refine ⟨toConfig fun a => if (a : QLPeps.Site).1 = 0 then 1 else 0, (hΩL _).2 ⟨_, (hL _).2 ?_, rfl⟩⟩
      decide +kernel
    have h : (Ω.card : ℝ) ≠ 0 := Nat.cast_ne_zero.2 this.card_pos.ne'
    exact mul_ne_zero h (by norm_num)
  obtain ⟨S, mS, μ, U, start, hμ, hE⟩ := exists_equilibrium Ω _ (fun c => sq_nonneg _) hne
  refine ⟨S, mS, μ, fun _ => U, fun _ => start, ?_⟩
  have := C106_xxz (idLib_lossless (𝕜 := ℝ)) (dim := (QLPeps.Bmps.twoDim : Bond .obc 2 2 → ℕ))
    (sitps := twoState 2 2 fun _ _ _ => (1 : ℝ))
    (fun cfg => QLPeps.Bmps.twoNet_fits (rows := 2) (cols := 2) fun s _ => (1 : ℝ)) .exchange
    ⟨le_rfl, le_rfl⟩ true 1 1 (1 / 2) (1 / 2) (1 / 3) (by simp) (by simp) (by simp) (by simp) (by simp)
    (fun a => decide (a = 0)) (by simp) (fun o => ‖o.getD 0‖) (fun _ => norm_nonneg _) (fun _ => rfl) false 2 10
    (by omega) L (Finset.nodup_toList _)
    (QLPeps.ExactRun.C104_sector_closed 1 1 (1 / 2) (1 / 2) (1 / 3) L 2 hL).1 Ω hΩL
    (C106_sector_stays L 2 hL Ω hΩL).1 3 (by omega) (fun _ => U) (fun _ => start) fun _ => hE
  exact this

end

end QLPeps.McRun
