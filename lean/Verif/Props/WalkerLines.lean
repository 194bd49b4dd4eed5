import Verif.Props.WalkerTrunc3
import Verif.Props.Chain

/-!
# What three-site sweeps sample under truncation

Property C157.
-/

open MeasureTheory ProbabilityTheory

namespace QLPeps.WalkerTrunc

open Spec QLPeps.Contractor QLPeps.Sweep QLPeps.Updaters
open QLPeps.Bmps QLPeps.Bmps.Spec QLPeps.BmpsVar QLPeps.BmpsVar.Spec QLPeps.BmpsErr QLPeps.BmpsErr.Spec
open QLPeps.Chain QLPeps.Chain.Spec
open QLPeps.Peps (Tn Lib truncLib)
open QLPeps.Tps.Spec (Bond)

theorem foldl_fst {ι S : Type*} (l : List ι) (f : S × ℕ → ι → S × ℕ) (g : S → ι → S) (h : ∀ s n i, (f (s, n) i).1 = g s i) (s : S) (n : ℕ) :
    (l.foldl f (s, n)).1 = l.foldl g s := by
  induction l generalizing s n with
  | nil => rfl
  | cons i l ih =>
    rw [List.foldl_cons, List.foldl_cons, ← h s n i]
    exact ih _ _

/-- a sweep whose contractor has no state is made of its lines: the rows, then the columns -/
theorem sweep_lines {S : Type*} (o : EnvOps S) (ho : ∀ s, (∀ p, o.generateBMPSApproach p s = s) ∧ (∀ p i, o.initBTen p i s = s) ∧
    (∀ p i r, o.growFullBTen p i r s = s) ∧ (∀ p, o.shiftBTenWindow p s = s) ∧ (∀ p, o.shiftBMPSWindow p s = s) ∧ ∀ p, o.deleteInnerBMPS p s = s)
    (refresh : Site → Site → Site → Orient → S → S) (upd : Site → Site → Site → Orient → S → S × Bool) (rows cols : ℕ) (s : S) :
    (obcSweep3 o refresh upd rows cols s).1 = (List.range cols).foldl (fun s c => colLine refresh upd rows c s)
      ((List.range rows).foldl (fun s r => rowLine refresh upd cols r s) s) := by
  have h1 := fun s => (ho s).1
  have h2 := fun s => (ho s).2.1
  have h3 := fun s => (ho s).2.2.1
  have h4 := fun s => (ho s).2.2.2.1
  have h5 := fun s => (ho s).2.2.2.2.1
  have h6 := fun s => (ho s).2.2.2.2.2
  simp only [obcSweep3, verticalLoop3, horizontalLoop3, h1, h2, h3, h4, h5, h6, ite_self]
  rw [foldl_fst _ _ (fun s c => colLine refresh upd rows c s)]
  · congr 1
    rw [foldl_fst _ _ (fun s r => rowLine refresh upd cols r s)]
    intro s n r
    exact foldl_fst _ _ _ (fun _ _ _ => rfl) _ _
  · intro s n c
    exact foldl_fst _ _ _ (fun _ _ _ => rfl) _ _

noncomputable section

variable {𝕜 : Type*} [RCLike 𝕜] {lib : Lib 𝕜} {rows cols : ℕ} {sitps : Site → ℕ → Tn 𝕜} {dim : Bond .obc rows cols → ℕ}

/-- C157: With any truncation, the configurations that the sweeps of the caching contractor visit are those of the lines one
after the other, every trace computed from scratch. -/
theorem sweep_is_lines (hr : 3 ≤ rows) (hc : 3 ≤ cols) (ab : Option 𝕜 → ℝ) (ξ : ℕ → ℝ) (n : ℕ) (config : Config) (amp : Option 𝕜) (draws : ℕ)
    (c : Ctr _ _ _) (hfresh : Fresh (tensorOps lib rows cols) rows cols (project sitps config) c) (config' : Config) :
    let C := bmpsContractor (tensorOps lib rows cols) rows cols sitps
    let D := scratchContractor (tensorOps lib rows cols) rows cols sitps
    EndsIn ((fun x => (obcSweep3 (envOpsOption C) (fun a b e d => Option.map (refresh3 C a b e d))
        (fun a b e d => liftUpd (tnn3Exchange C ab ξ a b e d)) rows cols x).1)^[n] (some ⟨config, amp, some c, draws⟩)) config' ↔
      EndsIn ((fun x => (List.range cols).foldl
          (fun s c => colLine (fun a b e d => Option.map (refresh3 D a b e d)) (fun a b e d => liftUpd (tnn3Exchange D ab ξ a b e d)) rows c s)
        ((List.range rows).foldl
          (fun s r => rowLine (fun a b e d => Option.map (refresh3 D a b e d)) (fun a b e d => liftUpd (tnn3Exchange D ab ξ a b e d)) cols r s) x))^[n]
        (some ⟨config, amp, (), draws⟩)) config' := by
  intro C D
  have hlen : ∀ x y z L, permutations3 x y z = some L → ∀ v ∈ L, v.length = 3 :=
    fun x y z L hL v hv => (((permutations3_spec x y z L hL).2 v).1 hv).length_eq
  have e := (C76_three_site_sweeps_use_current_amplitudes (tensorOps lib rows cols) rows cols hr hc sitps (tnn3Dec ab ξ) n config amp draws c hfresh).2
  have hm : ∀ a b e d, moveBy3 (tnn3Dec ab ξ) C a b e d = tnn3Exchange C ab ξ a b e d :=
    fun a b e d => funext fun w => tnn3_moveBy ab ξ C a b e d w hlen
  have hm' : ∀ a b e d, moveBy3 (tnn3Dec ab ξ) D a b e d = tnn3Exchange D ab ξ a b e d :=
    fun a b e d => funext fun w => tnn3_moveBy ab ξ D a b e d w hlen
  dsimp only [C, D] at hm hm'
  simp only [hm, hm'] at e
  have hs := fun x => sweep_lines (envOpsOption D)
    (by intro s; cases s <;> exact ⟨fun _ => rfl, fun _ _ => rfl, fun _ _ _ => rfl, fun _ => rfl, fun _ => rfl, fun _ => rfl⟩)
    (fun a b e d => Option.map (refresh3 D a b e d)) (fun a b e d => liftUpd (tnn3Exchange D ab ξ a b e d)) rows cols x
  dsimp only [D] at hs
  simp only [hs] at e
  refine endsIn_of (e.imp id ?_) config'
  rintro ⟨w, w', h1, h2, h3, -, -⟩
  exact ⟨w, w', h1, h2, h3⟩

variable {S : Type*} [MeasurableSpace S] {μ : Measure S} [IsProbabilityMeasure μ] {U : ℕ → S → ℝ}

theorem line_samples (ab : Option 𝕜 → ℝ) (hab : ∀ z, 0 ≤ ab z) (hU : IidUniform μ U) (Ω : Finset Config)
    (ψ : Config → Option 𝕜) (tri : ℕ → Site × Site × Site) (d : Orient) (m : ℕ)
    (htr : ∀ k < m, ∀ cfg, (scratchContractor (tensorOps lib rows cols) rows cols sitps).tnnTrace () cfg (tri k).1 (tri k).2.1 (tri k).2.2 d =
      (exactContractor ψ).tnnTrace () cfg (tri k).1 (tri k).2.1 (tri k).2.2 d)
    (hn : ∀ k < m, Neighbours rows cols (tri k).1 (tri k).2.1 ∧ Neighbours rows cols (tri k).2.1 (tri k).2.2 ∧ (tri k).1 ≠ (tri k).2.2)
    (hΩ : ∀ c ∈ Ω, ∀ a b e, Neighbours rows cols a b → Neighbours rows cols b e →
      ∀ x y z, [x, y, z].Perm [c a, c b, c e] → setSite (setSite (setSite c a x) b y) e z ∈ Ω) (draws : ℕ) :
    Samples μ U Ω (fun c => ab (ψ c) ^ 2) fun ξ c => (List.range m).foldl
      (fun s k => (liftUpd (tnn3Exchange (scratchContractor (tensorOps lib rows cols) rows cols sitps) ab ξ (tri k).1 (tri k).2.1 (tri k).2.2 d) s).1)
      (some ⟨c, ψ c, (), draws⟩) := by
  let V : Set (Upd Config) := {v | ∃ k < m, v = updOf ψ (fun ξ => tnn3Exchange (exactContractor ψ) ab ξ (tri k).1 (tri k).2.1 (tri k).2.2 d)
    (tnn3K (tri k).1 (tri k).2.1 (tri k).2.2)}
  let T : (ℕ → ℝ) → Option (Walker (Option 𝕜) Unit) → Option (Walker (Option 𝕜) Unit) := fun ξ s =>
    (List.range m).foldl (fun s k => (liftUpd (tnn3Exchange (exactContractor ψ) ab ξ (tri k).1 (tri k).2.1 (tri k).2.2 d) s).1) s
  have hrun : Runs V ψ fun ξ s => (T ξ s.1, s.2) :=
    Runs.foldl' (fun k ξ s => (liftUpd (tnn3Exchange (exactContractor ψ) ab ξ (tri k).1 (tri k).2.1 (tri k).2.2 d) s).1) (List.range m)
      fun k hk => Runs.upd (V := V) (step := fun ξ => tnn3Exchange (exactContractor ψ) ab ξ (tri k).1 (tri k).2.1 (tri k).2.2 d)
        (k := tnn3K (tri k).1 (tri k).2.1 (tri k).2.2) (tnn3_reads ψ ab _ _ _ _) ⟨k, List.mem_range.1 hk, rfl⟩ fun _ s => s.2
  have h := Runs.samples hU hrun Ω (fun c => ab (ψ c) ^ 2) (fun c => sq_nonneg _) ?_ ?_ draws
  · refine Samples.congr h fun ξ c hcΩ c' => ?_
    rw [foldl_congr_range _ (fun s k => (liftUpd (tnn3Exchange (exactContractor ψ) ab ξ (tri k).1 (tri k).2.1 (tri k).2.2 d) s).1) m fun k hk s => ?_]
    congr 2
    funext w
    simp only [tnn3Exchange, htr k hk]
    rfl
  · rintro _ ⟨k, hk, rfl⟩
    exact tnn3_good ψ ab _ _ _ d Ω fun c hc x y z => hΩ c hc _ _ _ (hn k hk).1 (hn k hk).2.1 x y z
  · rintro _ ⟨k, hk, rfl⟩
    exact tnn3_stationary ψ ab hab _ _ _ (Chain.Spec.Neighbours.ne (hn k hk).1) (Chain.Spec.Neighbours.ne (hn k hk).2.1) (hn k hk).2.2 d Ω
      fun c hc x y z => hΩ c hc _ _ _ (hn k hk).1 (hn k hk).2.1 x y z

theorem setSite_self (cfg : Config) (s : Site) : setSite cfg s (cfg s) = cfg := by
  funext q
  simp only [setSite]
  split_ifs with h
  · rw [h]
  · rfl

/-- C157: With any truncation, and whatever amplitude is stored before, the moves in one row sample the square of the trace in
this row: a distribution of the configurations with these weights is left as it is. -/
theorem row_samples (hl : Factorizations lib) (hf : ∀ config, Fits (project sitps config) dim) (hc : 3 ≤ cols) (ab : Option 𝕜 → ℝ) (hab0 : ∀ z, 0 ≤ ab z)
    (hab : ∀ z, ab (some z) = ‖z‖) (hU : IidUniform μ U) (Ω : Finset Config)
    (hΩ : ∀ c ∈ Ω, ∀ a b e, Neighbours rows cols a b → Neighbours rows cols b e →
      ∀ x y z, [x, y, z].Perm [c a, c b, c e] → setSite (setSite (setSite c a x) b y) e z ∈ Ω) (r : ℕ) (hr : r < rows)
    (amp : Config → Option 𝕜) (draws : ℕ) :
    let D := scratchContractor (tensorOps lib rows cols) rows cols sitps
    Samples μ U Ω (fun c => ‖bondAmp (tensorOps lib rows cols) rows cols (project sitps c) .horizontal (r, 0) (r, 1)‖ ^ 2) fun ξ c =>
      rowLine (fun a b e d => Option.map (refresh3 D a b e d)) (fun a b e d => liftUpd (tnn3Exchange D ab ξ a b e d)) cols r
        (some ⟨c, amp c, (), draws⟩) := by
  intro D
  let ψ : Config → Option 𝕜 := fun c => some (bondAmp (tensorOps lib rows cols) rows cols (project sitps c) .horizontal (r, 0) (r, 1))
  have htr : ∀ k < cols - 2, ∀ cfg, D.tnnTrace () cfg (r, k) (r, k + 1) (r, k + 2) .horizontal =
      (exactContractor ψ).tnnTrace () cfg (r, k) (r, k + 1) (r, k + 2) .horizontal := by
    intro k hk cfg
    funext a b e
    obtain ⟨z, e1, e2, -⟩ := row_traces hl (hf (setSite (setSite (setSite cfg (r, k) a) (r, k + 1) b) (r, k + 2) e)) r hr
    exact congrArg some ((e2 k (by omega)).trans (e1 0 (by omega)).symm)
  have h := line_samples (lib := lib) (sitps := sitps) ab hab0 hU Ω ψ (fun k => ((r, k), (r, k + 1), (r, k + 2))) .horizontal (cols - 2) htr
    (fun k hk => ⟨⟨⟨hr, by dsimp only; omega⟩, ⟨hr, by dsimp only; omega⟩, Or.inl ⟨rfl, rfl⟩⟩, ⟨⟨hr, by dsimp only; omega⟩, ⟨hr, by dsimp only; omega⟩, Or.inl ⟨rfl, rfl⟩⟩,
      by simp⟩) hΩ draws
  simp only [ψ, hab] at h
  refine Samples.congr h fun ξ c _ c' => ?_
  rw [rowLine]
  have e0 : Option.map (refresh3 D (r, 0) (r, 1) (r, 2) .horizontal) (some ⟨c, amp c, (), draws⟩) = some ⟨c, ψ c, (), draws⟩ := by
    have := congrFun (congrFun (congrFun (htr 0 (by omega) c) (c (r, 0))) (c (r, 1))) (c (r, 2))
    simp only [exactContractor, setSite_self, Nat.zero_add] at this
    simp only [Option.map_some, refresh3, this]
  rw [e0]

/-- C157: the same in one column -/
theorem col_samples (hl : Factorizations lib) (hf : ∀ config, Fits (project sitps config) dim) (hr : 3 ≤ rows) (ab : Option 𝕜 → ℝ) (hab0 : ∀ z, 0 ≤ ab z)
    (hab : ∀ z, ab (some z) = ‖z‖) (hU : IidUniform μ U) (Ω : Finset Config)
    (hΩ : ∀ c ∈ Ω, ∀ a b e, Neighbours rows cols a b → Neighbours rows cols b e →
      ∀ x y z, [x, y, z].Perm [c a, c b, c e] → setSite (setSite (setSite c a x) b y) e z ∈ Ω) (j : ℕ) (hj : j < cols)
    (amp : Config → Option 𝕜) (draws : ℕ) :
    let D := scratchContractor (tensorOps lib rows cols) rows cols sitps
    Samples μ U Ω (fun c => ‖bondAmp (tensorOps lib rows cols) rows cols (project sitps c) .vertical (0, j) (1, j)‖ ^ 2) fun ξ c =>
      colLine (fun a b e d => Option.map (refresh3 D a b e d)) (fun a b e d => liftUpd (tnn3Exchange D ab ξ a b e d)) rows j
        (some ⟨c, amp c, (), draws⟩) := by
  intro D
  let ψ : Config → Option 𝕜 := fun c => some (bondAmp (tensorOps lib rows cols) rows cols (project sitps c) .vertical (0, j) (1, j))
  have htr : ∀ k < rows - 2, ∀ cfg, D.tnnTrace () cfg (k, j) (k + 1, j) (k + 2, j) .vertical =
      (exactContractor ψ).tnnTrace () cfg (k, j) (k + 1, j) (k + 2, j) .vertical := by
    intro k hk cfg
    funext a b e
    obtain ⟨z, e1, e2, -⟩ := col_traces hl (hf (setSite (setSite (setSite cfg (k, j) a) (k + 1, j) b) (k + 2, j) e)) j hj
    exact congrArg some ((e2 k (by omega)).trans (e1 0 (by omega)).symm)
  have h := line_samples (lib := lib) (sitps := sitps) ab hab0 hU Ω ψ (fun k => ((k, j), (k + 1, j), (k + 2, j))) .vertical (rows - 2) htr
    (fun k hk => ⟨⟨⟨by dsimp only; omega, hj⟩, ⟨by dsimp only; omega, hj⟩, Or.inr ⟨rfl, rfl⟩⟩, ⟨⟨by dsimp only; omega, hj⟩, ⟨by dsimp only; omega, hj⟩, Or.inr ⟨rfl, rfl⟩⟩,
      by simp⟩) hΩ draws
  simp only [ψ, hab] at h
  refine Samples.congr h fun ξ c _ c' => ?_
  rw [colLine]
  have e0 : Option.map (refresh3 D (0, j) (1, j) (2, j) .vertical) (some ⟨c, amp c, (), draws⟩) = some ⟨c, ψ c, (), draws⟩ := by
    have := congrFun (congrFun (congrFun (htr 0 (by omega) c) (c (0, j))) (c (1, j))) (c (2, j))
    simp only [exactContractor, setSite_self, Nat.zero_add] at this
    simp only [Option.map_some, refresh3, this]
  rw [e0]

/-- a case: row 2 of a 4×5 lattice, any tensors of physical dimension 2, truncation to one singular value -/
example (f : ℕ → Site → List ℕ → ℂ) (hU : IidUniform μ U) :=
  row_samples (lib := truncLib 1) (rows := 4) (cols := 5) (sitps := fun s k => twoNet 4 5 (f k) s) (dim := twoDim) (Peps.truncLib_factorizations 1)
    (fun config => twoNet_fits (rows := 4) (cols := 5) fun s => f (config s) s) (by omega) (fun o => ‖o.getD 0‖) (fun _ => norm_nonneg _) (fun _ => rfl) hU
    (allConfigs 4 5 2) (fun c' hc a b e hab hbe x y z hp => by
      rw [mem_allConfigs] at hc ⊢
      have hm : ∀ v ∈ [x, y, z], v < 2 := by
        intro v hv
        have := hp.mem_iff.1 hv
        simp only [List.mem_cons, List.not_mem_nil, or_false] at this
        rcases this with rfl | rfl | rfl
        · exact hc.1 a hab.1
        · exact hc.1 b hab.2.1
        · exact hc.1 e hbe.2.1
      simp only [List.mem_cons, List.not_mem_nil, or_false, forall_eq_or_imp, forall_eq] at hm
      refine ⟨fun p hp => ?_, fun p hp => ?_⟩
      · unfold setSite
        split_ifs
        · exact hm.2.2
        · exact hm.2.1
        · exact hm.1
        · exact hc.1 p hp
      · unfold setSite
        rw [if_neg (fun h : p = e => hp (h ▸ hbe.2.1)), if_neg (fun h : p = b => hp (h ▸ hab.2.1)), if_neg (fun h : p = a => hp (h ▸ hab.1))]
        exact hc.2 p hp) 2 (by omega) (fun _ => none) 0

end

end QLPeps.WalkerTrunc
