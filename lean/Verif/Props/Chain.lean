import Verif.Lemmas.ChainUpd
import Verif.Props.Bmps
import Mathlib.Probability.Independence.InfinitePi

/-!
# Property C105: whole sweeps sample `|ψ|²`
-/

open MeasureTheory ProbabilityTheory

namespace QLPeps.Chain

open Spec QLPeps.Updaters QLPeps.Sweep QLPeps.Contractor QLPeps.Bmps QLPeps.Bmps.Spec
open QLPeps.Peps (Tn Lib)
open QLPeps.Tps.Spec (Bond)

noncomputable section

theorem mem_obcBonds_iff (rows cols : ℕ) (a b : Site) :
    (a, b) ∈ obcBonds rows cols ↔ Neighbours rows cols a b := mem_obcBonds rows cols a b

theorem Spec.Neighbours.ne {rows cols : ℕ} {a b : Site} (h : Neighbours rows cols a b) : a ≠ b := by
  rintro rfl
  rcases h.2.2 with ⟨-, h⟩ | ⟨-, h⟩ <;> omega

theorem pbcOther_mem {rows cols : ℕ} (b : ℕ × ℕ × Orient)
    (hb : b.1 < rows ∧ b.2.1 < cols) : QLPeps.Spec.InLattice rows cols (pbcOther rows cols b) := by
  obtain ⟨r, c, d⟩ := b
  dsimp only at hb
  cases d
  · exact ⟨hb.1, Nat.mod_lt _ (by omega)⟩
  · exact ⟨Nat.mod_lt _ (by omega), hb.2⟩

section exact

variable {A : Type*} {S : Type*} [MeasurableSpace S] {μ : Measure S} [IsProbabilityMeasure μ]
  {U : ℕ → S → ℝ} (ψ : Config → A) (ab : A → ℝ) (rows cols n draws : ℕ) (Ω : Finset Config)

/-- **C105** (exchange sweeps with exact amplitudes). -/
theorem C105_exchange_exact (hU : IidUniform μ U) (hab : ∀ z, 0 ≤ ab z)
    (hΩ : ∀ c ∈ Ω, ∀ a b, Neighbours rows cols a b → (fun p => c (Equiv.swap a b p)) ∈ Ω) :
    Samples μ U Ω (fun c => ab (ψ c) ^ 2) fun ξ c =>
      (fun x => (obcSweep (envOpsOption (exactContractor ψ))
        (fun a b d => liftUpd fun w => some (nnExchange (exactContractor ψ) ab ξ a b d w))
        rows cols x).1)^[n] (some ⟨c, ψ c, (), draws⟩) := by
  let V : Set (Upd Config) := {v | ∃ a b d, Neighbours rows cols a b ∧
      v = updOf ψ (exchangeStep ψ ab a b d) (exchangeK ψ ab a b)}
  have hrun := Runs.sweep (V := V) (ψ := ψ) rows cols (exchangeStep ψ ab) (fun a b _ => exchangeK ψ ab a b)
      (exchange_reads ψ ab) fun a b d h => ⟨a, b, d, (mem_obcBonds_iff rows cols a b).1 h, rfl⟩
  refine Runs.samples hU (Runs.iterate (T := fun ξ x => (_ : _ × ℕ).1) hrun n) Ω _ (fun c => sq_nonneg _) ?_ ?_ draws
  · rintro _ ⟨a, b, d, h, rfl⟩
    exact exchange_good ψ ab a b d Ω fun c hc => hΩ c hc a b h
  · rintro _ ⟨a, b, d, h, rfl⟩
    exact exchange_stationary ψ ab hab a b d Ω fun c hc => hΩ c hc a b h

/-- **C105** (full-space sweeps with exact amplitudes). -/
theorem C105_full_space_exact (hU : IidUniform μ U) (hab : ∀ z, 0 ≤ ab z) (dim : ℕ)
    (hdim : ∀ c ∈ Ω, ∀ a, QLPeps.Spec.InLattice rows cols a → c a < dim)
    (hΩ : ∀ c ∈ Ω, ∀ a b, Neighbours rows cols a b → ∀ x y, x < dim → y < dim →
      setSite (setSite c a x) b y ∈ Ω) :
    Samples μ U Ω (fun c => ab (ψ c) ^ 2) fun ξ c =>
      (fun x => (obcSweep (envOpsOption (exactContractor ψ))
        (fun a b d => liftUpd (fullSpace (exactContractor ψ) ab ξ dim a b d)) rows cols x).1)^[n]
        (some ⟨c, ψ c, (), draws⟩) := by
  let V : Set (Upd Config) := {v | ∃ a b d, Neighbours rows cols a b ∧
      v = updOf ψ (fun ξ => fullSpace (exactContractor ψ) ab ξ dim a b d) fun _ => 1}
  have hrun := Runs.sweep (V := V) (ψ := ψ) rows cols (fun a b d ξ => fullSpace (exactContractor ψ) ab ξ dim a b d)
      (fun _ _ _ _ => 1) (fullSpace_reads ψ ab dim)
      fun a b d h => ⟨a, b, d, (mem_obcBonds_iff rows cols a b).1 h, rfl⟩
  refine Runs.samples hU (Runs.iterate (T := fun ξ x => (_ : _ × ℕ).1) hrun n) Ω _ (fun c => sq_nonneg _) ?_ ?_ draws
  · rintro _ ⟨a, b, d, h, rfl⟩
    exact fullSpace_good ψ ab dim a b d Ω fun c hc x y => hΩ c hc a b h x y
  · rintro _ ⟨a, b, d, h, rfl⟩
    exact fullSpace_stationary ψ ab hab dim a b (Spec.Neighbours.ne h) d Ω
      (fun c hc => ⟨hdim c hc a h.1, hdim c hc b h.2.1⟩) fun c hc x y => hΩ c hc a b h x y

/-- **C105** (Hubbard sweeps with exact amplitudes). -/
theorem C105_hubbard_exact (hU : IidUniform μ U) (hab : ∀ z, 0 ≤ ab z)
    (hdim : ∀ c ∈ Ω, ∀ a, QLPeps.Spec.InLattice rows cols a → c a < 4)
    (hΩ : ∀ c ∈ Ω, ∀ a b, Neighbours rows cols a b → ∀ x y, x < 4 → y < 4 →
      upElectrons x + upElectrons y = upElectrons (c a) + upElectrons (c b) →
      downElectrons x + downElectrons y = downElectrons (c a) + downElectrons (c b) →
      setSite (setSite c a x) b y ∈ Ω) :
    Samples μ U Ω (fun c => ab (ψ c) ^ 2) fun ξ c =>
      (fun x => (obcSweep (envOpsOption (exactContractor ψ))
        (fun a b d => liftUpd (hubbardU1U1 (exactContractor ψ) ab ξ a b d)) rows cols x).1)^[n]
        (some ⟨c, ψ c, (), draws⟩) := by
  let V : Set (Upd Config) := {v | ∃ a b d, Neighbours rows cols a b ∧
      v = updOf ψ (fun ξ => hubbardU1U1 (exactContractor ψ) ab ξ a b d) (hubbardK a b)}
  have hrun := Runs.sweep (V := V) (ψ := ψ) rows cols (fun a b d ξ => hubbardU1U1 (exactContractor ψ) ab ξ a b d)
      (fun a b _ => hubbardK a b) (hubbard_reads ψ ab)
      fun a b d h => ⟨a, b, d, (mem_obcBonds_iff rows cols a b).1 h, rfl⟩
  refine Runs.samples hU (Runs.iterate (T := fun ξ x => (_ : _ × ℕ).1) hrun n) Ω _ (fun c => sq_nonneg _) ?_ ?_ draws
  · rintro _ ⟨a, b, d, h, rfl⟩
    exact hubbard_good ψ ab a b d Ω (fun c hc => ⟨hdim c hc a h.1, hdim c hc b h.2.1⟩)
      fun c hc x y => hΩ c hc a b h x y
  · rintro _ ⟨a, b, d, h, rfl⟩
    exact hubbard_stationary ψ ab hab a b (Spec.Neighbours.ne h) d Ω
      (fun c hc => ⟨hdim c hc a h.1, hdim c hc b h.2.1⟩) fun c hc x y => hΩ c hc a b h x y

/-- **C105** (three-site sweeps with exact amplitudes). -/
theorem C105_three_site_exact (hU : IidUniform μ U) (hab : ∀ z, 0 ≤ ab z)
    (hΩ : ∀ c ∈ Ω, ∀ a b e, Neighbours rows cols a b → Neighbours rows cols b e →
      ∀ x y z, [x, y, z].Perm [c a, c b, c e] →
        setSite (setSite (setSite c a x) b y) e z ∈ Ω) :
    Samples μ U Ω (fun c => ab (ψ c) ^ 2) fun ξ c =>
      (fun x => (obcSweep3 (envOpsOption (exactContractor ψ))
        (fun a b e d => Option.map (refresh3 (exactContractor ψ) a b e d))
        (fun a b e d => liftUpd (tnn3Exchange (exactContractor ψ) ab ξ a b e d)) rows cols x).1)^[n]
        (some ⟨c, ψ c, (), draws⟩) := by
  let V : Set (Upd Config) := {v | ∃ a b e d, Neighbours rows cols a b ∧ Neighbours rows cols b e ∧
      v = updOf ψ (fun ξ => tnn3Exchange (exactContractor ψ) ab ξ a b e d) (tnn3K a b e)}
  have hrun := Runs.sweep3 (V := V) (ψ := ψ) rows cols
      (fun a b e d ξ => tnn3Exchange (exactContractor ψ) ab ξ a b e d)
      (fun a b e _ => tnn3K a b e) (tnn3_reads ψ ab)
      fun a b e d h h' _ => ⟨a, b, e, d, (mem_obcBonds_iff rows cols a b).1 h,
        (mem_obcBonds_iff rows cols b e).1 h', rfl⟩
  refine Runs.samples hU (Runs.iterate (T := fun ξ x => (_ : _ × ℕ).1) hrun n) Ω _ (fun c => sq_nonneg _) ?_ ?_ draws
  · rintro _ ⟨a, b, e, d, h, h', rfl⟩
    exact tnn3_good ψ ab a b e d Ω fun c hc x y z => hΩ c hc a b e h h' x y z
  · rintro _ ⟨a, b, e, d, h, h', rfl⟩
    refine tnn3_stationary ψ ab hab a b e (Spec.Neighbours.ne h) (Spec.Neighbours.ne h') ?_ d Ω fun c hc x y z => hΩ c hc a b e h h' x y z
    rintro rfl
    rcases h.2.2 with ⟨h0, h1⟩ | ⟨h0, h1⟩ <;> rcases h'.2.2 with ⟨h3, h2⟩ | ⟨h3, h2⟩ <;> omega

/-- **C105** (periodic exchange sweeps with exact amplitudes), whatever bonds are drawn: `draw j i` is
bond `i` of sweep `j`, its first site drawn in the lattice. -/
theorem C105_periodic_exchange_exact (hU : IidUniform μ U) (hab : ∀ z, 0 ≤ ab z)
    (draw : ℕ → ℕ → ℕ × ℕ × Orient) (hdraw : ∀ j i, (draw j i).1 < rows ∧ (draw j i).2.1 < cols)
    (hΩ : ∀ c ∈ Ω, ∀ a b, QLPeps.Spec.InLattice rows cols a → QLPeps.Spec.InLattice rows cols b →
      (fun p => c (Equiv.swap a b p)) ∈ Ω) :
    Samples μ U Ω (fun c => ab (ψ c) ^ 2) fun ξ c =>
      (List.range n).foldl (fun x j => (pbcSweep
        (fun a b d => liftUpd fun w => some (nnExchangePBC (exactContractor ψ) ab ξ a b d w))
        rows cols (draw j) x).1) (some ⟨c, ψ c, (), draws⟩) := by
  let V : Set (Upd Config) := {v | ∃ a b d, QLPeps.Spec.InLattice rows cols a ∧ QLPeps.Spec.InLattice rows cols b ∧
      v = updOf ψ (exchangeStep ψ ab a b d) (exchangeK ψ ab a b)}
  have hrun := Runs.foldl' (V := V) (ψ := ψ) (fun j ξ x => (pbcSweep
        (fun a b d => liftUpd (exchangeStep ψ ab a b d ξ)) rows cols (draw j) x).1) (List.range n)
    fun j _ => Runs.pbcSweep rows cols (draw j) (exchangeStep ψ ab)
      (fun a b _ => exchangeK ψ ab a b) (exchange_reads ψ ab)
      fun i => ⟨((draw j i).1, (draw j i).2.1), _, _, hdraw j i, pbcOther_mem _ (hdraw j i), rfl⟩
  refine Runs.samples hU (T := fun ξ x => (List.range n).foldl (fun x j => (pbcSweep
        (fun a b d => liftUpd (exchangeStep ψ ab a b d ξ)) rows cols (draw j) x).1) x) hrun Ω _ (fun c => sq_nonneg _) ?_ ?_ draws
  · rintro _ ⟨a, b, d, ha, hb, rfl⟩
    exact exchange_good ψ ab a b d Ω fun c hc => hΩ c hc a b ha hb
  · rintro _ ⟨a, b, d, ha, hb, rfl⟩
    exact exchange_stationary ψ ab hab a b d Ω fun c hc => hΩ c hc a b ha hb

end exact

/-! ## On the boundary-MPS contractor -/

section bmps

variable {𝕜 : Type*} [RCLike 𝕜] {rows cols : ℕ} {lib : Lib 𝕜} {dim : Bond .obc rows cols → ℕ}
  {S : Type*} [MeasurableSpace S] {μ : Measure S} [IsProbabilityMeasure μ] {U : ℕ → S → ℝ}

/-- two simulations that end in the same configurations sample the same weights -/
theorem Samples.congr {A B Γ Δ : Type*} {Ω : Finset Config} {wt : Config → ℝ}
    {f : (ℕ → ℝ) → Config → Option (Walker A Γ)} {g : (ℕ → ℝ) → Config → Option (Walker B Δ)}
    (h : Samples μ U Ω wt f)
    (e : ∀ ξ, ∀ c ∈ Ω, ∀ c', EndsIn (g ξ c) c' ↔ EndsIn (f ξ c) c') : Samples μ U Ω wt g where
  measurable c hc c' := by
    simp only [e _ c hc]
    exact h.measurable c hc c'
  invariant c' hc' := by
    rw [← h.invariant c' hc']
    refine Finset.sum_congr rfl fun c hc => ?_
    simp only [e _ c hc]
  defined c hc h0 := by
    rw [← h.defined c hc h0]
    simp only [e _ c hc]

theorem endsIn_of {A B Γ Δ : Type*} {x : Option (Walker A Γ)} {y : Option (Walker B Δ)}
    (h : (x = none ∧ y = none) ∨ ∃ w w', x = some w ∧ y = some w' ∧ w.config = w'.config) (c' : Config) :
    EndsIn x c' ↔ EndsIn y c' := by
  rcases h with ⟨rfl, rfl⟩ | ⟨w, w', rfl, rfl, h⟩
  · simp [EndsIn]
  · simp [EndsIn, h]

/-- **C105** (exchange updater). On the boundary-MPS contractor without truncation, any number of
whole sweeps, driven by independent uniform random numbers, samples `|ψ|²`, where `ψ` is the
contraction of the projected network. -/
theorem C105_exchange (hl : Lossless lib) (sitps : Site → ℕ → Tn 𝕜)
    (hf : ∀ cfg : Config, Fits (project sitps cfg) dim) (hr : 2 ≤ rows) (hc : 2 ≤ cols)
    (ab : Option 𝕜 → ℝ) (hab0 : ∀ z, 0 ≤ ab z) (hab : ∀ z, ab (some z) = ‖z‖)
    (hU : IidUniform μ U) (Ω : Finset Config)
    (hΩ : ∀ c ∈ Ω, ∀ a b, Neighbours rows cols a b → (fun p => c (Equiv.swap a b p)) ∈ Ω)
    (start : Config → Ctr (List (Tn 𝕜)) (Tn 𝕜) (Tn 𝕜))
    (hfresh : ∀ c ∈ Ω, Fresh (tensorOps lib rows cols) rows cols (project sitps c) (start c))
    (n draws : ℕ) :
    let C := bmpsContractor (tensorOps lib rows cols) rows cols sitps
    let ψ := fun c => value dim (project sitps c)
    Samples μ U Ω (fun c => ‖ψ c‖ ^ 2) fun ξ c =>
      (fun x => (obcSweep (envOpsOption C)
        (fun a b d => liftUpd fun w => some (nnExchange C ab ξ a b d w)) rows cols x).1)^[n]
        (some ⟨c, some (ψ c), some (start c), draws⟩) := by
  intro C ψ
  have h := C105_exchange_exact (fun c => some (ψ c)) ab rows cols n draws Ω hU hab0 hΩ
  simp only [hab] at h
  refine Samples.congr h fun ξ c hcΩ c' => ?_
  have e := (C99_sweeps_exact hl sitps hf hr hc (exchangeDec ab ξ) n c (some (ψ c)) draws (start c)
    (hfresh c hcΩ)).2
  have hm : ∀ a b d,
      moveBy (exchangeDec ab ξ) C a b d = fun w => some (nnExchange C ab ξ a b d w) :=
    fun a b d => funext (nnExchange_moveBy ab ξ C a b d)
  have hm' : ∀ a b d,
      moveBy (exchangeDec ab ξ) (exactContractor fun c => some (ψ c)) a b d = fun w => some (nnExchange (exactContractor fun c => some (ψ c)) ab ξ a b d w) :=
    fun a b d => funext (nnExchange_moveBy ab ξ _ a b d)
  dsimp only [C, ψ] at hm hm'
  simp only [hm, hm'] at e
  refine endsIn_of (e.imp id ?_) c'
  rintro ⟨w, w', h1, h2, h3, -, -⟩
  exact ⟨w, w', h1, h2, h3⟩

/-- **C105** (full-space updater). -/
theorem C105_full_space (hl : Lossless lib) (sitps : Site → ℕ → Tn 𝕜)
    (hf : ∀ cfg : Config, Fits (project sitps cfg) dim) (hr : 2 ≤ rows) (hc : 2 ≤ cols)
    (ab : Option 𝕜 → ℝ) (hab0 : ∀ z, 0 ≤ ab z) (hab : ∀ z, ab (some z) = ‖z‖)
    (hU : IidUniform μ U) (Ω : Finset Config) (phys : ℕ)
    (hdim : ∀ c ∈ Ω, ∀ a, QLPeps.Spec.InLattice rows cols a → c a < phys)
    (hΩ : ∀ c ∈ Ω, ∀ a b, Neighbours rows cols a b → ∀ x y, x < phys → y < phys →
      setSite (setSite c a x) b y ∈ Ω)
    (start : Config → Ctr (List (Tn 𝕜)) (Tn 𝕜) (Tn 𝕜))
    (hfresh : ∀ c ∈ Ω, Fresh (tensorOps lib rows cols) rows cols (project sitps c) (start c))
    (n draws : ℕ) :
    let C := bmpsContractor (tensorOps lib rows cols) rows cols sitps
    let ψ := fun c => value dim (project sitps c)
    Samples μ U Ω (fun c => ‖ψ c‖ ^ 2) fun ξ c =>
      (fun x => (obcSweep (envOpsOption C)
        (fun a b d => liftUpd (fullSpace C ab ξ phys a b d)) rows cols x).1)^[n]
        (some ⟨c, some (ψ c), some (start c), draws⟩) := by
  intro C ψ
  have h := C105_full_space_exact (fun c => some (ψ c)) ab rows cols n draws Ω hU hab0 phys hdim hΩ
  simp only [hab] at h
  refine Samples.congr h fun ξ c hcΩ c' => ?_
  have e := (C99_sweeps_exact hl sitps hf hr hc (fullSpaceDec ab ξ phys) n c (some (ψ c)) draws
    (start c) (hfresh c hcΩ)).2
  have hm : ∀ a b d,
      moveBy (fullSpaceDec ab ξ phys) C a b d = fullSpace C ab ξ phys a b d :=
    fun a b d => funext (fullSpace_moveBy ab ξ phys C a b d)
  have hm' : ∀ a b d,
      moveBy (fullSpaceDec ab ξ phys) (exactContractor fun c => some (ψ c)) a b d = fullSpace (exactContractor fun c => some (ψ c)) ab ξ phys a b d :=
    fun a b d => funext (fullSpace_moveBy ab ξ phys _ a b d)
  dsimp only [C, ψ] at hm hm'
  simp only [hm, hm'] at e
  refine endsIn_of (e.imp id ?_) c'
  rintro ⟨w, w', h1, h2, h3, -, -⟩
  exact ⟨w, w', h1, h2, h3⟩

/-- **C105** (Hubbard updater). -/
theorem C105_hubbard (hl : Lossless lib) (sitps : Site → ℕ → Tn 𝕜)
    (hf : ∀ cfg : Config, Fits (project sitps cfg) dim) (hr : 2 ≤ rows) (hc : 2 ≤ cols)
    (ab : Option 𝕜 → ℝ) (hab0 : ∀ z, 0 ≤ ab z) (hab : ∀ z, ab (some z) = ‖z‖)
    (hU : IidUniform μ U) (Ω : Finset Config)
    (hdim : ∀ c ∈ Ω, ∀ a, QLPeps.Spec.InLattice rows cols a → c a < 4)
    (hΩ : ∀ c ∈ Ω, ∀ a b, Neighbours rows cols a b → ∀ x y, x < 4 → y < 4 →
      upElectrons x + upElectrons y = upElectrons (c a) + upElectrons (c b) →
      downElectrons x + downElectrons y = downElectrons (c a) + downElectrons (c b) →
      setSite (setSite c a x) b y ∈ Ω)
    (start : Config → Ctr (List (Tn 𝕜)) (Tn 𝕜) (Tn 𝕜))
    (hfresh : ∀ c ∈ Ω, Fresh (tensorOps lib rows cols) rows cols (project sitps c) (start c))
    (n draws : ℕ) :
    let C := bmpsContractor (tensorOps lib rows cols) rows cols sitps
    let ψ := fun c => value dim (project sitps c)
    Samples μ U Ω (fun c => ‖ψ c‖ ^ 2) fun ξ c =>
      (fun x => (obcSweep (envOpsOption C)
        (fun a b d => liftUpd (hubbardU1U1 C ab ξ a b d)) rows cols x).1)^[n]
        (some ⟨c, some (ψ c), some (start c), draws⟩) := by
  intro C ψ
  have h := C105_hubbard_exact (fun c => some (ψ c)) ab rows cols n draws Ω hU hab0 hdim hΩ
  simp only [hab] at h
  refine Samples.congr h fun ξ c hcΩ c' => ?_
  have e := (C99_sweeps_exact hl sitps hf hr hc (hubbardDec ab ξ) n c (some (ψ c)) draws
    (start c) (hfresh c hcΩ)).2
  have hm : ∀ a b d,
      moveBy (hubbardDec ab ξ) C a b d = hubbardU1U1 C ab ξ a b d :=
    fun a b d => funext (hubbard_moveBy ab ξ C a b d)
  have hm' : ∀ a b d,
      moveBy (hubbardDec ab ξ) (exactContractor fun c => some (ψ c)) a b d = hubbardU1U1 (exactContractor fun c => some (ψ c)) ab ξ a b d :=
    fun a b d => funext (hubbard_moveBy ab ξ _ a b d)
  dsimp only [C, ψ] at hm hm'
  simp only [hm, hm'] at e
  refine endsIn_of (e.imp id ?_) c'
  rintro ⟨w, w', h1, h2, h3, -, -⟩
  exact ⟨w, w', h1, h2, h3⟩

/-- **C105** (three-site exchange updater). -/
theorem C105_three_site (hl : Lossless lib) (sitps : Site → ℕ → Tn 𝕜)
    (hf : ∀ cfg : Config, Fits (project sitps cfg) dim) (hr : 3 ≤ rows) (hc : 3 ≤ cols)
    (ab : Option 𝕜 → ℝ) (hab0 : ∀ z, 0 ≤ ab z) (hab : ∀ z, ab (some z) = ‖z‖)
    (hU : IidUniform μ U) (Ω : Finset Config)
    (hΩ : ∀ c ∈ Ω, ∀ a b e, Neighbours rows cols a b → Neighbours rows cols b e →
      ∀ x y z, [x, y, z].Perm [c a, c b, c e] →
        setSite (setSite (setSite c a x) b y) e z ∈ Ω)
    (start : Config → Ctr (List (Tn 𝕜)) (Tn 𝕜) (Tn 𝕜))
    (hfresh : ∀ c ∈ Ω, Fresh (tensorOps lib rows cols) rows cols (project sitps c) (start c))
    (n draws : ℕ) :
    let C := bmpsContractor (tensorOps lib rows cols) rows cols sitps
    let ψ := fun c => value dim (project sitps c)
    Samples μ U Ω (fun c => ‖ψ c‖ ^ 2) fun ξ c =>
      (fun x => (obcSweep3 (envOpsOption C) (fun a b e d => Option.map (refresh3 C a b e d))
        (fun a b e d => liftUpd (tnn3Exchange C ab ξ a b e d)) rows cols x).1)^[n]
        (some ⟨c, some (ψ c), some (start c), draws⟩) := by
  intro C ψ
  have h := C105_three_site_exact (fun c => some (ψ c)) ab rows cols n draws Ω hU hab0 hΩ
  simp only [hab] at h
  refine Samples.congr h fun ξ c hcΩ c' => ?_
  have e := (C99_three_site_sweeps_exact hl sitps hf hr hc (tnn3Dec ab ξ) n c (some (ψ c)) draws
    (start c) (hfresh c hcΩ)).2
  have hlen : ∀ x y z L, permutations3 x y z = some L → ∀ v ∈ L, v.length = 3 :=
    fun x y z L hL v hv => (((permutations3_spec x y z L hL).2 v).1 hv).length_eq
  have hm : ∀ a b e d,
      moveBy3 (tnn3Dec ab ξ) C a b e d = tnn3Exchange C ab ξ a b e d :=
    fun a b e d => funext fun w => tnn3_moveBy ab ξ C a b e d w hlen
  have hm' : ∀ a b e d,
      moveBy3 (tnn3Dec ab ξ) (exactContractor fun c => some (ψ c)) a b e d = tnn3Exchange (exactContractor fun c => some (ψ c)) ab ξ a b e d :=
    fun a b e d => funext fun w => tnn3_moveBy ab ξ _ a b e d w hlen
  dsimp only [C, ψ] at hm hm'
  simp only [hm, hm'] at e
  refine endsIn_of (e.imp id ?_) c'
  rintro ⟨w, w', h1, h2, h3, -, -⟩
  exact ⟨w, w', h1, h2, h3⟩

end bmps

/-! ## A case -/

/-- Sequences of independent uniform numbers exist. -/
theorem exists_iidUniform : ∃ (μ : Measure (ℕ → ℝ)) (U : ℕ → (ℕ → ℝ) → ℝ),
    IsProbabilityMeasure μ ∧ IidUniform μ U := by
  classical
  let P : Measure ℝ := volume.restrict (Set.Ico 0 1)
  haveI : IsProbabilityMeasure P := ⟨by simp [P]⟩
  let g : ℝ → ℝ := fun x => if x ∈ Set.Ico (0 : ℝ) 1 then x else 0
  have hg : Measurable g := Measurable.ite measurableSet_Ico measurable_id measurable_const
  refine ⟨Measure.infinitePi fun _ => P, fun i ω => g (ω i), inferInstance, ?_, ?_, ?_, ?_⟩
  · exact fun i => hg.comp (measurable_pi_apply i)
  · exact iIndepFun_infinitePi (X := fun _ => g) fun _ => hg
  · intro i
    have h1 : (Measure.infinitePi fun _ : ℕ => P).map (fun ω => g (ω i)) =
        ((Measure.infinitePi fun _ : ℕ => P).map (fun ω => ω i)).map g := by
      rw [Measure.map_map hg (measurable_pi_apply i)]; rfl
    have h2 : (Measure.infinitePi fun _ : ℕ => P).map (fun ω => ω i) = P :=
      Measure.infinitePi_map_eval (fun _ : ℕ => P) i
    rw [h1, h2]
    have h3 : g =ᵐ[P] id := by
      refine (ae_restrict_iff' measurableSet_Ico).2 (Filter.Eventually.of_forall fun x hx => ?_)
      simp only [g, if_pos hx, id]
    rw [Measure.map_congr h3, Measure.map_id]
  · intro i ω
    simp only [g]
    split_ifs with h
    · exact h
    · simp

/-- all configurations of a lattice with local states below `q` (and `0` outside) -/
def allConfigs (rows cols q : ℕ) : Finset Config :=
  open Classical in (Fintype.piFinset fun _ : Fin rows × Fin cols => Finset.range q).image fun f p =>
    if h : p.1 < rows ∧ p.2 < cols then f (⟨p.1, h.1⟩, ⟨p.2, h.2⟩) else 0

theorem mem_allConfigs {rows cols q : ℕ} {c : Config} :
    c ∈ allConfigs rows cols q ↔ (∀ p, QLPeps.Spec.InLattice rows cols p → c p < q) ∧
      ∀ p, ¬ QLPeps.Spec.InLattice rows cols p → c p = 0 := by
  simp only [allConfigs, Finset.mem_image, Fintype.mem_piFinset, Finset.mem_range]
  constructor
  · rintro ⟨f, hf, rfl⟩
    refine ⟨fun p hp => ?_, fun p hp => ?_⟩
    · have hp' : p.1 < rows ∧ p.2 < cols := hp
      simp only [dif_pos hp']; exact hf _
    · have hp' : ¬ (p.1 < rows ∧ p.2 < cols) := hp
      simp only [dif_neg hp']
  · rintro ⟨h1, h2⟩
    refine ⟨fun s => c (s.1, s.2), fun s => h1 _ ⟨s.1.2, s.2.2⟩, ?_⟩
    funext p
    split_ifs with h
    · rfl
    · exact (h2 p h).symm

/-- a nontrivial case: ten full-space sweeps on a 3×3 lattice of any tensors of physical dimension 2
sample `|ψ|²` on all 512 configurations -/
example (f : Site → ℕ → List ℕ → ℂ) (c : Ctr (List (Tn ℂ)) (Tn ℂ) (Tn ℂ))
    {S : Type*} [MeasurableSpace S] {μ : Measure S} [IsProbabilityMeasure μ] {U : ℕ → S → ℝ}
    (hU : IidUniform μ U) :=
  C105_full_space (rows := 3) (cols := 3) idLib_lossless
    (fun s v => twoNet 3 3 (fun s => f s v) s)
    (fun cfg => (twoNet_fits (rows := 3) (cols := 3) fun s => f s (cfg s))) (by omega) (by omega)
    (fun o => ‖o.getD 0‖) (fun _ => norm_nonneg _) (fun _ => rfl) hU (allConfigs 3 3 2) 2
    (fun _ hc => (mem_allConfigs.1 hc).1)
    (fun c' hc a b hab x y hx hy => by
      rw [mem_allConfigs] at hc ⊢
      refine ⟨fun p hp => ?_, fun p hp => ?_⟩
      · unfold setSite
        split_ifs
        · exact hy
        · exact hx
        · exact hc.1 p hp
      · unfold setSite
        rw [if_neg (fun h : p = b => hp (h ▸ hab.2.1)), if_neg (fun h : p = a => hp (h ▸ hab.1))]
        exact hc.2 p hp)
    (fun _ => init (tensorOps QLPeps.Peps.idLib 3 3) c)
    (fun _ _ => C09_init_fresh _ 3 3 (by omega) (by omega) _ c) 10 0

end

end QLPeps.Chain
