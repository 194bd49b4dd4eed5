import Verif.Lemmas.TrgEnergy
import Verif.Lemmas.ExactRun
import Verif.Props.TrgHoles
import Verif.Props.Energy
import Verif.Props.ChainPBC
import Verif.Spec.TrgWalker

/-!
# Properties C113, C114 and C115: simulations on the TRG contractor
-/

open MeasureTheory

namespace QLPeps.TrgWalker

open QLPeps.Trg QLPeps.Trg.Spec QLPeps.Updaters QLPeps.Sweep QLPeps.Spec QLPeps.Chain.Spec QLPeps.TrgWalker.Spec
open QLPeps.Peps (Tn Lib svdLib)
open QLPeps.Peps.Spec (Exact SvdNonNeg)
open QLPeps.Energy

noncomputable section

/-! ## C113 -/

section
variable {T P I A : Type} {S : Type*} [MeasurableSpace S] {μ : Measure S} [IsProbabilityMeasure μ]
  {U : ℕ → S → ℝ} (o : Ops T P I A) (sitps : Site → ℕ → T) (ab : A → ℝ) (n m draws : ℕ) (Ω : Finset Config)

theorem sim_iff {x : Except Fail (Comp T P I A)} {y : Option (Walker A Unit)} (h : Sim o sitps (n := n) x y) (c : Config) :
    EndsIn x.toOption c ↔ EndsIn y c := by
  rcases h with ⟨rfl, rfl⟩ | ⟨w, rfl, -, rfl⟩
  · exact ⟨fun ⟨w, h, _⟩ => absurd h (by simp [Except.toOption]), fun ⟨w, h, _⟩ => absurd h (by simp)⟩
  · constructor
    · rintro ⟨w', h, rfl⟩
      exact ⟨bare w, rfl, congrArg (·.config) (Option.some.inj h)⟩
    · rintro ⟨w', h, rfl⟩
      exact ⟨w, rfl, congrArg (·.config) (Option.some.inj h)⟩

theorem foldl_sim {X Y : Type} (R : X → Y → Prop) (f : X → ℕ → X) (g : Y → ℕ → Y)
    (h : ∀ j x y, R x y → R (f x j) (g y j)) (l : List ℕ) {x : X} {y : Y} (h0 : R x y) : R (l.foldl f x) (l.foldl g y) := by
  induction l generalizing x y with
  | nil => exact h0
  | cons j l ih => exact ih (h j x y h0)

/-- **C113** (periodic exchange sweeps on the TRG contractor). Whatever the bonds drawn and however much the
contractor truncates, a simulation samples `|ψ|²` of the amplitude `ψ` a new contractor returns. -/
theorem C113_exchange (hn : Supported n) (hU : IidUniform μ U) (hab : ∀ z, 0 ≤ ab z) (draw : ℕ → ℕ → ℕ × ℕ × Orient)
    (hdraw : ∀ j i, (draw j i).1 < n ∧ (draw j i).2.1 < n)
    (hΩ : ∀ c ∈ Ω, ∀ a b, InLattice n n a → InLattice n n b → (fun p => c (Equiv.swap a b p)) ∈ Ω) :
    ∃ ψ : Config → A, (∀ c, fresh o (projected n n sitps c) = .ok (ψ c)) ∧
      Samples μ U Ω (fun c => ab (ψ c) ^ 2) fun ξ c =>
        ((List.range m).foldl (fun x j => (pbcSweep (fun a b _ => lift (exchange o sitps ab ξ a b)) n n (draw j) x).1)
          (create o n n sitps c draws)).toOption := by
  refine ⟨psi o n sitps, fun c => fresh_ok o (okNet sitps hn c),
    QLPeps.Chain.Samples.congr (QLPeps.Chain.C105_periodic_exchange_exact (psi o n sitps) ab n n m draws Ω hU hab draw
      hdraw hΩ)
      fun ξ c _ c' => sim_iff o sitps n ?_ c'⟩
  obtain ⟨w, hw, hg, hb⟩ := create_ok o sitps hn c draws
  refine foldl_sim (Sim o sitps (n := n)) _ _ (fun j x y h => ?_) _ (Or.inr ⟨w, hw, hg, by rw [hb]⟩)
  refine sweep_sim o sitps (n := n) (f := fun a b _ => exchange o sitps ab ξ a b)
    (f' := fun a b d w => some (nnExchangePBC (exactContractor (psi o n sitps)) ab ξ a b d w)) ?_ (draw j) (hdraw j) h
  intro s1 s2 d h1 h2 w hw
  obtain ⟨w', b, e, hg', e'⟩ := exchange_ok o sitps hn ab ξ hw h1 h2 d
  exact Or.inr ⟨w', b, e, hg', congrArg some e'⟩

/-- **C113** (periodic full-space sweeps on the TRG contractor). -/
theorem C113_full_space (hn : Supported n) (h2 : 2 ≤ n) (hU : IidUniform μ U) (hab : ∀ z, 0 ≤ ab z) (dim : ℕ)
    (draw : ℕ → ℕ → ℕ × ℕ × Orient) (hdraw : ∀ j i, (draw j i).1 < n ∧ (draw j i).2.1 < n)
    (hdim : ∀ c ∈ Ω, ∀ a, InLattice n n a → c a < dim)
    (hΩ : ∀ c ∈ Ω, ∀ a, InLattice n n a → ∀ x, x < dim → setSite c a x ∈ Ω) :
    ∃ ψ : Config → A, (∀ c, fresh o (projected n n sitps c) = .ok (ψ c)) ∧
      Samples μ U Ω (fun c => ab (ψ c) ^ 2) fun ξ c =>
        ((List.range m).foldl (fun x j => (pbcSweep (fun a b _ => lift (space o sitps ab ξ dim a b)) n n (draw j) x).1)
          (create o n n sitps c draws)).toOption := by
  refine ⟨psi o n sitps, fun c => fresh_ok o (okNet sitps hn c),
    QLPeps.Chain.Samples.congr (QLPeps.Chain.C105_periodic_full_space_exact (psi o n sitps) ab n n m draws Ω hU hab dim h2 h2
      draw hdraw hdim hΩ) fun ξ c _ c' => sim_iff o sitps n ?_ c'⟩
  obtain ⟨w, hw, hg, hb⟩ := create_ok o sitps hn c draws
  refine foldl_sim (Sim o sitps (n := n)) _ _ (fun j x y h => ?_) _ (Or.inr ⟨w, hw, hg, by rw [hb]⟩)
  exact sweep_sim o sitps (n := n) (f := fun a b _ => space o sitps ab ξ dim a b)
    (f' := fun a b d => fullSpacePBC (exactContractor (psi o n sitps)) ab ξ dim a b d)
    (fun s1 s2 d h1 h2 w hw => space_ok o sitps hn ab ξ hw dim h1 h2 d) (draw j) (hdraw j) h

/-- the hypotheses are met: five sweeps on a torus of any supported side, with singular value decompositions, all configurations of
two states -/
example (hU : IidUniform μ U) (sitps : Site → ℕ → Tn ℂ) (hn : Supported n) (h2 : 2 ≤ n) :=
  C113_exchange (μ := μ) (tensorOps svdLib 0 0) sitps (fun z : ℂ => ‖z‖) n 5 0 (QLPeps.Chain.allConfigs n n 2) hn hU
    (fun _ => norm_nonneg _) (fun _ i => (i % n, i % n, .horizontal))
    (fun _ i => ⟨Nat.mod_lt _ (by omega), Nat.mod_lt _ (by omega)⟩)
    (fun _ hc _ _ ha hb => QLPeps.Chain.allConfigs_swap hc ha hb)

example (hU : IidUniform μ U) (sitps : Site → ℕ → Tn ℂ) (hn : Supported n) (h2 : 2 ≤ n) :=
  C113_full_space (μ := μ) (tensorOps svdLib 0 0) sitps (fun z : ℂ => ‖z‖) n 5 0 (QLPeps.Chain.allConfigs n n 2) hn h2 hU (fun _ => norm_nonneg _) 2 (fun _ i => (i % n, i % n, .horizontal))
    (fun _ i => ⟨Nat.mod_lt _ (by omega), Nat.mod_lt _ (by omega)⟩)
    (fun _ hc => (QLPeps.Chain.mem_allConfigs.1 hc).1)
    (fun c' hc a ha x hx => by
      rw [QLPeps.Chain.mem_allConfigs] at hc ⊢
      refine ⟨fun p hp => ?_, fun p hp => ?_⟩
      · unfold setSite
        split_ifs
        · exact hx
        · exact hc.1 p hp
      · unfold setSite
        rw [if_neg (fun h : p = a => hp (h ▸ ha))]
        exact hc.2 p hp)

end

/-! ## C114 -/

section
variable {𝕜 : Type} [RCLike 𝕜] [DecidableEq 𝕜] (o : Ops (Tn 𝕜) (Tn 𝕜) (Iso 𝕜) 𝕜) (sitps : Site → ℕ → Tn 𝕜) (ab : 𝕜 → ℝ) {n : ℕ}

theorem reached_good (hn : Supported n) {w : Comp (Tn 𝕜) (Tn 𝕜) (Iso 𝕜) 𝕜} (h : Reached o n sitps ab w) :
    Good o n sitps w := by
  induction h with
  | @create c d w h =>
    obtain ⟨w', e, hg, -⟩ := create_ok o sitps hn c d
    rw [h, Except.ok.injEq] at e
    rwa [e]
  | @exchange w ξ s1 s2 w' b _ h1 h2 h ih =>
    obtain ⟨w'', b', e, hg, -⟩ := exchange_ok o sitps hn ab ξ ih h1 h2 .horizontal
    rw [h, Except.ok.injEq, Prod.mk.injEq] at e
    rwa [e.1]
  | @space w ξ dim s1 s2 w' b _ h1 h2 h ih =>
    rcases space_ok o sitps hn ab ξ ih dim h1 h2 .horizontal with ⟨e, -⟩ | ⟨w'', b', e, hg, -⟩
    · rw [h] at e
      exact absurd e (by simp)
    · rw [h, Except.ok.injEq, Prod.mk.injEq] at e
      rwa [e.1]
  | energy _ h ih => rwa [xxz_comp hn sitps o ih h]
  | ising _ h ih => rwa [tfim_comp hn sitps o ih h]

/-- **C114.** The energies of the periodic XXZ, J1-J2 and Heisenberg solvers on the TRG contractor: after any history of
updates and evaluations the energy depends on the configuration alone, the amplitude reported is the one a new
contractor returns for it, and averaged with the weights `|ψ|²` the energies give `⟨ψ|H|ψ⟩`: the estimator is exact
for the state `ψ` the contractor defines, however much it truncates. -/
theorem C114_estimator (hn : Supported n) (h2 : 2 ≤ n) (jz jxy jz2 jxy2 pin : 𝕜) :
    ∃ (ψ : Config → 𝕜) (E : SpinCfg n n → 𝕜), (∀ c, fresh o (projected n n sitps c) = .ok (ψ c)) ∧
      (∀ w, Reached o n sitps ab w → ∀ s : SpinCfg n n, w.config = toConfig s → w.amp = ψ (toConfig s) ∧
        ∃ r, xxz o jz jxy jz2 jxy2 pin false sitps w = .ok r ∧ r.energy = E s ∧ r.psi = [ψ (toConfig s)]) ∧
      ∑ s, weight (fun s => ψ (toConfig s)) s * E s =
        braket (torusXXZH jz jxy jz2 jxy2 pin) fun s : SpinCfg n n => ψ (toConfig s) := by
  refine ⟨psi o n sitps, fun s => pbcEnergy jz jxy jz2 jxy2 pin (exact (psi o n sitps) (toConfig s)) (toConfig s) n n,
    fun c => fresh_ok o (okNet sitps hn c), fun w hw s hs => ?_,
    C48_torus_estimator jz jxy jz2 jxy2 pin h2 h2 (psi o n sitps)⟩
  have hg := reached_good o sitps ab hn hw
  refine ⟨by rw [hg.amp, hs], _, xxz_ok hn sitps o hg jz jxy jz2 jxy2 pin, ?_, ?_⟩ <;> simp only [hs]

end

section
variable {𝕜 : Type} [RCLike 𝕜] [DecidableEq 𝕜] {lib : Lib 𝕜} (sitps : Site → ℕ → Tn 𝕜) (ab : 𝕜 → ℝ) {n : ℕ}

/-- **C114** (holes). Asked for holes, the solvers report for every site the conjugate of a tensor of the right shape,
which contracted with the site tensor gives the amplitude (the property `Resolved` is that of C111). The energy is the
same as without holes. -/
theorem C114_holes (he : Exact lib) (hv : SingularVectors lib) (relEps tiny : ℝ) (hn : Supported n) (h2 : 2 ≤ n)
    (jz jxy jz2 jxy2 pin : 𝕜) {dim : QLPeps.Tps.Spec.Bond .pbc n n → ℕ} {w : Comp (Tn 𝕜) (Tn 𝕜) (Iso 𝕜) 𝕜}
    (hw : Reached (tensorOps lib relEps tiny) n sitps ab w)
    (hf : Fits n (projected n n sitps w.config).ten dim) :
    ∃ r r', ∃ H : ℕ → ℕ → Tn 𝕜, xxz (tensorOps lib relEps tiny) jz jxy jz2 jxy2 pin false sitps w = .ok r ∧
      xxz (tensorOps lib relEps tiny) jz jxy jz2 jxy2 pin true sitps w = .ok r' ∧
      r'.energy = r.energy ∧ r'.psi = r.psi ∧ r'.comp = w ∧ r.comp = w ∧
      r'.holes = some (fun i j => QLPeps.Peps.dag (H i j)) ∧
      ∀ i < n, ∀ j < n, (H i j).shape = (sitps (i, j) (w.config (i, j))).shape ∧
        (Resolved lib relEps tiny w.env.1 → pair (H i j) (sitps (i, j) (w.config (i, j))) = w.amp) := by
  have hg := reached_good (tensorOps lib relEps tiny) sitps ab hn hw
  have hh := hg.holds
  rw [hg.tn] at hh
  obtain ⟨H, h1, h3, h4, -⟩ := holds_holes he (okNet sitps hn w.config) hh (by change n ≠ 1; omega) hf
  rw [← hg.tn] at h1
  refine ⟨_, _, H, xxz_ok hn sitps _ hg jz jxy jz2 jxy2 pin, xxz_holes hn sitps _ hg jz jxy jz2 jxy2 pin h1, rfl, rfl, rfl, rfl,
    rfl, fun i hi j hj => ⟨h3 (⟨i, hi⟩, ⟨j, hj⟩), fun hR => ?_⟩⟩
  rw [hg.amp]
  exact h4 hv hR (⟨i, hi⟩, ⟨j, hj⟩)

/-! ## C115 -/

/-- **C115** (partial). The periodic transverse-field Ising solver on lattices of side 2 and 3: the energies average to
`⟨ψ|H|ψ⟩`. The full claim is this at every supported size; it is false beyond side 3, see `C115_large_fails`. -/
theorem C115_small_partial (he : Exact lib) (relEps tiny : ℝ) (h : 𝕜) (hside : n = 2 ∨ n = 3) (holes : Bool)
    {dim : QLPeps.Tps.Spec.Bond .pbc n n → ℕ}
    (hf : ∀ s : SpinCfg n n, Fits n (projected n n sitps (toConfig s)).ten dim) :
    ∃ (ψ : Config → 𝕜) (E : SpinCfg n n → 𝕜),
      (∀ c, fresh (tensorOps lib relEps tiny) (projected n n sitps c) = .ok (ψ c)) ∧
      (∀ s : SpinCfg n n, ψ (toConfig s) = value n dim (projected n n sitps (toConfig s)).ten) ∧
      (∀ w, Reached (tensorOps lib relEps tiny) n sitps ab w → ∀ s : SpinCfg n n, w.config = toConfig s →
        ∃ r, tfim (tensorOps lib relEps tiny) h holes sitps w = .ok r ∧ r.energy = E s ∧ r.psi = [ψ (toConfig s)] ∧
          r.comp = w) ∧
      ∑ s, weight (fun s => ψ (toConfig s)) s * E s =
        braket (torusTfimH h) fun s : SpinCfg n n => ψ (toConfig s) := by
  have hn : Supported n := by
    rcases hside with rfl | rfl
    exacts [⟨1, Or.inl rfl⟩, ⟨0, Or.inr rfl⟩]
  have hamp : ∀ s : SpinCfg n n, psi (tensorOps lib relEps tiny) n sitps (toConfig s) =
      value n dim (projected n n sitps (toConfig s)).ten := fun s => by
    obtain ⟨w, -, hg, hb⟩ := create_ok (tensorOps lib relEps tiny) sitps hn (toConfig s) 0
    have hh := hg.holds
    rw [hg.tn, show w.config = toConfig s from congrArg (·.config) hb] at hh
    exact small_amp hh hside (hf s)
  refine ⟨psi _ n sitps, fun s => tfimPBC h (exact (psi _ n sitps) (toConfig s)) (toConfig s) n n,
    fun c => fresh_ok _ (okNet sitps hn c), hamp, fun w hw s hs => ?_, C49_torus_tfim_estimator h (psi _ n sitps)⟩
  have hg := reached_good (tensorOps lib relEps tiny) sitps ab hn hw
  have hh := hg.holds
  rw [hg.tn] at hh
  obtain ⟨H, h1, h3, -, h4, -⟩ := holds_holes he (okNet sitps hn w.config) hh (by change n ≠ 1; omega) (by rw [hs]; exact hf s)
  rw [← hg.tn] at h1
  obtain ⟨r, e1, e2, e3, -, e5⟩ := tfim_ok hn sitps _ hg h holes h1 (fun p _ => by
      rw [hs]
      unfold toConfig
      split
      · exact Nat.lt_succ_iff.1 (s _).2
      · exact Nat.zero_le _) (fun a => (exact (psi (tensorOps lib relEps tiny) n sitps) w.config).flip a) (fun a ha => by
    obtain ⟨i, j⟩ := a
    dsimp only at ha ⊢
    have hm : (i, j) ∈ sites n n := mem_sites.2 ha
    have hfl : Function.update w.config (i, j) (1 - w.config (i, j)) = toConfig (flipS ⟨(i, j), hm⟩ s) := by
      rw [hs]
      exact toConfig_flip s ⟨(i, j), hm⟩
    have hsh : (sitps (i, j) (1 - w.config (i, j))).shape = (sitps (i, j) (w.config (i, j))).shape := by
      have ha1 := hf s (⟨i, ha.1⟩, ⟨j, ha.2⟩)
      have ha2 := hf (flipS ⟨(i, j), hm⟩ s) (⟨i, ha.1⟩, ⟨j, ha.2⟩)
      rw [← ha1, ← hfl] at ha2
      unfold projected at ha2
      dsimp only at ha2
      rw [Function.update_self, ← hs] at ha2
      exact ha2
    have hH := h3 (⟨i, ha.1⟩, ⟨j, ha.2⟩)
    have ha1 := hf s (⟨i, ha.1⟩, ⟨j, ha.2⟩)
    rw [← hs] at ha1
    rw [contract_all (hH.trans ha1) (hsh.trans ha1)]
    refine (h4 (by change n ≤ 3; omega) (⟨i, ha.1⟩, ⟨j, ha.2⟩) _ hsh).trans ?_
    change value n dim (Net.set (projected n n sitps w.config) i j (sitps (i, j) (1 - w.config (i, j)))).ten = psi _ n sitps _
    rw [hfl, hamp, ← hfl]
    exact congrArg (fun t => value n dim (Net.ten t)) (set_projected sitps w.config (i, j) _))
  refine ⟨r, e1, ?_, by rw [e2, hs], e3⟩
  rw [e5, hs]
  rfl

/-- the state of the counterexample: component 0 of every site is the tensor of `rankOne`, every other component is
`probe` -/
def blindState (𝕜 : Type) [RCLike 𝕜] (s : Site) (k : ℕ) : Tn 𝕜 := if k = 0 then (rankOne 𝕜 0).ten s.1 s.2 else probe 𝕜

omit [DecidableEq 𝕜] in
theorem rank_one_net {n : ℕ} (f g : Fin n × Fin n → ℕ → 𝕜) (ten : ℕ → ℕ → Tn 𝕜)
    (ht : ∀ (v : Fin n × Fin n) a b c d, (ten v.1 v.2).elem [a, b, c, d] = f v a * g v c)
    (h1 : ∀ v : Fin n × Fin n, g v 0 * f (v.1, nx v.2) 0 + g v 1 * f (v.1, nx v.2) 1 = 1) :
    value n (rankOneDim n) ten = 1 := by
  have hten : ∀ v : Fin n × Fin n, ten (nid v / n) (nid v % n) = ten v.1 v.2 := fun v => by
    unfold nid
    rw [enc_div v.2.2, enc_mod v.2.2]
  rw [← tvalue_eq (fun i => ten (i / n) (i % n)) ten (rankOneDim n) hten]
  refine rank_one_value (f := f) (g := g) (fun v => ⟨rfl, rfl⟩) (fun v a b c d => ?_) h1
  rw [hten]
  exact ht v a b c d

omit [DecidableEq 𝕜] in
/-- the amplitudes without truncation: one for the configuration of zeros and for each of its neighbours -/
theorem blind_value {n : ℕ} (h2 : 2 ≤ n) (o : Site) (ho : o.1 < n ∧ o.2 < n) (k : ℕ) :
    value n (rankOneDim n) (projected n n (blindState 𝕜) (Function.update (fun _ => 0) o k)).ten = 1 := by
  refine rank_one_net (fun v a => if ((v.1 : ℕ), (v.2 : ℕ)) = o ∧ k ≠ 0 then (if a = 0 then 0 else 1) else (if a = 0 then 1 else 0))
    (fun v a => if ((v.1 : ℕ), (v.2 : ℕ)) = o ∧ k ≠ 0 then (if a = 0 then 1 else -1) else 1) _ (fun v a b c d => ?_) (fun v => ?_)
  · unfold projected blindState
    dsimp only
    by_cases h : ((v.1 : ℕ), (v.2 : ℕ)) = o ∧ k ≠ 0
    · rw [if_pos h, if_pos h, h.1, Function.update_self, if_neg h.2]
      by_cases ha : a = 0 <;> by_cases hc : c = 0 <;> simp [probe, ha, hc]
    · rw [if_neg h, if_neg h, if_pos]
      · simp [rankOne]
      · by_cases h' : ((v.1 : ℕ), (v.2 : ℕ)) = o
        · rw [h', Function.update_self]
          by_contra hk
          exact h ⟨h', hk⟩
        · rw [Function.update_of_ne h']
  · by_cases h : ((v.1 : ℕ), (v.2 : ℕ)) = o ∧ k ≠ 0
    · have h' : ¬ (((v.1 : ℕ), ((nx v.2 : Fin n) : ℕ)) = o ∧ k ≠ 0) := by
        rintro ⟨h', -⟩
        have := congrArg Prod.snd (h'.trans h.1.symm)
        dsimp only at this
        rw [nx_val] at this
        split at this <;> omega
      simp only [if_pos h, if_neg h']
      simp
    · by_cases h' : ((v.1 : ℕ), ((nx v.2 : Fin n) : ℕ)) = o ∧ k ≠ 0
      · simp only [if_neg h, if_pos h']
        simp
      · simp only [if_neg h, if_neg h']
        simp

omit [DecidableEq 𝕜] in
theorem foldl_const {α : Type} (x : 𝕜) (l : List α) (e : 𝕜) : l.foldl (fun e _ => e + x) e = e + l.length * x := by
  induction l generalizing e with
  | nil => simp
  | cons a l ih =>
    rw [List.foldl_cons, ih, List.length_cons]
    push_cast
    ring

theorem length_allSites (n : ℕ) : (allSites n n).length = n * n := by
  unfold allSites
  simp [List.length_flatMap]

omit [DecidableEq 𝕜] in
theorem diag_zero (n : ℕ) : isingDiag (𝕜 := 𝕜) (fun _ => 0) n n = -(2 * (n : 𝕜) ^ 2) := by
  unfold isingDiag
  simp only [if_true, add_assoc]
  rw [foldl_const, length_allSites]
  push_cast
  ring

/-- **C115** (refuted part). On every supported lattice of side `n > 3` the periodic transverse-field Ising solver is
wrong, even when no splitting discards anything: there is a state whose amplitudes are exact and equal to one for the
configuration of zeros and each of its neighbours, so that its local energy there is `-(2 n² + h n²)`; the solver
reports `-2 n²` whatever the field. -/
theorem C115_large_fails (he : Exact lib) (hs : SvdNonNeg lib) (hv : SingularVectors lib)
    (h0 : ∀ t d, (factors lib d t).err = 0) (relEps tiny : ℝ) (hn : Supported n) (h3 : 3 < n) (holes : Bool) :
    ∃ (sitps : Site → ℕ → Tn 𝕜) (dim : QLPeps.Tps.Spec.Bond .pbc n n → ℕ) (ψ : Config → 𝕜),
      (∀ c, Fits n (projected n n sitps c).ten dim) ∧
      (∀ c, fresh (tensorOps lib relEps tiny) (projected n n sitps c) = .ok (ψ c)) ∧
      (∀ c, ψ c = value n dim (projected n n sitps c).ten) ∧ ψ (fun _ => 0) = 1 ∧
      ∀ h : 𝕜, star h = h →
        torusTfimH h (fun s : SpinCfg n n => ψ (toConfig s)) (fun _ => 0) = -(2 * (n : 𝕜) ^ 2 + h * (n : 𝕜) ^ 2) ∧
        ∃ w r, create (tensorOps lib relEps tiny) n n sitps (fun _ => 0) 0 = .ok w ∧
          tfim (tensorOps lib relEps tiny) h holes sitps w = .ok r ∧ r.energy = -(2 * (n : 𝕜) ^ 2) := by
  have hF : ∀ c, Fits n (projected n n (blindState 𝕜) c).ten (rankOneDim n) := fun c s => by
    unfold projected blindState
    dsimp only
    split <;> rfl
  have hval : ∀ c, psi (tensorOps lib relEps tiny) n (blindState 𝕜) c =
      value n (rankOneDim n) (projected n n (blindState 𝕜) c).ten := fun c => by
    obtain ⟨w, -, hg, hb⟩ := create_ok (tensorOps lib relEps tiny) (blindState 𝕜) hn c 0
    have hh := hg.holds
    rw [hg.tn, show w.config = c from congrArg (·.config) hb] at hh
    exact hh.value he hs (okNet (blindState 𝕜) hn c) (fun sc _ i t d _ _ => h0 t _) (hF c)
  have h1 : ∀ o : Site, o.1 < n ∧ o.2 < n → ∀ k,
      psi (tensorOps lib relEps tiny) n (blindState 𝕜) (Function.update (fun _ => 0) o k) = 1 :=
    fun o ho k => by rw [hval, blind_value (by omega) o ho]
  have hz : toConfig (fun _ => 0 : SpinCfg n n) = fun _ => 0 := by
    funext p
    unfold toConfig
    split <;> rfl
  have hψ0 : psi (tensorOps lib relEps tiny) n (blindState 𝕜) (fun _ => 0) = 1 := by
    have := h1 (0, 0) ⟨by omega, by omega⟩ 0
    rwa [show Function.update (fun _ => 0 : Config) (0, 0) 0 = fun _ => 0 by simp] at this
  refine ⟨blindState 𝕜, rankOneDim n, psi _ n (blindState 𝕜), hF, fun c => fresh_ok _ (okNet _ hn c), hval, hψ0, fun h hh => ⟨?_, ?_⟩⟩
  · have hE : tfimPBC h (exact (psi (tensorOps lib relEps tiny) n (blindState 𝕜)) (fun _ => 0)) (fun _ => 0) n n =
        -(2 * (n : 𝕜) ^ 2 + h * (n : 𝕜) ^ 2) := by
      unfold tfimPBC
      change isingDiag (𝕜 := 𝕜) (fun _ => 0) n n + (allSites n n).foldl _ 0 = _
      rw [diag_zero, foldl_add_fun]
      have : ∀ s ∈ allSites n n, tfimFlip h (1 / (exact (psi (tensorOps lib relEps tiny) n (blindState 𝕜)) (fun _ => 0)).trRow 0)
          ((exact (psi (tensorOps lib relEps tiny) n (blindState 𝕜)) (fun _ => 0)).flip s) = -h := fun s hs => by
        have hs' : s.1 < n ∧ s.2 < n := mem_sites.1 (mem_allSites.1 hs)
        unfold exact tfimFlip
        dsimp only
        rw [h1 s hs', hψ0]
        simp
      rw [List.map_congr_left this, List.map_const', List.sum_replicate, length_allSites]
      simp only [nsmul_eq_mul]
      push_cast
      ring
    have key := tfim_torus_energy h (psi (tensorOps lib relEps tiny) n (blindState 𝕜)) (fun _ => 0 : SpinCfg n n)
    have hne : psi (tensorOps lib relEps tiny) n (blindState 𝕜) (toConfig (fun _ => 0 : SpinCfg n n)) ≠ 0 := by
      rw [hz, hψ0]; exact one_ne_zero
    have key2 := congrArg (· * star (psi (tensorOps lib relEps tiny) n (blindState 𝕜) (toConfig (fun _ => 0 : SpinCfg n n)))) key
    rw [add_mul, add_mul, QLPeps.ExactRun.relI_mul, QLPeps.ExactRun.relI_mul, QLPeps.ExactRun.flip_mul _ _ _ hh hne, hz, hE, hψ0,
      star_one, mul_one, ← star_add, ← star_add] at key2
    have := congrArg star key2
    rw [star_star] at this
    unfold torusTfimH
    rw [← this]
    simp [hh]
  · obtain ⟨w, hw, hg, hb⟩ := create_ok (tensorOps lib relEps tiny) (blindState 𝕜) hn (fun _ => 0) 0
    have hc : w.config = fun _ => 0 := congrArg (·.config) hb
    have hhold := hg.holds
    rw [hg.tn, hc] at hhold
    obtain ⟨H, e1, e2, -, -, e4⟩ := holds_holes he (okNet _ hn _) hhold (by change n ≠ 1; omega) (hF _)
    rw [← hc, ← hg.tn] at e1
    obtain ⟨r, f1, -, -, -, f5⟩ := tfim_ok hn (blindState 𝕜) _ hg h holes e1 (fun s _ => by rw [hc]; exact Nat.zero_le _)
      (fun _ => 0) (fun s hs => by
        have hsh : (H s.1 s.2).shape = [2, 1, 2, 1] := e2 (⟨s.1, hs.1⟩, ⟨s.2, hs.2⟩)
        rw [hc]
        change (QLPeps.Peps.contractN (H s.1 s.2) _ (probe 𝕜) _).elem [] = 0
        rw [contract_all hsh rfl]
        exact e4 hv h3 (⟨s.1, hs.1⟩, ⟨s.2, hs.2⟩) _ (probe_blind _))
    refine ⟨w, r, hw, f1, ?_⟩
    rw [f5, hc, diag_zero]
    simp [tfimFlip, foldl_const]

end

section examples

/-- a state with two components of bond dimension 2 at every site -/
def someState (s : Site) (k : ℕ) : Tn ℂ := ⟨[2, 2, 2, 2], fun x => (s.1 + 2 * s.2 + k + x.sum : ℕ)⟩

/-- every configuration is reached, and so is what an exchange makes of it -/
example (c : Config) (ξ : ℕ → ℝ) : ∃ w w' b, create (tensorOps svdLib 0 0) 6 6 someState c 0 = .ok w ∧
    exchange (tensorOps svdLib 0 0) someState (fun z : ℂ => ‖z‖) ξ (2, 5) (2, 0) w = .ok (w', b) ∧
    Reached (tensorOps svdLib 0 0) 6 someState (fun z : ℂ => ‖z‖) w' := by
  have hn : Supported 6 := ⟨1, Or.inr rfl⟩
  obtain ⟨w, hw, hg, -⟩ := create_ok (tensorOps (svdLib (𝕜 := ℂ)) 0 0) someState hn c 0
  obtain ⟨w', b, e, -⟩ := exchange_ok (tensorOps (svdLib (𝕜 := ℂ)) 0 0) someState hn (fun z : ℂ => ‖z‖) ξ hg (s1 := (2, 5))
    (s2 := (2, 0)) ⟨by decide, by decide⟩ ⟨by decide, by decide⟩ .horizontal
  exact ⟨w, w', b, hw, e, .exchange (.create hw) ⟨by decide, by decide⟩ ⟨by decide, by decide⟩ e⟩

/-- C114 on a `6 × 6` torus, J1-J2 couplings and a pinning field -/
example := C114_estimator (tensorOps (svdLib (𝕜 := ℂ)) 0 0) someState (fun z => ‖z‖) (n := 6) ⟨1, Or.inr rfl⟩ (by omega)
  1 1 (1 / 2) (1 / 2) 3

/-- its holes, when asked for, give back the amplitude -/
example (c : Config) (d : ℕ) (w) (hw : create (tensorOps svdLib 0 0) 6 6 someState c d = .ok w) :
    ∃ r, ∃ H : ℕ → ℕ → Tn ℂ, xxz (tensorOps svdLib 0 0) 1 1 0 0 0 true someState w = .ok r ∧
      r.holes = some (fun i j => QLPeps.Peps.dag (H i j)) ∧
      ∀ i < 6, ∀ j < 6, pair (H i j) (someState (i, j) (w.config (i, j))) = w.amp := by
  obtain ⟨-, r, H, -, h2, -, -, -, -, h5, h6⟩ := C114_holes (lib := svdLib) someState (fun z : ℂ => ‖z‖)
    QLPeps.Peps.svdLib_exact QLPeps.Peps.svdLib_vectors 0 0 (n := 6) ⟨1, Or.inr rfl⟩ (by omega) 1 1 0 0 0
    (dim := fun _ => 2) (.create hw) (fun _ => rfl)
  refine ⟨r, H, h2, h5, fun i hi j hj => (h6 i hi j hj).2 fun sc _ i t d _ _ m hm => Or.inr ?_⟩
  rw [zero_mul, max_self]
  exact Real.sqrt_pos.2 (QLPeps.Peps.svdLib_pos _ _ m hm)

/-- C115 on a `3 × 3` torus -/
example := C115_small_partial (lib := svdLib) someState (fun z : ℂ => ‖z‖) QLPeps.Peps.svdLib_exact 0 0 (n := 3) 3
  (Or.inr rfl) true (dim := fun _ => 2) (fun _ _ => rfl)

/-- the refutation at side 4, for a library that discards nothing -/
example := C115_large_fails (lib := svdLib (𝕜 := ℝ)) QLPeps.Peps.svdLib_exact QLPeps.Peps.svdLib_nonneg
  QLPeps.Peps.svdLib_vectors (fun _ _ => QLPeps.Peps.svdLib_err _ _) 0 0 (n := 4) ⟨2, Or.inl rfl⟩ (by omega) true

end examples

end

end QLPeps.TrgWalker
