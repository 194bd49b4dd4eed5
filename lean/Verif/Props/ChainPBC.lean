import Verif.Lemmas.UpdatersPBC
import Verif.Props.Chain

/-!
# Property C105, periodic full-space sweeps
-/

open MeasureTheory ProbabilityTheory

namespace QLPeps.Chain

open Spec QLPeps.Updaters QLPeps.Sweep QLPeps.Contractor

noncomputable section

variable {A : Type*} {S : Type*} [MeasurableSpace S] {μ : Measure S} [IsProbabilityMeasure μ]
  {U : ℕ → S → ℝ} (ψ : Config → A) (ab : A → ℝ) (rows cols n draws : ℕ) (Ω : Finset Config)

theorem pbcOther_ne {rows cols : ℕ} (hr : 2 ≤ rows) (hc : 2 ≤ cols) (b : ℕ × ℕ × Orient)
    (hb : b.1 < rows ∧ b.2.1 < cols) : (b.1, b.2.1) ≠ pbcOther rows cols b := by
  obtain ⟨r, c, d⟩ := b
  dsimp only at hb ⊢
  cases d
  · intro h
    have h := (Prod.ext_iff.1 h).2
    dsimp only [pbcOther] at h
    rcases Nat.lt_or_ge (c + 1) cols with h' | h'
    · rw [Nat.mod_eq_of_lt h'] at h; omega
    · rw [show c + 1 = cols by omega, Nat.mod_self] at h; omega
  · intro h
    have h := (Prod.ext_iff.1 h).1
    dsimp only [pbcOther] at h
    rcases Nat.lt_or_ge (r + 1) rows with h' | h'
    · rw [Nat.mod_eq_of_lt h'] at h; omega
    · rw [show r + 1 = rows by omega, Nat.mod_self] at h; omega

/-- **C105** (periodic full-space sweeps with exact amplitudes), whatever bonds are drawn: `draw j i` is
bond `i` of sweep `j`, its first site uniformly drawn in the lattice. -/
theorem C105_periodic_full_space_exact (hU : IidUniform μ U) (hab : ∀ z, 0 ≤ ab z) (dim : ℕ)
    (hr : 2 ≤ rows) (hc : 2 ≤ cols) (draw : ℕ → ℕ → ℕ × ℕ × Orient)
    (hdraw : ∀ j i, (draw j i).1 < rows ∧ (draw j i).2.1 < cols)
    (hdim : ∀ c ∈ Ω, ∀ a, QLPeps.Spec.InLattice rows cols a → c a < dim)
    (hΩ : ∀ c ∈ Ω, ∀ a, QLPeps.Spec.InLattice rows cols a → ∀ x, x < dim → setSite c a x ∈ Ω) :
    Samples μ U Ω (fun c => ab (ψ c) ^ 2) fun ξ c =>
      (List.range n).foldl (fun x j => (pbcSweep
        (fun a b d => liftUpd (fullSpacePBC (exactContractor ψ) ab ξ dim a b d))
        rows cols (draw j) x).1) (some ⟨c, ψ c, (), draws⟩) := by
  have he : ∀ ξ a b d, fullSpacePBC (exactContractor ψ) ab ξ dim a b d =
      fullSpace (exactContractor ψ) ab ξ dim a b d :=
    fun ξ a b d => funext fun w => fullSpacePBC_eq _ _ _ _ _ _ _ _
  simp only [he]
  let V : Set (Upd Config) := {v | ∃ a b d, QLPeps.Spec.InLattice rows cols a ∧
      QLPeps.Spec.InLattice rows cols b ∧ a ≠ b ∧
      v = updOf ψ (fun ξ => fullSpace (exactContractor ψ) ab ξ dim a b d) fun _ => 1}
  have hrun := Runs.foldl' (V := V) (ψ := ψ) (fun j ξ x => (pbcSweep
        (fun a b d => liftUpd (fullSpace (exactContractor ψ) ab ξ dim a b d)) rows cols (draw j) x).1)
        (List.range n)
    fun j _ => Runs.pbcSweep rows cols (draw j) (fun a b d ξ => fullSpace (exactContractor ψ) ab ξ dim a b d)
      (fun _ _ _ _ => 1) (fullSpace_reads ψ ab dim)
      fun i => ⟨((draw j i).1, (draw j i).2.1), _, _, hdraw j i, pbcOther_mem _ (hdraw j i), pbcOther_ne hr hc _ (hdraw j i), rfl⟩
  have hΩ' : ∀ c ∈ Ω, ∀ a b, QLPeps.Spec.InLattice rows cols a → QLPeps.Spec.InLattice rows cols b →
      ∀ x y, x < dim → y < dim → setSite (setSite c a x) b y ∈ Ω :=
    fun c hc a b ha hb x y hx hy => hΩ _ (hΩ c hc a ha x hx) b hb y hy
  refine Runs.samples hU (T := fun ξ x => (List.range n).foldl (fun x j => (pbcSweep
        (fun a b d => liftUpd (fullSpace (exactContractor ψ) ab ξ dim a b d)) rows cols (draw j) x).1) x)
        hrun Ω _ (fun c => sq_nonneg _) ?_ ?_ draws
  · rintro _ ⟨a, b, d, ha, hb, -, rfl⟩
    exact fullSpace_good ψ ab dim a b d Ω fun c hc x y => hΩ' c hc a b ha hb x y
  · rintro _ ⟨a, b, d, ha, hb, h, rfl⟩
    exact fullSpace_stationary ψ ab hab dim a b h d Ω
      (fun c hc => ⟨hdim c hc a ha, hdim c hc b hb⟩) fun c hc x y => hΩ' c hc a b ha hb x y

/-- all configurations with `q` states on a lattice are closed under exchanges -/
theorem allConfigs_swap {rows cols q : ℕ} {c : Config} (hc : c ∈ allConfigs rows cols q) {a b : Site}
    (ha : QLPeps.Spec.InLattice rows cols a) (hb : QLPeps.Spec.InLattice rows cols b) :
    (fun p => c (Equiv.swap a b p)) ∈ allConfigs rows cols q := by
  rw [mem_allConfigs] at hc ⊢
  refine ⟨fun p hp => hc.1 _ ?_, fun p hp => ?_⟩
  · rw [Equiv.swap_apply_def]
    split_ifs
    · exact hb
    · exact ha
    · exact hp
  · rw [Equiv.swap_apply_of_ne_of_ne (fun h : p = a => hp (h ▸ ha)) (fun h : p = b => hp (h ▸ hb))]
    exact hc.2 p hp

/-- a nontrivial case: five periodic exchange sweeps on a 3×3 torus, all along the same diagonal of bonds -/
example {S : Type*} [MeasurableSpace S] {μ : Measure S} [IsProbabilityMeasure μ] {U : ℕ → S → ℝ}
    (hU : IidUniform μ U) (ψ : Config → ℂ) :=
  C105_periodic_exchange_exact ψ (fun z => ‖z‖) 3 3 5 0 (allConfigs 3 3 2) hU (fun _ => norm_nonneg _)
    (fun _ i => (i % 3, i % 3, .horizontal)) (fun _ i => ⟨Nat.mod_lt _ (by omega), Nat.mod_lt _ (by omega)⟩)
    (fun _ hc _ _ ha hb => allConfigs_swap hc ha hb)

/-- a nontrivial case: five periodic full-space sweeps on a 3×3 torus, all along the same diagonal of bonds -/
example {S : Type*} [MeasurableSpace S] {μ : Measure S} [IsProbabilityMeasure μ] {U : ℕ → S → ℝ}
    (hU : IidUniform μ U) (ψ : Config → ℂ) :=
  C105_periodic_full_space_exact ψ (fun z => ‖z‖) 3 3 5 0 (allConfigs 3 3 2) hU (fun _ => norm_nonneg _) 2
    (by omega) (by omega) (fun _ i => (i % 3, i % 3, .horizontal))
    (fun _ i => ⟨Nat.mod_lt _ (by omega), Nat.mod_lt _ (by omega)⟩)
    (fun _ hc => (mem_allConfigs.1 hc).1)
    (fun c' hc a ha x hx => by
      rw [mem_allConfigs] at hc ⊢
      refine ⟨fun p hp => ?_, fun p hp => ?_⟩
      · unfold setSite
        split_ifs
        · exact hx
        · exact hc.1 p hp
      · unfold setSite
        rw [if_neg (fun h : p = a => hp (h ▸ ha))]
        exact hc.2 p hp)

end

end QLPeps.Chain
