import Verif.Lemmas.ExactModels

/-!
# Property C104: exact summation on the boundary-MPS contractor

`exactRun` models `ExactSumEnergyEvaluatorMPI` from the tensor product state to the energy and the
gradient: for every listed configuration it projects the state, contracts the network with boundary
MPS, and runs an energy solver, which traverses the lattice.
-/

namespace QLPeps.ExactRun

universe u

open QLPeps.Contractor QLPeps.Energy QLPeps.ExactRun.Spec
open QLPeps.SolverRun (pairSolver triSolver tfimSolver toConfig_lt twoState twoState_fits ones_amplitude)
open QLPeps.SolverRun.Spec (amplitude FitsAll)
open QLPeps.Peps (Tn Lib)
open QLPeps.Bmps (tensorOps idLib_lossless)
open QLPeps.Bmps.Spec (Lossless)
open QLPeps.Tps.Spec (Bond)
open QLPeps.Spec

noncomputable section

variable {𝕜 : Type u} [RCLike 𝕜] {rows cols : ℕ} {lib : Lib 𝕜} {dim : Bond .obc rows cols → ℕ}
  {sitps : QLPeps.Site → ℕ → Tn 𝕜}

/-- the run succeeds, on any number of processes; the energy is the expectation value of `H` over the
configurations in `L` and the gradient its derivative in every direction `v` in the space of states -/
def EnergyAndGradient (lib : Lib 𝕜) (dim : Bond .obc rows cols → ℕ) (sitps : QLPeps.Site → ℕ → Tn 𝕜)
    (solver : Solver 𝕜) (H : (SpinCfg rows cols → 𝕜) → SpinCfg rows cols → 𝕜)
    (L : List (SpinCfg rows cols)) : Prop :=
  ∃ g, (∀ size, 0 < size → exactRun lib rows cols sitps solver (L.map toConfig) size =
      .ok (some (energy H L fun s => amplitude dim sitps (toConfig s), g))) ∧
    ∀ v : QLPeps.Site → ℕ → Tn 𝕜, (∀ s, ∀ k < 2, (v s k).shape = (sitps s k).shape) →
      HasDerivAt (fun t => energy H L fun s => amplitude dim (along sitps v t) (toConfig s))
        ((2 * RCLike.re (overlap rows cols 2 v g) : ℝ) : 𝕜) 0

theorem energyAndGradient_of (hl : Lossless lib) (hf : FitsAll dim sitps 2) (hr : 1 ≤ rows) (hc : 2 ≤ cols)
    (H : (SpinCfg rows cols → 𝕜) → SpinCfg rows cols → 𝕜) (hH : Herm H)
    (L : List (SpinCfg rows cols)) (hL : L.Nodup) (hne : L ≠ []) (hcl : Closed H L)
    (h0 : ∀ s ∈ L, amplitude dim sitps (toConfig s) ≠ 0) (solver : Solver 𝕜)
    (hsol : ∀ s ∈ L, Solves lib dim sitps solver H s) :
    EnergyAndGradient lib dim sitps solver H L := by
  obtain ⟨g, e1, e2⟩ := exactRun_ok hl hf hr hc H hH L hL hne hcl h0 solver hsol 1 one_pos
  refine ⟨g, fun size hs => ?_, e2⟩
  rw [← e1]
  exact exactRun_size size 1 hs one_pos

/-- **C104.** XXZ and J1-J2 models with real couplings. Let the factorizations truncate nothing, let the
listed configurations be distinct, of nonzero amplitude and not connected with others by the
Hamiltonian. Then exact summation returns the expectation value of the Hamiltonian in the tensor product
state, and its exact gradient. -/
theorem C104_xxz (hl : Lossless lib) (hf : FitsAll dim sitps 2) (hr : 2 ≤ rows) (hc : 2 ≤ cols)
    (nnn : Bool) (jz jxy jz2 jxy2 pin : 𝕜) (h1 : star jz = jz) (h2 : star jxy = jxy)
    (h3 : star jz2 = jz2) (h4 : star jxy2 = jxy2) (h5 : star pin = pin) (isZero : 𝕜 → Bool)
    (hz : ∀ a, isZero a = true ↔ a = 0) (L : List (SpinCfg rows cols)) (hL : L.Nodup) (hne : L ≠ [])
    (hcl : Closed (xxzH jz jxy (if nnn then jz2 else 0) (if nnn then jxy2 else 0) pin) L)
    (h0 : ∀ s ∈ L, amplitude dim sitps (toConfig s) ≠ 0) :
    EnergyAndGradient lib dim sitps
      (fun cfg => pairSolver lib rows cols sitps cfg isZero true (xxz nnn jz jxy jz2 jxy2 pin))
      (xxzH jz jxy (if nnn then jz2 else 0) (if nnn then jxy2 else 0) pin) L :=
  energyAndGradient_of hl hf (by omega) hc _ (herm_xxz _ _ _ _ _ h1 h2 (by split_ifs <;> simp [h3])
    (by split_ifs <;> simp [h4]) h5) L hL hne hcl h0 _ fun s hs =>
      solves_xxz hl hf hr hc nnn jz jxy jz2 jxy2 pin h1 h2 h3 h4 h5 isZero hz s (h0 s hs)

/-- **C104.** The same for the Heisenberg model on the triangular lattice. -/
theorem C104_triangle (hl : Lossless lib) (hf : FitsAll dim sitps 2) (hr : 2 ≤ rows) (hc : 2 ≤ cols)
    (isZero : 𝕜 → Bool) (hz : ∀ a, isZero a = true ↔ a = 0) (L : List (SpinCfg rows cols))
    (hL : L.Nodup) (hne : L ≠ []) (hcl : Closed (triangularH (K := 𝕜)) L)
    (h0 : ∀ s ∈ L, amplitude dim sitps (toConfig s) ≠ 0) :
    EnergyAndGradient lib dim sitps
      (fun cfg => pairSolver lib rows cols sitps cfg isZero true triangle) triangularH L :=
  energyAndGradient_of hl hf (by omega) hc _ herm_triangle L hL hne hcl h0 _ fun s hs =>
    solves_triangle hl hf hr hc isZero hz s (h0 s hs)

/-- **C104.** The same for the triangular J1-J2 model, from three rows on. -/
theorem C104_triangle_j1j2 (hl : Lossless lib) (hf : FitsAll dim sitps 2) (hr : 3 ≤ rows)
    (hc : 2 ≤ cols) (j2 : 𝕜) (hj : star j2 = j2) (L : List (SpinCfg rows cols))
    (hL : L.Nodup) (hne : L ≠ []) (hcl : Closed (triangularJ1J2H j2) L)
    (h0 : ∀ s ∈ L, amplitude dim sitps (toConfig s) ≠ 0) :
    EnergyAndGradient lib dim sitps
      (fun cfg => triSolver lib rows cols sitps cfg true j2) (triangularJ1J2H j2) L :=
  energyAndGradient_of hl hf (by omega) hc _ (herm_triangle_j1j2 j2 hj) L hL hne hcl h0 _ fun s hs =>
    solves_triangle_j1j2 hl hf hr hc j2 hj s (h0 s hs)

/-- **C104.** The same for the transverse-field Ising model. -/
theorem C104_tfim (hl : Lossless lib) (hf : FitsAll dim sitps 2) (hr : 1 ≤ rows)
    (hc : 2 ≤ cols) (h : 𝕜) (hh : star h = h) (L : List (SpinCfg rows cols))
    (hL : L.Nodup) (hne : L ≠ []) (hcl : Closed (tfimH h) L)
    (h0 : ∀ s ∈ L, amplitude dim sitps (toConfig s) ≠ 0) :
    EnergyAndGradient lib dim sitps
      (fun cfg => tfimSolver lib rows cols sitps cfg true h) (tfimH h) L :=
  energyAndGradient_of hl hf hr hc _ (herm_tfim h hh) L hL hne hcl h0 _ fun s hs =>
    solves_tfim hl hf hr hc h hh s (h0 s hs)

/-! ## Lists of configurations -/

/-- **C104.** If all configurations are listed, the energy is `⟨ψ|H|ψ⟩ / ⟨ψ|ψ⟩`. -/
theorem C104_all_configurations (H : (SpinCfg rows cols → 𝕜) → SpinCfg rows cols → 𝕜)
    (L : List (SpinCfg rows cols)) (hL : L.Nodup) (hall : ∀ s, s ∈ L) (ψ : SpinCfg rows cols → 𝕜) :
    energy H L ψ = braket H ψ / ∑ s, weight ψ s := by
  have e : L.toFinset = Finset.univ := by ext s; simp [hall s]
  unfold energy braket weight
  rw [← List.sum_toFinset _ hL, ← List.sum_toFinset _ hL, e]

/-- **C104.** The configurations with a given number of up spins are not connected with others by the
XXZ Hamiltonians: exact summation over one sector is legitimate. -/
theorem C104_sector_closed (jz jxy jz2 jxy2 pin : 𝕜) (L : List (SpinCfg rows cols)) (n : ℕ)
    (hn : ∀ s, s ∈ L ↔ ∑ a, (s a : ℕ) = n) :
    Closed (xxzH jz jxy jz2 jxy2 pin) L ∧ Closed (triangularH (K := 𝕜)) L ∧
      Closed (triangularJ1J2H jxy2) L := by
  have key : ∀ (R : QLPeps.Site → QLPeps.Site → Prop) [∀ a b, Decidable (R a b)] (j j' : 𝕜),
      (∀ a b, a ∈ sites rows cols → R a b → a ≠ b) → Closed (coupling R j j') L := by
    intro R _ j j' hR f hf s hs
    unfold coupling
    refine Finset.sum_eq_zero fun a _ => Finset.sum_eq_zero fun b _ => ?_
    split_ifs with h
    · have hab : a ≠ b := fun hab => hR a b a.2 h (congrArg Subtype.val hab)
      have hsw : swapS a b s ∈ L := by
        rw [hn] at hs ⊢
        rw [← hs, ← Equiv.sum_comp (Equiv.swap a b) fun x => (s x : ℕ)]
        refine Finset.sum_congr rfl fun x _ => ?_
        congr 1
        unfold swapS
        by_cases h1 : x = b
        · subst h1; simp
        · by_cases h2 : x = a
          · subst h2; simp [Function.update_of_ne h1]
          · simp [Function.update_of_ne h1, Function.update_of_ne h2,
              Equiv.swap_apply_of_ne_of_ne h2 h1]
      rw [exchange_apply _ _ hab, hf s hs, hf _ hsw]
      simp
    · rfl
  have add : ∀ {H G : (SpinCfg rows cols → 𝕜) → SpinCfg rows cols → 𝕜}, Closed H L → Closed G L →
      Closed (fun f s => H f s + G f s) L := by
    intro H G h g f hf s hs
    dsimp only
    rw [h f hf s hs, g f hf s hs, add_zero]
  have tri : Closed (triangularH (K := 𝕜)) L :=
    add (add (key _ _ _ right_ne) (key _ _ _ below_ne)) (key _ _ _ upRight_ne)
  refine ⟨add (add (add (add (key _ _ _ right_ne) (key _ _ _ below_ne)) (key _ _ _ downRight_ne)) (key _ _ _ upRight_ne)) ?_, tri,
    add tri (add (add (key _ _ _ downRight_ne) (key _ _ _ upRight2_ne)) (key _ _ _ up2Right_ne))⟩
  intro f hf s hs
  unfold pinning Sz
  simp [hf s hs]

/-! ## A case -/

/-- a nontrivial case: the J1-J2 model with pinning field on a 2×2 lattice of spins, in the sector of
two up spins, for the state of bond dimension two whose tensors have elements `1` -/
example : EnergyAndGradient (QLPeps.Peps.idLib : Lib ℝ) QLPeps.Bmps.twoDim (twoState 2 2 fun _ _ _ => (1 : ℝ))
    (fun cfg => pairSolver QLPeps.Peps.idLib 2 2 (twoState 2 2 fun _ _ _ => (1 : ℝ)) cfg
      (fun a => decide (a = 0)) true (xxz true 1 1 (1 / 2) (1 / 2) (1 / 3)))
    (xxzH 1 1 (1 / 2) (1 / 2) (1 / 3))
    (Finset.univ.filter fun s : SpinCfg 2 2 => ∑ a, (s a : ℕ) = 2).toList := by
  refine C104_xxz idLib_lossless (twoState_fits _ 2) le_rfl le_rfl true 1 1 (1 / 2) (1 / 2) (1 / 3)
    (by simp) (by simp) (by simp) (by simp) (by simp) _ (by simp) _ (Finset.nodup_toList _) ?_
    (C104_sector_closed 1 1 (1 / 2) (1 / 2) (1 / 3) _ 2 fun s => by rw [Finset.mem_toList, Finset.mem_filter]; exact and_iff_right (Finset.mem_univ s)).1
    fun s _ => by rw [ones_amplitude]; norm_num
  rw [Ne, Finset.toList_eq_nil]
  refine Finset.Nonempty.ne_empty ⟨fun a => if (a : QLPeps.Site).1 = 0 then 1 else 0, ?_⟩
  decide +kernel

end

end QLPeps.ExactRun
