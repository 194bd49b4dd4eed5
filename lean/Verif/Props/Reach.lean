import Verif.Lemmas.Reach
import Verif.Lemmas.ChainSweep
import Verif.Props.Chain

/-!
# Property C107: what exchange updates can reach

The exchanges of single bonds connect all configurations with the same numbers of local states. Whole
sweeps do not: they visit the bonds in a fixed order, and an exchange that does not lower the modulus of the
amplitude is always accepted, so that on a flat state a sweep is a fixed permutation of the sites.
-/

namespace QLPeps.Reach

open Spec QLPeps.Updaters QLPeps.Sweep QLPeps.Contractor QLPeps.Chain QLPeps.Chain.Spec

noncomputable section

variable {A : Type*} (ψ : Config → A) (ab : A → ℝ) (rows cols : ℕ)

/-- **C107** (connectedness). If the amplitude vanishes on no configuration with the composition of `c`,
exchanges of bonds, each of positive probability, lead from `c` to every configuration of the same
composition. -/
theorem C107_exchanges_connect (c c' : Config) (h : SameComposition rows cols c c')
    (hψ : ∀ e, SameComposition rows cols c e → 0 < ab (ψ e)) :
    Relation.ReflTransGen (Moves ψ ab rows cols) c c' := by
  obtain ⟨σ, rfl⟩ := exists_permute h
  exact (reach_permute ψ ab rows cols c hψ σ c ⟨fun _ _ => rfl, fun _ => rfl⟩).1

/-- Exchanges never leave the composition. -/
theorem C107_exchanges_stay (c c' : Config) (h : Relation.ReflTransGen (Moves ψ ab rows cols) c c') :
    SameComposition rows cols c c' := by
  induction h with
  | refl => exact ⟨fun _ _ => rfl, fun _ => rfl⟩
  | tail _ hm ih =>
    refine SameComposition.trans ih ?_
    obtain ⟨a, b, d, hab, p, hp, hm⟩ := hm
    have hm := hm (fun _ => p / 2) 0 (by linarith)
    have h2 : ∀ e : Config, SameComposition rows cols e fun q => e (Equiv.swap a b q) := fun e => by
      rw [← permute_swap ⟨a, mem_sites.2 hab.1⟩ ⟨b, mem_sites.2 hab.2.1⟩ e]
      exact same_permute _ e
    rw [← hm]
    unfold nnExchange
    dsimp only
    split_ifs
    · exact ⟨fun _ _ => rfl, fun _ => rfl⟩
    · rw [updateLocal_exact]
      dsimp only [List.foldl]
      rw [setSite_swap]
      exact h2 _
    · exact ⟨fun _ _ => rfl, fun _ => rfl⟩

/-- **C107** (flat states). If all amplitudes have the same modulus, whole exchange sweeps ignore the random
numbers: there is one permutation of the sites that every sweep applies. -/
theorem C107_flat_deterministic (hflat : ∀ c c', ab (ψ c) = ab (ψ c')) :
    ∃ π : Equiv.Perm Site, ∀ (ξ : ℕ → ℝ) (n draws : ℕ) (c : Config),
      EndsIn ((fun x => (obcSweep (envOpsOption (exactContractor ψ))
        (fun a b d => liftUpd fun w => some (nnExchange (exactContractor ψ) ab ξ a b d w))
        rows cols x).1)^[n] (some ⟨c, ψ c, (), draws⟩)) fun p => c ((π ^ n) p) := by
  let V : Set (Upd Config) := {v | ∃ a b d,
      v = updOf ψ (exchangeStep ψ ab a b d) (exchangeK ψ ab a b)}
  obtain ⟨L, hL, hrun⟩ := Runs.sweep (V := V) (ψ := ψ) rows cols (exchangeStep ψ ab)
    (fun a b _ => exchangeK ψ ab a b) (exchange_reads ψ ab) fun a b d _ => ⟨a, b, d, rfl⟩
  obtain ⟨π, hπ⟩ := run_permutes L fun v hv => by
    obtain ⟨a, b, d, rfl⟩ := hL v hv
    exact flat_permutes ψ ab hflat a b d
  refine ⟨π, fun ξ n => ?_⟩
  have hstep : ∀ c draws, ∃ draws', (obcSweep (envOpsOption (exactContractor ψ))
      (fun a b d => liftUpd (exchangeStep ψ ab a b d ξ)) rows cols (some ⟨c, ψ c, (), draws⟩)).1 =
        some ⟨fun p => c (π p), ψ fun p => c (π p), (), draws'⟩ := by
    intro c draws
    obtain ⟨n', hn⟩ := hπ ξ c draws
    refine ⟨n', ?_⟩
    have := hrun ξ 0 (some (c, draws))
    simp only [Option.map_some, Option.bind_some, hn, emb] at this
    exact this
  induction n with
  | zero => intro draws c; exact ⟨_, rfl, rfl⟩
  | succ n ih =>
    intro draws c
    rw [Function.iterate_succ_apply]
    obtain ⟨draws', h⟩ := hstep c draws
    have h' := ih draws' fun p => c (π p)
    rw [← h] at h'
    rw [pow_succ']
    exact h'

/-- **C107** (sweeps that go nowhere). On a flat state of a 2×2 lattice no number of exchange sweeps, whatever
the random numbers, leaves a configuration that is constant on both diagonals, although the exchanges of
single bonds connect it to every configuration of its composition. -/
theorem C107_sweeps_stuck (hflat : ∀ c c', ab (ψ c) = ab (ψ c')) (c : Config)
    (h1 : c (1, 1) = c (0, 0)) (h2 : c (1, 0) = c (0, 1)) (ξ : ℕ → ℝ) (n draws : ℕ) :
    EndsIn ((fun x => (obcSweep (envOpsOption (exactContractor ψ))
        (fun a b d => liftUpd fun w => some (nnExchange (exactContractor ψ) ab ξ a b d w))
        2 2 x).1)^[n] (some ⟨c, ψ c, (), draws⟩)) c := by
  have hu : ∀ (e : Config) (a b : Site) (d : Orient),
      (liftUpd (fun w => some (nnExchange (exactContractor ψ) ab ξ a b d w)) (some ⟨e, ψ e, (), draws⟩)).1 =
        some ⟨fun p => e (Equiv.swap a b p), ψ fun p => e (Equiv.swap a b p), (), draws⟩ := by
    intro e a b d
    have hm := Reads.liftUpd (exchange_reads ψ ab a b d) ξ (some (e, draws))
    simp only [Option.map_some, Option.bind_some, run, flat_move ψ ab hflat, emb] at hm
    rw [show (updOf ψ (exchangeStep ψ ab a b d) (exchangeK ψ ab a b)).draws e = 0 from
      flat_draws ψ ab hflat a b e] at hm
    exact hm
  have hs : (obcSweep (envOpsOption (exactContractor ψ))
        (fun a b d => liftUpd fun w => some (nnExchange (exactContractor ψ) ab ξ a b d w))
        2 2 (some ⟨c, ψ c, (), draws⟩)).1 = some ⟨c, ψ c, (), draws⟩ := by
    simp only [obcSweep, horizontalLoop, verticalLoop, Sweep.rowLoop, Sweep.colLoop, List.range_succ, List.range_zero, List.nil_append, List.foldl_append, List.foldl_cons,
      List.foldl_nil, ops_gen, ops_init, ops_grow, ops_bmps, ops_shift, ops_delete, ite_self, hu]
    have he : (fun p => c (Equiv.swap (0, 0) (0, 0 + 1) (Equiv.swap (1, 0) (1, 0 + 1) (Equiv.swap (0, 0) (0 + 1, 0)
        (Equiv.swap (0, 1) (0 + 1, 1) p))))) = c := by
      funext p
      by_cases h00 : p = (0, 0)
      · subst h00
        exact h1
      by_cases h01 : p = (0, 1)
      · subst h01
        exact h2
      by_cases h10 : p = (1, 0)
      · subst h10
        exact h2.symm
      by_cases h11 : p = (1, 1)
      · subst h11
        exact h1.symm
      rw [Equiv.swap_apply_of_ne_of_ne h01 h11, Equiv.swap_apply_of_ne_of_ne h00 h10,
        Equiv.swap_apply_of_ne_of_ne h10 h11, Equiv.swap_apply_of_ne_of_ne h00 h01]
    rw [he]
  have : ∀ m, (fun x => (obcSweep (envOpsOption (exactContractor ψ))
        (fun a b d => liftUpd fun w => some (nnExchange (exactContractor ψ) ab ξ a b d w))
        2 2 x).1)^[m] (some ⟨c, ψ c, (), draws⟩) = some ⟨c, ψ c, (), draws⟩ := by
    intro m
    induction m with
    | zero => rfl
    | succ m ih => rw [Function.iterate_succ_apply, hs, ih]
  exact ⟨_, this n, rfl⟩

/-- the Néel configuration of a 2×2 lattice: flat states exist, and there are other configurations of the same
composition, so the claim that sweeps reach all of them is false -/
theorem C107_sweeps_not_ergodic :
    ∃ (ψ : Config → ℝ) (c c' : Config), (∀ e, ψ e ≠ 0) ∧ SameComposition 2 2 c c' ∧ c ≠ c' ∧
      Relation.ReflTransGen (Moves ψ (fun z => |z|) 2 2) c c' ∧
      ∀ (ξ : ℕ → ℝ) (n draws : ℕ), ¬ EndsIn ((fun x => (obcSweep (envOpsOption (exactContractor ψ))
        (fun a b d => liftUpd fun w => some (nnExchange (exactContractor ψ) (fun z => |z|) ξ a b d w))
        2 2 x).1)^[n] (some ⟨c, ψ c, (), draws⟩)) c' := by
  have hs : SameComposition 2 2 (fun p => if p = (0, 0) ∨ p = (1, 1) then 1 else 0)
      fun p => if p = (0, 1) ∨ p = (1, 0) then 1 else 0 := by
    refine ⟨fun p hp => ?_, fun s => ?_⟩
    · have hne : ∀ r c, r < 2 → c < 2 → p ≠ (r, c) := fun r c hr hc h => hp (h ▸ ⟨hr, hc⟩)
      simp [hne 0 0, hne 0 1, hne 1 0, hne 1 1]
    · rw [QLPeps.Spec.occupancy, QLPeps.Spec.occupancy,
        show QLPeps.Spec.sites 2 2 = {(0, 0), (0, 1), (1, 0), (1, 1)} from by decide]
      rcases Nat.eq_zero_or_pos s with rfl | h0
      · decide
      rcases Nat.lt_or_ge 1 s with h1 | h1
      · have e0 : (0 : ℕ) ≠ s := by omega
        have e1 : (1 : ℕ) ≠ s := by omega
        simp [Finset.filter_insert, Finset.filter_singleton, e0, e1]
      · obtain rfl : s = 1 := by omega
        decide
  refine ⟨fun _ => 1, fun p => if p = (0, 0) ∨ p = (1, 1) then 1 else 0,
    fun p => if p = (0, 1) ∨ p = (1, 0) then 1 else 0, fun _ => one_ne_zero, hs,
    fun h => by simpa using congrFun h (0, 0), ?_, ?_⟩
  · exact C107_exchanges_connect _ _ 2 2 _ _ hs fun _ _ => by simp
  · rintro ξ n draws ⟨w, hw, hw'⟩
    obtain ⟨w', hv, hv'⟩ := C107_sweeps_stuck (fun _ => (1 : ℝ)) (fun z => |z|) (fun _ _ => rfl)
      (fun p => if p = (0, 0) ∨ p = (1, 1) then 1 else 0) (by simp) (by simp) ξ n draws
    rw [hw, Option.some.injEq] at hv
    rw [← hv, hw'] at hv'
    simpa using congrFun hv' (0, 0)

end

end QLPeps.Reach
