import Verif.Lemmas.UpdateLoop

/-!
# Properties of `Execute` of the simple-update and loop-update executors

* C88: the run stops after the first sweep at which the last `patience` sweeps were all quiet, and
  says so; otherwise it runs all its steps. The summary, the metrics and the observer's calls
  describe exactly the sweeps that were executed.
-/

namespace QLPeps.UpdateLoop

open Spec

/-- C88: a run with advanced stop ends with the first sweep `n` at which it has converged. -/
theorem C88_stops_at_first_convergence (p : Para) (eps : ℝ) (heps : 0 < eps) (outs : ℕ → Sweep)
    (d : Data) (hd : Reports outs d) (c : Config) (hp : p.stop = some c) (hc : c.valid = true)
    (n : ℕ) (hn : n ≤ p.steps) (hconv : Converged c eps d n)
    (hfirst : ∀ m < n, ¬ Converged c eps d m) :
    (execute p eps outs).1 = false ∧
    (execute p eps outs).2.summary =
      ⟨true, .converged, n, some (some (d.energy (n - 1))), some (some (d.energy (n - 1))),
        some (outs (n - 1)).en⟩ := by
  have hpat := ((valid_iff c).1 hc).2.2.2.1
  have htr : ∀ m, c.patience ≤ trail (gateAt c eps outs) m ↔ Converged c eps d m := fun m => by
    rw [trail_ge]
    simp only [gateAt_iff c eps heps hc outs d hd]
    rfl
  have h := (loop_stop p eps outs c hp hpat p.steps).2 n hn ((htr n).2 hconv)
    fun m hm => not_le.1 fun h => hfirst m hm ((htr m).1 h)
  have hn0 : n ≠ 0 := by have := hconv.1; omega
  simp only [execute, hp, hc, if_true, start_eq p outs, h.1, true_and]
  simp only [execOf, lastOf, if_neg hn0, if_true, (hd (n - 1)).1]

/-- C88: a run that never converges within its steps, or has no advanced stop, executes all its
steps and reports that. -/
theorem C88_otherwise_runs_all_steps (p : Para) (eps : ℝ) (heps : 0 < eps) (outs : ℕ → Sweep)
    (d : Data) (hd : Reports outs d)
    (h : ∀ c, p.stop = some c → c.valid = true ∧ ∀ n ≤ p.steps, ¬ Converged c eps d n) :
    (execute p eps outs).1 = false ∧
    (execute p eps outs).2.summary.converged = false ∧
    (execute p eps outs).2.summary.stop = .maxSteps ∧
    (execute p eps outs).2.summary.executed = p.steps ∧
    (0 < p.steps →
      (execute p eps outs).2.summary.finalEnergy = some (some (d.energy (p.steps - 1)))) := by
  cases hp : p.stop with
  | none =>
    simp only [execute, hp, start_eq p outs, loop_plain p eps outs hp, true_and]
    refine ⟨rfl, rfl, rfl, fun h0 => ?_⟩
    simp only [execOf, lastOf, if_neg h0.ne', (hd (p.steps - 1)).1]
  | some c =>
    obtain ⟨hc, hno⟩ := h c hp
    have hpat := ((valid_iff c).1 hc).2.2.2.1
    have htr : ∀ m, c.patience ≤ trail (gateAt c eps outs) m ↔ Converged c eps d m := fun m => by
      rw [trail_ge]
      simp only [gateAt_iff c eps heps hc outs d hd]
      rfl
    have h := (loop_stop p eps outs c hp hpat p.steps).1
      fun m hm => not_le.1 fun h => hno m hm ((htr m).1 h)
    simp only [execute, hp, hc, if_true, start_eq p outs, h, true_and]
    refine ⟨rfl, rfl, rfl, fun h0 => ?_⟩
    simp only [execOf, lastOf, if_neg h0.ne', (hd (p.steps - 1)).1]

/-- C88: the flag `converged` of the summary says exactly whether the run converged within its
steps. -/
theorem C88_converged_iff (p : Para) (eps : ℝ) (heps : 0 < eps) (outs : ℕ → Sweep)
    (d : Data) (hd : Reports outs d) (c : Config) (hp : p.stop = some c) (hc : c.valid = true) :
    (execute p eps outs).2.summary.converged = true ↔ ∃ n ≤ p.steps, Converged c eps d n := by
  classical
  constructor
  · intro h
    by_contra hno
    have := (C88_otherwise_runs_all_steps p eps heps outs d hd fun c' hc' => by
      rw [hp] at hc'; cases hc'
      exact ⟨hc, fun n hn hcv => hno ⟨n, hn, hcv⟩⟩).2.1
    rw [this] at h; cases h
  · intro h
    have h' : ∃ n, n ≤ p.steps ∧ Converged c eps d n := h
    have := (C88_stops_at_first_convergence p eps heps outs d hd c hp hc (Nat.find h')
      (Nat.find_spec h').1 (Nat.find_spec h').2 fun m hm hcv => Nat.find_min h' hm
        ⟨(hm.le.trans (Nat.find_spec h').1), hcv⟩).2
    rw [this]

theorem execute_plain (p : Para) (eps : ℝ) (outs : ℕ → Sweep) (hp : p.stop = none) :
    execute p eps outs = (false, execOf p outs false p.steps) := by
  simp only [execute, hp, start_eq p outs, loop_plain p eps outs hp]

theorem execute_exec (p : Para) (eps : ℝ) (outs : ℕ → Sweep) :
    ∃ b n, n ≤ p.steps ∧ (execute p eps outs).2 = execOf p outs b n := by
  classical
  unfold execute
  cases hp : p.stop with
  | none =>
    refine ⟨false, p.steps, le_rfl, ?_⟩
    simp only [start_eq p outs, loop_plain p eps outs hp]
  | some c =>
    by_cases hc : c.valid = true
    · simp only [hc, if_true, start_eq p outs]
      have hpat := ((valid_iff c).1 hc).2.2.2.1
      by_cases h : ∀ m ≤ p.steps, trail (gateAt c eps outs) m < c.patience
      · exact ⟨false, p.steps, le_rfl, by rw [(loop_stop p eps outs c hp hpat p.steps).1 h]⟩
      · push Not at h
        have h' : ∃ n, n ≤ p.steps ∧ c.patience ≤ trail (gateAt c eps outs) n := h
        refine ⟨true, Nat.find h', (Nat.find_spec h').1, ?_⟩
        exact ((loop_stop p eps outs c hp hpat p.steps).2 _ (Nat.find_spec h').1
          (Nat.find_spec h').2 fun m hm => not_le.1 fun hcv => Nat.find_min h' hm
            ⟨hm.le.trans (Nat.find_spec h').1, hcv⟩).1
    · simp only [hc, start_eq p outs]
      exact ⟨false, 0, Nat.zero_le _, rfl⟩

/-- C88: for every run, whatever the sweeps report and whether or not it stops early: there is one
metrics record per executed sweep, in order, holding what that sweep reported; the observer was
called once with each of them; and no more sweeps were executed than asked for. -/
theorem C88_metrics_describe_the_sweeps (p : Para) (eps : ℝ) (outs : ℕ → Sweep) :
    (execute p eps outs).2.summary.executed ≤ p.steps ∧
    (execute p eps outs).2.metrics.length = (execute p eps outs).2.summary.executed ∧
    (∀ k, (hk : k < (execute p eps outs).2.metrics.length) →
      (execute p eps outs).2.metrics[k].stepIndex = k ∧
      (execute p eps outs).2.metrics[k].tau = p.tau ∧
      (execute p eps outs).2.metrics[k].e0 = (outs k).e0 ∧
      (execute p eps outs).2.metrics[k].en = (outs k).en ∧
      (execute p eps outs).2.metrics[k].trunc = (outs k).trunc ∧
      (execute p eps outs).2.metrics[k].elapsed = (outs k).elapsed ∧
      ((execute p eps outs).2.metrics[k].bondDimChanged = true ↔
        1 ≤ k ∧ ((outs k).dmin, (outs k).dmax) ≠ ((outs (k - 1)).dmin, (outs (k - 1)).dmax))) ∧
    (execute p eps outs).2.observed =
      (if p.observer then (execute p eps outs).2.metrics else []) := by
  obtain ⟨b, n, hn, he⟩ := execute_exec p eps outs
  rw [he]
  refine ⟨hn, by simp [execOf], fun k hk => ?_, rfl⟩
  simp only [execOf, List.getElem_map, List.getElem_range, metricOf]
  refine ⟨trivial, trivial, trivial, trivial, trivial, trivial, ?_⟩
  simp only [Bool.and_eq_true, decide_eq_true_eq, Bool.or_eq_true, Nat.succ_le_iff, ne_eq,
    Prod.mk.injEq, not_and_or]

/-- C88: the final energies of the summary are those of the last executed sweep, or absent when no
sweep was executed. -/
theorem C88_final_energies (p : Para) (eps : ℝ) (outs : ℕ → Sweep) :
    let s := (execute p eps outs).2.summary
    (s.executed = 0 → s.finalEnergy = none ∧ s.finalE0 = none ∧ s.finalEn = none) ∧
    (0 < s.executed → s.finalEnergy = some (outs (s.executed - 1)).e0 ∧
      s.finalE0 = some (outs (s.executed - 1)).e0 ∧ s.finalEn = some (outs (s.executed - 1)).en) := by
  obtain ⟨b, n, hn, he⟩ := execute_exec p eps outs
  rw [he]
  simp only [execOf, lastOf]
  refine ⟨fun h => by simp [h], fun h => by simp [h.ne']⟩

/-- C88: an invalid configuration is refused with an exception before any sweep, but the metrics and
the summary of a previous run are already gone: the summary now claims a run of zero sweeps that
reached its maximal number of steps. -/
theorem C88_invalid_config_throws (p : Para) (eps : ℝ) (outs : ℕ → Sweep) (c : Config)
    (hp : p.stop = some c)
    (hc : c.energyAbs < 0 ∨ c.energyRel < 0 ∨ c.lambdaRel < 0 ∨ c.patience = 0 ∨ c.minSteps = 0) :
    (execute p eps outs).1 = true ∧ (execute p eps outs).2.metrics = [] ∧
    (execute p eps outs).2.observed = [] ∧
    (execute p eps outs).2.summary = ⟨false, .maxSteps, 0, none, none, none⟩ := by
  have hv : c.valid ≠ true := by
    rw [Ne, valid_iff]
    rintro ⟨h1, h2, h3, h4, h5⟩
    rcases hc with h | h | h | h | h
    · linarith
    · linarith
    · linarith
    · omega
    · omega
  simp only [execute, hp, hv]
  exact ⟨rfl, rfl, rfl, rfl⟩

/-- C88: sweeps whose energy is NaN never count as quiet: such a run does not report convergence. -/
theorem C88_nan_energy_never_converges (p : Para) (eps : ℝ) (outs : ℕ → Sweep)
    (hnan : ∀ k, (outs k).e0 = none) : (execute p eps outs).2.summary.converged = false := by
  have hg : ∀ c k, gateAt c eps outs k = false := fun c k => by
    unfold gateAt gate prevOf
    rcases Nat.eq_zero_or_pos k with rfl | hk
    · rfl
    · rw [if_neg hk.ne']
      simp only [hnan, lift2, Option.bind_none, Option.map_none, fle, Bool.and_false,
        Bool.false_and, ite_self]
  unfold execute
  cases hp : p.stop with
  | none => simp only [start_eq p outs, loop_plain p eps outs hp]; rfl
  | some c =>
    by_cases hc : c.valid = true
    · simp only [hc, if_true, start_eq p outs]
      have hpat := ((valid_iff c).1 hc).2.2.2.1
      rw [(loop_stop p eps outs c hp hpat p.steps).1 fun m _ => ?_]
      · rfl
      · cases m with
        | zero => exact hpat
        | succ m => simpa [trail, hg c m] using hpat
    · simp only [hc]; rfl

/-- C88, disagreement: NaN weights do not prevent convergence. `std::max(drift, NaN)` keeps the old
value, so a run whose weights are NaN after every sweep, at constant energy, reports convergence
after `patience` quiet sweeps. -/
theorem C88_nan_weights_converge (p : Para) (eps : ℝ) (e : ℝ) (c : Config) (hp : p.stop = some c)
    (hc : c.valid = true) (bonds : ℕ) (outs : ℕ → Sweep)
    (ho : ∀ k, (outs k).e0 = some e ∧ (outs k).lambdas = List.replicate bonds [none])
    (hsteps : c.patience + c.minSteps ≤ p.steps) :
    (execute p eps outs).2.summary.converged = true := by
  have hv := (valid_iff c).1 hc
  have hdrift : ∀ n, maxDrift eps (List.replicate n [none]) (List.replicate n [none]) = some 0 := by
    intro n
    have hb : bondDrift eps [none] [none] = none := by
      simp [bondDrift, diffNorm2, prevNorm2, lift2]
    have : ∀ l : List (List Fl × List Fl), (∀ x ∈ l, x = ([none], [none])) →
        l.foldl (fun m pc => fmax m (bondDrift eps pc.1 pc.2)) (some 0) = some 0 := by
      intro l
      induction l with
      | nil => intro _; rfl
      | cons a l ih =>
        intro h
        rw [List.foldl_cons, h a (List.mem_cons_self ..)]
        simp only [hb]
        have : fmax (some 0) none = some 0 := by simp [fmax, flt]
        rw [this]
        exact ih fun x hx => h x (List.mem_cons_of_mem _ hx)
    refine this _ fun x hx => ?_
    rw [List.zip_replicate, List.mem_replicate] at hx
    exact hx.2
  have hstab : stable (List.replicate bonds [none]) (List.replicate bonds [none]) = true := by
    simp only [stable, decide_true, Bool.true_and, List.all_eq_true]
    intro x hx
    rw [List.zip_replicate, List.mem_replicate] at hx
    rw [hx.2]; rfl
  have hg : ∀ k, 1 ≤ k → c.minSteps ≤ k + 1 → gateAt c eps outs k = true := by
    intro k h1 h2
    unfold gateAt gate prevOf
    rw [if_neg (by omega)]
    simp only [(ho k).1, (ho k).2, (ho (k - 1)).1, (ho (k - 1)).2, hstab, if_true, hdrift,
      Bool.and_eq_true, decide_eq_true_eq, lift2_some, Option.map_some, energyTol, fmax_some, fle_some,
      sub_self, abs_zero]
    exact ⟨⟨h2, le_max_of_le_left hv.1⟩, hv.2.2.1⟩
  have htr : c.patience ≤ trail (gateAt c eps outs) (c.patience + c.minSteps) := by
    rw [trail_ge]
    exact ⟨by omega, fun k h1 h2 => hg k (by omega) (by omega)⟩
  classical
  have hex : ∃ n, n ≤ p.steps ∧ c.patience ≤ trail (gateAt c eps outs) n := ⟨_, hsteps, htr⟩
  simp only [execute, hp, hc, if_true, start_eq p outs]
  rw [((loop_stop p eps outs c hp hv.2.2.2.1 p.steps).2 _ (Nat.find_spec hex).1
    (Nat.find_spec hex).2 fun m hm => not_le.1 fun hcv => Nat.find_min hex hm
      ⟨hm.le.trans (Nat.find_spec hex).1, hcv⟩).1]
  rfl

/-- C88, disagreement: `bond_dim_changed` only sees the smallest and the largest dimension. Whenever
a sweep keeps those two, the flag is false, even if weights changed their dimensions. -/
theorem C88_dimension_change_missed (p : Para) (hp : p.stop = none) (hs : 2 ≤ p.steps) (eps : ℝ) :
    ∃ outs : ℕ → Sweep,
      (outs 1).lambdas.map List.length ≠ (outs 0).lambdas.map List.length ∧
      (∀ k, (outs k).dmin = ((outs k).lambdas.map List.length).min?.getD 0 ∧
        (outs k).dmax = ((outs k).lambdas.map List.length).max?.getD 0) ∧
      ∃ h : 1 < (execute p eps outs).2.metrics.length,
        (execute p eps outs).2.metrics[1].bondDimChanged = false := by
  refine ⟨fun k => ⟨some 0, some 0, none, some 0, 1, 3,
    [[some 1], List.replicate (if k = 0 then 2 else 1) (some 1), [some 1, some 1, some 1]]⟩,
    by simp, fun k => ?_, ?_⟩
  · by_cases hk : k = 0 <;> simp [hk, List.min?, List.max?]
  · refine ⟨?_, ?_⟩
    · rw [execute_plain p eps _ hp]
      simp only [execOf, List.length_map, List.length_range]
      omega
    · simp only [execute_plain p eps _ hp, execOf, List.getElem_map, List.getElem_range, metricOf]
      rfl

/-! ## The hypotheses are met -/

/-- a configuration that passes validation -/
example : (⟨1, 0, 1, 2, 3⟩ : Config).valid = true := by
  rw [valid_iff]; norm_num

/-- energies 5, 1, 1, 1, … and unchanged weights, patience 2, minimum 3: the first sweep count at
which the run has converged is 4 -/
example : let c : Config := ⟨1, 0, 1, 2, 3⟩
    let d : Data := ⟨fun k => if k = 0 then 5 else 1, fun _ => [[1, 0.5]]⟩
    Converged c 1 d 4 ∧ ∀ m < 4, ¬ Converged c 1 d m := by
  have hq : ∀ k, Quiet ⟨1, 0, 1, 2, 3⟩ 1 ⟨fun k => if k = 0 then 5 else 1, fun _ => [[1, 0.5]]⟩ k ↔
      2 ≤ k := by
    intro k
    constructor
    · rintro ⟨-, h, -⟩
      change 3 ≤ k + 1 at h
      omega
    · intro h
      refine ⟨by omega, by change 3 ≤ k + 1; omega, ?_, ?_⟩
      · simp only [if_neg (show k ≠ 0 by omega), if_neg (show k - 1 ≠ 0 by omega)]
        norm_num
      · refine List.Forall₂.cons ⟨rfl, ?_⟩ List.Forall₂.nil
        simp
  refine ⟨⟨by norm_num, fun k h1 h2 => (hq k).2 ?_⟩, ?_⟩
  · change 4 - 2 ≤ k at h1
    omega
  · rintro m hm ⟨h1, h2⟩
    change 2 ≤ m at h1
    have := (hq (m - 2)).1 (h2 (m - 2) le_rfl (by omega))
    omega

end QLPeps.UpdateLoop
