import Verif.Lemmas.Executor
import Verif.Props.Optimizer

/-!
# Properties C116-C119: the optimization executor

`execute c P en fuel xx x` is one call of `Execute()` on the executor `x`; `VmcOptimize` is `execute` on a
fresh executor (`create c w`) followed by `out`. The evaluator, the update rule, the user's stop callback,
the warm-up, the normalization and the states the engine holds in between are arbitrary. In
`.returned y s`, `y` is the executor after the call and `s` the loop's last state, whose trace tells which
evaluations were accepted. Only irreflexivity and transitivity of `<` are used: NaN energies are covered.
-/

set_option linter.unusedSectionVars false

namespace QLPeps.Executor

open QLPeps.Spike QLPeps.Optimizer Optimizer.Spec

section
variable {W G K X : Type*} [Zero K] [One K] [Add K] [Sub K] [Mul K] [LT K] [DecidableLT K]

/-- a returning call is the loop followed by `conclude` -/
theorem execute_returned {c : Config K} {P : Prog W G K X} {en : Env W} {fuel : ℕ} {xx : X}
    {x y : Exec W K} {s : St W K X} (h : execute c P en fuel xx x = .returned y s) :
    optimize c P fuel (en.warm x.state) xx = .done s ∧
    y = dumpData en.base { observe c en.eng 0 s.trace { x with state := en.warm x.state } with
          state := en.tail (result s).optimizedState } := by
  unfold execute at h
  cases ho : optimize c P fuel (en.warm x.state) xx with
  | done s' =>
    rw [ho] at h
    simp only [conclude] at h
    split_ifs at h with hv
    · simp only [Ended.returned.injEq] at h
      obtain ⟨h1, h2⟩ := h
      subst h2
      exact ⟨rfl, h1.symm⟩
  | threw _ => rw [ho] at h; simp at h
  | running _ => rw [ho] at h; simp at h

variable [Std.Irrefl (α := K) (· < ·)] [IsTrans K (· < ·)]

/-! ## C116 -/

/-- **C116.** When `VmcOptimize` returns, the reported minimum and lowest state belong to one accepted
evaluation (or no accepted energy was below `DBL_MAX`, and they are still those of the constructor), and
no accepted evaluation, in particular no entry of the returned trajectory, has an energy below the
reported minimum. -/
theorem C116_lowest (c : Config K) (P : Prog W G K X) (en : Env W) (fuel : ℕ) (xx : X) (w : W)
    (y : Exec W K) (s : St W K X) (h : execute c P en fuel xx (create c w) = .returned y s) :
    ((y.out.lowestState, y.out.minEnergy) ∈ accepted s.trace ∨
      (y.out.minEnergy = c.big ∧ y.out.lowestState = w)) ∧
    (∀ p ∈ accepted s.trace, ¬ p.2 < y.out.minEnergy) ∧
    (∀ e ∈ y.out.energies, ¬ e < y.out.minEnergy) := by
  obtain ⟨ho, rfl⟩ := execute_returned h
  obtain ⟨n, _, hb⟩ := book_done c P fuel _ xx s ho
  set x₀ : Exec W K := { create c w with state := en.warm (create c w).state } with hx₀
  have hf := final_done c P fuel _ xx s en.eng x₀ (.inr rfl) ho
  have hlow : Low c.big x₀ (observe c en.eng 0 s.trace x₀) s.lowestEnergy s.lowestState := by
    rcases hf with ⟨_, hw⟩ | ⟨_, _, _, hl, _⟩
    · exact hw.low
    · exact hl
  have hmin : (observe c en.eng 0 s.trace x₀).minEnergy = s.lowestEnergy := by
    rcases hlow with ⟨h1, h2, _⟩ | ⟨_, h2, _⟩
    · rw [h2, h1]; rfl
    · exact h2
  have hen : ∀ e ∈ (observe c en.eng 0 s.trace x₀).energies, e ∈ s.energies := by
    rcases hf with ⟨_, hw⟩ | ⟨_, _, ht, _, _⟩
    · intro e he
      rw [hw.traj.hE] at he
      simpa [hx₀, create] using he
    · intro e he
      rw [ht.hE] at he
      exact List.mem_of_mem_dropLast (by simpa [hx₀, create] using he)
  refine ⟨?_, ?_, ?_⟩
  · show ((observe c en.eng 0 s.trace x₀).lowest, (observe c en.eng 0 s.trace x₀).minEnergy) ∈ _ ∨
      ((observe c en.eng 0 s.trace x₀).minEnergy = c.big ∧ (observe c en.eng 0 s.trace x₀).lowest = w)
    rcases hlow with ⟨h1, h2, h3⟩ | ⟨h1, h2, h3⟩
    · right
      exact ⟨h2, h3⟩
    · left
      rw [h2, h3]
      rcases hb.low with hl | ⟨hl, _⟩
      · exact hl
      · rw [hl] at h1
        exact absurd h1 (Std.Irrefl.irrefl (r := (· < ·)) _)
  · intro p hp
    show ¬ p.2 < (observe c en.eng 0 s.trace x₀).minEnergy
    rw [hmin]
    apply hb.min
    rw [hb.hE]
    exact List.mem_map_of_mem hp
  · intro e he
    show ¬ e < (observe c en.eng 0 s.trace x₀).minEnergy
    rw [hmin]
    exact hb.min e (hen e he)

/-- **C116.** What `VmcOptimize` returns as the final state was made from the state the optimizer returned, which passed the
validation. If that state does not pass it, the call throws. -/
theorem C116_validated (c : Config K) (P : Prog W G K X) (en : Env W) (fuel : ℕ) (xx : X) (x : Exec W K) :
    (∀ y s, execute c P en fuel xx x = .returned y s →
      en.valid (result s).optimizedState = true ∧ y.out.state = en.tail (result s).optimizedState) ∧
    (∀ s, optimize c P fuel (en.warm x.state) xx = .done s → en.valid (result s).optimizedState = false →
      execute c P en fuel xx x = .threw) := by
  refine ⟨fun y s h => ?_, fun s ho hv => ?_⟩
  · obtain ⟨ho, rfl⟩ := execute_returned h
    refine ⟨?_, rfl⟩
    by_contra hv
    unfold execute at h
    rw [ho] at h
    simp only [conclude] at h
    rw [if_neg hv] at h
    exact absurd h (by simp)
  · unfold execute
    rw [ho]
    simp only [conclude, hv]
    rfl

/-- **C116.** The files agree with what the caller gets: the pair of dumped states is the returned final
and lowest state, and the last trajectory file lists the returned trajectories, numbered from 0. -/
theorem C116_files (c : Config K) (P : Prog W G K X) (en : Env W) (fuel : ℕ) (xx : X) (x y : Exec W K)
    (s : St W K X) (h : execute c P en fuel xx x = .returned y s) :
    (en.base = true → y.dumps.getLast? = some (y.out.state, y.out.lowestState)) ∧
    ∃ file, y.csvs.getLast? = some file ∧ file.length = y.out.energies.length ∧
      ∀ (i : ℕ) (e err g : K), y.out.energies[i]? = some e → y.out.errors[i]? = some err →
        y.out.grads[i]? = some g → file[i]? = some (i, e, err, g) := by
  obtain ⟨ho, rfl⟩ := execute_returned h
  refine ⟨?_, ?_⟩
  · intro hb
    unfold dumpData
    rw [hb]
    show (_ ++ [_]).getLast? = _
    rw [List.getLast?_concat]
    rfl
  · refine ⟨_, by show (_ ++ [_]).getLast? = _; rw [List.getLast?_concat], ?_, ?_⟩
    · unfold rows
      rw [List.length_map, List.length_range]
      rfl
    · intro i e err g he herr hg
      exact rows_get he herr hg

/-! ## C117 -/

/-- **C117, what holds.** The returned energies are those of the accepted evaluations in order, without
the last one if the loop ended because a stopping criterion was met; errors and gradient norms have the
same length. Missing: the full claim, that every accepted evaluation is in the returned trajectory, is
false (`C117_complete_fails`). -/
theorem C117_trajectory_partial (c : Config K) (P : Prog W G K X) (en : Env W) (fuel : ℕ) (xx : X)
    (w : W) (y : Exec W K) (s : St W K X)
    (h : execute c P en fuel xx (create c w) = .returned y s) :
    y.out.energies = (if (result s).converged then ((accepted s.trace).map Prod.snd).dropLast
      else (accepted s.trace).map Prod.snd) ∧
    y.out.errors.length = y.out.energies.length ∧ y.out.grads.length = y.out.energies.length ∧
    ((result s).converged = true → y.out.energies.length + 1 = (accepted s.trace).length) := by
  obtain ⟨ho, rfl⟩ := execute_returned h
  obtain ⟨n, _, hb⟩ := book_done c P fuel _ xx s ho
  set x₀ : Exec W K := { create c w with state := en.warm (create c w).state } with hx₀
  rcases final_done c P fuel _ xx s en.eng x₀ (.inr rfl) ho with ⟨hc, hw⟩ | ⟨hc, hn, ht, _, _⟩
  · have hc' : (result s).converged = false := hc
    have e1 : (observe c en.eng 0 s.trace x₀).energies = s.energies := hw.traj.hE
    have e2 : (observe c en.eng 0 s.trace x₀).errors = s.errors := hw.traj.hErr
    have e3 : (observe c en.eng 0 s.trace x₀).grads = s.grads := hw.traj.hG
    refine ⟨?_, ?_, ?_, ?_⟩
    · rw [hc', if_neg (by simp), ← hb.hE]
      exact e1
    · show (observe c en.eng 0 s.trace x₀).errors.length = (observe c en.eng 0 s.trace x₀).energies.length
      rw [e1, e2, hb.lenE, hb.lenErr]
    · show (observe c en.eng 0 s.trace x₀).grads.length = (observe c en.eng 0 s.trace x₀).energies.length
      rw [e1, e3, hb.lenE, hb.lenG]
    · rw [hc']; simp
  · have hc' : (result s).converged = true := hc
    have e1 : (observe c en.eng 0 s.trace x₀).energies = s.energies.dropLast := ht.hE
    have e2 : (observe c en.eng 0 s.trace x₀).errors = s.errors.dropLast := ht.hErr
    have e3 : (observe c en.eng 0 s.trace x₀).grads = s.grads.dropLast := ht.hG
    have hlen : s.energies.length = (accepted s.trace).length := by rw [hb.hE, List.length_map]
    refine ⟨?_, ?_, ?_, ?_⟩
    · rw [hc', if_pos rfl, ← hb.hE]
      exact e1
    · show (observe c en.eng 0 s.trace x₀).errors.length = (observe c en.eng 0 s.trace x₀).energies.length
      rw [e1, e2, List.length_dropLast, List.length_dropLast, hb.lenE, hb.lenErr]
    · show (observe c en.eng 0 s.trace x₀).grads.length = (observe c en.eng 0 s.trace x₀).energies.length
      rw [e1, e3, List.length_dropLast, List.length_dropLast, hb.lenE, hb.lenG]
    · intro _
      show (observe c en.eng 0 s.trace x₀).energies.length + 1 = _
      rw [e1, List.length_dropLast, ← hlen]
      omega

/-! ## C118 -/

/-- **C118, what holds.** A further call of `Execute()` appends the energies of the new run (without a
converged last one), and then the reported minimum and lowest state are those of the new run alone, as
soon as one of its accepted energies is below `DBL_MAX`. Missing: that the minimum covers all runs, which
is false (`C118_forgets`). -/
theorem C118_again_partial (c : Config K) (P : Prog W G K X) (en : Env W) (fuel : ℕ) (xx : X)
    (x y : Exec W K) (s : St W K X) (hx : x.minEnergy < c.big ∨ x.minEnergy = c.big)
    (h : execute c P en fuel xx x = .returned y s) :
    (y.out.energies = x.energies ++ (if (result s).converged
      then ((accepted s.trace).map Prod.snd).dropLast else (accepted s.trace).map Prod.snd)) ∧
    ((∃ p ∈ accepted s.trace, p.2 < c.big) →
      (y.out.lowestState, y.out.minEnergy) ∈ accepted s.trace ∧
      ∀ p ∈ accepted s.trace, ¬ p.2 < y.out.minEnergy) ∧
    ((∀ p ∈ accepted s.trace, ¬ p.2 < c.big) →
      y.out.lowestState = x.lowest ∧ y.out.minEnergy = x.minEnergy) ∧
    (y.minEnergy < c.big ∨ y.minEnergy = c.big) := by
  obtain ⟨ho, rfl⟩ := execute_returned h
  obtain ⟨n, _, hb⟩ := book_done c P fuel _ xx s ho
  set x₀ : Exec W K := { x with state := en.warm x.state } with hx₀
  have hf := final_done c P fuel _ xx s en.eng x₀ hx ho
  have hlow : Low c.big x₀ (observe c en.eng 0 s.trace x₀) s.lowestEnergy s.lowestState := by
    rcases hf with ⟨_, hw⟩ | ⟨_, _, _, hl, _⟩
    · exact hw.low
    · exact hl
  have hmem : ∀ p ∈ accepted s.trace, ¬ p.2 < s.lowestEnergy := by
    intro p hp
    apply hb.min
    rw [hb.hE]
    exact List.mem_map_of_mem hp
  refine ⟨?_, ?_, ?_, ?_⟩
  · rcases hf with ⟨hc, hw⟩ | ⟨hc, _, ht, _, _⟩
    · have hc' : (result s).converged = false := hc
      rw [hc', if_neg (by simp), ← hb.hE]
      exact hw.traj.hE
    · have hc' : (result s).converged = true := hc
      rw [hc', if_pos rfl, ← hb.hE]
      exact ht.hE
  · rintro ⟨p, hp, hlt⟩
    rcases hlow with ⟨h1, _, _⟩ | ⟨h1, h2, h3⟩
    · exact absurd hlt (h1 ▸ hmem p hp)
    · refine ⟨?_, ?_⟩
      · show ((observe c en.eng 0 s.trace x₀).lowest, (observe c en.eng 0 s.trace x₀).minEnergy) ∈ _
        rw [h2, h3]
        rcases hb.low with hl | ⟨hl, _⟩
        · exact hl
        · rw [hl] at h1
          exact absurd h1 (Std.Irrefl.irrefl (r := (· < ·)) _)
      · intro q hq
        show ¬ q.2 < (observe c en.eng 0 s.trace x₀).minEnergy
        rw [h2]
        exact hmem q hq
  · intro hall
    rcases hlow with ⟨_, h2, h3⟩ | ⟨h1, _, _⟩
    · exact ⟨h3, h2⟩
    · rcases hb.low with hl | ⟨hl, _⟩
      · exact absurd h1 (hall _ hl)
      · rw [hl] at h1
        exact absurd h1 (Std.Irrefl.irrefl (r := (· < ·)) _)
  · show (observe c en.eng 0 s.trace x₀).minEnergy < c.big ∨
      (observe c en.eng 0 s.trace x₀).minEnergy = c.big
    rcases hlow with ⟨_, h2, _⟩ | ⟨h1, h2, _⟩
    · rw [h2]; exact hx
    · rw [h2]; exact .inl h1

/-! ## C119 -/

/-- **C119.** The trajectory file is written, by a fresh executor, after every reported iteration at
which a checkpoint is due and once more at the end, and nowhere else; the file written after iteration `i`
has the lines `0, …, i` with the energies, errors and gradient norms of these iterations. -/
theorem C119_progress_file (c : Config K) (P : Prog W G K X) (en : Env W) (fuel : ℕ) (xx : X) (w : W)
    (y : Exec W K) (s : St W K X) (h : execute c P en fuel xx (create c w) = .returned y s) :
    ∃ files last, y.csvs = files ++ [last] ∧
      List.Forall₂ (fun (i : ℕ) (file : List (Row K)) => file.length = i + 1 ∧
          ∀ j ≤ i, ∃ e err g, y.out.energies[j]? = some e ∧ y.out.errors[j]? = some err ∧
            y.out.grads[j]? = some g ∧ file[j]? = some (j, e, err, g))
        ((List.range y.out.energies.length).filter (fun i =>
          decide ((0 < c.ckptEvery ∧ c.ckptPath = true) ∧ 0 < i ∧ c.ckptEvery ∣ i))) files := by
  obtain ⟨ho, hy⟩ := execute_returned h
  obtain ⟨_, hl2, hl3, _⟩ := C117_trajectory_partial c P en fuel xx w y s h
  obtain ⟨n, _, hb⟩ := book_done c P fuel _ xx s ho
  set x₀ : Exec W K := { create c w with state := en.warm (create c w).state } with hx₀
  set x := observe c en.eng 0 s.trace x₀ with hx
  have key : Csv c x₀ x x.energies.length x.energies x.errors x.grads := by
    rcases final_done c P fuel _ xx s en.eng x₀ (.inr rfl) ho with ⟨_, hw⟩ | ⟨_, _, ht, _, hcsv⟩
    · have e1 : x.energies = s.energies := hw.traj.hE
      have e2 : x.errors = s.errors := hw.traj.hErr
      have e3 : x.grads = s.grads := hw.traj.hG
      rw [e1, e2, e3]; exact hw.csv
    · have e1 : x.energies = s.energies.dropLast := ht.hE
      have e2 : x.errors = s.errors.dropLast := ht.hErr
      have e3 : x.grads = s.grads.dropLast := ht.hG
      rw [e1, e2, e3]; exact hcsv
  subst hy
  refine ⟨x.csvs, _, rfl, ?_⟩
  have hdue : (fun i => decide ((0 < c.ckptEvery ∧ c.ckptPath = true) ∧ 0 < i ∧ c.ckptEvery ∣ i)) =
      checkpointDue c := by
    funext i
    unfold checkpointDue
    simp [Nat.dvd_iff_mod_eq_zero]
  rw [hdue, show x.csvs = _ from key, show x₀.csvs = [] from rfl, List.nil_append,
    List.forall₂_map_right_iff]
  have hl2' : x.errors.length = x.energies.length := hl2
  have hl3' : x.grads.length = x.energies.length := hl3
  show List.Forall₂ _ ((List.range x.energies.length).filter (checkpointDue c)) _
  rw [List.forall₂_same]
  intro i hi
  have hi' : i < x.energies.length := List.mem_range.1 (List.mem_of_mem_filter hi)
  show (rows (x.energies.take (i + 1)) (x.errors.take (i + 1)) (x.grads.take (i + 1))).length = _ ∧ _
  refine ⟨?_, ?_⟩
  · unfold rows
    rw [List.length_map, List.length_range, List.length_take]
    omega
  · intro j hj
    refine ⟨x.energies[j]'(by omega), x.errors[j]'(by omega), x.grads[j]'(by omega), ?_, ?_, ?_, ?_⟩
    · exact List.getElem?_eq_getElem _
    · exact List.getElem?_eq_getElem _
    · exact List.getElem?_eq_getElem _
    · show (rows (x.energies.take (i + 1)) (x.errors.take (i + 1)) (x.grads.take (i + 1)))[j]? = _
      unfold rows
      rw [List.getElem?_map, List.getElem?_range (by rw [List.length_take]; omega), Option.map_some]
      have q (l : List K) (hl : j < l.length) : (l.take (i + 1)).getD j 0 = l[j] := by
        rw [List.getD_eq_getElem?_getD, List.getElem?_take_of_lt (by omega),
          List.getElem?_eq_getElem hl]
        rfl
      exact congrArg some (Prod.ext rfl (Prod.ext (q _ _) (Prod.ext (q _ _) (q _ _))))

end

/-! ## Refutations and examples -/

/-- an engine that changes nothing -/
def quietEnv : Env ℕ where
  warm := id
  tail := id
  eng := fun _ => 0
  valid := fun _ => true
  base := true

/-- **C117, refuted.** Not every accepted evaluation is in the trajectory that `VmcOptimize` returns: when
a stopping criterion ends the run, the energy of the last accepted evaluation is missing. -/
theorem C117_complete_fails : ¬ ∀ (c : Config ℤ) (P : Prog ℕ ℤ ℤ Unit) (fuel : ℕ) (y : Exec ℕ ℤ)
    (s : St ℕ ℤ Unit), execute c P quietEnv fuel () (create c 0) = .returned y s →
    y.out.energies = (accepted s.trace).map Prod.snd := by
  intro h
  have := h { toyCfg 10 with energyTol := 1 } (toyProg [9, 7, 7]) 20 _ _ rfl
  revert this
  decide +kernel

/-- **C118, refuted.** After two calls of `Execute()` the reported minimum need not be the lowest recorded
energy: the second call forgets the minimum, and the lowest state, of the first. -/
theorem C118_forgets : ¬ ∀ (c : Config ℤ) (P : Prog ℕ ℤ ℤ Unit) (fuel : ℕ) (x y : Exec ℕ ℤ)
    (s s' : St ℕ ℤ Unit), execute c P quietEnv fuel () (create c 0) = .returned x s →
    execute c P quietEnv fuel () x = .returned y s' → ∀ e ∈ y.out.energies, y.out.minEnergy ≤ e := by
  intro h
  have := h (toyCfg 3) (toyProg [9, 7, 8, 9, 8, 9]) 10 _ _ _ _ rfl rfl
  revert this
  decide +kernel

/-- a run without a stopping criterion: everything is reported -/
example : ∃ y s, execute (toyCfg 3) (toyProg [9, 7, 8]) quietEnv 10 () (create (toyCfg 3) 0)
      = .returned y s ∧ y.out.energies = [9, 7, 8] ∧ y.out.minEnergy = 7 ∧ y.out.lowestState = 1 ∧
    y.out.state = 3 ∧ y.dumps = [(3, 1)] ∧
    y.csvs = [[(0, 9, 1, 1), (1, 7, 1, 1)], [(0, 9, 1, 1), (1, 7, 1, 1), (2, 8, 1, 1)],
      [(0, 9, 1, 1), (1, 7, 1, 1), (2, 8, 1, 1)]] := by
  refine ⟨_, _, rfl, ?_⟩
  decide +kernel

/-- a run ended by a stopping criterion: the returned trajectory ends one step early -/
example : ∃ y s, execute { toyCfg 10 with energyTol := 1 } (toyProg [9, 7, 7]) quietEnv 20 ()
      (create (toyCfg 10) 0) = .returned y s ∧ (result s).converged = true ∧
    y.out.energies = [9, 7] ∧ (result s).energies = [9, 7, 7] := by
  refine ⟨_, _, rfl, ?_⟩
  decide +kernel

/-- a second call of `Execute()`: the minimum goes up from 7 to 8 -/
example : ∃ x s y s', execute (toyCfg 3) (toyProg [9, 7, 8, 9, 8, 9]) quietEnv 10 ()
      (create (toyCfg 3) 0) = .returned x s ∧ x.out.minEnergy = 7 ∧
    execute (toyCfg 3) (toyProg [9, 7, 8, 9, 8, 9]) quietEnv 10 () x = .returned y s' ∧
    y.out.minEnergy = 8 ∧ y.out.lowestState = 4 ∧ y.out.energies = [9, 7, 8, 9, 8, 9] := by
  refine ⟨_, _, _, _, rfl, ?_, rfl, ?_⟩
  · decide +kernel
  · decide +kernel

end QLPeps.Executor
