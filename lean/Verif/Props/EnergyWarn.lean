import Verif.Spec.EnergyWarn
import Verif.Props.PsiConsistency
import Mathlib.Data.List.GetD

/-!
# Consistency warnings during the optimization

C152.
-/

namespace QLPeps.EnergyWarn

open Spec QLPeps.Psi

variable {𝕜 : Type*} [RCLike 𝕜]

theorem last_update (s : Solver 𝕜) (l : List 𝕜) : (s.update l).last = summary l := by
  rw [Solver.last, Solver.update]
  simp [RCLike.re_add_im]

/-- the message about a sample -/
noncomputable def about (t : ℝ) (q : List 𝕜 × ℕ) : Msg 𝕜 :=
  .warn (summary q.1).relErr t (summary q.1).mean (some (q.1.take q.2, if q.2 < q.1.length then some q.1.length else none))

theorem format_eq (l : List 𝕜) (k : ℕ) : format l k = (l.take k, if k < l.length then some l.length else none) := by
  rw [format]
  refine Prod.ext ?_ ?_
  · refine List.ext_getElem? fun i => ?_
    simp only [List.getElem?_map, List.getElem?_take]
    rcases Nat.lt_or_ge i (min l.length k) with h | h
    · rw [List.getElem?_range h, if_pos (by omega), List.getElem?_eq_getElem (by omega), Option.map_some, List.getD_eq_getElem _ _ (by omega)]
    · rw [List.getElem?_eq_none (by simpa using h), Option.map_none]
      split_ifs with h'
      · rw [List.getElem?_eq_none (by omega)]
      · rfl
  · simp only
    congr 1
    exact propext ⟨fun h => by omega, fun h => by omega⟩

/-- the messages about samples, with the rest of the budget -/
noncomputable def output (t : ℝ) (M : ℕ) : ℕ → List (List 𝕜 × ℕ) → List (Msg 𝕜)
  | n + 1, q :: qs => about t q :: if n = 0 then [.suppressed M] else output t M n qs
  | _, _ => []

theorem output_eq (t : ℝ) (M : ℕ) : ∀ (n : ℕ) (qs : List (List 𝕜 × ℕ)), output t M n qs = (qs.take n).map (about t) ++
    if 0 < n ∧ n ≤ qs.length then [.suppressed M] else []
  | 0, qs => by cases qs <;> simp [output]
  | n + 1, [] => by simp [output]
  | n + 1, q :: qs => by
    rw [output, output_eq t M n qs]
    cases n with
    | zero => simp
    | succ n => simp

theorem run_from (p : Params) (master : Bool) (hp : p.enabled = true ∧ (p.masterOnly = false ∨ master = true)) (evs : List (Event 𝕜)) :
    ∀ e : Eval 𝕜, e.count ≤ p.maxWarnings →
      (evs.foldl (step p master) e).log = e.log ++
        output p.threshold p.maxWarnings (p.maxWarnings - e.count) (exceeding p.threshold e.solver.maxPrint evs) := by
  induction evs with
  | nil =>
    intro e he
    rw [List.foldl_nil, exceeding]
    cases p.maxWarnings - e.count <;> simp [output]
  | cons ev evs ih =>
    intro e he
    rw [List.foldl_cons]
    cases ev with
    | energyOnly l => exact ih _ he
    | fail => exact ih _ he
    | setMaxPrint k => exact ih _ he
    | sample l =>
      rw [step, exceeding, warnStep, if_pos hp.1]
      by_cases hc : e.count < p.maxWarnings
      · rw [if_pos ⟨by rcases hp.2 with h | h <;> simp [h], hc⟩]
        simp only [last_update]
        by_cases ht : p.threshold < (summary l).relErr
        · rw [if_pos ht, if_pos ht]
          obtain ⟨d, hd⟩ : ∃ d, p.maxWarnings - e.count = d + 1 := ⟨p.maxWarnings - e.count - 1, by omega⟩
          have hf : (e.solver.update l).list = some (l.take e.solver.maxPrint, if e.solver.maxPrint < l.length then some l.length else none) := by
            rw [Solver.update]; exact congrArg some (format_eq _ _)
          rw [hd, output, hf]
          by_cases hm : e.count + 1 = p.maxWarnings
          · rw [if_pos hm, ih _ (by simp only; omega), if_pos (show d = 0 by omega)]
            simp only [← hm, Nat.sub_self]
            cases exceeding p.threshold (e.solver.update l).maxPrint evs <;> simp [about, output]
          · rw [if_neg hm, ih _ (by simp only; omega), if_neg (show ¬d = 0 by omega)]
            have : p.maxWarnings - (e.count + 1) = d := by omega
            have hk : (e.solver.update l).maxPrint = e.solver.maxPrint := rfl
            simp only [this, hk]
            simp [about]
        · rw [if_neg ht, if_neg ht]
          exact ih _ he
      · rw [if_neg (fun h => hc h.2), ih ⟨e.solver.update l, e.count, e.log⟩ he]
        have : p.maxWarnings - e.count = 0 := by omega
        simp [this, output]

/-- C152: During the life of an evaluator, through any sequence of samples of gradient evaluations, of energy evaluations,
of failures and of changes of the number of printed elements, a rank that is to report prints exactly the
messages about the first `max_warnings` samples of gradient evaluations whose relative error exceeds the threshold, each with the
summary and the first amplitudes of this very sample, and then once that it will be silent. All
other ranks print nothing. -/
theorem warnings (p : Params) (k : ℕ) (master : Bool) (evs : List (Event 𝕜)) :
    (run p k master evs).log =
      if p.enabled = true ∧ (p.masterOnly = false ∨ master = true) then
        ((exceeding p.threshold k evs).take p.maxWarnings).map (about p.threshold) ++
          (if 0 < p.maxWarnings ∧ p.maxWarnings ≤ (exceeding p.threshold k evs).length then [.suppressed p.maxWarnings] else [])
      else [] := by
  by_cases hp : p.enabled = true ∧ (p.masterOnly = false ∨ master = true)
  · rw [if_pos hp, run, run_from p master hp evs _ (Nat.zero_le _), ← output_eq]
    rfl
  · rw [if_neg hp, run]
    have : ∀ e : Eval 𝕜, (evs.foldl (step p master) e).log = e.log := by
      induction evs with
      | nil => intro e; rfl
      | cons ev evs ih =>
        intro e
        rw [List.foldl_cons, ih]
        cases ev with
        | energyOnly l => rfl
        | fail => rfl
        | setMaxPrint k => rfl
        | sample l =>
          simp only [step, warnStep]
          by_cases h1 : p.enabled = true
          · rw [if_pos h1, if_neg]
            rintro ⟨h2, -⟩
            refine hp ⟨h1, ?_⟩
            cases h3 : p.masterOnly <;> cases h4 : master <;> simp_all
          · rw [if_neg h1]
    rw [this]

/-- C152: The solver reports the summary of the sample evaluated last, with or without gradient, whatever happened since then; before the first one it
reports zeros. -/
theorem last_summary (p : Params) (k : ℕ) (master : Bool) (evs : List (Event 𝕜)) :
    (run p k master evs).solver.last = match lastSample evs with | none => ⟨0, 0⟩ | some l => summary l := by
  have hw : ∀ e : Eval 𝕜, (warnStep p master e).solver = e.solver := by
    intro e
    rw [warnStep]
    simp only
    split_ifs <;> rfl
  have : ∀ (evs : List (Event 𝕜)) (e : Eval 𝕜), (evs.foldl (step p master) e).solver.last =
      match lastSample evs with | none => e.solver.last | some l => summary l := by
    intro evs
    induction evs with
    | nil => intro e; rfl
    | cons ev evs ih =>
      intro e
      rw [List.foldl_cons, ih]
      cases ev with
      | energyOnly l =>
        rw [lastSample]
        cases lastSample evs with
        | none => exact last_update _ _
        | some l' => rfl
      | sample l =>
        rw [lastSample]
        cases lastSample evs with
        | none => rw [step, hw]; exact last_update _ _
        | some l' => rfl
      | fail => rfl
      | setMaxPrint k => rfl
  rw [run, this]
  cases lastSample evs <;> rfl

/-- two samples out of three are reported, the energy evaluation between them is not -/
example : (run ⟨true, true, 1 / 3, 2⟩ 1 true [.sample [1, 3], .energyOnly [1, 3], .sample [2, 2], .setMaxPrint 2, .sample [1, 3], .sample [1, 3]] : Eval ℝ).log =
    [.warn (1 / 2) (1 / 3) (summary [1, 3]).mean (some ([1], some 2)), .warn (1 / 2) (1 / 3) (summary [1, 3]).mean (some ([1, 3], none)), .suppressed 2] := by
  have h0 : (summary ([2, 2] : List ℝ)).relErr = 0 := by
    have := (C120_exact (2 : ℝ) 2 (by omega)).2
    simpa using this
  rw [warnings]
  simp only [exceeding, relErr_one_three, h0]
  norm_num [about, relErr_one_three]

example : (run ⟨true, true, 1 / 3, 2⟩ 1 true [.sample [1, 3], .energyOnly [1, 3, 3], .fail] : Eval ℝ).solver.last = summary [1, 3, 3] := by
  rw [last_summary]; rfl

end QLPeps.EnergyWarn
