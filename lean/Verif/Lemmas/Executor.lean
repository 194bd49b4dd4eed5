import Verif.Lemmas.OptimizerInv
import Verif.Model.Executor

/-! # Helper lemmas for the executor properties -/

set_option linter.unusedSectionVars false

namespace QLPeps.Executor

open QLPeps.Spike QLPeps.Optimizer Optimizer.Spec

section
variable {W G K X : Type*} [Zero K] [One K] [Add K] [Sub K] [Mul K] [LT K] [DecidableLT K]

theorem observe_append (c : Config K) (eng : ℕ → W) (a b : List (Event W K)) :
    ∀ (k : ℕ) (x : Exec W K),
      observe c eng k (a ++ b) x = observe c eng (k + a.length) b (observe c eng k a x) := by
  induction a with
  | nil => intro k x; rfl
  | cons ev a ih =>
    intro k x
    show observe c eng (k + 1) (a ++ b) _ = _
    rw [ih]
    have : k + 1 + a.length = k + (ev :: a).length := by simp; omega
    rw [this]
    rfl

theorem rows_get {es errs gs : List K} {i : ℕ} {e err g : K} (he : es[i]? = some e)
    (herr : errs[i]? = some err) (hg : gs[i]? = some g) :
    (rows es errs gs)[i]? = some (i, e, err, g) := by
  unfold rows
  rw [List.getElem?_map, List.getElem?_range (List.getElem?_eq_some_iff.1 he).1, Option.map_some]
  have q (l : List K) (v : K) (hl : l[i]? = some v) : l.getD i 0 = v := by
    rw [List.getD_eq_getElem?_getD, hl]; rfl
  exact congrArg some (Prod.ext rfl (Prod.ext (q _ _ he) (Prod.ext (q _ _ herr) (q _ _ hg))))

/-- events without a callback -/
def Quiet : Event W K → Prop
  | .iteration .. => False
  | .lowest .. => False
  | _ => True

theorem observe_quiet (c : Config K) (eng : ℕ → W) (t : List (Event W K)) (h : ∀ ev ∈ t, Quiet ev) :
    ∀ (k : ℕ) (x : Exec W K), observe c eng k t x = x := by
  induction t with
  | nil => intro k x; rfl
  | cons ev t ih =>
    intro k x
    show observe c eng (k + 1) t _ = _
    rw [ih (fun e he => h e (by simp [he]))]
    have := h ev (by simp)
    cases ev <;> first | rfl | exact this.elim

theorem quiet_warns {i : ℕ} {ws : List (Event W K)} (h : Warns i ws) : ∀ ev ∈ ws, Quiet ev := by
  intro ev he
  obtain ⟨a, sig, rfl⟩ := h ev he
  trivial

theorem observe_passTrace (c : Config K) (eng : ℕ → W) (P : Prog W G K X) (s : St W K X)
    {ws : List (Event W K)} (h : Warns s.iter ws) (x : Exec W K) :
    observe c eng 0 (passTrace P s ws) x = observe c eng 0 s.trace x := by
  unfold passTrace
  rw [observe_append, observe_quiet]
  intro ev he
  rcases List.mem_cons.1 he with rfl | he
  · trivial
  · exact quiet_warns h ev he

/-- the three trajectories the executor has recorded since `x₀`, given those of the loop -/
structure Traj (x₀ x : Exec W K) (es errs gs : List K) : Prop where
  hE : x.energies = x₀.energies ++ es
  hErr : x.errors = x₀.errors ++ errs
  hG : x.grads = x₀.grads ++ gs

/-- lowest energy and state of the executor, given those of the loop -/
def Low (big : K) (x₀ x : Exec W K) (e : K) (w : W) : Prop :=
  (e = big ∧ x.minEnergy = x₀.minEnergy ∧ x.lowest = x₀.lowest) ∨
  (e < big ∧ x.minEnergy = e ∧ x.lowest = w)

/-- the CSV files written since `x₀` -/
def Csv (c : Config K) (x₀ x : Exec W K) (n : ℕ) (es errs gs : List K) : Prop :=
  x.csvs = x₀.csvs ++ ((List.range n).filter (checkpointDue c)).map (fun i =>
    rows (x₀.energies ++ es.take (i + 1)) (x₀.errors ++ errs.take (i + 1)) (x₀.grads ++ gs.take (i + 1)))

/-- the executor after `n` reported iterations -/
structure Watch (c : Config K) (eng : ℕ → W) (x₀ : Exec W K) (n : ℕ) (s : St W K X) (t : List (Event W K)) :
    Prop where
  traj : Traj x₀ (observe c eng 0 t x₀) s.energies s.errors s.grads
  low : Low c.big x₀ (observe c eng 0 t x₀) s.lowestEnergy s.lowestState
  csv : Csv c x₀ (observe c eng 0 t x₀) n s.energies s.errors s.grads

variable [Std.Irrefl (α := K) (· < ·)] [IsTrans K (· < ·)]

/-- the callback of a new lowest energy, then nothing else happens -/
theorem Low.record {c : Config K} {x₀ x : Exec W K} {s : St W K X} (ev : Eval G K) (gn : K)
    (u : Upd W K X) (h : Low c.big x₀ x s.lowestEnergy s.lowestState) (eng : ℕ → W) (k : ℕ)
    (hb : s.lowestEnergy < c.big ∨ s.lowestEnergy = c.big) :
    Low c.big x₀ (observe c eng k
      (if decide (ev.energy < s.lowestEnergy) then [.lowest s.current ev.energy] else []) x)
      (record c s ev gn u).lowestEnergy (record c s ev gn u).lowestState := by
  unfold Optimizer.record
  dsimp only
  by_cases hi : ev.energy < s.lowestEnergy
  · simp only [hi, decide_true, if_true]
    right
    refine ⟨?_, rfl, rfl⟩
    rcases hb with hb | hb
    · exact _root_.trans hi hb
    · exact hb ▸ hi
  · simp only [hi, decide_false, Bool.false_eq_true, if_false]
    exact h

theorem observe_low_rest (c : Config K) (eng : ℕ → W) (k : ℕ) (b : Bool) (w : W) (e : K) (x : Exec W K) :
    let y := observe c eng k (if b then [.lowest w e] else []) x
    y.energies = x.energies ∧ y.errors = x.errors ∧ y.grads = x.grads ∧ y.csvs = x.csvs := by
  cases b <;> exact ⟨rfl, rfl, rfl, rfl⟩

/-- after a step was recorded, its energy is not below the executor's minimum -/
theorem Low.not_lt {big : K} {x₀ x : Exec W K} {e m : K} {w : W} (h : Low big x₀ x m w)
    (h₀ : x₀.minEnergy < big ∨ x₀.minEnergy = big) (he : ¬ e < m) : ¬ e < x.minEnergy := by
  rcases h with ⟨rfl, h1, _⟩ | ⟨_, h1, _⟩
  · rw [h1]
    rcases h₀ with h | h
    · exact fun hlt => he (_root_.trans hlt h)
    · rw [h]; exact he
  · rw [h1]; exact he

theorem record_not_lt (c : Config K) (s : St W K X) (ev : Eval G K) (gn : K) (u : Upd W K X) :
    ¬ ev.energy < (record c s ev gn u).lowestEnergy := by
  unfold Optimizer.record
  dsimp only
  by_cases hi : ev.energy < s.lowestEnergy
  · simp only [hi, decide_true, if_true]
    exact Std.Irrefl.irrefl (r := (· < ·)) _
  · simpa [hi] using hi

theorem take_append_left' {α : Type*} (a : List α) (b : α) {i : ℕ} (h : i < a.length) :
    (a ++ [b]).take (i + 1) = a.take (i + 1) := by
  rw [List.take_append_of_le_length h]

/-- **An accepted step that is not a stopping one.** -/
theorem Watch.advanced {c : Config K} {eng : ℕ → W} {x₀ : Exec W K} {s : St W K X}
    (h₀ : x₀.minEnergy < c.big ∨ x₀.minEnergy = c.big)
    (h : Watch c eng x₀ s.iter s s.trace) (hb : s.lowestEnergy < c.big ∨ s.lowestEnergy = c.big)
    (l1 : s.energies.length = s.iter) (l2 : s.errors.length = s.iter) (l3 : s.grads.length = s.iter)
    (P : Prog W G K X) (ev : Eval G K) (gn : K) (u : Upd W K X) :
    Watch c eng x₀ (s.iter + 1) (advanced c P s ev gn u) (advanced c P s ev gn u).trace := by
  set x := observe c eng 0 s.trace x₀ with hx
  set lows : List (Event W K) :=
    (if decide (ev.energy < s.lowestEnergy) then [.lowest s.current ev.energy] else []) with hl
  have e : (Optimizer.advanced c P s ev gn u).trace =
      s.trace ++ ([.accept s.iter s.current ev.energy] ++ (lows ++
        ([.advance u.state] ++ [.iteration s.iter ev.energy ev.error gn]))) := by
    show (s.trace ++ [_] ++ _) ++ [_, _] = _
    simp only [List.append_assoc]; rfl
  set y := observe c eng (0 + s.trace.length + 1) lows x with hy
  have hobs : observe c eng 0 (Optimizer.advanced c P s ev gn u).trace x₀ =
      onIteration c (eng (0 + s.trace.length + 1 + lows.length + 1)) y s.iter ev.energy ev.error gn := by
    rw [e, observe_append, observe_append, observe_append, observe_append]
    rfl
  have hlow : Low c.big x₀ y (record c s ev gn u).lowestEnergy (record c s ev gn u).lowestState :=
    h.low.record ev gn u eng _ hb
  obtain ⟨r1, r2, r3, r4⟩ := observe_low_rest c eng (0 + s.trace.length + 1)
    (decide (ev.energy < s.lowestEnergy)) s.current ev.energy x
  rw [← hl, ← hy] at r1 r2 r3 r4
  have hcmp : compare (push y ev.energy ev.error gn)
      (eng (0 + s.trace.length + 1 + lows.length + 1)) ev.energy = push y ev.energy ev.error gn := by
    unfold compare
    rw [if_neg]
    exact hlow.not_lt h₀ (record_not_lt c s ev gn u)
  have hit : onIteration c (eng (0 + s.trace.length + 1 + lows.length + 1)) y s.iter ev.energy ev.error gn
      = if checkpointDue c s.iter then writeCsv (push y ev.energy ev.error gn)
        else push y ev.energy ev.error gn := by
    unfold onIteration
    dsimp only
    rw [hcmp]
  have t1 : (push y ev.energy ev.error gn).energies = x₀.energies ++ (s.energies ++ [ev.energy]) := by
    show y.energies ++ _ = _
    rw [r1, h.traj.hE, List.append_assoc]
  have t2 : (push y ev.energy ev.error gn).errors = x₀.errors ++ (s.errors ++ [ev.error]) := by
    show y.errors ++ _ = _
    rw [r2, h.traj.hErr, List.append_assoc]
  have t3 : (push y ev.energy ev.error gn).grads = x₀.grads ++ (s.grads ++ [gn]) := by
    show y.grads ++ _ = _
    rw [r3, h.traj.hG, List.append_assoc]
  have hcsv : y.csvs = x₀.csvs ++ ((List.range s.iter).filter (checkpointDue c)).map (fun i =>
      rows (x₀.energies ++ (s.energies ++ [ev.energy]).take (i + 1))
        (x₀.errors ++ (s.errors ++ [ev.error]).take (i + 1))
        (x₀.grads ++ (s.grads ++ [gn]).take (i + 1))) := by
    rw [r4, h.csv]
    congr 1
    apply List.map_congr_left
    intro i hi
    have hi' : i < s.iter := List.mem_range.1 (List.mem_of_mem_filter hi)
    rw [take_append_left' _ _ (by omega), take_append_left' _ _ (by omega),
      take_append_left' _ _ (by omega)]
  by_cases hd : checkpointDue c s.iter = true
  · rw [if_pos hd] at hit
    refine ⟨?_, ?_, ?_⟩
    · rw [hobs, hit]; exact ⟨t1, t2, t3⟩
    · rw [hobs, hit]; exact hlow
    · rw [hobs, hit]
      show (push y ev.energy ev.error gn).csvs ++ [_] = _
      rw [show (push y ev.energy ev.error gn).csvs = y.csvs from rfl, hcsv, List.range_succ,
        List.filter_append, List.map_append, t1, t2, t3]
      simp only [List.filter_cons, hd, if_true, List.filter_nil, List.map_cons, List.map_nil]
      rw [List.append_assoc]
      congr 3
      show _ = rows (x₀.energies ++ (s.energies ++ [ev.energy]).take (s.iter + 1))
        (x₀.errors ++ (s.errors ++ [ev.error]).take (s.iter + 1))
        (x₀.grads ++ (s.grads ++ [gn]).take (s.iter + 1))
      rw [List.take_of_length_le (by simp [l1]), List.take_of_length_le (by simp [l2]),
        List.take_of_length_le (by simp [l3])]
  · rw [if_neg hd] at hit
    refine ⟨?_, ?_, ?_⟩
    · rw [hobs, hit]; exact ⟨t1, t2, t3⟩
    · rw [hobs, hit]; exact hlow
    · rw [hobs, hit]
      show y.csvs = _
      rw [hcsv, List.range_succ, List.filter_append, List.map_append]
      have hd' : checkpointDue c s.iter = false := by simpa using hd
      simp only [List.filter_cons, hd', Bool.false_eq_true, if_false, List.filter_nil, List.map_nil,
        List.append_nil]
      rfl

/-- changes that the executor does not see -/
theorem Watch.congr {c : Config K} {eng : ℕ → W} {x₀ : Exec W K} {n : ℕ} {s s' : St W K X}
    {t t' : List (Event W K)} (h : Watch c eng x₀ n s t)
    (h1 : s'.energies = s.energies) (h2 : s'.errors = s.errors) (h3 : s'.grads = s.grads)
    (h6 : s'.lowestState = s.lowestState) (h7 : s'.lowestEnergy = s.lowestEnergy)
    (h9 : observe c eng 0 t' x₀ = observe c eng 0 t x₀) : Watch c eng x₀ n s' t' where
  traj := by rw [h1, h2, h3, h9]; exact h.traj
  low := by rw [h6, h7, h9]; exact h.low
  csv := by rw [h1, h2, h3, h9]; exact h.csv

theorem Watch.entering {c : Config K} {eng : ℕ → W} {x₀ : Exec W K} {s : St W K X}
    (h : Watch c eng x₀ s.iter s s.trace) (P : Prog W G K X) (x : X) {ws : List (Event W K)}
    (hws : Warns s.iter ws) :
    Watch c eng x₀ s.iter (entering P s x ws) (entering P s x ws).trace :=
  h.congr rfl rfl rfl rfl rfl (observe_passTrace c eng P s hws x₀)

theorem Watch.retry {c : Config K} {eng : ℕ → W} {x₀ : Exec W K} {s s' : St W K X}
    (h : Watch c eng x₀ s.iter s s.trace) (P : Prog W G K X) (hp : pass c P s = .retry s') :
    Watch c eng x₀ s'.iter s' s'.trace ∧ s'.converged = s.converged := by
  obtain ⟨ws, x, sig, hws, ⟨_, rfl⟩ | ⟨_, _, rfl⟩⟩ := pass_retry c P s s' hp
  · refine ⟨h.congr rfl rfl rfl rfl rfl ?_, rfl⟩
    show observe c eng 0 (passTrace P s ws ++ [_]) x₀ = _
    rw [observe_append, observe_passTrace c eng P s hws]; rfl
  · refine ⟨h.congr rfl rfl rfl rfl rfl ?_, rfl⟩
    show observe c eng 0 (passTrace P s ws ++ [_]) x₀ = _
    rw [observe_append, observe_passTrace c eng P s hws]; rfl

theorem Watch.next {c : Config K} {eng : ℕ → W} {x₀ : Exec W K} {w₀ : W} {s s' : St W K X}
    (h₀ : x₀.minEnergy < c.big ∨ x₀.minEnergy = c.big)
    (h : Watch c eng x₀ s.iter s s.trace) (hk : Book c w₀ s.iter s) (P : Prog W G K X)
    (hp : pass c P s = .next s') :
    Watch c eng x₀ (s.iter + 1) s' s'.trace ∧ s'.converged = s.converged := by
  obtain ⟨ws, x, u, hws, _, hf⟩ := pass_accept c P s _ hp (.inl ⟨_, rfl⟩)
  rcases finish_cases c P (Optimizer.entering P s x ws) (P.eval s.x s.current).1
    (P.gnorm (P.eval s.x s.current).1.grad) u with ⟨_, h2⟩ | ⟨_, _, h2⟩ | ⟨_, _, h2⟩
  · rw [h2] at hf; simp at hf
  · rw [h2] at hf; simp at hf
  · rw [h2] at hf
    simp only [Pass.next.injEq] at hf
    subst hf
    have ha := Watch.advanced (s := Optimizer.entering P s x ws) h₀ (h.entering P x hws) hk.big hk.lenE hk.lenErr hk.lenG P
      (P.eval s.x s.current).1 (P.gnorm (P.eval s.x s.current).1.grad) u
    refine ⟨ha.congr rfl rfl rfl rfl rfl ?_, rfl⟩
    dsimp only
    rw [observe_append]
    split_ifs <;> rfl

/-- what the executor has recorded when the loop is over -/
def Final (c : Config K) (eng : ℕ → W) (x₀ : Exec W K) (s : St W K X) : Prop :=
  (s.converged = false ∧ Watch c eng x₀ s.energies.length s s.trace) ∨
  (s.converged = true ∧ 0 < s.energies.length ∧
    Traj x₀ (observe c eng 0 s.trace x₀) s.energies.dropLast s.errors.dropLast s.grads.dropLast ∧
    Low c.big x₀ (observe c eng 0 s.trace x₀) s.lowestEnergy s.lowestState ∧
    Csv c x₀ (observe c eng 0 s.trace x₀) s.energies.dropLast.length s.energies.dropLast
      s.errors.dropLast s.grads.dropLast)

theorem Watch.stop {c : Config K} {eng : ℕ → W} {x₀ : Exec W K} {w₀ : W} {s s' : St W K X}
    (h₀ : x₀.minEnergy < c.big ∨ x₀.minEnergy = c.big)
    (h : Watch c eng x₀ s.iter s s.trace) (hk : Book c w₀ s.iter s) (hc : s.converged = false)
    (P : Prog W G K X) (hp : pass c P s = .stop s') : Final c eng x₀ s' := by
  have hb := hk.stop P hp
  obtain ⟨ws, x, u, hws, _, hf⟩ := pass_accept c P s _ hp (.inr ⟨_, rfl⟩)
  have hent := h.entering P x hws
  rcases finish_cases c P (Optimizer.entering P s x ws) (P.eval s.x s.current).1
    (P.gnorm (P.eval s.x s.current).1.grad) u with ⟨_, h2⟩ | ⟨_, _, h2⟩ | ⟨_, _, h2⟩
  · rw [h2] at hf
    simp only [Pass.stop.injEq] at hf
    subst hf
    right
    set ev := (P.eval s.x s.current).1 with hev
    have e : ((record c (Optimizer.entering P s x ws) ev (P.gnorm ev.grad) u).trace) =
        passTrace P s ws ++ ([.accept s.iter s.current ev.energy] ++
          (if decide (ev.energy < s.lowestEnergy) then [.lowest s.current ev.energy] else [])) := by
      show (passTrace P s ws ++ [_]) ++ _ = _
      rw [List.append_assoc]; rfl
    obtain ⟨r1, r2, r3, r4⟩ := observe_low_rest c eng (0 + (passTrace P s ws).length + 1)
      (decide (ev.energy < s.lowestEnergy)) s.current ev.energy (observe c eng 0 s.trace x₀)
    have hl := h.low.record ev (P.gnorm ev.grad) u eng (0 + (passTrace P s ws).length + 1) hk.big
    have hobs : observe c eng 0
        (record c (Optimizer.entering P s x ws) ev (P.gnorm ev.grad) u).trace x₀ =
        observe c eng (0 + (passTrace P s ws).length + 1)
          (if decide (ev.energy < s.lowestEnergy) then [.lowest s.current ev.energy] else [])
          (observe c eng 0 s.trace x₀) := by
      rw [e, observe_append, observe_append, observe_passTrace c eng P s hws]
      rfl
    have d1 : (s.energies ++ [ev.energy]).dropLast = s.energies := List.dropLast_concat
    have d2 : (s.errors ++ [ev.error]).dropLast = s.errors := List.dropLast_concat
    have d3 : (s.grads ++ [P.gnorm ev.grad]).dropLast = s.grads := List.dropLast_concat
    refine ⟨rfl, ?_, ?_, ?_, ?_⟩
    · show 0 < (s.energies ++ [ev.energy]).length
      simp
    · show Traj x₀ (observe c eng 0 (record c _ ev (P.gnorm ev.grad) u).trace x₀)
        (s.energies ++ [ev.energy]).dropLast (s.errors ++ [ev.error]).dropLast
        (s.grads ++ [P.gnorm ev.grad]).dropLast
      rw [d1, d2, d3, hobs]
      exact ⟨r1.trans h.traj.hE, r2.trans h.traj.hErr, r3.trans h.traj.hG⟩
    · show Low c.big x₀ (observe c eng 0 (record c _ ev (P.gnorm ev.grad) u).trace x₀) _ _
      rw [hobs]
      exact hl
    · show Csv c x₀ (observe c eng 0 (record c _ ev (P.gnorm ev.grad) u).trace x₀)
        (s.energies ++ [ev.energy]).dropLast.length
        (s.energies ++ [ev.energy]).dropLast (s.errors ++ [ev.error]).dropLast
        (s.grads ++ [P.gnorm ev.grad]).dropLast
      rw [d1, d2, d3, hobs, hk.lenE]
      exact r4.trans h.csv
  · rw [h2] at hf
    simp only [Pass.stop.injEq] at hf
    subst hf
    left
    refine ⟨hc, ?_⟩
    rw [hb.lenE]
    exact Watch.advanced (s := Optimizer.entering P s x ws) h₀ hent hk.big hk.lenE hk.lenErr hk.lenG P _ _ u
  · rw [h2] at hf; simp at hf

/-- **The callbacks of a finished run.** -/
theorem final_done (c : Config K) (P : Prog W G K X) (fuel : ℕ) (w₀ : W) (xx : X) (s : St W K X)
    (eng : ℕ → W) (x₀ : Exec W K) (h₀ : x₀.minEnergy < c.big ∨ x₀.minEnergy = c.big)
    (h : optimize c P fuel w₀ xx = .done s) : Final c eng x₀ s := by
  refine (run_induct c P
    (fun s => Watch c eng x₀ s.iter s s.trace ∧ Book c w₀ s.iter s ∧ s.converged = false)
    (Final c eng x₀) ?_ ?_ ?_ ?_ fuel _ ⟨?_, Book.init c P w₀ xx, rfl⟩).1 s h
  · rintro s s' ⟨h1, h2, h3⟩ _ hp
    obtain ⟨a, b⟩ := h1.retry P hp
    exact ⟨a, h2.retry P hp, b.trans h3⟩
  · rintro s s' ⟨h1, h2, h3⟩ _ hp
    obtain ⟨a, b⟩ := h1.next h₀ h2 P hp
    obtain ⟨hi, hb⟩ := h2.next P hp
    have e : (startIter P s').iter = s.iter + 1 := by show s'.iter + 1 = _; rw [hi]
    refine ⟨?_, ?_, b.trans h3⟩
    · rw [e]; exact a.congr rfl rfl rfl rfl rfl rfl
    · rw [e]; exact hb.congr rfl rfl rfl rfl rfl rfl rfl rfl rfl rfl
  · rintro s s' ⟨h1, h2, h3⟩ _ hp
    exact h1.stop h₀ h2 h3 P hp
  · rintro s ⟨h1, h2, h3⟩ _
    left
    refine ⟨h3, ?_⟩
    rw [h2.lenE]
    exact h1
  · refine ⟨⟨?_, ?_, ?_⟩, .inl ⟨rfl, rfl, rfl⟩, ?_⟩
    · exact (List.append_nil _).symm
    · exact (List.append_nil _).symm
    · exact (List.append_nil _).symm
    · exact (List.append_nil _).symm

end
end QLPeps.Executor
