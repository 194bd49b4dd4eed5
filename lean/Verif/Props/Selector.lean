import Verif.Model.Selector
import Verif.Props.UpdateRules
import Mathlib.Tactic

/-!
# Property C68: the step-size selectors
-/

namespace QLPeps.Selector

variable {W K X : Type*} [Field K] [LinearOrder K] [IsStrictOrderedRing K]

/-- the candidates were evaluated one by one, in order: each result is what the evaluator returned for
the trial state of that step, with the hidden state threaded through -/
inductive Evaluated (eval : X → W → Option (K × K) × X) (trial : K → W) :
    X → List (Cand K) → X → Prop
  | nil (x : X) : Evaluated eval trial x [] x
  | cons {x x' x'' : X} {c : Cand K} {cs : List (Cand K)} :
      eval x (trial c.eta) = (some (c.energy, c.error), x') → Evaluated eval trial x' cs x'' →
      Evaluated eval trial x (c :: cs) x''

theorem evalAll_spec (eval : X → W → Option (K × K) × X) (trial : K → W) (etas : List K) (x : X)
    (cs : List (Cand K)) (x' : X) (h : evalAll eval trial etas x = some (cs, x')) :
    cs.map Cand.eta = etas ∧ Evaluated eval trial x cs x' := by
  induction etas generalizing x cs with
  | nil => simp only [evalAll, Option.some.injEq, Prod.mk.injEq] at h
           obtain ⟨rfl, rfl⟩ := h; exact ⟨rfl, .nil _⟩
  | cons e rest ih =>
    unfold evalAll at h
    rcases he : eval x (trial e) with ⟨_ | ⟨en, er⟩, x1⟩
    · rw [he] at h; simp at h
    · rw [he] at h
      dsimp only at h
      rcases hr : evalAll eval trial rest x1 with _ | ⟨cs', x2⟩
      · rw [hr] at h; simp at h
      · rw [hr] at h
        simp only [Option.some.injEq, Prod.mk.injEq] at h
        obtain ⟨rfl, rfl⟩ := h
        obtain ⟨i1, i2⟩ := ih x1 cs' hr
        exact ⟨by simp [i1], .cons he i2⟩

theorem pick_spec (cs : List (Cand K)) (eta energy : K) :
    let r := cs.foldl (fun acc c => if c.energy < acc.2 then (c.eta, c.energy) else acc) (eta, energy)
    (∀ c ∈ cs, r.2 ≤ c.energy) ∧ r.2 ≤ energy ∧
    ((r = (eta, energy)) ∨ ∃ pre c post, cs = pre ++ c :: post ∧ r = (c.eta, c.energy) ∧
      c.energy < energy ∧ ∀ d ∈ pre, c.energy < d.energy) := by
  induction cs generalizing eta energy with
  | nil => exact ⟨fun _ h => by simp at h, le_refl _, .inl rfl⟩
  | cons c cs ih =>
    rw [List.foldl_cons]
    dsimp only
    by_cases h : c.energy < energy
    · rw [if_pos h]
      obtain ⟨i1, i2, i3⟩ := ih c.eta c.energy
      refine ⟨fun d hd => ?_, i2.trans h.le, .inr ?_⟩
      · rcases List.mem_cons.1 hd with rfl | hd
        · exact i2
        · exact i1 d hd
      · rcases i3 with e | ⟨pre, d, post, rfl, e, h1, h2⟩
        · exact ⟨[], c, cs, rfl, e, h, fun _ h => by simp at h⟩
        · refine ⟨c :: pre, d, post, rfl, e, h1.trans h, fun b hb => ?_⟩
          rcases List.mem_cons.1 hb with rfl | hb
          · exact h1
          · exact h2 b hb
    · rw [if_neg h]
      obtain ⟨i1, i2, i3⟩ := ih eta energy
      refine ⟨fun d hd => ?_, i2, ?_⟩
      · rcases List.mem_cons.1 hd with rfl | hd
        · exact i2.trans (not_lt.1 h)
        · exact i1 d hd
      · rcases i3 with e | ⟨pre, d, post, rfl, e, h1, h2⟩
        · exact .inl e
        · refine .inr ⟨c :: pre, d, post, rfl, e, h1, fun b hb => ?_⟩
          rcases List.mem_cons.1 hb with rfl | hb
          · exact h1.trans_le (not_lt.1 h)
          · exact h2 b hb

/-- **C68.** Initial selector: the candidates are `lr, 2 lr, …, k lr`, each evaluated once in this order;
the step chosen has the lowest energy, and every smaller candidate has a strictly higher energy. -/
theorem C68_initial (c : Cfg K) (eval : X → W → Option (K × K) × X) (trial : K → W) (base error b : K)
    (x x' : X) (hi : c.initialEnabled = true) (hb : 0 < base)
    (h : select c eval trial 0 base error x = some (b, x')) :
    ∃ cs : List (Cand K), Evaluated eval trial x cs x' ∧
      cs.map Cand.eta = (List.range c.maxLineSearchSteps).map (fun i : ℕ => base * ((i : K) + 1)) ∧
      ∃ best ∈ cs, best.eta = b ∧ (∀ d ∈ cs, best.energy ≤ d.energy) ∧
        ∀ d ∈ cs, d.eta < b → best.energy < d.energy := by
  have ht : c.initialTriggered 0 = true := by simp [Cfg.initialTriggered, hi]
  unfold select at h
  rw [if_pos ht] at h
  split_ifs at h with h1
  rcases he : evalAll eval trial (candidates c 0 base) x with _ | ⟨cs, x1⟩
  · rw [he] at h; simp at h
  · rw [he] at h
    cases cs with
    | nil => simp at h
    | cons first cs =>
      simp only [Option.some.injEq, Prod.mk.injEq] at h
      obtain ⟨rfl, rfl⟩ := h
      obtain ⟨e1, e2⟩ := evalAll_spec eval trial _ x _ _ he
      have e1' : (first :: cs).map Cand.eta =
          (List.range c.maxLineSearchSteps).map (fun i : ℕ => base * ((i : K) + 1)) := by
        rw [e1]; unfold candidates; rw [if_pos ht]
      refine ⟨first :: cs, e2, e1', ?_⟩
      have hsort : ((first :: cs).map Cand.eta).Pairwise (· < ·) := by
        rw [e1', List.pairwise_map]
        refine List.Pairwise.imp ?_ List.pairwise_lt_range
        intro i j hij
        have : (i : K) < j := by exact_mod_cast hij
        exact mul_lt_mul_of_pos_left (by linarith) hb
      obtain ⟨p1, p2, p3⟩ := pick_spec (first :: cs) first.eta first.energy
      unfold pickInitial
      rcases p3 with e | ⟨pre, d, post, hd, e, q1, q2⟩
      · rw [e] at p1 p2 ⊢
        refine ⟨first, List.mem_cons_self, rfl, p1, fun d hd hlt => ?_⟩
        exfalso
        rcases List.mem_cons.1 hd with rfl | hd
        · exact lt_irrefl _ hlt
        · rw [List.map_cons, List.pairwise_cons] at hsort
          exact lt_asymm hlt (hsort.1 _ (List.mem_map_of_mem hd))
      · rw [e] at p1 ⊢
        refine ⟨d, by rw [hd]; simp, rfl, p1, fun a ha hlt => ?_⟩
        rw [hd] at ha hsort
        rcases List.mem_append.1 ha with ha | ha
        · exact q2 a ha
        · exfalso
          rw [List.map_append, List.pairwise_append, List.map_cons, List.pairwise_cons] at hsort
          rcases List.mem_cons.1 ha with rfl | ha
          · exact lt_irrefl _ hlt
          · exact lt_asymm hlt (hsort.2.1.1 _ (List.mem_map_of_mem ha))

/-- **C68.** Periodic selector: exactly the steps `base` and `base / 2` are evaluated. In the early phase
(`iter < ratio · max_iterations`) the step is halved iff the half step has strictly lower energy; in the
late phase iff it is lower by more than the larger of the two error bars. -/
theorem C68_periodic (c : Cfg K) (eval : X → W → Option (K × K) × X) (trial : K → W) (iter : ℕ)
    (base error b : K) (x x' : X) (hp : c.periodicEnabled = true) (hpos : 0 < iter)
    (hdiv : c.everyN ∣ iter) (h : select c eval trial iter base error x = some (b, x')) :
    ∃ full half : Cand K, Evaluated eval trial x [full, half] x' ∧ full.eta = base ∧
      half.eta = base / 2 ∧ 0 < base ∧
      b = if (if (iter : K) < c.phaseRatio * c.maxIterations then half.energy < full.energy
              else max full.error half.error < full.energy - half.energy)
          then base / 2 else base := by
  have hni : c.initialTriggered iter = false := by
    unfold Cfg.initialTriggered
    have : (iter == 0) = false := by simp; omega
    simp [this]
  have ht : c.periodicTriggered iter = true := by
    unfold Cfg.periodicTriggered
    rw [hni]
    simp [hp, hpos, Nat.mod_eq_zero_of_dvd hdiv]
  unfold select at h
  rw [if_neg (by rw [hni]; simp), if_pos ht] at h
  split_ifs at h with h1 h2
  have hbase : 0 < base := by
    have := not_le.1 h2
    linarith
  have hc : candidates c iter base = [base, base * (1 / 2)] := by
    unfold candidates; rw [hni]; simp
  rcases he : evalAll eval trial (candidates c iter base) x with _ | ⟨cs, x1⟩
  · rw [he] at h; simp at h
  · obtain ⟨e1, e2⟩ := evalAll_spec eval trial _ x _ _ he
    rw [hc] at e1
    obtain ⟨full, half, rfl⟩ : ∃ full half, cs = [full, half] :=
      List.length_eq_two.1 (by simpa using congrArg List.length e1)
    · rw [he] at h
      simp only [List.map_cons, List.map_nil, List.cons.injEq, and_true] at e1
      obtain ⟨f1, f2⟩ := e1
      simp only [Option.some.injEq, Prod.mk.injEq] at h
      obtain ⟨rfl, rfl⟩ := h
      refine ⟨full, half, e2, f1, by rw [f2]; ring, hbase, ?_⟩
      unfold pickPeriodic
      have hm : min base (base / 2) = base / 2 := min_eq_right (by linarith)
      have hh : half.eta = base / 2 := by rw [f2]; ring
      rw [one_mul, f1, hh]
      split_ifs <;> simp [hm]

/-- **C68.** At all other attempts the base step is unchanged and the evaluator is not called. -/
theorem C68_untriggered (c : Cfg K) (eval : X → W → Option (K × K) × X) (trial : K → W) (iter : ℕ)
    (base error : K) (x : X) (h1 : c.initialEnabled = true → iter ≠ 0)
    (h2 : c.periodicEnabled = true → iter = 0 ∨ ¬ c.everyN ∣ iter) :
    select c eval trial iter base error x = some (base, x) := by
  unfold select
  have a : c.initialTriggered iter = false := by
    unfold Cfg.initialTriggered
    cases hi : c.initialEnabled with
    | false => rfl
    | true => simpa using h1 hi
  have b : c.periodicTriggered iter = false := by
    unfold Cfg.periodicTriggered
    cases hi : c.periodicEnabled with
    | false => simp
    | true =>
      rcases h2 hi with h | h
      · simp [h]
      · have : ¬ iter % c.everyN = 0 := fun h' => h (Nat.dvd_of_mod_eq_zero h')
        simp [this]
  rw [a, b]; simp

/-- **C68.** Over any sequence of attempts after the first iteration (including repeated attempts of the
same iteration) the base step never increases, stays positive, and is always the initial one divided by
a power of two. -/
theorem C68_never_increases (c : Cfg K) (eval : X → W → Option (K × K) × X) (as : List (Attempt W K))
    (base : K) (x : X) (hb : 0 < base) (ha : ∀ a ∈ as, 0 < a.iter) (bs : List K)
    (h : runSel c eval as base x = some bs) :
    (base :: bs).Pairwise (· ≥ ·) ∧ ∀ b ∈ bs, ∃ m : ℕ, b = base / 2 ^ m := by
  induction as generalizing base x bs with
  | nil =>
    simp only [runSel, Option.some.injEq] at h
    subst h
    exact ⟨by simp, fun b hb => by simp at hb⟩
  | cons a as ih =>
    unfold runSel at h
    rcases hs : select c eval a.trial a.iter base a.error x with _ | ⟨b, x'⟩
    · rw [hs] at h; simp at h
    · rw [hs] at h
      obtain ⟨bs', hr, rfl⟩ := Option.map_eq_some_iff.1 h
      have hpos := ha a List.mem_cons_self
      have hstep : b = base ∨ b = base / 2 := by
        by_cases ht : c.periodicEnabled = true ∧ c.everyN ∣ a.iter
        · obtain ⟨_, _, _, _, _, _, e⟩ := C68_periodic c eval a.trial a.iter base a.error b x x' ht.1 hpos
            ht.2 hs
          rw [e]; split_ifs <;> simp
        · rw [C68_untriggered c eval a.trial a.iter base a.error x (fun _ => by omega)
            (fun hp => .inr fun hd => ht ⟨hp, hd⟩)] at hs
          simp only [Option.some.injEq, Prod.mk.injEq] at hs
          exact .inl hs.1.symm
      have hbpos : 0 < b := by rcases hstep with rfl | rfl <;> linarith
      have hle : b ≤ base := by rcases hstep with rfl | rfl <;> linarith
      obtain ⟨i1, i2⟩ := ih b x' hbpos (fun a' ha' => ha a' (List.mem_cons_of_mem _ ha')) bs' hr
      constructor
      · rw [List.pairwise_cons]
        refine ⟨fun d hd => ?_, i1⟩
        rcases List.mem_cons.1 hd with rfl | hd
        · exact hle
        · exact le_trans ((List.pairwise_cons.1 i1).1 d hd) hle
      · intro d hd
        have : ∃ m : ℕ, d = b / 2 ^ m := by
          rcases List.mem_cons.1 hd with rfl | hd
          · exact ⟨0, by simp⟩
          · exact i2 d hd
        obtain ⟨m, rfl⟩ := this
        rcases hstep with rfl | rfl
        · exact ⟨m, rfl⟩
        · exact ⟨m + 1, by rw [pow_succ, div_div, mul_comm]⟩

/-- **C68.** With SGD the trial states are the states the update itself would reach (so the state reached
with the selected step was evaluated, and had the lowest energy of all candidates), whatever the
velocity. -/
theorem C68_sgd_initial {ι 𝕜 : Type*} [Fintype ι] [RCLike 𝕜] (p : UpdateRules.SGDParams)
    (vel : UpdateRules.Velocity ι 𝕜) (θ g : UpdateRules.Wf ι 𝕜) (c : Cfg ℝ)
    (eval : X → UpdateRules.Wf ι 𝕜 → Option (ℝ × ℝ) × X) (base error b : ℝ) (x x' : X)
    (hi : c.initialEnabled = true) (hb : 0 < base)
    (h : select c eval (UpdateRules.sgdPreview p vel θ g) 0 base error x = some (b, x')) :
    ∃ cs : List (Cand ℝ), Evaluated eval (fun η => (UpdateRules.sgdUpdate p vel θ g η).1) x cs x' ∧
      ∃ best ∈ cs, best.eta = b ∧ ∀ d ∈ cs, best.energy ≤ d.energy := by
  have e : UpdateRules.sgdPreview p vel θ g = fun η => (UpdateRules.sgdUpdate p vel θ g η).1 :=
    funext fun η => UpdateRules.C32_preview_agrees p vel θ g η
  rw [e] at h
  obtain ⟨cs, h1, _, best, h2, h3, h4, _⟩ := C68_initial c eval _ base error b x x' hi hb h
  exact ⟨cs, h1, best, h2, h3, h4⟩

/-- the configurations accepted by the validation have the shape the theorems ask for -/
theorem C68_valid (c : Cfg K) (h : c.valid = true) :
    (c.initialEnabled = true → 0 < c.maxLineSearchSteps ∧ 0 < c.learningRate ∧ c.hasScheduler = false) ∧
    (c.periodicEnabled = true → 0 < c.everyN ∧ 0 ≤ c.phaseRatio ∧ c.phaseRatio ≤ 1 ∧
      0 < c.learningRate ∧ c.hasScheduler = false) := by
  unfold Cfg.valid at h
  simp only [Bool.and_eq_true, Bool.not_eq_true', Bool.and_eq_false_iff, Bool.or_eq_false_iff,
    Bool.not_eq_false', decide_eq_false_iff_not, not_le, not_lt, beq_eq_false_iff_ne] at h
  obtain ⟨⟨⟨h1, h2⟩, h3⟩, h4⟩ := h
  constructor
  · intro hi
    rw [hi] at h1 h2 h4
    simp at h1 h2 h4
    exact ⟨by omega, h4, h1.2⟩
  · intro hi
    rw [hi] at h1 h3 h4
    simp at h1 h3 h4
    exact ⟨by omega, h3.1.2, h3.2, h4, h1.2⟩

/-- a run of both selectors on the energy `(w - 3)²`, trial state = step: the initial selector picks
`3 = 3 · 1`, and halving does not help -/
def exCfg : Cfg ℚ := ⟨true, 4, true, true, 2, 1/2, true, 1, 10, false, true⟩

example : exCfg.valid = true := by decide +kernel

example : runSel exCfg (fun (x : ℕ) (w : ℚ) => (some ((w - 3) ^ 2, 0), x + 1))
    [⟨0, 0, id⟩, ⟨1, 0, id⟩, ⟨2, 0, id⟩, ⟨4, 0, fun e => e + 2⟩] 1 0 = some [3, 3, 3, 3/2] := by
  decide +kernel

end QLPeps.Selector
