import Verif.Spec.UpdateLoop
import Mathlib.Tactic

/-! # Lemmas on the update loop -/

namespace QLPeps.UpdateLoop

open Spec

/-! ## Floating-point helpers on reals -/

theorem fmax_some (a b : ℝ) : fmax (some a) (some b) = some (max a b) := by
  unfold fmax flt
  by_cases h : a < b
  · simp [h, max_eq_right h.le]
  · simp [h, max_eq_left (not_lt.1 h)]

theorem fle_some (a b : ℝ) : fle (some a) (some b) = true ↔ a ≤ b := by
  simp [fle]

theorem lift2_some (f : ℝ → ℝ → ℝ) (a b : ℝ) : lift2 f (some a) (some b) = some (f a b) := rfl

theorem diffNorm2_foldl (prev cur : List ℝ) : ∀ s : ℝ,
    ((prev.map some).zip (cur.map some)).foldl (fun s (pc : Fl × Fl) =>
      lift2 (· + ·) s (lift2 (· * ·) (lift2 (· - ·) pc.2 pc.1) (lift2 (· - ·) pc.2 pc.1))) (some s) =
    some (s + (List.zipWith (fun a b => (b - a) ^ 2) prev cur).sum) := by
  induction prev generalizing cur with
  | nil => intro s; simp
  | cons a l ih =>
    intro s
    cases cur with
    | nil => simp
    | cons b l' =>
      simp only [List.map_cons, List.zip_cons_cons, List.foldl_cons, lift2_some, ih,
        List.zipWith_cons_cons, List.sum_cons]
      congr 1; ring

theorem diffNorm2_real (prev cur : List ℝ) : diffNorm2 (prev.map some) (cur.map some) =
    some ((List.zipWith (fun a b => (b - a) ^ 2) prev cur).sum) := by
  have := diffNorm2_foldl prev cur 0
  rw [zero_add] at this
  exact this

theorem prevNorm2_foldl (prev : List ℝ) : ∀ s : ℝ,
    (prev.map some).foldl (fun s p => lift2 (· + ·) s (lift2 (· * ·) p p)) (some s) =
    some (s + (prev.map (· ^ 2)).sum) := by
  induction prev with
  | nil => intro s; simp
  | cons a l ih =>
    intro s
    simp only [List.map_cons, List.foldl_cons, lift2_some, ih, List.sum_cons]
    congr 1; ring

theorem prevNorm2_real (prev : List ℝ) : prevNorm2 (prev.map some) =
    some ((prev.map (· ^ 2)).sum) := by
  have := prevNorm2_foldl prev 0
  rw [zero_add] at this
  exact this

theorem bondDrift_real (eps : ℝ) (prev cur : List ℝ) :
    bondDrift eps (prev.map some) (cur.map some) =
      some (Real.sqrt ((List.zipWith (fun a b => (b - a) ^ 2) prev cur).sum) /
        max (Real.sqrt ((prev.map (· ^ 2)).sum)) eps) := by
  simp only [bondDrift, diffNorm2_real, prevNorm2_real, Option.map_some, fmax_some, lift2_some]

theorem maxDrift_le (eps tol : ℝ) (heps : 0 < eps) (prev cur : List (List ℝ)) : ∀ m : ℝ,
    fle (((prev.map (·.map some)).zip (cur.map (·.map some))).foldl
      (fun m (pc : List Fl × List Fl) => fmax m (bondDrift eps pc.1 pc.2)) (some m)) (some tol) = true ↔
    m ≤ tol ∧ ∀ pc ∈ prev.zip cur,
      Real.sqrt ((List.zipWith (fun a b => (b - a) ^ 2) pc.1 pc.2).sum) ≤
        tol * max (Real.sqrt ((pc.1.map (· ^ 2)).sum)) eps := by
  induction prev generalizing cur with
  | nil => intro m; simp [fle_some]
  | cons a l ih =>
    intro m
    cases cur with
    | nil => simp [fle_some]
    | cons b l' =>
      simp only [List.map_cons, List.zip_cons_cons, List.foldl_cons, bondDrift_real, fmax_some, ih,
        List.mem_cons, forall_eq_or_imp, max_le_iff]
      rw [div_le_iff₀ (lt_max_of_lt_right heps), and_assoc]

theorem stable_real (prev cur : List (List ℝ)) :
    stable (prev.map (·.map some)) (cur.map (·.map some)) = true ↔
      prev.length = cur.length ∧ ∀ pc ∈ prev.zip cur, pc.1.length = pc.2.length := by
  simp only [stable, List.length_map, Bool.and_eq_true, decide_eq_true_eq, List.all_eq_true]
  refine and_congr_right fun _ => ?_
  rw [List.zip_map]
  simp only [List.mem_map, decide_eq_true_eq, Prod.exists, Prod.map, Prod.forall]
  constructor
  · intro h a b hab
    have := h _ _ ⟨a, b, hab, rfl⟩
    simpa using this
  · rintro h _ _ ⟨a, b, hab, he⟩
    cases he
    simpa using h a b hab

theorem forall₂_zip {α β : Type*} (R : α → β → Prop) (l : List α) (l' : List β) :
    List.Forall₂ R l l' ↔ l.length = l'.length ∧ ∀ p ∈ l.zip l', R p.1 p.2 := by
  rw [List.forall₂_iff_zip]
  refine and_congr_right fun _ => ?_
  constructor
  · rintro h ⟨a, b⟩ hp; exact h hp
  · intro h a b hp; exact h (a, b) hp

/-! ## The gate of sweep `k` -/

/-- energy and weights of the previous sweep -/
def prevOf (outs : ℕ → Sweep) (k : ℕ) : Option (Fl × List (List Fl)) :=
  if k = 0 then none else some ((outs (k - 1)).e0, (outs (k - 1)).lambdas)

/-- outcome of the comparison after sweep `k` -/
noncomputable def gateAt (c : Config) (eps : ℝ) (outs : ℕ → Sweep) (k : ℕ) : Bool :=
  gate c eps (k + 1) (prevOf outs k) ((outs k).e0, (outs k).lambdas)

theorem valid_iff (c : Config) : c.valid = true ↔
    0 ≤ c.energyAbs ∧ 0 ≤ c.energyRel ∧ 0 ≤ c.lambdaRel ∧ 0 < c.patience ∧ 0 < c.minSteps := by
  simp only [Config.valid, Bool.and_eq_true, decide_eq_true_eq, not_lt, Nat.pos_iff_ne_zero]
  tauto

theorem gateAt_iff (c : Config) (eps : ℝ) (heps : 0 < eps) (hc : c.valid = true)
    (outs : ℕ → Sweep) (d : Data) (hd : Reports outs d) (k : ℕ) :
    gateAt c eps outs k = true ↔ Quiet c eps d k := by
  unfold gateAt Quiet prevOf
  rcases Nat.eq_zero_or_pos k with rfl | hk
  · simp [gate]
  rw [if_neg hk.ne']
  simp only [gate, (hd k).1, (hd k).2, (hd (k - 1)).1, (hd (k - 1)).2]
  have hmd := maxDrift_le eps c.lambdaRel heps (d.weights (k - 1)) (d.weights k) 0
  have hst := stable_real (d.weights (k - 1)) (d.weights k)
  rw [forall₂_zip]
  have hl := ((valid_iff c).1 hc).2.2.1
  have het : energyTol c (some (d.energy (k - 1))) (some (d.energy k)) =
      some (max c.energyAbs (c.energyRel * max 1 (max |d.energy (k - 1)| |d.energy k|))) := by
    simp only [energyTol, Option.map_some, fmax_some, lift2_some, max_assoc]
  by_cases hs : stable ((d.weights (k - 1)).map (·.map some)) ((d.weights k).map (·.map some)) = true
  · rw [if_pos hs, Bool.and_eq_true, Bool.and_eq_true, decide_eq_true_eq, lift2_some,
      Option.map_some, het, fle_some]
    have hs' := hst.1 hs
    constructor
    · rintro ⟨⟨h1, h2⟩, h3⟩
      refine ⟨hk, h1, h2, hs'.1, fun p hp => ⟨hs'.2 p hp, ?_⟩⟩
      exact (hmd.1 h3).2 p hp
    · rintro ⟨-, h1, h2, -, h3⟩
      exact ⟨⟨h1, h2⟩, hmd.2 ⟨hl, fun p hp => (h3 p hp).2⟩⟩
  · rw [if_neg hs]
    constructor
    · intro h; cases h
    · rintro ⟨-, -, -, h1, h2⟩
      exact absurd (hst.2 ⟨h1, fun p hp => (h2 p hp).1⟩) hs

/-! ## The streak -/

/-- number of consecutive passed comparisons at the end of the first `n` sweeps -/
def trail (G : ℕ → Bool) : ℕ → ℕ
  | 0 => 0
  | n + 1 => if G n then trail G n + 1 else 0

theorem trail_ge (G : ℕ → Bool) (p n : ℕ) :
    p ≤ trail G n ↔ p ≤ n ∧ ∀ k, n - p ≤ k → k < n → G k = true := by
  induction n generalizing p with
  | zero =>
    simp only [trail]
    constructor
    · intro h; exact ⟨h, fun k _ hk => absurd hk (Nat.not_lt_zero k)⟩
    · exact fun h => h.1
  | succ n ih =>
    cases p with
    | zero =>
      simp only [Nat.zero_le, true_and, true_iff]
      intro k h1 h2; omega
    | succ p =>
      simp only [trail]
      by_cases hg : G n = true
      · rw [if_pos hg, Nat.add_le_add_iff_right, ih p]
        constructor
        · rintro ⟨h1, h2⟩
          refine ⟨by omega, fun k h3 h4 => ?_⟩
          rcases Nat.lt_succ_iff_lt_or_eq.1 h4 with h | rfl
          · exact h2 k (by omega) h
          · exact hg
        · rintro ⟨h1, h2⟩
          exact ⟨by omega, fun k h3 h4 => h2 k (by omega) (by omega)⟩
      · rw [if_neg hg]
        constructor
        · intro h; omega
        · rintro ⟨h1, h2⟩
          exact absurd (h2 n (by omega) (by omega)) hg

/-! ## The loop -/

/-- what the metrics of sweep `k` say -/
noncomputable def metricOf (p : Para) (outs : ℕ → Sweep) (k : ℕ) : Metric :=
  ⟨k, p.tau, (outs k).e0, (outs k).en, (outs k).trunc, (outs k).elapsed,
    decide (0 < k) && (decide ((outs k).dmin ≠ (outs (k - 1)).dmin) ||
      decide ((outs k).dmax ≠ (outs (k - 1)).dmax))⟩

/-- last value of `f` over the first `n` sweeps -/
def lastOf {α : Type*} (f : Sweep → α) (outs : ℕ → Sweep) (n : ℕ) : Option α :=
  if n = 0 then none else some (f (outs (n - 1)))

/-- the executor after `n` sweeps -/
noncomputable def execOf (p : Para) (outs : ℕ → Sweep) (conv : Bool) (n : ℕ) : Exec :=
  ⟨⟨conv, if conv then .converged else .maxSteps, n, lastOf (·.e0) outs n, lastOf (·.e0) outs n,
    lastOf (·.en) outs n⟩, (List.range n).map (metricOf p outs),
    if p.observer then (List.range n).map (metricOf p outs) else []⟩

def dimsOf (outs : ℕ → Sweep) (n : ℕ) : ℕ × ℕ :=
  if n = 0 then (0, 0) else ((outs (n - 1)).dmin, (outs (n - 1)).dmax)

theorem start_eq (p : Para) (outs : ℕ → Sweep) :
    (⟨⟨false, .maxSteps, 0, none, none, none⟩, [], []⟩ : Exec) = execOf p outs false 0 := by
  simp [execOf, lastOf]

theorem changed_eq (outs : ℕ → Sweep) (k : ℕ) :
    (decide (0 < k) && (decide ((outs k).dmin ≠ (dimsOf outs k).1) ||
      decide ((outs k).dmax ≠ (dimsOf outs k).2))) =
    (decide (0 < k) && (decide ((outs k).dmin ≠ (outs (k - 1)).dmin) ||
      decide ((outs k).dmax ≠ (outs (k - 1)).dmax))) := by
  rcases Nat.eq_zero_or_pos k with rfl | hk
  · rfl
  · rw [dimsOf, if_neg hk.ne']

theorem exec_next (p : Para) (outs : ℕ → Sweep) (k : ℕ) :
    (⟨⟨false, .maxSteps, k + 1, some (outs k).e0, some (outs k).e0, some (outs k).en⟩,
      (List.range k).map (metricOf p outs) ++ [metricOf p outs k],
      if p.observer then (if p.observer then (List.range k).map (metricOf p outs) else []) ++
        [metricOf p outs k]
      else (if p.observer then (List.range k).map (metricOf p outs) else [])⟩ : Exec) =
      execOf p outs false (k + 1) := by
  have hr : (List.range (k + 1)).map (metricOf p outs) =
      (List.range k).map (metricOf p outs) ++ [metricOf p outs k] := by
    rw [List.range_succ, List.map_append]; rfl
  simp only [execOf, lastOf, Nat.succ_ne_zero, if_false, Nat.add_sub_cancel, hr,
    Bool.false_eq_true]
  congr 1
  by_cases ho : p.observer = true
  · simp only [ho, if_true]
  · simp only [ho, if_false]; rfl

/-- without advanced stop -/
theorem loop_plain (p : Para) (eps : ℝ) (outs : ℕ → Sweep) (hp : p.stop = none) (n : ℕ) :
    (List.range n).foldl (step p eps outs) ⟨execOf p outs false 0, 0, none, (0, 0), false⟩ =
      ⟨execOf p outs false n, 0, none, dimsOf outs n, false⟩ := by
  induction n with
  | zero => rfl
  | succ n ih =>
    rw [List.range_succ, List.foldl_append, ih, List.foldl_cons, List.foldl_nil, step]
    simp only [Bool.false_eq_true, if_false, hp]
    have := exec_next p outs n
    simp only [execOf, Bool.false_eq_true, if_false] at this ⊢
    rw [changed_eq]
    simp only [metricOf] at this ⊢
    rw [this]
    rfl

/-- with advanced stop, before and after the streak is complete -/
theorem loop_stop (p : Para) (eps : ℝ) (outs : ℕ → Sweep) (c : Config) (hp : p.stop = some c)
    (hc : 0 < c.patience) (n : ℕ) :
    ((∀ m ≤ n, trail (gateAt c eps outs) m < c.patience) →
      (List.range n).foldl (step p eps outs) ⟨execOf p outs false 0, 0, none, (0, 0), false⟩ =
        ⟨execOf p outs false n, trail (gateAt c eps outs) n, prevOf outs n, dimsOf outs n, false⟩) ∧
    (∀ m ≤ n, c.patience ≤ trail (gateAt c eps outs) m →
      (∀ m' < m, trail (gateAt c eps outs) m' < c.patience) →
      ((List.range n).foldl (step p eps outs)
        ⟨execOf p outs false 0, 0, none, (0, 0), false⟩).exec = execOf p outs true m ∧
      ((List.range n).foldl (step p eps outs)
        ⟨execOf p outs false 0, 0, none, (0, 0), false⟩).stopped = true) := by
  induction n with
  | zero =>
    refine ⟨fun _ => rfl, fun m hm h => ?_⟩
    obtain rfl : m = 0 := by omega
    simp only [trail] at h
    omega
  | succ n ih =>
    rw [List.range_succ, List.foldl_append, List.foldl_cons, List.foldl_nil]
    have hnext := exec_next p outs n
    have hstep : ∀ st, st = (⟨execOf p outs false n, trail (gateAt c eps outs) n, prevOf outs n,
        dimsOf outs n, false⟩ : Loop) → step p eps outs st n =
        if c.patience ≤ trail (gateAt c eps outs) (n + 1) then
          ⟨execOf p outs true (n + 1), trail (gateAt c eps outs) (n + 1), prevOf outs n,
            dimsOf outs (n + 1), true⟩
        else ⟨execOf p outs false (n + 1), trail (gateAt c eps outs) (n + 1), prevOf outs (n + 1),
            dimsOf outs (n + 1), false⟩ := by
      rintro st rfl
      rw [step]
      simp only [Bool.false_eq_true, if_false, hp, ge_iff_le]
      have hg : gate c eps ((execOf p outs false n).summary.executed + 1) (prevOf outs n)
          ((outs n).e0, (outs n).lambdas) = gateAt c eps outs n := rfl
      rw [hg]
      have ht : (if gateAt c eps outs n = true then trail (gateAt c eps outs) n + 1 else 0) =
          trail (gateAt c eps outs) (n + 1) := rfl
      rw [ht]
      have e : (⟨⟨(execOf p outs false n).summary.converged, (execOf p outs false n).summary.stop,
          (execOf p outs false n).summary.executed + 1, some (outs n).e0, some (outs n).e0,
          some (outs n).en⟩,
          (execOf p outs false n).metrics ++ [⟨n, p.tau, (outs n).e0, (outs n).en, (outs n).trunc,
            (outs n).elapsed, decide (0 < n) && (decide ((outs n).dmin ≠ (dimsOf outs n).1) ||
              decide ((outs n).dmax ≠ (dimsOf outs n).2))⟩],
          if p.observer = true then (execOf p outs false n).observed ++ [⟨n, p.tau, (outs n).e0,
            (outs n).en, (outs n).trunc, (outs n).elapsed, decide (0 < n) &&
              (decide ((outs n).dmin ≠ (dimsOf outs n).1) ||
              decide ((outs n).dmax ≠ (dimsOf outs n).2))⟩]
          else (execOf p outs false n).observed⟩ : Exec) = execOf p outs false (n + 1) := by
        rw [changed_eq, ← hnext]
        rfl
      have em := congrArg Exec.metrics e
      have eo := congrArg Exec.observed e
      dsimp only at em eo
      rw [em, eo]
      rfl
    constructor
    · intro h
      rw [hstep _ (ih.1 fun m hm => h m (by omega)), if_neg (not_le.2 (h (n + 1) le_rfl))]
    · intro m hm hge hlt
      rcases Nat.lt_succ_iff_lt_or_eq.1 (Nat.lt_succ_of_le hm) with h | rfl
      · have := ih.2 m (by omega) hge hlt
        rw [step, if_pos this.2]
        exact this
      · rw [hstep _ (ih.1 fun m' hm' => hlt m' (by omega)), if_pos hge]
        exact ⟨rfl, rfl⟩

end QLPeps.UpdateLoop
