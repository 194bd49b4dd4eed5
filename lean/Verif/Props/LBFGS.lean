import Verif.Model.LBFGS
import Mathlib.Tactic

/-!
# Property C35: L-BFGS directions are descent directions
-/

namespace QLPeps.LBFGS

variable {E : Type*} [NormedAddCommGroup E] [InnerProductSpace ℝ E]

local notation "⟪" x ", " y "⟫" => inner ℝ x y

/-- a stored pair is good: its curvature is above the threshold and `rho` is its inverse -/
def Good (p : Params) (q : Pair E) : Prop := p.minCurvature < ⟪q.s, q.y⟫ ∧ q.rho = 1 / ⟪q.s, q.y⟫

/-- the memory invariant -/
def Inv (p : Params) (m : Mem E) : Prop :=
  (∀ q ∈ m.history, Good p q) ∧ m.history.length ≤ p.historySize

theorem inv_reset (p : Params) : Inv p (Mem.reset : Mem E) :=
  ⟨fun _ h => by simp [Mem.reset] at h, by simp [Mem.reset]⟩

theorem inv_update (p : Params) (m m' : Mem E) (w g : E) (h : Inv p m)
    (hu : updateFromAnchor p m w g = some m') : Inv p m' := by
  unfold updateFromAnchor at hu
  cases ha : m.anchor with
  | none => rw [ha] at hu; cases hu; exact h
  | some a =>
    obtain ⟨a, ga⟩ := a
    rw [ha] at hu
    dsimp only at hu
    split_ifs at hu with h1 h2
    · cases hu; exact h
    · cases hu
      refine ⟨fun q hq => ?_, ?_⟩
      · have := List.mem_of_mem_drop hq
        rcases List.mem_append.1 this with hq | hq
        · exact h.1 q hq
        · rw [List.mem_singleton] at hq
          subst hq
          exact ⟨not_le.1 h2, rfl⟩
      · show (push _ _ _).length ≤ _
        unfold push
        rw [List.length_drop]; omega

/-- **C35.** Whatever sequence of evaluations, acceptances, resamplings, rollbacks and resets is executed,
every stored pair has curvature above the threshold, `rho` is the inverse curvature, and at most
`history_size` pairs are stored. -/
theorem C35_memory (p : Params) (ops : List (Op E)) (f : Full E) (h : runOps p ops = some f) :
    (∀ q ∈ f.mem.history, p.minCurvature < ⟪q.s, q.y⟫ ∧ q.rho = 1 / ⟪q.s, q.y⟫) ∧
      f.mem.history.length ≤ p.historySize := by
  suffices H : ∀ ops f, runOps p ops = some f →
      Inv p f.mem ∧ (∀ m, f.prev = some m → Inv p m) ∧ Inv p f.iterStart from (H ops f h).1
  clear h f ops
  intro ops
  induction ops using List.reverseRecOn with
  | nil =>
    intro f h
    cases h
    exact ⟨inv_reset p, fun m hm => by simp at hm, inv_reset p⟩
  | append_singleton ops o ih =>
    intro f h
    unfold runOps at h
    rw [List.foldl_append] at h
    change (runOps p ops).bind (fun f => o.apply p f) = some f at h
    obtain ⟨f₀, h0, h1⟩ := Option.bind_eq_some_iff.1 h
    obtain ⟨i1, i2, i3⟩ := ih f₀ h0
    cases o with
    | reset => cases h1; exact ⟨inv_reset p, fun m hm => by simp at hm, i3⟩
    | iterStart => cases h1; exact ⟨i1, i2, i1⟩
    | evaluated w g =>
      obtain ⟨m, hm, rfl⟩ := Option.map_eq_some_iff.1 h1
      exact ⟨inv_update p _ _ w g i1 hm, i2, i3⟩
    | resample => cases h1; exact ⟨i3, i2, i3⟩
    | rollback =>
      unfold Op.apply at h1
      cases hp : f₀.prev with
      | none => rw [hp] at h1; cases h1; exact ⟨inv_reset p, fun m hm => by simp at hm, i3⟩
      | some m => rw [hp] at h1; cases h1; exact ⟨i2 m hp, fun m' hm' => by cases hm'; exact i2 m hp, i3⟩
    | accepted en w g =>
      cases h1
      refine ⟨i1, fun m hm => ?_, i3⟩
      change (if en then some f₀.mem else f₀.prev) = some m at hm
      split_ifs at hm
      · cases hm; exact i1
      · exact i2 m hm

/-! ## The two loops -/

/-- the two loops as one recursion over the history, oldest pair last -/
noncomputable def nested (γ : ℝ) : List (Pair E) → E → E
  | [], q => γ • q
  | pr :: older, q =>
    let a := pr.rho * ⟪pr.s, q⟫
    let r := nested γ older (q - a • pr.y)
    r + (a - pr.rho * ⟪pr.y, r⟫) • pr.s

theorem firstLoop_append (h : List (Pair E)) (pr : Pair E) (q : E) :
    firstLoop (h ++ [pr]) q =
      ((firstLoop h (q - (pr.rho * ⟪pr.s, q⟫) • pr.y)).1,
       (firstLoop h (q - (pr.rho * ⟪pr.s, q⟫) • pr.y)).2 ++ [pr.rho * ⟪pr.s, q⟫]) := by
  have key : ∀ (h : List (Pair E)) (q : E) (l : List ℝ),
      h.foldr (fun pr acc =>
        let a := pr.rho * ⟪pr.s, acc.1⟫
        (acc.1 + (-a) • pr.y, a :: acc.2)) (q, l) =
      ((firstLoop h q).1, (firstLoop h q).2 ++ l) := by
    intro h
    induction h with
    | nil => intro q l; simp [firstLoop]
    | cons x h ih =>
      intro q l
      rw [List.foldr_cons, ih]
      simp [firstLoop]
  have e : q + (-(pr.rho * ⟪pr.s, q⟫)) • pr.y = q - (pr.rho * ⟪pr.s, q⟫) • pr.y := by
    rw [neg_smul, ← sub_eq_add_neg]
  rw [← e, ← key]
  conv_lhs => unfold firstLoop
  rw [List.foldr_append]
  rfl

theorem firstLoop_length (h : List (Pair E)) (q : E) : (firstLoop h q).2.length = h.length := by
  induction h using List.reverseRecOn generalizing q with
  | nil => rfl
  | append_singleton h pr ih => rw [firstLoop_append]; simp [ih]

theorem loops_eq_nested (γ : ℝ) (h : List (Pair E)) (q : E) :
    secondLoop (h.zip (firstLoop h q).2) (γ • (firstLoop h q).1) = nested γ h.reverse q := by
  induction h using List.reverseRecOn generalizing q with
  | nil => rfl
  | append_singleton h pr ih =>
    rw [firstLoop_append, List.reverse_append, List.reverse_singleton, List.singleton_append]
    dsimp only
    rw [List.zip_append (firstLoop_length _ _).symm]
    unfold secondLoop
    rw [List.foldl_append]
    have := ih (q - (pr.rho * ⟪pr.s, q⟫) • pr.y)
    unfold secondLoop at this
    rw [this]
    rfl

/-- the quadratic form of the recursion -/
theorem nested_pos (γ : ℝ) (hγ : 0 < γ) (h : List (Pair E))
    (hg : ∀ q ∈ h, 0 < ⟪q.s, q.y⟫ ∧ q.rho = 1 / ⟪q.s, q.y⟫) (q : E) (hq : q ≠ 0) :
    0 < ⟪q, nested γ h q⟫ := by
  induction h generalizing q with
  | nil =>
    show 0 < ⟪q, γ • q⟫
    rw [inner_smul_right]
    exact mul_pos hγ (real_inner_self_pos.2 hq)
  | cons pr h ih =>
    obtain ⟨hc, hr⟩ := hg pr List.mem_cons_self
    have hrho : 0 < pr.rho := by rw [hr]; positivity
    set a := pr.rho * ⟪pr.s, q⟫ with ha
    set r := nested γ h (q - a • pr.y) with hrdef
    have e : ⟪q, nested γ (pr :: h) q⟫ = ⟪q - a • pr.y, r⟫ + a * a / pr.rho := by
      show ⟪q, r + (a - pr.rho * ⟪pr.y, r⟫) • pr.s⟫ = _
      have e1 : ⟪q, pr.s⟫ = a / pr.rho := by
        rw [ha, mul_div_cancel_left₀ _ hrho.ne', real_inner_comm]
      rw [inner_add_right, inner_smul_right, inner_sub_left, real_inner_smul_left, e1]
      field_simp
      ring
    rw [e]
    have ih' := fun q => ih (fun x hx => hg x (List.mem_cons_of_mem _ hx)) q
    by_cases h0 : q - a • pr.y = 0
    · have hqa : q = a • pr.y := sub_eq_zero.1 h0
      have : a ≠ 0 := fun h => hq (by rw [hqa, h, zero_smul])
      rw [h0, inner_zero_left, zero_add]
      have : 0 < a * a := mul_self_pos.2 this
      positivity
    · have h1 := ih' _ h0
      have : 0 ≤ a * a / pr.rho := div_nonneg (mul_self_nonneg a) hrho.le
      linarith

theorem gamma_pos (p : Params) (hm : 0 ≤ p.minCurvature) (he : 0 ≤ p.machEps) (last : Pair E) :
    0 < gamma p last := by
  unfold gamma
  split_ifs with h
  · exact div_pos (hm.trans_lt h.2) (he.trans_lt h.1)
  · exact one_pos

theorem twoLoop_eq (p : Params) (h : List (Pair E)) (g : E) :
    ∃ γ, (∀ last, h.getLast? = some last → γ = gamma p last) ∧ (h = [] → γ = 1) ∧
      twoLoop p h g = nested γ h.reverse g := by
  unfold twoLoop
  cases hl : h.getLast? with
  | none =>
    have : h = [] := List.getLast?_eq_none_iff.1 hl
    subst this
    refine ⟨1, fun _ h => by simp at h, fun _ => rfl, ?_⟩
    show g = (1 : ℝ) • g
    rw [one_smul]
  | some last =>
    refine ⟨gamma p last, fun l h => by cases h; rfl, fun h => by simp [h] at hl, ?_⟩
    exact loops_eq_nested _ _ _

theorem twoLoop_pos (p : Params) (hm : 0 ≤ p.minCurvature) (he : 0 ≤ p.machEps) (h : List (Pair E))
    (hg : ∀ q ∈ h, Good p q) (g : E) (h0 : g ≠ 0) : 0 < ⟪g, twoLoop p h g⟫ := by
  obtain ⟨γ, h1, h2, e⟩ := twoLoop_eq p h g
  rw [e]
  refine nested_pos γ ?_ _ (fun q hq => ?_) g h0
  · cases hl : h.getLast? with
    | none => rw [h2 (List.getLast?_eq_none_iff.1 hl)]; exact one_pos
    | some last => rw [h1 last hl]; exact gamma_pos p hm he last
  · obtain ⟨a, b⟩ := hg q (List.mem_reverse.1 hq)
    exact ⟨hm.trans_lt a, b⟩

/-- **C35.** After any history of operations, for every nonzero gradient the search direction has negative
inner product with the gradient (threshold `min_curvature ≥ 0`, as in the default `1e-12`). -/
theorem C35_descent (p : Params) (hm : 0 ≤ p.minCurvature) (he : 0 ≤ p.machEps) (ops : List (Op E))
    (f : Full E) (h : runOps p ops = some f) (g d : E) (h0 : g ≠ 0)
    (hd : direction p f.mem.history g = some d) : ⟪g, d⟫ < 0 := by
  have hpos := twoLoop_pos p hm he f.mem.history (C35_memory p ops f h).1 g h0
  unfold direction at hd
  by_cases h1 : p.historySize = 0
  · rw [if_pos h1] at hd; simp at hd
  rw [if_neg h1] at hd
  simp only [Option.some.injEq] at hd
  have hneg : ⟪g, (-1 : ℝ) • twoLoop p f.mem.history g⟫ < 0 := by
    rw [inner_smul_right]; linarith
  subst hd
  split_ifs with h2 h3
  · rw [inner_smul_right]
    exact mul_neg_of_pos_of_neg (div_pos h2 h3.2) hneg
  · exact hneg
  · exact hneg

/-- **C35.** Hence the dispatch never has to reset: for every nonzero gradient it uses the quasi-Newton
direction and keeps the memory. -/
theorem C35_never_resets (p : Params) (hm : 0 ≤ p.minCurvature) (he : 0 ≤ p.machEps)
    (hs : p.historySize ≠ 0) (ops : List (Op E)) (f : Full E) (h : runOps p ops = some f) (g : E)
    (h0 : g ≠ 0) :
    ∃ d, direction p f.mem.history g = some d ∧
      dispatchDirection p f.mem g = some (d, ⟪g, d⟫, f.mem) ∧ ⟪g, d⟫ < 0 := by
  obtain ⟨d, hd⟩ : ∃ d, direction p f.mem.history g = some d := by
    unfold direction; rw [if_neg hs]; exact ⟨_, rfl⟩
  have := C35_descent p hm he ops f h g d h0 hd
  refine ⟨d, hd, ?_, this⟩
  unfold dispatchDirection
  rw [hd]
  simp [not_le.2 this]

/-- **C35.** The direction norm respects the configured cap. -/
theorem C35_direction_norm (p : Params) (h : List (Pair E)) (g d : E) (hc : 0 < p.maxDirectionNorm)
    (hd : direction p h g = some d) : ‖d‖ ≤ p.maxDirectionNorm := by
  unfold direction at hd
  by_cases h1 : p.historySize = 0
  · rw [if_pos h1] at hd; simp at hd
  rw [if_neg h1] at hd
  simp only [Option.some.injEq] at hd
  subst hd
  rw [if_pos hc]
  split_ifs with h3
  · rw [norm_smul, Real.norm_eq_abs, abs_of_pos (div_pos hc h3.2), div_mul_cancel₀ _ h3.2.ne']
  · by_contra h4
    exact h3 ⟨not_le.1 h4, hc.trans (not_le.1 h4)⟩

/-- **C35.** The quasi-Newton map satisfies the secant condition of the newest pair: it sends the last
gradient difference to the last displacement. -/
theorem C35_secant (p : Params) (h : List (Pair E)) (q : Pair E) (hq : ⟪q.s, q.y⟫ ≠ 0)
    (hr : q.rho = 1 / ⟪q.s, q.y⟫) : twoLoop p (h ++ [q]) q.y = q.s := by
  obtain ⟨γ, _, _, e⟩ := twoLoop_eq p (h ++ [q]) q.y
  rw [e, List.reverse_append, List.reverse_singleton, List.singleton_append]
  have ha : q.rho * ⟪q.s, q.y⟫ = 1 := by rw [hr]; field_simp
  have hz : ∀ l : List (Pair E), nested γ l (0 : E) = 0 := by
    intro l
    induction l with
    | nil => simp [nested]
    | cons x l ih => simp [nested, ih]
  show nested γ h.reverse (q.y - (q.rho * ⟪q.s, q.y⟫) • q.y) + _ = _
  rw [ha, one_smul, sub_self]
  simp [hz]

/-- a nontrivial run: accept at `0` with gradient `-1`, evaluate at `1` with gradient `1`: one pair with
curvature `2`, and the direction for gradient `1` is the Newton step `-1/2` -/
def exampleParams : Params := ⟨10, 1e-12, true, 1000, 1e-8, false, 0.2, 1e-16, 1e-15⟩

example : runOps exampleParams [.accepted true (0 : ℝ) (-1), .iterStart, .evaluated 1 1] =
    some ⟨⟨[⟨1, 2, 1/2⟩], some (0, -1)⟩, some .reset, ⟨[], some (0, -1)⟩⟩ := by
  norm_num [runOps, Op.apply, updateFromAnchor, damped, exampleParams, push, Mem.reset]

example : direction exampleParams [⟨(1 : ℝ), 2, 1/2⟩] 1 = some (-1/2) := by
  norm_num [direction, twoLoop, firstLoop, secondLoop, gamma, exampleParams]

end QLPeps.LBFGS
