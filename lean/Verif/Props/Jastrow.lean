import Verif.Lemmas.Jastrow

/-! # Properties C12, C13, C65: the Jastrow factor -/

namespace QLPeps.Jastrow

open QLPeps.Spec QLPeps.Updaters

/-! ## C12 -/

/-- **C12.** For every number of sites, from the freshly constructed factor on, every `Set(i,j,x)`
with distinct sites succeeds (its slot lies inside the storage), keeps the size of the storage, makes
`(i,j)` and `(j,i)` read `x`, and leaves every other pair's value as it was. -/
theorem C12_set_get {K : Type*} [Zero K] (N : ℕ) (v : List K) (hv : v.length = (N * (N - 1)) / 2)
    (i j : ℕ) (hi : i < N) (hj : j < N) (hne : i ≠ j) (x : K) :
    ∃ v', set N i j x v = some v' ∧ v'.length = (N * (N - 1)) / 2 ∧
      get N i j v' = some x ∧ get N j i v' = some x ∧
      ∀ k l, k < N → l < N → ¬ (k = i ∧ l = j) → ¬ (k = j ∧ l = i) →
        get N k l v' = get N k l v := by
  have hk := pairIdx_lt N i j hi hj hne
  rw [← hv] at hk
  refine ⟨v.set (pairIdx N i j) x, ?_, by simpa using hv, ?_, ?_, ?_⟩
  · show (if pairIdx N i j < v.length then some (v.set (pairIdx N i j) x) else none) = _
    rw [if_pos hk]
  · show (if i = j then _ else (v.set (pairIdx N i j) x)[pairIdx N i j]?) = _
    rw [if_neg hne, List.getElem?_set_self hk]
  · show (if j = i then _ else (v.set (pairIdx N i j) x)[pairIdx N j i]?) = _
    have : pairIdx N j i = pairIdx N i j := by
      unfold pairIdx; split_ifs <;> first | rfl | omega
    rw [if_neg (Ne.symm hne), this, List.getElem?_set_self hk]
  · intro k l hk' hl' h1 h2
    show (if k = l then _ else (v.set (pairIdx N i j) x)[pairIdx N k l]?)
      = (if k = l then _ else v[pairIdx N k l]?)
    by_cases hkl : k = l
    · rw [if_pos hkl, if_pos hkl]
    · rw [if_neg hkl, if_neg hkl, List.getElem?_set_ne]
      intro h
      rcases pairIdx_inj N i j k l hi hj hne hk' hl' hkl h with h' | h'
      · exact h1 h'
      · exact h2 h'

/-- **C12.** A fresh factor has the size the previous theorem asks for, and reads zero everywhere. -/
theorem C12_init {K : Type*} [Zero K] (N : ℕ) :
    (init N : List K).length = (N * (N - 1)) / 2 ∧
      ∀ i j, i < N → j < N → get N i j (init N : List K) = some 0 := by
  refine ⟨by simp [init], fun i j hi hj => ?_⟩
  show (if i = j then some 0 else (init N : List K)[pairIdx N i j]?) = _
  by_cases h : i = j
  · rw [if_pos h]
  · rw [if_neg h]
    have := pairIdx_lt N i j hi hj h
    simp [init, this]

/-- a three-site factor: setting `{2,0}` is visible from both sides and nowhere else -/
example : (set 3 2 0 (7 : ℕ) (init 3)).bind (get 3 0 2) = some 7
    ∧ (set 3 2 0 (7 : ℕ) (init 3)).bind (get 3 1 2) = some 0 := by decide

/-- **C12.** `Fill(f)` makes every pair `i < j` read `f(i, j)`, from both sides. -/
theorem C12_fill {K : Type*} [Zero K] (N : ℕ) (f : ℕ → ℕ → K) (v : List K)
    (hv : v.length = (N * (N - 1)) / 2) :
    ∃ v', fill N f v = some v' ∧ v'.length = (N * (N - 1)) / 2 ∧
      ∀ i j, i < j → j < N → get N i j v' = some (f i j) ∧ get N j i v' = some (f i j) := by
  -- inner loop over `j`
  have inner : ∀ (i : ℕ), i < N → ∀ (m : ℕ), i + 1 + m ≤ N → ∀ v : List K,
      v.length = (N * (N - 1)) / 2 →
      ∃ v', (List.range' (i + 1) m).foldl (fun o j => match o with
          | some v => set N i j (f i j) v
          | none => none) (some v) = some v' ∧ v'.length = (N * (N - 1)) / 2 ∧
        (∀ j, i < j → j < i + 1 + m → get N i j v' = some (f i j) ∧ get N j i v' = some (f i j)) ∧
        ∀ k l, k < l → l < N → (k ≠ i ∨ i + 1 + m ≤ l) →
          get N k l v' = get N k l v ∧ get N l k v' = get N l k v := by
    intro i hi m
    induction m with
    | zero => intro _ v hv; exact ⟨v, rfl, hv, fun j _ _ => by omega, fun _ _ _ _ _ => ⟨rfl, rfl⟩⟩
    | succ m ih =>
      intro hm v hv
      obtain ⟨v1, e1, l1, g1, o1⟩ := ih (by omega) v hv
      obtain ⟨v2, e2, l2, a2, b2, o2⟩ :=
        C12_set_get N v1 l1 i (i + 1 + m) hi (by omega) (by omega) (f i (i + 1 + m))
      refine ⟨v2, ?_, l2, ?_, ?_⟩
      · rw [List.range'_concat, List.foldl_append, e1]
        simp only [List.foldl_cons, List.foldl_nil, Nat.one_mul]
        exact e2
      · intro j hj1 hj2
        by_cases hj : j = i + 1 + m
        · subst hj; exact ⟨a2, b2⟩
        · rw [o2 i j hi (by omega) (by omega) (by omega), o2 j i (by omega) hi (by omega) (by omega)]
          exact g1 j hj1 (by omega)
      · intro k l hkl hl h
        rw [o2 k l (by omega) hl (by omega) (by omega), o2 l k hl (by omega) (by omega) (by omega)]
        exact o1 k l hkl hl (by omega)
  have outer : ∀ m, m ≤ N → ∃ v', (List.range m).foldl (fun o i =>
      (List.range' (i + 1) (N - (i + 1))).foldl (fun o j => match o with
        | some v => set N i j (f i j) v
        | none => none) o) (some v) = some v' ∧ v'.length = (N * (N - 1)) / 2 ∧
      ∀ i j, i < m → i < j → j < N →
        get N i j v' = some (f i j) ∧ get N j i v' = some (f i j) := by
    intro m
    induction m with
    | zero => intro _; exact ⟨v, rfl, hv, fun i j h => by omega⟩
    | succ m ih =>
      intro hm
      obtain ⟨v1, e1, l1, g1⟩ := ih (by omega)
      obtain ⟨v2, e2, l2, g2, o2⟩ := inner m (by omega) (N - (m + 1)) (by omega) v1 l1
      refine ⟨v2, ?_, l2, ?_⟩
      · rw [List.range_succ, List.foldl_append, e1]
        simpa using e2
      · intro i j h1 h2 h3
        by_cases him : i = m
        · subst him; exact g2 j h2 (by omega)
        · rw [(o2 i j h2 h3 (Or.inl him)).1, (o2 i j h2 h3 (Or.inl him)).2]
          exact g1 i j (by omega) h2 h3
  obtain ⟨v', e, l, g⟩ := outer N (le_refl N)
  exact ⟨v', e, l, fun i j h1 h2 => g i j (by omega) h1 h2⟩

example : (fill 3 (fun i j => 10 * i + j) (init 3)).bind (get 3 2 1) = some 12 := by decide

/-! ## C13 -/

/-- the density after the exchange -/
def exchanged (n : Site → ℕ) (s1 s2 : Site) : Site → ℕ :=
  fun p => if p = s1 then n s2 else if p = s2 then n s1 else n p

theorem exchanged_eq (n : Site → ℕ) (s1 s2 : Site) (h : s1 ≠ s2) :
    exchanged n s1 s2 = setSite (setSite n s1 (n s2)) s2 (n s1) := by
  funext p
  unfold exchanged setSite
  by_cases h1 : p = s1
  · subst h1; simp [h]
  · simp [h1]

/-- **C13 (what the code computes).** For every symmetric coupling matrix, every configuration and
every pair of distinct sites of which one holds a particle and the other does not, the factor used by
the exchange is the true ratio `exp(J(new) - J(old))` times `exp(v₁₂)`. -/
theorem C13_exchange_ratio_error (Ly Lx : ℕ) (v : ℕ → ℕ → ℝ) (hsym : ∀ i j, v i j = v j i)
    (hd : ∀ i, v i i = 0) (n : Site → ℕ) (s1 s2 : Site) (h1 : InLattice Ly Lx s1)
    (h2 : InLattice Ly Lx s2) (hn : (n s1 = 0 ∧ n s2 = 1) ∨ (n s1 = 1 ∧ n s2 = 0)) :
    exchangeRatio Ly Lx v n s1 s2
      = some (Real.exp (exponent Ly Lx v (exchanged n s1 s2) - exponent Ly Lx v n)
          * Real.exp (v (s1.1 * Lx + s1.2) (s2.1 * Lx + s2.2))) := by
  have hne : s1 ≠ s2 := by rintro rfl; omega
  have hnn : n s1 ≠ n s2 := by omega
  unfold exchangeRatio
  rw [if_neg hnn]
  rcases hn with hn | hn
  · dsimp only
    rw [if_pos hn, exchanged_eq n s1 s2 hne,
      exponent_move Ly Lx v hsym hd n s1 s2 h1 h2 hn.1 hn.2, ← Real.exp_add]
    ring_nf
  · dsimp only
    rw [if_neg (by omega), if_pos hn]
    have : exchanged n s1 s2 = exchanged n s2 s1 := by
      funext p; unfold exchanged
      by_cases a : p = s1
      · subst a; simp [hne]
      · simp [a]
    rw [this, exchanged_eq n s2 s1 hne.symm,
      exponent_move Ly Lx v hsym hd n s2 s1 h2 h1 hn.2 hn.1, ← Real.exp_add, hsym]
    ring_nf

/-- **C13 is false.** Whenever the coupling between the two exchanged sites is not zero, the factor
is not the true ratio. -/
theorem C13_exchange_ratio_wrong (Ly Lx : ℕ) (v : ℕ → ℕ → ℝ) (hsym : ∀ i j, v i j = v j i)
    (hd : ∀ i, v i i = 0) (n : Site → ℕ) (s1 s2 : Site) (h1 : InLattice Ly Lx s1)
    (h2 : InLattice Ly Lx s2) (hn : (n s1 = 0 ∧ n s2 = 1) ∨ (n s1 = 1 ∧ n s2 = 0))
    (hv : v (s1.1 * Lx + s1.2) (s2.1 * Lx + s2.2) ≠ 0) :
    exchangeRatio Ly Lx v n s1 s2
      ≠ some (Real.exp (exponent Ly Lx v (exchanged n s1 s2) - exponent Ly Lx v n)) := by
  rw [C13_exchange_ratio_error Ly Lx v hsym hd n s1 s2 h1 h2 hn]
  intro h
  have h' := Option.some.inj h
  have hpos := Real.exp_pos (exponent Ly Lx v (exchanged n s1 s2) - exponent Ly Lx v n)
  have : Real.exp (v (s1.1 * Lx + s1.2) (s2.1 * Lx + s2.2)) = 1 := by
    exact mul_left_cancel₀ hpos.ne' (by rw [h', mul_one])
  exact hv ((Real.exp_eq_one_iff _).1 this)

/-- a concrete instance: two sites, one particle, coupling 1. The true ratio is 1, the code uses
`exp 1`. -/
example : exchangeRatio 1 2 (fun i j => if i = j then 0 else 1)
      (fun p => if p = (0, 1) then 1 else 0) (0, 0) (0, 1)
    ≠ some (Real.exp (exponent 1 2 (fun i j => if i = j then 0 else 1)
        (exchanged (fun p => if p = (0, 1) then 1 else 0) (0, 0) (0, 1))
        - exponent 1 2 (fun i j => if i = j then 0 else 1) (fun p => if p = (0, 1) then 1 else 0))) :=
  C13_exchange_ratio_wrong 1 2 _ (by intro i j; simp [eq_comm]) (by simp) _ (0, 0) (0, 1)
    (by constructor <;> decide) (by constructor <;> decide) (by simp) (by norm_num)

/-- **C13, the part that holds.** The factor is the true ratio for every exchange between sites that
are not coupled to each other, and for every exchange that does not change the densities. Missing:
exchanges of a particle and a hole on sites with `v₁₂ ≠ 0`, for which the claim is false. -/
theorem C13_exchange_ratio_partial (Ly Lx : ℕ) (v : ℕ → ℕ → ℝ) (hsym : ∀ i j, v i j = v j i)
    (hd : ∀ i, v i i = 0) (n : Site → ℕ) (hn : ∀ p, n p ≤ 1) (s1 s2 : Site)
    (h1 : InLattice Ly Lx s1) (h2 : InLattice Ly Lx s2)
    (hv : n s1 = n s2 ∨ v (s1.1 * Lx + s1.2) (s2.1 * Lx + s2.2) = 0) :
    exchangeRatio Ly Lx v n s1 s2
      = some (Real.exp (exponent Ly Lx v (exchanged n s1 s2) - exponent Ly Lx v n)) := by
  by_cases hnn : n s1 = n s2
  · have : exchanged n s1 s2 = n := by
      funext p; unfold exchanged
      split_ifs with a b
      · rw [a, hnn]
      · rw [b, hnn]
      · rfl
    simp [exchangeRatio, hnn, this]
  · have hv' := hv.resolve_left hnn
    have := hn s1
    have := hn s2
    rw [C13_exchange_ratio_error Ly Lx v hsym hd n s1 s2 h1 h2 (by omega), hv', Real.exp_zero, mul_one]

/-- **C13, consequence.** The factors of a move and of its reversal multiply to `exp(2 v₁₂)`
instead of 1: with `v₁₂ ≠ 0` the ratios are not the ratios of any wave function. -/
theorem C13_forward_backward (Ly Lx : ℕ) (v : ℕ → ℕ → ℝ) (hsym : ∀ i j, v i j = v j i)
    (hd : ∀ i, v i i = 0) (n : Site → ℕ) (s1 s2 : Site) (h1 : InLattice Ly Lx s1)
    (h2 : InLattice Ly Lx s2) (hn : n s1 = 0 ∧ n s2 = 1) :
    ∃ a b, exchangeRatio Ly Lx v n s1 s2 = some a ∧
      exchangeRatio Ly Lx v (exchanged n s1 s2) s1 s2 = some b ∧
      a * b = Real.exp (2 * v (s1.1 * Lx + s1.2) (s2.1 * Lx + s2.2)) := by
  have hne : s1 ≠ s2 := by rintro rfl; omega
  have e1 : exchanged n s1 s2 s1 = 1 := by simp [exchanged, hn.2]
  have e2 : exchanged n s1 s2 s2 = 0 := by simp [exchanged, hne.symm, hn.1]
  have e3 : exchanged (exchanged n s1 s2) s1 s2 = n := by
    funext p
    by_cases a : p = s1
    · subst a; simp [exchanged, hne.symm]
    · by_cases b : p = s2
      · subst b; simp [exchanged, hne.symm]
      · simp [exchanged, a, b]
  refine ⟨_, _, C13_exchange_ratio_error Ly Lx v hsym hd n s1 s2 h1 h2 (Or.inl hn),
    C13_exchange_ratio_error Ly Lx v hsym hd _ s1 s2 h1 h2 (Or.inr ⟨e1, e2⟩), ?_⟩
  rw [e3]
  rw [← Real.exp_add, ← Real.exp_add, ← Real.exp_add]
  ring_nf

/-- **C13, local energy.** The Jastrow-dressed t-J hopping energy of a bond with exactly one particle
is `-t · ratio · exp(J(new) - J(old))` times the same spurious `exp(v₁₂)`. -/
theorem C13_hop_energy_error (Ly Lx : ℕ) (v : ℕ → ℕ → ℝ) (hsym : ∀ i j, v i j = v j i)
    (hd : ∀ i, v i i = 0) (c : Site → ℕ) (n : Site → ℕ) (hc : ∀ p, n p = particles (c p))
    (t : ℝ) (ratio : ℂ) (s1 s2 : Site) (h1 : InLattice Ly Lx s1) (h2 : InLattice Ly Lx s2)
    (hone : (c s1 = 2 ∧ c s2 ≠ 2) ∨ (c s1 ≠ 2 ∧ c s2 = 2)) :
    hopEnergy Ly Lx v n t ratio (c s1) s1 s2
      = -(t : ℂ) * ratio
        * (Real.exp (exponent Ly Lx v (exchanged n s1 s2) - exponent Ly Lx v n) : ℂ)
        * (Real.exp (v (s1.1 * Lx + s1.2) (s2.1 * Lx + s2.2)) : ℂ) := by
  have hn : (n s1 = 0 ∧ n s2 = 1) ∨ (n s1 = 1 ∧ n s2 = 0) := by
    rw [hc, hc]; unfold particles
    rcases hone with h | h <;> simp [h]
  have key := C13_exchange_ratio_error Ly Lx v hsym hd n s1 s2 h1 h2 hn
  have : exchangeRatio Ly Lx v n s1 s2 = some (if c s1 = 2
      then Real.exp (field Ly Lx v n s1 - field Ly Lx v n s2)
      else Real.exp (field Ly Lx v n s2 - field Ly Lx v n s1)) := by
    unfold exchangeRatio
    rw [hc, hc]; unfold particles
    rcases hone with h | h <;> simp [h]
  rw [this] at key
  unfold hopEnergy
  dsimp only
  rw [Option.some.inj key]
  push_cast
  ring

/-! ## C65 -/

/-- **C65.** The stored density always describes the stored t-J configuration: if the two agree
before a Jastrow-dressed exchange then the exchange does not abort, and they agree afterwards,
whatever the couplings, amplitudes, environments and random numbers; the exchange only permutes the
contents of the two sites. -/
theorem C65_density_in_sync {A Γ : Type*} (Ly Lx : ℕ) (v : ℕ → ℕ → ℝ) (C : Contractor A Γ)
    (ab : A → ℝ) (ξ : ℕ → ℝ) (s1 s2 : Site) (d : Orient) (w : Dressed A Γ)
    (hne : s1 ≠ s2) (hw : ∀ p, w.density p = particles (w.walker.config p)) :
    ∃ w' b, exchange Ly Lx v C ab ξ s1 s2 d w = some (w', b) ∧
      (∀ p, w'.density p = particles (w'.walker.config p)) ∧
      (b = false → w'.walker.config = w.walker.config) ∧
      (b = true → w'.walker.config = exchanged w.walker.config s1 s2) := by
  unfold exchange
  dsimp only
  by_cases hc : w.walker.config s1 = w.walker.config s2
  · rw [if_pos hc]
    exact ⟨w, false, rfl, hw, fun _ => rfl, fun h => by simp at h⟩
  · rw [if_neg hc]
    have hr : ∃ r, exchangeRatio Ly Lx v w.density s1 s2 = some r := by
      unfold exchangeRatio
      rw [hw, hw]; unfold particles
      by_cases a : w.walker.config s1 = 2 <;> by_cases b : w.walker.config s2 = 2 <;> simp [a, b]
    obtain ⟨r, hr⟩ := hr
    rw [hr]
    dsimp only
    generalize (w.walker.draws + if 1 ≤ ab (C.nnTrace w.walker.env w.walker.config s1 s2 d
      (w.walker.config s2) (w.walker.config s1)) * |r| / ab w.walker.amp then 0 else 1) = k
    split_ifs with hacc
    all_goals refine ⟨_, _, rfl, ?_, ?_, ?_⟩
    all_goals try (intro h; simp at h; done)
    · intro p
      simp only [updateLocal, List.foldl_cons, List.foldl_nil, updateSingleSite, setSite]
      by_cases a : p = s2
      · subst a; simp [hw]
      · by_cases b : p = s1
        · subst b; simp [hw, a]
        · simp [a, b, hw]
    · intro _
      rw [exchanged_eq _ _ _ hne]
      simp [updateLocal, updateSingleSite]
    · exact hw
    · intro _; rfl

/-- the hypothesis is met by the configuration (up, empty) with densities (1, 0), and there the
exchange really is accepted -/
example : ∃ w', exchange 1 2 (fun _ _ => 0)
    (⟨fun _ _ _ _ _ _ _ => 1, fun _ _ _ _ _ _ _ _ _ => 1, fun _ _ _ => (), fun _ _ _ => (),
      fun _ _ _ _ => (), fun _ _ _ _ _ => (), fun _ _ _ => (), fun _ _ _ => (), fun _ _ _ => ()⟩ :
      Contractor ℝ Unit)
    (fun x => |x|) (fun _ => 0) (0, 0) (0, 1) Orient.horizontal
    ⟨⟨fun p => if p = (0, 0) then 0 else 2, 1, (), 0⟩, fun p => if p = (0, 0) then 1 else 0⟩
    = some (w', true) := by
  simp [exchange, exchangeRatio, field, Configuration.forCells]

end QLPeps.Jastrow
