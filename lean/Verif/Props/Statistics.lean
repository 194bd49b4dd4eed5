import Verif.Lemmas.Statistics

/-! # Properties C19–C22, C45, C60: statistics of the samples and engine arithmetic -/

namespace QLPeps.Statistics

variable {𝕜 : Type*} [RCLike 𝕜]

/-! ## C19 -/

/-- **C19.** The bins of a rank with `n ≥ 1` samples are consecutive, disjoint, all of size
`b = ⌊√n⌋`, and together are the samples except for fewer than `b` trailing ones; the rank contributes
the average of each bin. -/
theorem C19_bins (xs : List 𝕜) (h : xs ≠ []) :
    ∃ bins : List (List 𝕜), ∃ dropped : List 𝕜,
      bins.flatten ++ dropped = xs ∧
      (∀ B ∈ bins, B.length = Nat.sqrt xs.length) ∧
      dropped.length < Nat.sqrt xs.length ∧
      bins ≠ [] ∧
      binMeans xs = bins.map average := by
  have hpos : 0 < xs.length := List.length_pos_iff.2 h
  have hb : 0 < Nat.sqrt xs.length := Nat.sqrt_pos.2 hpos
  refine ⟨blocks xs (Nat.sqrt xs.length) (xs.length / Nat.sqrt xs.length),
    xs.drop (xs.length / Nat.sqrt xs.length * Nat.sqrt xs.length), ?_, ?_, ?_, ?_, binMeans_eq xs h⟩
  · rw [blocks_flatten, List.take_append_drop]
  · exact blocks_length _ _ _ (Nat.div_mul_le_self _ _)
  · rw [List.length_drop]
    have := Nat.div_add_mod' xs.length (Nat.sqrt xs.length)
    have := Nat.mod_lt xs.length hb
    omega
  · have : 0 < xs.length / Nat.sqrt xs.length :=
      Nat.div_pos (Nat.sqrt_le_self _) hb
    unfold blocks
    intro hnil
    have hl := congrArg List.length hnil
    rw [List.length_map, List.length_range, List.length_nil] at hl
    omega

/-- **C19.** For every number of ranks and every common number `n ≥ 1` of samples per rank, the
reported mean is the arithmetic mean of the samples that are kept, i.e. of the first
`n - n mod ⌊√n⌋` samples of every rank. -/
theorem C19_mean (ranks : List (List 𝕜)) (n : ℕ) (hn : 0 < n) (h : ∀ xs ∈ ranks, xs.length = n)
    (hr : ranks ≠ []) :
    (meanAndBinnedError ranks).1
      = average (ranks.flatMap (fun xs => xs.take (n - n % Nat.sqrt n))) := by
  have hb : 0 < Nat.sqrt n := Nat.sqrt_pos.2 hn
  have hne : ∀ xs ∈ ranks, xs ≠ [] := fun xs hx h0 => by
    have := h xs hx; rw [h0] at this; simp at this; omega
  have e1 : ranks.flatMap binMeans
      = (ranks.flatMap (fun xs => blocks xs (Nat.sqrt n) (n / Nat.sqrt n))).map average := by
    rw [List.map_flatMap]
    apply List.flatMap_congr
    intro xs hx
    rw [binMeans_eq xs (hne xs hx), h xs hx]
  have hpos : 0 < (ranks.flatMap binMeans).length := by
    obtain ⟨xs, rest, rfl⟩ := List.exists_cons_of_ne_nil hr
    rw [List.flatMap_cons, List.length_append, binMeans_eq xs (hne xs List.mem_cons_self),
      h xs List.mem_cons_self]
    have : 0 < n / Nat.sqrt n := Nat.div_pos (Nat.sqrt_le_self _) hb
    rw [blocks, List.length_map, List.length_map, List.length_range]
    omega
  unfold meanAndBinnedError
  dsimp only
  rw [if_pos hpos]
  dsimp only
  rw [mean_eq, e1, average_averages _ (Nat.sqrt n) hb]
  · congr 1
    have hm : n - n % Nat.sqrt n = n / Nat.sqrt n * Nat.sqrt n := by
      have := Nat.div_add_mod' n (Nat.sqrt n); omega
    rw [hm]
    clear e1 hpos h hr hne
    induction ranks with
    | nil => rfl
    | cons xs ranks ih =>
      rw [List.flatMap_cons, List.flatten_append, ih, blocks_flatten, List.flatMap_cons]
  · intro B hB
    obtain ⟨xs, hx, hB'⟩ := List.mem_flatMap.1 hB
    exact blocks_length _ _ _ (by rw [h xs hx]; exact Nat.div_mul_le_self _ _) B hB'

/-- **C19.** When the bin size divides the number of samples, the reported mean is the plain mean of
all samples of all ranks. -/
theorem C19_mean_exact (ranks : List (List 𝕜)) (n : ℕ) (hn : 0 < n)
    (h : ∀ xs ∈ ranks, xs.length = n) (hr : ranks ≠ []) (hd : Nat.sqrt n ∣ n) :
    (meanAndBinnedError ranks).1 = average ranks.flatten := by
  rw [C19_mean ranks n hn h hr, Nat.mod_eq_zero_of_dvd hd, Nat.sub_zero]
  congr 1
  rw [← List.flatMap_id]
  apply List.flatMap_congr
  intro xs hx
  rw [List.take_of_length_le (by rw [h xs hx])]
  rfl

/-- **C19.** The trailing samples have no influence: only the first `n - n mod ⌊√n⌋` samples of every
rank enter the result, mean and error. -/
theorem C19_trailing_ignored (r r' : List (List 𝕜)) (n : ℕ) (hn : 0 < n)
    (h : List.Forall₂ (fun xs xs' => xs.length = n ∧ xs'.length = n ∧
      xs.take (n - n % Nat.sqrt n) = xs'.take (n - n % Nat.sqrt n)) r r') :
    meanAndBinnedError r = meanAndBinnedError r' := by
  have hb : 0 < Nat.sqrt n := Nat.sqrt_pos.2 hn
  have key : r.flatMap binMeans = r'.flatMap binMeans := by
    induction h with
    | nil => rfl
    | @cons xs xs' r r' hx _ ih =>
      obtain ⟨h1, h2, h3⟩ := hx
      rw [List.flatMap_cons, List.flatMap_cons, ih]
      congr 1
      have n1 : xs ≠ [] := by rintro rfl; simp at h1; omega
      have n2 : xs' ≠ [] := by rintro rfl; simp at h2; omega
      rw [binMeans_eq xs n1, binMeans_eq xs' n2, h1, h2]
      congr 1
      unfold blocks
      apply List.map_congr_left
      intro i hi
      have hi' := List.mem_range.1 hi
      have hm : n - n % Nat.sqrt n = n / Nat.sqrt n * Nat.sqrt n := by
        have := Nat.div_add_mod' n (Nat.sqrt n); omega
      have hle : i * Nat.sqrt n + Nat.sqrt n ≤ n - n % Nat.sqrt n := by
        rw [hm, ← Nat.succ_mul]; exact Nat.mul_le_mul_right _ hi'
      have tk : ∀ ys : List 𝕜, (ys.drop (i * Nat.sqrt n)).take (Nat.sqrt n)
          = ((ys.take (n - n % Nat.sqrt n)).drop (i * Nat.sqrt n)).take (Nat.sqrt n) := by
        intro ys
        rw [List.drop_take, List.take_take]
        congr 1
        omega
      rw [tk xs, tk xs', h3]
  unfold meanAndBinnedError
  rw [key]

/-- five samples on one rank: bins of size 2, the fifth sample is dropped -/
example : (meanAndBinnedError [[1, 2, 3, 4, (100 : ℝ)]]).1 = 5 / 2 := by
  rw [C19_mean _ 5 (by norm_num) (by simp) (by simp)]
  have : Nat.sqrt 5 = 2 := by decide +kernel
  rw [this]
  norm_num [average]

/-! ## C20 -/

/-- **C20.** `Variance` with the mean is the population variance and `StandardError` is
`sqrt(variance / (n-1))` (infinite for one sample). -/
theorem C20_definitions (l : List 𝕜) :
    variance l (mean l) = popVariance l ∧
      standardError l (mean l) = if l.length = 1 then ⊤ else ((stdError l : ℝ) : WithTop ℝ) := by
  refine ⟨by rw [mean_eq, variance_eq], ?_⟩
  unfold standardError
  rw [mean_eq, variance_eq]
  rfl

/-- **C20.** Both ways of computing the statistics over ranks agree: the one-value gather reports the
average and the same standard error, for every list of at least one value. -/
theorem C20_gather_single (l : List 𝕜) (hl : l ≠ []) :
    gatherSingle l = (average l, standardError l (mean l)) := by
  unfold gatherSingle standardError
  by_cases h1 : l.length = 1
  · rw [if_pos h1, if_pos h1]
    obtain ⟨a, rfl⟩ := List.length_eq_one_iff.1 h1
    simp [average]
  · rw [if_neg h1, if_neg h1]
    dsimp only
    rw [foldl_add_eq, foldl_add_map, zero_add, zero_add, mean_eq, variance_eq, popVariance_alt l hl]
    rfl

/-- **C20.** Variance and error are nonnegative, vanish exactly on constant data, do not change when
a constant is added to all samples, and do not depend on the order of the samples or ranks. -/
theorem C20_properties (l : List 𝕜) (hl : l ≠ []) :
    0 ≤ variance l (mean l) ∧
    ((0 : ℝ) : WithTop ℝ) ≤ standardError l (mean l) ∧
    (variance l (mean l) = 0 ↔ ∀ x ∈ l, ∀ y ∈ l, x = y) ∧
    (∀ c, variance (l.map (· + c)) (mean (l.map (· + c))) = variance l (mean l) ∧
      mean (l.map (· + c)) = mean l + c ∧
      standardError (l.map (· + c)) (mean (l.map (· + c))) = standardError l (mean l)) ∧
    (∀ l' : List 𝕜, l.Perm l' → mean l' = mean l ∧ variance l' (mean l') = variance l (mean l) ∧
      standardError l' (mean l') = standardError l (mean l) ∧ gatherSingle l' = gatherSingle l) := by
  have shiftVar : ∀ c, popVariance (l.map (fun x => x + c)) = popVariance l := by
    intro c
    unfold popVariance
    rw [average_map_add l hl, List.map_map, List.length_map]
    congr 2
    apply List.map_congr_left
    intro x _
    simp
  have hstd : ∀ l l' : List 𝕜, l.length = l'.length → popVariance l = popVariance l' →
      standardError l (mean l) = standardError l' (mean l') := by
    intro l l' h1 h2
    rw [(C20_definitions l).2, (C20_definitions l').2, h1]
    unfold stdError
    rw [h1, h2]
  refine ⟨?_, ?_, ?_, ?_, ?_⟩
  · rw [(C20_definitions l).1]; exact popVariance_nonneg l
  · rw [(C20_definitions l).2]
    split_ifs
    · exact le_top
    · exact WithTop.coe_le_coe.2 (Real.sqrt_nonneg _)
  · rw [(C20_definitions l).1]
    have hpos : 0 < (l.length : ℝ) := by exact_mod_cast List.length_pos_iff.2 hl
    constructor
    · intro h0
      have hs : (l.map (fun x => ‖x - average l‖ ^ 2)).sum = 0 := by
        unfold popVariance at h0
        rcases div_eq_zero_iff.1 h0 with h | h
        · exact h
        · exact absurd h hpos.ne'
      have hall : ∀ x ∈ l, x = average l := by
        intro x hx
        have hle := List.single_le_sum (l := l.map (fun x => ‖x - average l‖ ^ 2))
          (by intro y hy; obtain ⟨z, _, rfl⟩ := List.mem_map.1 hy; positivity)
          (‖x - average l‖ ^ 2) (List.mem_map.2 ⟨x, hx, rfl⟩)
        rw [hs] at hle
        have : ‖x - average l‖ = 0 := by
          have := sq_nonneg ‖x - average l‖
          exact pow_eq_zero_iff (two_ne_zero) |>.1 (le_antisymm hle this)
        exact sub_eq_zero.1 (norm_eq_zero.1 this)
      intro x hx y hy
      rw [hall x hx, hall y hy]
    · intro hc
      obtain ⟨a, r, rfl⟩ := List.exists_cons_of_ne_nil hl
      have ha : average (a :: r) = a := by
        have hrep : a :: r = List.replicate (r.length + 1) a := by
          rw [List.eq_replicate_iff]
          exact ⟨by simp, fun b hb => hc b hb a List.mem_cons_self⟩
        rw [hrep]
        unfold average
        rw [List.sum_replicate, List.length_replicate, nsmul_eq_mul]
        have : ((r.length + 1 : ℕ) : 𝕜) ≠ 0 := by
          exact_mod_cast Nat.succ_ne_zero r.length
        field_simp
      unfold popVariance
      have : (List.map (fun x => ‖x - average (a :: r)‖ ^ 2) (a :: r)).sum = 0 := by
        apply List.sum_eq_zero
        intro y hy
        obtain ⟨z, hz, rfl⟩ := List.mem_map.1 hy
        rw [ha, hc z hz a List.mem_cons_self]
        simp
      rw [this, zero_div]
  · intro c
    refine ⟨?_, ?_, ?_⟩
    · rw [(C20_definitions _).1, (C20_definitions _).1]; exact shiftVar c
    · rw [mean_eq, mean_eq]; exact average_map_add l hl c
    · exact hstd _ _ (by simp) (shiftVar c)
  · intro l' hp
    have hl' : l' ≠ [] := by rintro rfl; exact hl hp.eq_nil
    refine ⟨?_, ?_, hstd _ _ hp.length_eq.symm (popVariance_perm hp).symm, ?_⟩
    · rw [mean_eq, mean_eq]; exact (average_perm hp).symm
    · rw [(C20_definitions _).1, (C20_definitions _).1]; exact (popVariance_perm hp).symm
    · rw [C20_gather_single l hl, C20_gather_single l' hl', average_perm hp,
        hstd _ _ hp.length_eq.symm (popVariance_perm hp).symm]

example : variance [1, 2, (3 : ℝ)] (mean [1, 2, (3 : ℝ)]) = 2 / 3 := by
  rw [(C20_definitions _).1]; norm_num [popVariance, average]

/-- **C19.** The reported error bar is the standard error of all bin averages of all ranks (which
`C19_bins` describes) as soon as there are two of them, and infinite for a single one. -/
theorem C19_error (ranks : List (List 𝕜)) (h : ranks.flatMap binMeans ≠ []) :
    (meanAndBinnedError ranks).2 =
      if (ranks.flatMap binMeans).length = 1 then ⊤
      else ((stdError (ranks.flatMap binMeans) : ℝ) : WithTop ℝ) := by
  have hpos : 0 < (ranks.flatMap binMeans).length := List.length_pos_iff.2 h
  unfold meanAndBinnedError
  dsimp only
  rw [if_pos hpos]
  dsimp only
  rw [(C20_definitions _).2]
  by_cases h1 : (ranks.flatMap binMeans).length = 1
  · rw [if_pos h1, if_neg (by omega)]
  · rw [if_neg h1, if_pos (by omega)]

/-- two ranks with one sample each: two bins, hence a finite error -/
example : (meanAndBinnedError [[1], [(3 : ℝ)]]).2 = ((1 : ℝ) : WithTop ℝ) := by
  have hb : [[1], [(3 : ℝ)]].flatMap binMeans = [1, 3] := by simp [binMeans]
  rw [C19_error _ (by rw [hb]; simp), hb]
  norm_num [stdError, popVariance, average]

/-! ## C21 -/

/-- **C21.** For every series the inflation factor is computed without reading out of range
(the result is never undefined), is at least 1 and at most `1 + 2·min(20, n-2)` (so at most 41). -/
theorem C21_at_least_one (values : List ℝ) (pre : Option ℝ) :
    ∃ g, ipsInflationFactor values pre = some g ∧ 1 ≤ g ∧
      g ≤ 1 + 2 * (min 20 (values.length - 2) : ℕ) := by
  unfold ipsInflationFactor
  dsimp only
  by_cases hN : values.length < 3
  · rw [if_pos hN]
    exact ⟨1, rfl, le_refl _, by
      have : (0 : ℝ) ≤ (min 20 (values.length - 2) : ℕ) := Nat.cast_nonneg _
      linarith⟩
  · rw [if_neg hN]
    generalize ipsMean values pre = mu
    set x := values.map (fun v => v - mu) with hx
    have hxl : x.length = values.length := by simp [hx]
    rw [gammaHat_eq x 0 (by omega)]
    dsimp only
    set g0 := (∑ t ∈ Finset.range (x.length - 0), x.getD t 0 * x.getD (t + 0) 0) / (x.length : ℝ)
      with hg0
    have hm0 : (0 : ℝ) ≤ (min 20 (values.length - 2) : ℕ) := Nat.cast_nonneg _
    split_ifs with h0 h2
    · exact ⟨1, rfl, le_refl _, by linarith⟩
    · obtain ⟨s, e, l⟩ := ipsLoop_spec x g0 (gammaHat_eq x 0 (by omega)) (not_le.1 h0)
        (min 20 (values.length - 2)) 1 0 (by omega)
      rw [e]
      refine ⟨_, rfl, ?_, ?_⟩
      · split_ifs with h; exacts [h, le_refl _]
      · split_ifs with h
        · linarith
        · linarith
    · omega

/-- **C21.** Exactly 1 for fewer than three samples and for a series without variance. -/
theorem C21_exactly_one (values : List ℝ) :
    (values.length < 3 → ∀ pre, ipsInflationFactor values pre = some 1) ∧
    (∀ c, (∀ v ∈ values, v = c) → ipsInflationFactor values none = some 1) := by
  constructor
  · intro h pre
    unfold ipsInflationFactor
    dsimp only
    rw [if_pos h]
  · intro c hc
    unfold ipsInflationFactor
    dsimp only
    by_cases hN : values.length < 3
    · rw [if_pos hN]
    · rw [if_neg hN]
      rw [show ipsMean values none = values.foldl (· + ·) 0 / (values.length : ℝ) from rfl]
      have hv : values = List.replicate values.length c := by
        rw [List.eq_replicate_iff]; exact ⟨rfl, hc⟩
      have hmu : values.foldl (· + ·) 0 / (values.length : ℝ) = c := by
        rw [foldl_add_eq, zero_add]
        have hs : values.sum = (values.length : ℝ) * c := by
          conv_lhs => rw [hv]
          simp
        rw [hs]
        have : (values.length : ℝ) ≠ 0 := by
          have : values.length ≠ 0 := by omega
          exact_mod_cast this
        field_simp
      rw [hmu]
      have hx : values.map (fun v => v - c) = List.replicate values.length 0 := by
        rw [List.eq_replicate_iff]
        refine ⟨by simp, ?_⟩
        intro b hb
        obtain ⟨v, hv', rfl⟩ := List.mem_map.1 hb
        rw [hc v hv', sub_self]
      rw [hx, gammaHat_eq _ 0 (by simp)]
      dsimp only
      rw [if_pos]
      have : ∀ t, (List.replicate values.length (0 : ℝ)).getD t 0 = 0 := by
        intro t
        rw [List.getD_eq_getElem?_getD, List.getElem?_replicate]
        split_ifs <;> rfl
      simp only [this]
      simp

/-- **C21.** The factor depends neither on the origin nor on the (nonzero) unit of the samples. -/
theorem C21_affine_invariant (values : List ℝ) (a c : ℝ) (hc : c ≠ 0) :
    ipsInflationFactor (values.map (fun v => c * v + a)) none = ipsInflationFactor values none := by
  unfold ipsInflationFactor
  dsimp only
  rw [List.length_map]
  by_cases hN : values.length < 3
  · rw [if_pos hN, if_pos hN]
  · rw [if_neg hN, if_neg hN]
    have hn : (values.length : ℝ) ≠ 0 := by
      have : values.length ≠ 0 := by omega
      exact_mod_cast this
    rw [show ipsMean (values.map (fun v => c * v + a)) none
        = (values.map (fun v => c * v + a)).foldl (· + ·) 0
          / ((values.map (fun v => c * v + a)).length : ℝ) from rfl, List.length_map,
      show ipsMean values none = values.foldl (· + ·) 0 / (values.length : ℝ) from rfl]
    set mu := values.foldl (· + ·) 0 / (values.length : ℝ) with hmu
    have hmu' : (values.map (fun v => c * v + a)).foldl (· + ·) 0 / (values.length : ℝ)
        = c * mu + a := by
      rw [hmu, foldl_add_eq, foldl_add_eq, zero_add, zero_add]
      have : (values.map (fun v => c * v + a)).sum = c * values.sum + (values.length : ℝ) * a := by
        clear_value mu
        clear hN hn hmu
        induction values with
        | nil => simp
        | cons v l ih => simp [ih]; ring
      rw [this]
      field_simp
    rw [hmu']
    have hx : (values.map (fun v => c * v + a)).map (fun v => v - (c * mu + a))
        = (values.map (fun v => v - mu)).map (fun v => c * v) := by
      rw [List.map_map, List.map_map]
      apply List.map_congr_left
      intro v _
      simp only [Function.comp]
      ring
    rw [hx, gammaHat_scale]
    have hc2 : 0 < c ^ 2 := by positivity
    cases h0 : gammaHat (values.map (fun v => v - mu)) 0 with
    | none => rfl
    | some g0 =>
      simp only [Option.map_some, ipsLoop_scale _ c g0 hc]
      have : c ^ 2 * g0 ≤ 0 ↔ g0 ≤ 0 := by
        constructor
        · intro h; by_contra h'; push Not at h'; nlinarith
        · intro h; nlinarith
      simp only [this]

/-- a correlated series whose factor is strictly above one -/
example : ipsInflationFactor [1, 1, 1, -1, -1, (-1 : ℝ)] (some 0) ≠ some 1 := by
  norm_num [ipsInflationFactor, ipsMean, gammaHat, gammaStep, ipsLoop, List.range_succ]

/-! ## C22 -/

/-- **C22.** For every non-empty list of equally long samples, `AveListOfData` returns a list of that
length whose entry `k` is the mean of the samples' entries `k`; the order of the samples is
irrelevant. -/
theorem C22_average_lists (data : List (List 𝕜)) (N : ℕ) (hd : ∀ d ∈ data, d.length = N)
    (hne : data ≠ []) :
    ∃ avg, aveListOfData data = some avg ∧ avg.length = N ∧
      (∀ k, k < N → avg.getD k 0 = average (data.map (fun d => d.getD k 0))) ∧
      ∀ data' : List (List 𝕜), data.Perm data' → aveListOfData data' = some avg := by
  have main : ∀ data : List (List 𝕜), (∀ d ∈ data, d.length = N) → data ≠ [] →
      ∃ avg, aveListOfData data = some avg ∧ avg.length = N ∧
        ∀ k, k < N → avg.getD k 0 = average (data.map (fun d => d.getD k 0)) := by
    intro data hd hne
    obtain ⟨d0, rest, rfl⟩ := List.exists_cons_of_ne_nil hne
    have h0 : d0.length = N := hd d0 List.mem_cons_self
    unfold aveListOfData
    dsimp only
    by_cases hN : d0.length = 0
    · rw [if_pos hN]
      exact ⟨[], rfl, by simp; omega, fun k hk => by omega⟩
    · rw [if_neg hN]
      obtain ⟨s, e, l, g⟩ := sumLoop d0.length (d0 :: rest)
        (fun d h => (hd d h).trans h0.symm) (List.replicate d0.length 0) (by simp)
      rw [e]
      refine ⟨_, rfl, by simp [l, h0], fun k hk => ?_⟩
      have hk' : k < s.length := by omega
      have hz := g k (by omega)
      have hrep : (List.replicate d0.length (0 : 𝕜)).getD k 0 = 0 := by
        rw [List.getD_eq_getElem?_getD, List.getElem?_replicate]; split_ifs <;> rfl
      rw [hrep, zero_add] at hz
      unfold average
      rw [← hz, List.length_map]
      simp [List.getD_eq_getElem?_getD, hk']
  obtain ⟨avg, e, l, g⟩ := main data hd hne
  refine ⟨avg, e, l, g, fun data' hp => ?_⟩
  obtain ⟨avg', e', l', g'⟩ := main data' (fun d h => hd d (hp.mem_iff.2 h))
    (by rintro rfl; exact hne hp.eq_nil)
  rw [e']
  congr 1
  apply List.ext_getElem (by omega)
  intro k h1 h2
  have a := g k (by omega)
  have b := g' k (by omega)
  rw [average_perm (hp.map (fun d => d.getD k 0)), ← b] at a
  simpa [List.getD_eq_getElem?_getD, h1, h2] using a.symm

/-- **C22.** For two or more ranks contributing lists of the same length `N`, the gathered averages and
errors are, entry by entry, the mean and standard error over the ranks. -/
theorem C22_gather_lists (ranks : List (List 𝕜)) (N : ℕ) (hr : ∀ r ∈ ranks, r.length = N)
    (h2 : 2 ≤ ranks.length) :
    ∃ avg err, gatherList ranks = some (avg, err) ∧ avg.length = N ∧ err.length = N ∧
      ∀ k, k < N →
        avg.getD k 0 = average (ranks.map (fun r => r.getD k 0)) ∧
        err.getD k ⊤ = ((stdError (ranks.map (fun r => r.getD k 0)) : ℝ) : WithTop ℝ) := by
  have hhead : (ranks.headD []).length = N := by
    cases ranks with
    | nil => simp at h2
    | cons r _ => exact hr r List.mem_cons_self
  have hany : ranks.any (fun r => r.length ≠ N) = false := by
    rw [List.any_eq_false]
    intro r h
    simp [hr r h]
  have hflat : ∀ (rs : List (List 𝕜)), (∀ r ∈ rs, r.length = N) → ∀ i j, i < rs.length → j < N →
      rs.flatten.getD (i * N + j) 0 = (rs.getD i []).getD j 0 := by
    intro rs
    induction rs with
    | nil => intro _ i j hi; simp at hi
    | cons r rs ih =>
      intro h i j hi hj
      have hl : r.length = N := h r List.mem_cons_self
      cases i with
      | zero =>
        simp [List.getD_eq_getElem?_getD, List.getElem?_append_left, hl, hj]
      | succ i =>
        have := ih (fun r' h' => h r' (List.mem_cons_of_mem _ h')) i j (by simpa using hi) hj
        rw [List.getD_eq_getElem?_getD] at this ⊢
        rw [List.flatten_cons, List.getElem?_append_right (by rw [hl, Nat.succ_mul]; omega), hl]
        have e : (i + 1) * N + j - N = i * N + j := by rw [Nat.succ_mul]; omega
        rw [e, this]
        simp
  have hrow : ∀ j, j < N → (List.range ranks.length).map
      (fun i => ranks.flatten.getD (i * N + j) 0) = ranks.map (fun r => r.getD j 0) := by
    intro j hj
    apply List.ext_getElem (by simp)
    intro i h1 h2
    simp only [List.length_map, List.length_range] at h1
    simp only [List.getElem_map, List.getElem_range]
    rw [hflat ranks hr i j h1 hj]
    simp [List.getD_eq_getElem?_getD, h1]
  unfold gatherList
  dsimp only
  rw [hhead, hany]
  by_cases hN : N = 0
  · subst hN
    simp only [Bool.false_eq_true, if_false, if_true]
    exact ⟨[], [], rfl, rfl, rfl, fun k hk => by omega⟩
  · rw [if_neg (by simp), if_neg hN, if_neg (by omega)]
    refine ⟨_, _, rfl, by simp, by simp, fun k hk => ⟨?_, ?_⟩⟩
    · rw [List.getD_eq_getElem?_getD]
      simp only [List.map_map, List.getElem?_map, List.getElem?_range hk, Option.map_some,
        Option.getD_some, Function.comp]
      rw [hrow k hk, mean_eq]
    · rw [List.getD_eq_getElem?_getD]
      simp only [List.map_map, List.getElem?_map, List.getElem?_range hk, Option.map_some,
        Option.getD_some, Function.comp]
      rw [hrow k hk, (C20_definitions _).2, if_neg (by simp; omega)]

/-- two ranks, three entries: not square, so a transposition error would show -/
example : ∃ avg err, gatherList [[1, 2, 3], [3, 4, (5 : ℝ)]] = some (avg, err) ∧ avg.length = 3 :=
  let ⟨a, e, h, l, _⟩ := C22_gather_lists [[1, 2, 3], [3, 4, (5 : ℝ)]] 3 (by simp) (by simp)
  ⟨a, e, h, l⟩

/-! ## C45 -/

/-- **C45.** Every rank takes the same number of samples; their total is at least the request and
exceeds it by less than the number of ranks; and no smaller per-rank number would do. -/
theorem C45_total_samples (total P : ℕ) (hP : 0 < P) :
    total ≤ P * samplesPerRank total P ∧ P * samplesPerRank total P < total + P ∧
      ∀ k, total ≤ P * k → samplesPerRank total P ≤ k := by
  unfold samplesPerRank
  have h1 := Nat.div_add_mod (total + P - 1) P
  have h2 := Nat.mod_lt (total + P - 1) hP
  refine ⟨by omega, by omega, fun k hk => ?_⟩
  rw [Nat.div_le_iff_le_mul_add_pred hP]
  omega

example : samplesPerRank 10 4 = 3 := by decide

/-! ## C60 -/

theorem halve_spec (fuel n : ℕ) (hn : 0 < n) (hf : n ≤ fuel) :
    ∃ k, n = 2 ^ k * halve fuel n ∧ halve fuel n % 2 = 1 := by
  induction fuel generalizing n with
  | zero => omega
  | succ f ih =>
    unfold halve
    by_cases h : n % 2 = 0
    · rw [if_pos h]
      obtain ⟨k, e, o⟩ := ih (n / 2) (by omega) (by omega)
      refine ⟨k + 1, ?_, o⟩
      rw [pow_succ, mul_assoc, mul_left_comm, ← e]
      omega
    · rw [if_neg h]
      exact ⟨0, by simp, by omega⟩

/-- **C60.** For every size, the check accepts exactly the sizes `2^k` and `3·2^k`; the loop needs at
most `n` iterations. -/
theorem C60_trg_sizes (n fuel : ℕ) (hf : n ≤ fuel) :
    isTRGSupported fuel n = true ↔ ∃ k, n = 2 ^ k ∨ n = 3 * 2 ^ k := by
  unfold isTRGSupported
  by_cases hn : n = 0
  · subst hn
    simp only [if_true, Bool.false_eq_true, false_iff, not_exists]
    intro k
    have : 0 < 2 ^ k := Nat.two_pow_pos k
    omega
  · rw [if_neg hn]
    obtain ⟨k, e, o⟩ := halve_spec fuel n (by omega) hf
    set m := halve fuel n
    simp only [Bool.or_eq_true, beq_iff_eq]
    constructor
    · rintro (h | h)
      · exact ⟨k, Or.inl (by rw [e, h, mul_one])⟩
      · exact ⟨k, Or.inr (by rw [e, h, mul_comm])⟩
    · have odd_part : ∀ a b j l : ℕ, a % 2 = 1 → b % 2 = 1 → 2 ^ j * a = 2 ^ l * b → a = b := by
        intro a b j
        induction j with
        | zero =>
          intro l ha hb h
          cases l with
          | zero => simpa using h
          | succ l =>
            have : a = 2 * (2 ^ l * b) := by rw [pow_succ] at h; linarith
            omega
        | succ j ih =>
          intro l ha hb h
          cases l with
          | zero =>
            have : b = 2 * (2 ^ j * a) := by rw [pow_succ] at h; linarith
            omega
          | succ l =>
            apply ih l ha hb
            rw [pow_succ, pow_succ] at h
            nlinarith
      rintro ⟨l, h | h⟩
      · left
        exact odd_part m 1 k l o (by norm_num) (by rw [← e, h, mul_one])
      · right
        exact odd_part m 3 k l o (by norm_num) (by rw [← e, h, mul_comm])

example : isTRGSupported 24 24 = true ∧ isTRGSupported 20 20 = false := by decide

end QLPeps.Statistics
