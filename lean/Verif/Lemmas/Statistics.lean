import Verif.Model.Statistics
import Verif.Spec.Statistics
import Mathlib.Tactic

/-! # Lemmas about the statistics functions -/

namespace QLPeps.Statistics

variable {𝕜 : Type*} [RCLike 𝕜]

theorem foldl_add_eq {M : Type*} [AddCommMonoid M] (l : List M) (s : M) :
    l.foldl (· + ·) s = s + l.sum := by
  induction l generalizing s with
  | nil => simp
  | cons a l ih => simp [ih, add_assoc]

theorem foldl_add_map {α M : Type*} [AddCommMonoid M] (f : α → M) (l : List α) (s : M) :
    l.foldl (fun s x => s + f x) s = s + (l.map f).sum := by
  induction l generalizing s with
  | nil => simp
  | cons a l ih => simp [ih, add_assoc]

theorem mean_eq (l : List 𝕜) : mean l = average l := by
  unfold mean average
  split_ifs with h
  · simp [h]
  · rw [foldl_add_eq, zero_add]

theorem variance_eq (l : List 𝕜) : variance l (average l) = popVariance l := by
  unfold variance popVariance
  simp only [foldl_add_map, zero_add, List.map_map]
  rfl

theorem popVariance_nonneg (l : List 𝕜) : 0 ≤ popVariance l := by
  unfold popVariance
  apply div_nonneg _ (Nat.cast_nonneg _)
  apply List.sum_nonneg
  intro x hx
  obtain ⟨y, _, rfl⟩ := List.mem_map.1 hx
  positivity

theorem average_perm {l l' : List 𝕜} (h : l.Perm l') : average l = average l' := by
  unfold average; rw [h.sum_eq, h.length_eq]

theorem popVariance_perm {l l' : List 𝕜} (h : l.Perm l') : popVariance l = popVariance l' := by
  unfold popVariance; rw [average_perm h, (h.map _).sum_eq, h.length_eq]

theorem average_map_add (l : List 𝕜) (hl : l ≠ []) (c : 𝕜) :
    average (l.map (fun x => x + c)) = average l + c := by
  have hn : (l.length : 𝕜) ≠ 0 := by
    have := List.length_pos_iff.2 hl
    exact_mod_cast this.ne'
  unfold average
  have : (l.map (fun x => x + c)).sum = l.sum + (l.length : 𝕜) * c := by
    clear hl hn
    induction l with
    | nil => simp
    | cons a l ih => simp [ih]; ring
  rw [this, List.length_map]
  field_simp

/-- mean of squares minus square of the mean -/
theorem popVariance_alt (l : List 𝕜) (hl : l ≠ []) :
    popVariance l = (l.map (fun x => ‖x‖ ^ 2)).sum / (l.length : ℝ) - ‖average l‖ ^ 2 := by
  have hpos : 0 < (l.length : ℝ) := by exact_mod_cast List.length_pos_iff.2 hl
  have key : ∀ (m : 𝕜) (l : List 𝕜), (l.map (fun x => ‖x - m‖ ^ 2)).sum
      = (l.map (fun x => ‖x‖ ^ 2)).sum - 2 * RCLike.re (starRingEnd 𝕜 m * l.sum)
        + (l.length : ℝ) * ‖m‖ ^ 2 := by
    intro m l
    induction l with
    | nil => simp
    | cons a l ih =>
      simp only [List.map_cons, List.sum_cons, ih, List.length_cons, Nat.cast_add, Nat.cast_one,
        mul_add, map_add]
      have : ‖a - m‖ ^ 2 = ‖a‖ ^ 2 - 2 * RCLike.re (starRingEnd 𝕜 m * a) + ‖m‖ ^ 2 := by
        rw [← RCLike.normSq_eq_def', ← RCLike.normSq_eq_def', ← RCLike.normSq_eq_def',
          RCLike.normSq_apply, RCLike.normSq_apply, RCLike.normSq_apply]
        simp only [map_sub, RCLike.mul_re, RCLike.conj_re, RCLike.conj_im]
        ring
      rw [this]; ring
  unfold popVariance
  rw [key]
  have hs : l.sum = (l.length : 𝕜) * average l := by
    unfold average
    have : (l.length : 𝕜) ≠ 0 := by exact_mod_cast (List.length_pos_iff.2 hl).ne'
    field_simp
  have hr : RCLike.re (starRingEnd 𝕜 (average l) * l.sum) = (l.length : ℝ) * ‖average l‖ ^ 2 := by
    rw [hs]
    have : starRingEnd 𝕜 (average l) * ((l.length : 𝕜) * average l)
        = ((l.length : ℝ) : 𝕜) * ((‖average l‖ ^ 2 : ℝ) : 𝕜) := by
      rw [mul_left_comm, RCLike.conj_mul]; push_cast; ring
    rw [this, ← RCLike.ofReal_mul, RCLike.ofReal_re]
  rw [hr]
  field_simp
  ring

/-! ## bins -/

/-- the consecutive blocks of length `b` -/
def blocks {α : Type*} (xs : List α) (b nb : ℕ) : List (List α) :=
  (List.range nb).map (fun i => (xs.drop (i * b)).take b)

theorem blocks_flatten {α : Type*} (xs : List α) (b nb : ℕ) :
    (blocks xs b nb).flatten = xs.take (nb * b) := by
  induction nb with
  | zero => simp [blocks]
  | succ n ih =>
    unfold blocks at ih ⊢
    rw [List.range_succ, List.map_append, List.flatten_append, ih]
    simp [Nat.succ_mul, List.take_add]

theorem blocks_length {α : Type*} (xs : List α) (b nb : ℕ) (h : nb * b ≤ xs.length) :
    ∀ B ∈ blocks xs b nb, B.length = b := by
  intro B hB
  obtain ⟨i, hi, rfl⟩ := List.mem_map.1 hB
  have hi' := List.mem_range.1 hi
  have : (i + 1) * b ≤ nb * b := Nat.mul_le_mul_right b hi'
  rw [Nat.succ_mul] at this
  simp
  omega

theorem sqrt_pos {n : ℕ} (h : 0 < n) : max 1 (Nat.sqrt n) = Nat.sqrt n := by
  have : 0 < Nat.sqrt n := Nat.sqrt_pos.2 h
  omega

theorem binMeans_eq (xs : List 𝕜) (h : xs ≠ []) :
    binMeans xs = (blocks xs (Nat.sqrt xs.length) (xs.length / Nat.sqrt xs.length)).map average := by
  have hpos : 0 < xs.length := List.length_pos_iff.2 h
  have hlen := blocks_length xs (Nat.sqrt xs.length) (xs.length / Nat.sqrt xs.length)
    (Nat.div_mul_le_self _ _)
  unfold binMeans
  rw [if_pos hpos, sqrt_pos hpos]
  rw [show (blocks xs (Nat.sqrt xs.length) (xs.length / Nat.sqrt xs.length)).map average
    = (blocks xs (Nat.sqrt xs.length) (xs.length / Nat.sqrt xs.length)).map
        (fun B => B.sum / ((Nat.sqrt xs.length : ℕ) : 𝕜)) from ?_]
  · unfold blocks
    rw [List.map_map]
    apply List.map_congr_left
    intro i _
    have : (i + 1) * Nat.sqrt xs.length - i * Nat.sqrt xs.length = Nat.sqrt xs.length := by
      rw [Nat.succ_mul]; omega
    simp only [this, Function.comp, foldl_add_eq, zero_add]
  · apply List.map_congr_left
    intro B hB
    unfold average
    rw [hlen B hB]

/-- the average of the averages of equally long non-empty lists -/
theorem average_averages (Ls : List (List 𝕜)) (b : ℕ) (hb : 0 < b) (h : ∀ L ∈ Ls, L.length = b) :
    average (Ls.map average) = average Ls.flatten := by
  have hb' : (b : 𝕜) ≠ 0 := by exact_mod_cast hb.ne'
  have hsum : (Ls.map average).sum = Ls.flatten.sum / (b : 𝕜) := by
    induction Ls with
    | nil => simp
    | cons L Ls ih =>
      simp only [List.map_cons, List.sum_cons, List.flatten_cons, List.sum_append]
      rw [ih (fun L' hL' => h L' (List.mem_cons_of_mem _ hL'))]
      unfold average
      rw [h L (List.mem_cons_self)]
      ring
  have hlen : Ls.flatten.length = Ls.length * b := by
    clear hsum
    induction Ls with
    | nil => simp
    | cons L Ls ih =>
      simp only [List.flatten_cons, List.length_append, List.length_cons]
      rw [ih (fun L' hL' => h L' (List.mem_cons_of_mem _ hL')), h L (List.mem_cons_self)]
      ring
  show (Ls.map average).sum / ((Ls.map average).length : 𝕜) = Ls.flatten.sum / (Ls.flatten.length : 𝕜)
  rw [hsum, hlen, List.length_map]
  push_cast
  rw [div_div, mul_comm]

/-! ## list averages -/

theorem addInto (N : ℕ) (d s : List 𝕜) (hd : d.length = N) (hs : s.length = N) :
    (List.range N).foldl (addStep d) (some s) = some (List.zipWith (· + ·) s d) := by
  have key : ∀ m, m ≤ N → (List.range m).foldl (addStep d) (some s)
      = some (List.zipWith (· + ·) (s.take m) (d.take m) ++ s.drop m) := by
    intro m
    induction m with
    | zero => simp
    | succ m ih =>
      intro hm
      rw [List.range_succ, List.foldl_append, ih (by omega)]
      have h1 : m < d.length := by omega
      have h2 : m < s.length := by omega
      have hl : (List.zipWith (· + ·) (s.take m) (d.take m)).length = m := by simp; omega
      simp only [List.foldl_cons, List.foldl_nil, addStep, List.getElem?_eq_getElem h1]
      congr 1
      rw [List.take_succ_eq_append_getElem h2, List.take_succ_eq_append_getElem h1]
      rw [List.zipWith_append (by simp; omega)]
      rw [List.set_append_right _ _ (by omega)]
      simp only [hl, Nat.sub_self, List.zipWith_cons_cons, List.zipWith_nil_left, List.append_assoc]
      congr 1
      rw [List.getD_eq_getElem?_getD, List.getElem?_append_right (by omega), hl, Nat.sub_self]
      simp only [List.drop_eq_getElem_cons h2, List.getElem?_cons_zero, Option.getD_some,
        List.set_cons_zero, List.cons_append, List.nil_append]
  have := key N (le_refl N)
  rw [List.take_of_length_le (by omega), List.take_of_length_le (by omega),
    List.drop_of_length_le (by omega), List.append_nil] at this
  exact this

theorem sumLoop (N : ℕ) (data : List (List 𝕜)) (hd : ∀ d ∈ data, d.length = N) (s : List 𝕜)
    (hs : s.length = N) :
    ∃ s', data.foldl (fun o d => (List.range N).foldl (addStep d) o) (some s) = some s' ∧ s'.length = N ∧
      ∀ k, k < N → s'.getD k 0 = s.getD k 0 + (data.map (fun d => d.getD k 0)).sum := by
  induction data generalizing s with
  | nil => exact ⟨s, rfl, hs, by simp⟩
  | cons d data ih =>
    have hdl := hd d List.mem_cons_self
    rw [List.foldl_cons, addInto N d s hdl hs]
    obtain ⟨s', e, l, g⟩ := ih (fun d' h => hd d' (List.mem_cons_of_mem _ h))
      (List.zipWith (· + ·) s d) (by simp; omega)
    refine ⟨s', e, l, fun k hk => ?_⟩
    rw [g k hk]
    have h1 : k < d.length := by omega
    have h2 : k < s.length := by omega
    simp [List.getD_eq_getElem?_getD, h1, h2, add_assoc]

/-! ## autocorrelation -/

theorem gammaHat_eq (x : List ℝ) (k : ℕ) (hk : k ≤ x.length) :
    gammaHat x k = some ((∑ t ∈ Finset.range (x.length - k), x.getD t 0 * x.getD (t + k) 0)
      / (x.length : ℝ)) := by
  unfold gammaHat
  rw [if_neg (by omega)]
  have key : ∀ m, m ≤ x.length - k →
      (List.range m).foldl (gammaStep x k) (some (0 : ℝ))
      = some (∑ t ∈ Finset.range m, x.getD t 0 * x.getD (t + k) 0) := by
    intro m
    induction m with
    | zero => simp
    | succ m ih =>
      intro hm
      rw [List.range_succ, List.foldl_append, ih (by omega), Finset.sum_range_succ]
      have h1 : m < x.length := by omega
      have h2 : m + k < x.length := by omega
      simp [gammaStep, h1, h2]
  exact congrArg (Option.map (fun acc => acc / (x.length : ℝ))) (key _ (le_refl _))

/-- Cauchy–Schwarz for lagged products -/
theorem lagged_le (x : List ℝ) (k : ℕ) (hk : k ≤ x.length) :
    |∑ t ∈ Finset.range (x.length - k), x.getD t 0 * x.getD (t + k) 0|
      ≤ ∑ t ∈ Finset.range x.length, x.getD t 0 * x.getD t 0 := by
  set f : ℕ → ℝ := fun t => x.getD t 0 with hf
  set n := x.length
  have h1 : ∑ t ∈ Finset.range (n - k), f t * f t ≤ ∑ t ∈ Finset.range n, f t * f t :=
    Finset.sum_le_sum_of_subset_of_nonneg (Finset.range_mono (by omega))
      (fun _ _ _ => mul_self_nonneg _)
  have h2 : ∑ t ∈ Finset.range (n - k), f (t + k) * f (t + k) ≤ ∑ t ∈ Finset.range n, f t * f t := by
    have : ∑ t ∈ Finset.range (n - k), f (t + k) * f (t + k)
        = ∑ t ∈ (Finset.range (n - k)).map (addRightEmbedding k), f t * f t := by
      rw [Finset.sum_map]; rfl
    rw [this]
    apply Finset.sum_le_sum_of_subset_of_nonneg
    · intro a ha
      simp only [Finset.mem_map, Finset.mem_range, addRightEmbedding_apply] at ha
      obtain ⟨b, hb, rfl⟩ := ha
      exact Finset.mem_range.2 (by omega)
    · exact fun _ _ _ => mul_self_nonneg _
  have h3 : |∑ t ∈ Finset.range (n - k), f t * f (t + k)|
      ≤ ∑ t ∈ Finset.range (n - k), (f t * f t + f (t + k) * f (t + k)) / 2 := by
    refine (Finset.abs_sum_le_sum_abs _ _).trans (Finset.sum_le_sum fun t _ => ?_)
    rw [abs_le]
    constructor <;> nlinarith [sq_nonneg (f t + f (t + k)), sq_nonneg (f t - f (t + k))]
  rw [← Finset.sum_div, Finset.sum_add_distrib] at h3
  show |∑ t ∈ Finset.range (n - k), f t * f (t + k)| ≤ ∑ t ∈ Finset.range n, f t * f t
  linarith

/-- normalised autocorrelations are at most one -/
theorem rho_le (x : List ℝ) (k : ℕ) (hk : k ≤ x.length) (g0 gk : ℝ) (h0 : gammaHat x 0 = some g0)
    (hgk : gammaHat x k = some gk) (hpos : 0 < g0) : |gk / g0| ≤ 1 := by
  rw [gammaHat_eq x 0 (by omega)] at h0
  rw [gammaHat_eq x k hk] at hgk
  have h := lagged_le x k hk
  have e0 := Option.some.inj h0
  have ek := Option.some.inj hgk
  simp only [Nat.sub_zero, Nat.add_zero] at e0
  rw [abs_div, abs_of_pos hpos, div_le_one hpos, ← ek, ← e0, abs_div,
    abs_of_nonneg (Nat.cast_nonneg (α := ℝ) x.length)]
  exact div_le_div_of_nonneg_right h (Nat.cast_nonneg _)

theorem ipsLoop_spec (x : List ℝ) (g0 : ℝ) (h0 : gammaHat x 0 = some g0) (hpos : 0 < g0) (n k : ℕ)
    (s : ℝ) (hk : k + n ≤ x.length) :
    ∃ s', ipsLoop x g0 n k s = some s' ∧ s' ≤ s + n := by
  induction n generalizing k s with
  | zero => exact ⟨s, rfl, by simp⟩
  | succ n ih =>
    unfold ipsLoop
    rw [gammaHat_eq x k (by omega), gammaHat_eq x (k + 1) (by omega)]
    dsimp only
    split_ifs with h
    · exact ⟨s, rfl, by push_cast; linarith [Nat.cast_nonneg (α := ℝ) n]⟩
    · set gk := (∑ t ∈ Finset.range (x.length - k), x.getD t 0 * x.getD (t + k) 0) / (x.length : ℝ)
        with hgk
      obtain ⟨s', e, l⟩ := ih (k + 1) (s + gk / g0) (by omega)
      refine ⟨s', e, ?_⟩
      have := rho_le x k (by omega) g0 gk h0 (gammaHat_eq x k (by omega)) hpos
      have := (abs_le.1 this).2
      push_cast
      linarith

theorem getD_map_mul (x : List ℝ) (c : ℝ) (t : ℕ) :
    (x.map (fun v => c * v)).getD t 0 = c * x.getD t 0 := by
  simp only [List.getD_eq_getElem?_getD, List.getElem?_map]
  cases x[t]? <;> simp

theorem gammaHat_scale (x : List ℝ) (c : ℝ) (k : ℕ) :
    gammaHat (x.map (fun v => c * v)) k = (gammaHat x k).map (fun g => c ^ 2 * g) := by
  by_cases hk : k ≤ x.length
  · rw [gammaHat_eq _ k (by simpa using hk), gammaHat_eq x k hk]
    simp only [getD_map_mul, List.length_map, Option.map_some]
    congr 1
    rw [mul_div_assoc', Finset.mul_sum]
    congr 1
    apply Finset.sum_congr rfl
    intro t _; ring
  · unfold gammaHat
    rw [if_pos (by simpa using hk), if_pos (by simpa using hk)]
    rfl

theorem ipsLoop_scale (x : List ℝ) (c g0 : ℝ) (hc : c ≠ 0) (n k : ℕ) (s : ℝ) :
    ipsLoop (x.map (fun v => c * v)) (c ^ 2 * g0) n k s = ipsLoop x g0 n k s := by
  have hc2 : 0 < c ^ 2 := by positivity
  induction n generalizing k s with
  | zero => rfl
  | succ n ih =>
    unfold ipsLoop
    rw [gammaHat_scale, gammaHat_scale]
    cases h1 : gammaHat x k with
    | none => simp
    | some a =>
      cases h2 : gammaHat x (k + 1) with
      | none => simp
      | some b =>
        simp only [Option.map_some]
        have : c ^ 2 * a + c ^ 2 * b ≤ 0 ↔ a + b ≤ 0 := by
          rw [← mul_add]
          constructor
          · intro h; by_contra h'; push Not at h'; nlinarith
          · intro h; nlinarith
        simp only [this, ih, mul_div_mul_left _ _ hc2.ne']

end QLPeps.Statistics
