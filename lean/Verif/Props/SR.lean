import Verif.Lemmas.Ring
import Verif.Spec.SR
import Verif.Props.CG
import Mathlib.LinearAlgebra.Matrix.NonsingularInverse
import Mathlib.Logic.Relation
import Mathlib.Analysis.InnerProductSpace.Projection.Submodule

/-!
# Stochastic reconfiguration: C41, C42, C43, C44, C70, C71
-/

set_option linter.unusedSectionVars false

namespace QLPeps.SR

variable {𝕜 : Type*} [RCLike 𝕜] {V : Type*} [NormedAddCommGroup V] [InnerProductSpace 𝕜 V]

/-! ## C41 -/

theorem foldl_terms (f : V → V) (l : List V) (a : V) : l.foldl (fun acc o => acc + f o) a = a + (l.map f).sum := by
  induction l generalizing a with
  | nil => simp
  | cons b l ih => simp [ih, add_assoc]

/-- what one process computes -/
theorem applyLocal_eq (l : List V) (m : Option V) (md : 𝕜) (P : ℕ) (shift : 𝕜) (v : V) (hl : l ≠ []) :
    applyLocal l m md P shift v =
      some ((((l.length * P : ℕ) : 𝕜)⁻¹) • (l.map fun o => (inner 𝕜 o v - md) • o).sum + if m.isSome then shift • v else 0) := by
  obtain ⟨o0, rest, rfl⟩ := List.exists_cons_of_ne_nil hl
  simp only [applyLocal]
  rw [foldl_terms (fun o => (inner 𝕜 o v - md) • o)]
  have : (((1 / (((o0 :: rest).length * P : ℕ) : ℝ) : ℝ)) : 𝕜) = ((((o0 :: rest).length * P : ℕ) : 𝕜)⁻¹) := by
    push_cast; simp
  rw [this]
  split_ifs <;> simp

theorem map_sum_all {P : ℕ} {W : Type*} [AddCommMonoid W] (samples : Fin P → List V) (f : V → W) :
    ((all samples).map f).sum = ∑ r, ((samples r).map f).sum := by
  unfold all
  induction (Finset.univ : Finset (Fin P)) using Finset.induction with
  | empty => simp
  | insert a s ha ih => rw [Finset.sum_insert ha, Finset.sum_insert ha, Multiset.map_add, Multiset.sum_add, ih]; simp

theorem card_all {P B : ℕ} (samples : Fin P → List V) (hB : ∀ r, (samples r).length = B) : (all samples).card = B * P := by
  unfold all
  rw [Multiset.card_sum]
  simp [hB, mul_comm]

/-- deviations from the mean sum to zero -/
theorem sum_dev (s : Multiset V) (hs : s.card ≠ 0) : (s.map fun o => o - mean 𝕜 s).sum = 0 := by
  have : (s.map fun o => o - mean 𝕜 s).sum = s.sum - s.card • mean 𝕜 s := by
    rw [Multiset.sum_map_sub]; simp
  rw [this]
  unfold mean
  rw [← Nat.cast_smul_eq_nsmul 𝕜, smul_smul, mul_inv_cancel₀ (by exact_mod_cast hs), one_smul, sub_self]

theorem inner_sum_left' (s : Multiset V) (f : V → V) (v : V) : inner 𝕜 (s.map f).sum v = (s.map fun o => inner 𝕜 (f o) v).sum := by
  induction s using Multiset.induction with
  | empty => simp
  | cons a s ih => simp [inner_add_left, ih]

theorem inner_sum_right' (s : Multiset V) (f : V → V) (v : V) : inner 𝕜 v (s.map f).sum = (s.map fun o => inner 𝕜 v (f o)).sum := by
  induction s using Multiset.induction with
  | empty => simp
  | cons a s ih => simp [inner_add_right, ih]

theorem cov_eq (s : Multiset V) (v : V) (hs : s.card ≠ 0) :
    cov 𝕜 s v = ((s.card : 𝕜)⁻¹) • (s.map fun o => inner 𝕜 (o - mean 𝕜 s) v • o).sum := by
  unfold cov
  congr 1
  have h1 : (s.map fun o => inner 𝕜 (o - mean 𝕜 s) v • (o - mean 𝕜 s)).sum
      = (s.map fun o => inner 𝕜 (o - mean 𝕜 s) v • o).sum - (s.map fun o => inner 𝕜 (o - mean 𝕜 s) v • mean 𝕜 s).sum := by
    rw [← Multiset.sum_map_sub]; simp only [smul_sub]
  have h2 : (s.map fun o => inner 𝕜 (o - mean 𝕜 s) v • mean 𝕜 s).sum = (s.map fun o => inner 𝕜 (o - mean 𝕜 s) v).sum • mean 𝕜 s := by
    rw [Multiset.sum_smul, Multiset.map_map]; rfl
  have h3 : (s.map fun o => inner 𝕜 (o - mean 𝕜 s) v).sum = inner 𝕜 ((s.map fun o => o - mean 𝕜 s).sum) v :=
    (inner_sum_left' s (fun o => o - mean 𝕜 s) v).symm
  rw [h1, h2, h3, sum_dev s hs, inner_zero_left, zero_smul, sub_zero]

/-- **C41.** With the same positive number of samples on every process, every process's product is defined
and their sum is the covariance of all samples applied to `v`, plus `shift * v`. -/
theorem C41_apply {P B : ℕ} (hP : 0 < P) (hB : 0 < B) (samples : Fin P → List V)
    (hlen : ∀ r, (samples r).length = B) (shift : 𝕜) (v w : V) :
    Applied samples shift v w ↔ w = cov 𝕜 (all samples) v + shift • v := by
  have hcard : (all samples).card = B * P := card_all samples hlen
  have hne : ∀ r, samples r ≠ [] := fun r h => by have := hlen r; rw [h] at this; simp at this; omega
  have key : ∑ r : Fin P, ((((samples r).length * P : ℕ) : 𝕜)⁻¹ • ((samples r).map fun o =>
      (inner 𝕜 o v - meanDot (mean 𝕜 (all samples)) v) • o).sum +
      if (if r.val = 0 then some (mean 𝕜 (all samples)) else none).isSome then shift • v else 0)
      = cov 𝕜 (all samples) v + shift • v := by
    rw [Finset.sum_add_distrib]
    congr 1
    · rw [cov_eq _ _ (by rw [hcard]; positivity), map_sum_all, Finset.smul_sum, hcard]
      apply Finset.sum_congr rfl
      intro r _
      rw [hlen r]
      simp only [meanDot, inner_sub_left]
    · rw [Finset.sum_eq_single (⟨0, hP⟩ : Fin P)]
      · simp
      · intro r _ hr
        have : r.val ≠ 0 := fun h => hr (Fin.ext h)
        simp [this]
      · simp
  constructor
  · rintro ⟨res, h1, rfl⟩
    rw [← key]
    apply Finset.sum_congr rfl
    intro r _
    have := h1 r
    rw [applyLocal_eq _ _ _ _ _ _ (hne r)] at this
    exact (Option.some.inj this).symm
  · rintro rfl
    exact ⟨_, fun r => applyLocal_eq _ _ _ _ _ _ (hne r), key.symm⟩

/-- **C41, partition.** The product depends only on the multiset of all samples, not on how (or over how
many processes) they are distributed. -/
theorem C41_partition_independent {P P' B B' : ℕ} (hP : 0 < P) (hB : 0 < B) (hP' : 0 < P') (hB' : 0 < B')
    (samples : Fin P → List V) (samples' : Fin P' → List V) (hlen : ∀ r, (samples r).length = B)
    (hlen' : ∀ r, (samples' r).length = B') (hall : all samples = all samples') (shift : 𝕜) (v w : V) :
    Applied samples shift v w ↔ Applied samples' shift v w := by
  rw [C41_apply hP hB samples hlen, C41_apply hP' hB' samples' hlen', hall]

theorem cov_symm (s : Multiset V) (u v : V) : inner 𝕜 (cov 𝕜 s u) v = inner 𝕜 u (cov 𝕜 s v) := by
  unfold cov
  rw [inner_smul_left, inner_smul_right, inner_sum_left', inner_sum_right']
  congr 1
  · simp
  · congr 1
    apply Multiset.map_congr rfl
    intro o _
    rw [inner_smul_left, inner_smul_right, inner_conj_symm, mul_comm]

theorem cov_quad (s : Multiset V) (v : V) :
    RCLike.re (inner 𝕜 v (cov 𝕜 s v)) = (s.card : ℝ)⁻¹ * (s.map fun o => ‖inner 𝕜 (o - mean 𝕜 s) v‖ ^ 2).sum := by
  unfold cov
  rw [inner_smul_right, inner_sum_right']
  have h : ((s.card : 𝕜)⁻¹) = (((s.card : ℝ)⁻¹ : ℝ) : 𝕜) := by push_cast; rfl
  rw [h, RCLike.re_ofReal_mul]
  congr 1
  generalize mean 𝕜 s = m
  induction s using Multiset.induction with
  | empty => simp
  | cons a s ih =>
    have hs : ((s.card : 𝕜)⁻¹) = (((s.card : ℝ)⁻¹ : ℝ) : 𝕜) := by push_cast; rfl
    simp only [Multiset.map_cons, Multiset.sum_cons, map_add, ih hs]
    congr 1
    rw [inner_smul_right, ← inner_conj_symm v, RCLike.mul_conj]
    norm_cast

theorem cov_nonneg (s : Multiset V) (v : V) : 0 ≤ RCLike.re (inner 𝕜 v (cov 𝕜 s v)) := by
  rw [cov_quad]
  apply mul_nonneg (by positivity)
  apply Multiset.sum_nonneg
  intro x hx
  obtain ⟨o, _, rfl⟩ := Multiset.mem_map.1 hx
  positivity

/-- **C41, Hermitian and bounded below.** For a real shift the products are those of a self-adjoint operator
with `⟨v, S v⟩ ≥ shift ⟨v, v⟩`. -/
theorem C41_hermitian_and_bounded {P B : ℕ} (hP : 0 < P) (hB : 0 < B) (samples : Fin P → List V)
    (hlen : ∀ r, (samples r).length = B) (shift : ℝ) (u v wu wv : V)
    (hu : Applied samples (shift : 𝕜) u wu) (hv : Applied samples (shift : 𝕜) v wv) :
    inner 𝕜 wu v = inner 𝕜 u wv ∧ shift * ‖v‖ ^ 2 ≤ RCLike.re (inner 𝕜 v wv) := by
  rw [C41_apply hP hB samples hlen] at hu hv
  subst hu hv
  constructor
  · rw [inner_add_left, inner_add_right, cov_symm, inner_smul_left, inner_smul_right]
    simp
  · rw [inner_add_right, inner_smul_right, map_add, RCLike.re_ofReal_mul]
    have h1 := cov_nonneg (𝕜 := 𝕜) (all samples) v
    have h2 : RCLike.re (inner 𝕜 v v) = ‖v‖ ^ 2 := by
      rw [inner_self_eq_norm_sq_to_K]; norm_cast
    rw [h2]; linarith

/-- non-vacuity: two processes with one sample each, `1` and `3`; the covariance is 1 -/
example : Applied (𝕜 := ℝ) (V := ℝ) (fun r : Fin 2 => if r = 0 then [1] else [3]) (0.5 : ℝ) 2 3 := by
  rw [C41_apply (B := 1) (by norm_num) (by norm_num) _ (fun r => by fin_cases r <;> simp)]
  simp [all, cov, mean, Fin.sum_univ_two]
  norm_num

/-! ## C42 -/

section ring
variable {ip : V → V → 𝕜} {P B : ℕ} {o : ℕ → ℕ → V}

theorem reach_inv {g : Ring V 𝕜} (h : RingReachable ip P B o g) : RInv ip P B o g := by
  induction h with
  | refl => exact init_inv ip o
  | tail _ hs ih => exact step_inv ih hs

/-- **C42, no deadlock.** In every state reachable under any MPI implementation, either all processes have
finished or some step that needs no buffering at all is possible. -/
theorem C42_never_stuck (hP : 0 < P) {g : Ring V 𝕜} (h : RingReachable ip P B o g) :
    RingDone P B g ∨ ∃ g', Must ip P B (samplesOf o B) g g' := ring_progress hP (reach_inv h)

/-- **C42, bounded.** Every execution has at most `P (P-1) (2B+1)` steps. -/
theorem C42_bounded (n : ℕ) (path : ℕ → Ring V 𝕜) (h0 : path 0 = Ring.init ip B (samplesOf o B))
    (hs : ∀ k < n, Step ip P B (samplesOf o B) (path k) (path (k + 1))) : n ≤ P * ((P - 1) * (2 * B + 1)) := by
  have key : ∀ k ≤ n, RInv ip P B o (path k) ∧ (path k).left P B + k ≤ P * ((P - 1) * (2 * B + 1)) := by
    intro k
    induction k with
    | zero =>
      intro _
      rw [h0]
      refine ⟨init_inv ip o, ?_⟩
      simp [Ring.left, Ring.init, Rank.init, Rank.left]
    | succ k ih =>
      intro hk
      obtain ⟨h1, h2⟩ := ih (by omega)
      have h3 := step_left h1 (hs k (by omega))
      exact ⟨step_inv h1 (hs k (by omega)), by omega⟩
  have := (key n (le_refl n)).2
  omega

/-- `(r + P - q) % P` ranges over all rounds -/
theorem org_sum (hr : r < P) (f : ℕ → 𝕜) :
    ∑ u ∈ Finset.range P, f (org P r u) = ∑ q ∈ Finset.range P, f q := by
  have hP : 0 < P := by omega
  apply Finset.sum_bij' (fun u _ => org P r u) (fun q _ => (r + P - q) % P)
  · intro u _; simpa using org_lt hP
  · intro q _; simpa using Nat.mod_lt _ hP
  · intro u hu
    exact (org_eq_iff hr (org_lt hP) (by simpa using hu)).1 rfl
  · intro q hq
    exact ((org_eq_iff hr (by simpa using hq) (Nat.mod_lt _ hP)).2 rfl).symm
  · intro u _; rfl

/-- **C42, outcome.** When all processes have finished, process `r` holds in row `i` and column `q B + j` the
product of its sample `i` with sample `j` of process `q`, for every `q`; its row sums are the sums of its rows; and no message is left in flight. -/
theorem C42_result {g : Ring V 𝕜} (h : RingReachable ip P B o g) (hd : RingDone P B g) :
    (∀ r < P, ∀ i < B, ∀ q < P, ∀ j < B, (g.rank r).block i (q * B + j) = ip (o r i) (o q j)) ∧
    (∀ r < P, ∀ i < B, (g.rank r).rowSum i = ∑ q ∈ Finset.range P, ∑ j ∈ Finset.range B, ip (o r i) (o q j)) ∧
    ∀ r < P, g.chan r = [] := by
  have hI := reach_inv h
  have ht : ∀ r < P, (g.rank r).t = P - 1 := fun r hr => le_antisymm (hI.rk r hr).tle (done_iff (hd r hr))
  refine ⟨fun r hr i hi q hq j hj => ?_, fun r hr i hi => ?_, fun r hr => ?_⟩
  · apply (hI.rk r hr).blk i q j hi hq hj
    rw [ht r hr]
    have : (r + P - q) % P < P := Nat.mod_lt _ (by omega)
    omega
  · rw [(hI.rk r hr).sum i hi, ht r hr, show P - 1 + 1 = P by omega]
    exact org_sum hr (fun q => ∑ j ∈ Finset.range B, ip (o r i) (o q j))
  · have h1 := hI.ch r hr
    have e1 : (g.rank r).S B = (P - 1) * B := by
      unfold Rank.S; rw [ht r hr, ((hI.rk r hr).fin (ht r hr)).1, add_zero]
    have hn := nextRank_lt hr
    have e2 : (g.rank (nextRank P r)).R B = (P - 1) * B := by
      unfold Rank.R; rw [ht _ hn, ((hI.rk _ hn).fin (ht _ hn)).2, add_zero]
    rw [h1, e1, e2, Nat.sub_self]; rfl

/-- **C42, each block once.** Whenever a process is about to store a received block, the block it has
received consists of exactly the samples of the process in whose columns it will be stored; and over the
rounds `0, …, P-1` (round 0 being its own block) these columns run through all processes without repetition. -/
theorem C42_each_block_once {g : Ring V 𝕜} (h : RingReachable ip P B o g) (r : ℕ) (hr : r < P) :
    (nextOp P B r (g.rank r) = .compute →
      (g.rank r).recvBuf = samplesOf o B (sourceRank P r ((g.rank r).t + 1)) ∧ (g.rank r).t + 1 < P) ∧
    sourceRank P r 0 = r ∧ Set.BijOn (sourceRank P r) (Set.Iio P) (Set.Iio P) := by
  have hP : 0 < P := by omega
  have hI := (reach_inv h).rk r hr
  refine ⟨fun hop => ?_, by rw [sourceRank_eq hr hP, org_zero hr], ?_, ?_, ?_⟩
  · have hfull : (g.rank r).t < P - 1 ∧ (g.rank r).recvd = B := by
      unfold nextOp at hop
      have := hI.sle; have := hI.rle
      split_ifs at hop <;> (refine ⟨by omega, by omega⟩)
    refine ⟨?_, by omega⟩
    rw [hI.rbuf, hfull.2, sourceRank_eq hr (by omega), List.take_of_length_le (by simp [batch])]
    rfl
  · intro t ht
    have ht' : t < P := ht
    rw [sourceRank_eq hr ht']; exact org_lt hP
  · intro t ht t' ht' heq
    have h1 : t < P := ht
    have h2 : t' < P := ht'
    rw [sourceRank_eq hr h1, sourceRank_eq hr h2] at heq
    have a := (org_eq_iff hr (org_lt hP) h1).1 (rfl : org P r t = org P r t)
    have b := (org_eq_iff hr (org_lt hP) h2).1 heq
    omega
  · intro q hq
    have hq' : q < P := hq
    refine ⟨(r + P - q) % P, Nat.mod_lt _ hP, ?_⟩
    rw [sourceRank_eq hr (Nat.mod_lt _ hP)]
    exact ((org_eq_iff hr hq' (Nat.mod_lt _ hP)).2 rfl).symm

/-- every execution can be completed, hence finished states are reachable -/
theorem C42_completes (hP : 0 < P) (ip : V → V → 𝕜) (o : ℕ → ℕ → V) :
    ∃ g, RingReachable ip P B o g ∧ RingDone P B g := by
  have key : ∀ n, ∀ g : Ring V 𝕜, RingReachable ip P B o g → g.left P B ≤ n → ∃ g', RingReachable ip P B o g' ∧ RingDone P B g' := by
    intro n
    induction n with
    | zero =>
      intro g hg hl
      rcases C42_never_stuck hP hg with h | ⟨g', h⟩
      · exact ⟨g, hg, h⟩
      · have := step_left (reach_inv hg) (Step.must h); omega
    | succ n ih =>
      intro g hg hl
      rcases C42_never_stuck hP hg with h | ⟨g', h⟩
      · exact ⟨g, hg, h⟩
      · have := step_left (reach_inv hg) (Step.must h)
        exact ih g' (hg.tail (Step.must h)) (by omega)
  exact key _ _ Relation.ReflTransGen.refl (le_refl _)

/-- non-vacuity: three processes with two samples each -/
example : ∃ g, RingReachable (𝕜 := ℝ) (V := ℝ) (fun a b => a * b) 3 2 (fun r i => 2 * r + i) g ∧ RingDone 3 2 g :=
  C42_completes (by norm_num) _ _

end ring

/-! ## C43 -/

section gram
variable {P B : ℕ} {o : ℕ → ℕ → V}

theorem foldl_add_range (f : ℕ → 𝕜) (n : ℕ) : (List.range n).foldl (fun acc q => acc + f q) 0 = ∑ q ∈ Finset.range n, f q := by
  induction n with
  | zero => simp
  | succ n ih => rw [List.range_succ, List.foldl_append, ih, Finset.sum_range_succ]; rfl

theorem sum_blocks (f : ℕ → ℕ → 𝕜) (P B : ℕ) (hB : 0 < B) :
    ∑ q ∈ Finset.range (B * P), f (q / B) (q % B) = ∑ r ∈ Finset.range P, ∑ i ∈ Finset.range B, f r i := by
  induction P with
  | zero => simp
  | succ P ih =>
    rw [Finset.sum_range_succ, ← ih, show B * (P + 1) = B * P + B by ring, Finset.sum_range_add]
    congr 1
    apply Finset.sum_congr rfl
    intro i hi
    have hi' : i < B := by simpa using hi
    rw [Nat.mul_add_div hB, Nat.div_eq_of_lt hi', Nat.mul_add_mod, Nat.mod_eq_of_lt hi', add_zero]

/-- **C43.** The finished matrix is the centred Gram matrix of all samples:
`T_(r i),(q j) = ⟨O_ri - mean, O_qj - mean⟩ / N_s`. -/
theorem C43_centred_gram (hP : 0 < P) (hB : 0 < B) {g : Ring V 𝕜}
    (h : RingReachable (fun a b => inner 𝕜 a b) P B o g) (hd : RingDone P B g) (r i q j : ℕ) (hr : r < P) (hi : i < B)
    (hq : q < P) (hj : j < B) :
    entry P B g r i (q * B + j) =
      inner 𝕜 (o r i - ringMean 𝕜 P B o) (o q j - ringMean 𝕜 P B o) / ((P * B : ℕ) : 𝕜) := by
  obtain ⟨h1, h2, _⟩ := C42_result h hd
  have hN : ((P * B : ℕ) : 𝕜) ≠ 0 := by
    have : P * B ≠ 0 := by positivity
    exact_mod_cast this
  set N : 𝕜 := ((P * B : ℕ) : 𝕜) with hNdef
  have hNR : ((((B * P : ℕ) : ℝ)) : 𝕜) = N := by rw [hNdef]; push_cast; ring
  set tot : V := ∑ r ∈ Finset.range P, ∑ i ∈ Finset.range B, o r i with htot
  have hm : ringMean 𝕜 P B o = N⁻¹ • tot := rfl
  have hconj : (starRingEnd 𝕜) N = N := by rw [hNdef]; simp
  have hrow : ∀ r < P, ∀ i < B, (g.rank r).rowSum i = inner 𝕜 (o r i) tot := by
    intro r hr i hi
    rw [h2 r hr i hi, htot, inner_sum]
    apply Finset.sum_congr rfl
    intro q _
    rw [inner_sum]
  have hall : ∀ q < P, ∀ j < B, allM B (B * P) g (q * B + j) = inner 𝕜 (o q j) tot / N := by
    intro q hq j hj
    unfold allM
    have e1 : (q * B + j) / B = q := by rw [mul_comm, Nat.mul_add_div hB, Nat.div_eq_of_lt hj, add_zero]
    have e2 : (q * B + j) % B = j := by rw [mul_comm, Nat.mul_add_mod, Nat.mod_eq_of_lt hj]
    rw [e1, e2, hrow q hq j hj, hNR]
  have hc : centre B (B * P) g = inner 𝕜 tot tot / N / N := by
    unfold centre
    rw [foldl_add_range, hNR]
    congr 1
    unfold allM
    rw [hNR, sum_blocks (fun a b => (g.rank a).rowSum b / N) P B hB]
    have : ∀ r ∈ Finset.range P, ∀ i ∈ Finset.range B, (g.rank r).rowSum i / N = inner 𝕜 (o r i) tot / N := by
      intro r hr i hi
      rw [hrow r (by simpa using hr) i (by simpa using hi)]
    rw [Finset.sum_congr rfl (fun r hr => Finset.sum_congr rfl (this r hr))]
    simp only [← Finset.sum_div]
    congr 1
    conv_rhs => rw [htot, sum_inner]
    apply Finset.sum_congr rfl
    intro r _
    rw [sum_inner]
  unfold entry
  rw [h1 r hr i hi q hq j hj, hrow r hr i hi, hall q hq j hj, hc, hNR, hm]
  congr 1
  simp only [inner_sub_left, inner_sub_right, inner_smul_left, inner_smul_right, map_div₀, inner_conj_symm, map_inv₀, hconj]
  field_simp
  ring

/-- sums over all samples -/
theorem ring_dev_sum (hP : 0 < P) (hB : 0 < B) :
    ∑ q ∈ Finset.range P, ∑ j ∈ Finset.range B, (o q j - ringMean 𝕜 P B o) = 0 := by
  have hN : ((P * B : ℕ) : 𝕜) ≠ 0 := by
    have : P * B ≠ 0 := by positivity
    exact_mod_cast this
  simp only [Finset.sum_sub_distrib, Finset.sum_const, Finset.card_range]
  rw [smul_smul, ← Nat.cast_smul_eq_nsmul 𝕜, ringMean, smul_smul, mul_inv_cancel₀ hN, one_smul, sub_self]

/-- **C43, consequences.** The matrix is Hermitian, positive semidefinite and annihilates the constant vector. -/
theorem C43_hermitian_psd_centred (hP : 0 < P) (hB : 0 < B) {g : Ring V 𝕜}
    (h : RingReachable (fun a b => inner 𝕜 a b) P B o g) (hd : RingDone P B g) :
    (∀ r < P, ∀ i < B, ∀ q < P, ∀ j < B, (starRingEnd 𝕜) (entry P B g r i (q * B + j)) = entry P B g q j (r * B + i)) ∧
    (∀ x : ℕ → ℕ → 𝕜, 0 ≤ RCLike.re (∑ r ∈ Finset.range P, ∑ i ∈ Finset.range B, ∑ q ∈ Finset.range P,
      ∑ j ∈ Finset.range B, (starRingEnd 𝕜) (x r i) * entry P B g r i (q * B + j) * x q j)) ∧
    (∀ r < P, ∀ i < B, ∑ q ∈ Finset.range P, ∑ j ∈ Finset.range B, entry P B g r i (q * B + j) = 0) := by
  have hG := C43_centred_gram hP hB h hd
  refine ⟨fun r hr i hi q hq j hj => ?_, fun x => ?_, fun r hr i hi => ?_⟩
  · rw [hG r i q j hr hi hq hj, hG q j r i hq hj hr hi, map_div₀, inner_conj_symm]; simp
  · set d : ℕ → ℕ → V := fun r i => o r i - ringMean 𝕜 P B o with hdef
    set w : V := ∑ q ∈ Finset.range P, ∑ j ∈ Finset.range B, x q j • d q j with hw
    have : (∑ r ∈ Finset.range P, ∑ i ∈ Finset.range B, ∑ q ∈ Finset.range P,
      ∑ j ∈ Finset.range B, (starRingEnd 𝕜) (x r i) * entry P B g r i (q * B + j) * x q j) = inner 𝕜 w w / ((P * B : ℕ) : 𝕜) := by
      rw [hw, sum_inner, Finset.sum_div]
      apply Finset.sum_congr rfl; intro r hr
      rw [sum_inner, Finset.sum_div]
      apply Finset.sum_congr rfl; intro i hi
      rw [inner_sum, Finset.sum_div]
      apply Finset.sum_congr rfl; intro q hq
      rw [inner_sum, Finset.sum_div]
      apply Finset.sum_congr rfl; intro j hj
      rw [hG r i q j (by simpa using hr) (by simpa using hi) (by simpa using hq) (by simpa using hj), inner_smul_left,
        inner_smul_right]
      ring
    rw [this, inner_self_eq_norm_sq_to_K]
    have e : ((‖w‖ : 𝕜) ^ 2 / ((P * B : ℕ) : 𝕜)) = ((‖w‖ ^ 2 / ((P * B : ℕ) : ℝ) : ℝ) : 𝕜) := by push_cast; rfl
    rw [e, RCLike.ofReal_re]
    positivity
  · have e : ∀ q ∈ Finset.range P, ∀ j ∈ Finset.range B, entry P B g r i (q * B + j) =
        inner 𝕜 (o r i - ringMean 𝕜 P B o) (o q j - ringMean 𝕜 P B o) / ((P * B : ℕ) : 𝕜) := fun q hq j hj =>
      hG r i q j hr hi (by simpa using hq) (by simpa using hj)
    rw [Finset.sum_congr rfl (fun q hq => Finset.sum_congr rfl (e q hq))]
    simp only [← Finset.sum_div, ← inner_sum]
    rw [ring_dev_sum hP hB]; simp

end gram

/-! ## C44 -/

theorem foldl_max_ge (l : List ℝ) (a : ℝ) : a ≤ l.foldl (fun m e => max m |e|) a ∧ ∀ e ∈ l, |e| ≤ l.foldl (fun m e => max m |e|) a := by
  induction l generalizing a with
  | nil => simp
  | cons b l ih =>
    obtain ⟨h1, h2⟩ := ih (max a |b|)
    refine ⟨(le_max_left _ _).trans h1, fun e he => ?_⟩
    rcases List.mem_cons.1 he with rfl | he
    · exact (le_max_right _ _).trans h1
    · exact h2 e he

theorem foldl_max_zero (l : List ℝ) (h : ∀ e ∈ l, e = 0) : l.foldl (fun m e => max m |e|) 0 = 0 := by
  induction l with
  | nil => rfl
  | cons b l ih =>
    have : b = 0 := h b (by simp)
    subst this
    simpa using ih (fun e he => h e (by simp [he]))

theorem cutoff_nonneg (ev : List ℝ) {r a : ℝ} (hr : 0 ≤ r) (ha : 0 ≤ a) : 0 ≤ cutoff ev r a := by
  unfold cutoff
  have := (foldl_max_ge ev 0).1
  positivity

/-- `λ f(λ)` lies between 0 and 1, for either cutoff -/
theorem filter_range (soft : Bool) (cut lam : ℝ) : 0 ≤ lam * filterEv soft cut lam ∧ lam * filterEv soft cut lam ≤ 1 := by
  unfold filterEv
  cases soft with
  | true =>
    simp only [if_true]
    split_ifs with h
    · simp
    · have h6 : 0 ≤ cut * cut * cut * cut * cut * cut := by
        have : cut * cut * cut * cut * cut * cut = (cut ^ 3) ^ 2 := by ring
        rw [this]; positivity
      have l6 : lam * lam * (lam * lam) * lam * lam = (lam ^ 3) ^ 2 := by ring
      have hp : 0 < lam * lam * (lam * lam) * lam * lam + cut * cut * cut * cut * cut * cut := by
        rcases lt_or_eq_of_le (show 0 ≤ lam * lam * (lam * lam) * lam * lam + cut * cut * cut * cut * cut * cut by rw [l6]; positivity) with h' | h'
        · exact h'
        · exact absurd h'.symm h
      have e : lam * (lam * lam * (lam * lam) * lam / (lam * lam * (lam * lam) * lam * lam + cut * cut * cut * cut * cut * cut))
          = lam * lam * (lam * lam) * lam * lam / (lam * lam * (lam * lam) * lam * lam + cut * cut * cut * cut * cut * cut) := by ring
      rw [e]
      constructor
      · apply div_nonneg _ hp.le
        rw [l6]; positivity
      · rw [div_le_one hp]; linarith
  | false =>
    simp only [Bool.false_eq_true, if_false]
    split_ifs with h
    · by_cases h0 : lam = 0
      · simp [h0]
      · rw [mul_one_div_cancel h0]; norm_num
    · simp

/-- **C44, no over-amplification.** For non-negative tolerances, every eigenvalue is mapped to a value of the
same sign (or zero) with `0 ≤ λ f(λ) ≤ 1`, and `|f(λ)| ≤ 1/cutoff` when the cutoff is positive. -/
theorem C44_bounded (ev : List ℝ) (rPinv aPinv : ℝ) (soft : Bool) (hr : 0 ≤ rPinv) (ha : 0 ≤ aPinv) :
    (applyPinv ev rPinv aPinv soft).length = ev.length ∧
    ∀ (k : ℕ) (lam f : ℝ), ev[k]? = some lam → (applyPinv ev rPinv aPinv soft)[k]? = some f →
      0 ≤ lam * f ∧ lam * f ≤ 1 ∧ (0 < cutoff ev rPinv aPinv → |f| ≤ 1 / cutoff ev rPinv aPinv) := by
  refine ⟨by simp [applyPinv], fun k lam f hl hf => ?_⟩
  have hfe : f = filterEv soft (cutoff ev rPinv aPinv) lam := by
    unfold applyPinv at hf
    rw [List.getElem?_map, hl] at hf
    exact (Option.some.inj hf).symm
  subst hfe
  obtain ⟨h1, h2⟩ := filter_range soft (cutoff ev rPinv aPinv) lam
  refine ⟨h1, h2, fun hc => ?_⟩
  generalize cutoff ev rPinv aPinv = c at *
  unfold filterEv
  cases soft with
  | true =>
    simp only [if_true]
    split_ifs with h
    · simp; positivity
    · have l6 : lam * lam * (lam * lam) * lam * lam = |lam| ^ 6 := by
        have : |lam| ^ 6 = (|lam| ^ 2) ^ 3 := by ring
        rw [this, sq_abs]; ring
      have c6 : c * c * c * c * c * c = c ^ 6 := by ring
      rw [l6, c6, abs_div]
      have hp : 0 < |lam| ^ 6 + c ^ 6 := by positivity
      rw [abs_of_pos hp, div_le_div_iff₀ hp hc]
      have l5 : |lam * lam * (lam * lam) * lam| = |lam| ^ 5 := by
        rw [← abs_pow]; congr 1; ring
      rw [l5, one_mul]
      rcases le_total |lam| c with hle | hle
      · have : |lam| ^ 5 ≤ c ^ 5 := pow_le_pow_left₀ (abs_nonneg _) hle 5
        have h3 : |lam| ^ 5 * c ≤ c ^ 5 * c := mul_le_mul_of_nonneg_right this hc.le
        have h4 : 0 ≤ |lam| ^ 6 := by positivity
        have h5 : c ^ 5 * c = c ^ 6 := by ring
        linarith
      · have h3 : |lam| ^ 5 * c ≤ |lam| ^ 5 * |lam| := mul_le_mul_of_nonneg_left hle (by positivity)
        have h4 : 0 ≤ c ^ 6 := by positivity
        have h5 : |lam| ^ 5 * |lam| = |lam| ^ 6 := by ring
        linarith
  | false =>
    simp only [Bool.false_eq_true, if_false]
    split_ifs with h
    · rw [abs_div, abs_one]
      exact one_div_le_one_div_of_le hc h.le
    · simp; positivity

/-- **C44, the cutoff.** It is `r_pinv * max|λ| + a_pinv`. -/
theorem C44_cutoff (ev : List ℝ) (rPinv aPinv : ℝ) (hr : 0 ≤ rPinv) :
    (∀ lam ∈ ev, rPinv * |lam| + aPinv ≤ cutoff ev rPinv aPinv) ∧
    (ev ≠ [] → ∃ lam ∈ ev, cutoff ev rPinv aPinv = rPinv * |lam| + aPinv) := by
  constructor
  · intro lam hl
    unfold cutoff
    have := mul_le_mul_of_nonneg_left ((foldl_max_ge ev 0).2 lam hl) hr
    linarith
  · intro hne
    have key : ∀ (l : List ℝ) (a : ℝ), (l.foldl (fun m e => max m |e|) a = a) ∨ ∃ e ∈ l, l.foldl (fun m e => max m |e|) a = |e| := by
      intro l
      induction l with
      | nil => intro a; left; rfl
      | cons b l ih =>
        intro a
        rcases ih (max a |b|) with h | ⟨e, he, h⟩
        · rcases max_choice a |b| with h' | h'
          · left; simp only [List.foldl_cons]; rw [h, h']
          · right; exact ⟨b, by simp, by simp only [List.foldl_cons]; rw [h, h']⟩
        · right; exact ⟨e, by simp [he], by simpa using h⟩
    rcases key ev 0 with h | ⟨e, he, h⟩
    · obtain ⟨b, rest, rfl⟩ := List.exists_cons_of_ne_nil hne
      have hb := (foldl_max_ge (b :: rest) 0).2 b (by simp)
      rw [h] at hb
      have : |b| = 0 := le_antisymm hb (abs_nonneg _)
      exact ⟨b, by simp, by unfold cutoff; rw [h, this]⟩
    · exact ⟨e, he, by unfold cutoff; rw [h]⟩

/-- **C44, hard cutoff.** Eigenvalues up to the cutoff go to zero, all others to their exact inverse. -/
theorem C44_hard (ev : List ℝ) (rPinv aPinv : ℝ) (k : ℕ) (lam : ℝ) (hl : ev[k]? = some lam) :
    (applyPinv ev rPinv aPinv false)[k]? =
      some (if |lam| ≤ cutoff ev rPinv aPinv then 0 else lam⁻¹) := by
  unfold applyPinv
  rw [List.getElem?_map, hl]
  simp only [Option.map_some, filterEv, Bool.false_eq_true, if_false, one_div]
  by_cases h : cutoff ev rPinv aPinv < |lam|
  · rw [if_pos h, if_neg (by linarith)]
  · rw [if_neg h, if_pos (by linarith)]

/-- **C44, soft cutoff.** `f(λ) = λ⁵/(λ⁶ + cutoff⁶)`, and `0` for `λ = cutoff = 0`; at least half of the exact
inverse survives above the cutoff. -/
theorem C44_soft (ev : List ℝ) (rPinv aPinv : ℝ) (k : ℕ) (lam : ℝ) (hl : ev[k]? = some lam)
    (hc : 0 ≤ cutoff ev rPinv aPinv) :
    (applyPinv ev rPinv aPinv true)[k]? = some (lam ^ 5 / (lam ^ 6 + cutoff ev rPinv aPinv ^ 6)) ∧
    (cutoff ev rPinv aPinv ≤ |lam| → lam ≠ 0 → 1 / 2 ≤ lam * (lam ^ 5 / (lam ^ 6 + cutoff ev rPinv aPinv ^ 6))) := by
  constructor
  · unfold applyPinv
    rw [List.getElem?_map, hl]
    simp only [Option.map_some, filterEv, if_true, Option.some.injEq]
    generalize cutoff ev rPinv aPinv = c
    have e6 : lam * lam * (lam * lam) * lam * lam + c * c * c * c * c * c = lam ^ 6 + c ^ 6 := by ring
    have e5 : lam * lam * (lam * lam) * lam = lam ^ 5 := by ring
    rw [e6, e5]
    split_ifs with h
    · rw [h, div_zero]
    · rfl
  · intro h h0
    generalize cutoff ev rPinv aPinv = c at *
    have h1 : c ^ 6 ≤ lam ^ 6 := by
      have := pow_le_pow_left₀ hc h 6
      rwa [show |lam| ^ 6 = lam ^ 6 by rw [show |lam| ^ 6 = (|lam| ^ 2) ^ 3 by ring, sq_abs]; ring] at this
    have h2 : 0 < lam ^ 6 := by
      have : lam ^ 6 = (lam ^ 3) ^ 2 := by ring
      rw [this]; positivity
    have h3 : 0 ≤ c ^ 6 := by positivity
    rw [← mul_div_assoc, show lam * lam ^ 5 = lam ^ 6 by ring, div_le_div_iff₀ (by norm_num) (by linarith)]
    linarith

/-- **C44, zero spectrum.** An all-zero spectrum is mapped to zeros (no division by zero) in both modes. -/
theorem C44_zero_spectrum (ev : List ℝ) (rPinv aPinv : ℝ) (soft : Bool) (ha : 0 ≤ aPinv) (h : ∀ e ∈ ev, e = 0) :
    ∀ f ∈ applyPinv ev rPinv aPinv soft, f = 0 := by
  intro f hf
  unfold applyPinv at hf
  obtain ⟨e, he, rfl⟩ := List.mem_map.1 hf
  rw [h e he]
  unfold filterEv
  have : cutoff ev rPinv aPinv = aPinv := by unfold cutoff; rw [foldl_max_zero ev h]; ring
  cases soft <;> simp [this, ha]

/-- non-vacuity: eigenvalues 0, 1, 4 with relative cutoff 1/4 and absolute cutoff 1/2 -/
example : applyPinv [0, 1, 4] (1 / 4) (1 / 2) false = [0, 0, 1 / 4] := by
  unfold applyPinv cutoff filterEv
  norm_num

/-! ## C70: the MinSR direction -/

section minsr
variable {ι : Type*} [Fintype ι] [DecidableEq ι]

theorem mean_family (O : ι → V) : mean 𝕜 (samplesSet O) = ((Fintype.card ι : 𝕜)⁻¹) • ∑ i, O i := by
  unfold mean samplesSet
  rw [Multiset.card_map]
  rfl

theorem cov_family (O : ι → V) (v : V) : cov 𝕜 (samplesSet O) v =
    ((Fintype.card ι : 𝕜)⁻¹) • ∑ i, inner 𝕜 (O i - mean 𝕜 (samplesSet O)) v • (O i - mean 𝕜 (samplesSet O)) := by
  unfold cov
  generalize mean 𝕜 (samplesSet O) = m
  unfold samplesSet
  rw [Multiset.card_map, Multiset.map_map]
  rfl

theorem dev_family [Nonempty ι] (O : ι → V) : ∑ i, (O i - mean 𝕜 (samplesSet O)) = 0 := by
  have hN : (Fintype.card ι : 𝕜) ≠ 0 := by exact_mod_cast Fintype.card_ne_zero
  rw [Finset.sum_sub_distrib, Finset.sum_const, mean_family, Finset.card_univ, ← Nat.cast_smul_eq_nsmul 𝕜, smul_smul,
    mul_inv_cancel₀ hN, one_smul, sub_self]

theorem backSubst_eq (O : ι → V) (m : V) (y : ι → 𝕜) : backSubst O m y = ∑ i, y i • (O i - m) := by
  unfold backSubst
  simp only [smul_sub, Finset.sum_sub_distrib, ← Finset.sum_smul, neg_smul]
  rw [sub_eq_add_neg]

theorem eps_eq (E : ι → 𝕜) (e : 𝕜) (i : ι) : epsilonBar E e i = (Fintype.card ι : 𝕜)⁻¹ * (starRingEnd 𝕜) (E i - e) := by
  unfold epsilonBar
  rw [div_eq_inv_mul]
  simp

theorem grad_eq [Nonempty ι] (E : ι → 𝕜) (O : ι → V) : gradEstimate E O =
    ∑ i, epsilonBar E ((∑ j, E j) / (Fintype.card ι : 𝕜)) i • (O i - mean 𝕜 (samplesSet O)) := by
  have hN : (Fintype.card ι : 𝕜) ≠ 0 := by exact_mod_cast Fintype.card_ne_zero
  have h0 : ∑ i, epsilonBar E ((∑ j, E j) / (Fintype.card ι : 𝕜)) i = 0 := by
    simp only [eps_eq, ← Finset.mul_sum, ← map_sum]
    rw [Finset.sum_sub_distrib, Finset.sum_const, Finset.card_univ, nsmul_eq_mul, mul_div_cancel₀ _ hN, sub_self, map_zero, mul_zero]
  simp only [smul_sub, Finset.sum_sub_distrib, ← Finset.sum_smul]
  rw [h0, zero_smul, sub_zero, gradEstimate, Finset.smul_sum]
  apply Finset.sum_congr rfl
  intro i _
  rw [eps_eq, smul_smul]

/-- completeness of an orthonormal family of the right size -/
theorem eigen_complete {T : ι → ι → 𝕜} {lam : ι → ℝ} {z : ι → ι → 𝕜} (h : Eigen T lam z) (i j : ι) :
    ∑ k, z k i * (starRingEnd 𝕜) (z k j) = if i = j then 1 else 0 := by
  let Z : Matrix ι ι 𝕜 := fun k i => z k i
  let Zs : Matrix ι ι 𝕜 := fun i k => (starRingEnd 𝕜) (z k i)
  have h1 : Z * Zs = 1 := by
    ext k l
    rw [Matrix.mul_apply, Matrix.one_apply]
    have := h.orth l k
    rw [show (∑ i, Z k i * Zs i l) = ∑ i, (starRingEnd 𝕜) (z l i) * z k i from
      Finset.sum_congr rfl (fun i _ => mul_comm _ _), this]
    simp only [eq_comm]
  have h2 : Zs * Z = 1 := mul_eq_one_comm.1 h1
  have := congrFun (congrFun h2 j) i
  rw [Matrix.mul_apply, Matrix.one_apply] at this
  rw [show (∑ k, z k i * (starRingEnd 𝕜) (z k j)) = ∑ k, Zs j k * Z k i from
    Finset.sum_congr rfl (fun k _ => mul_comm _ _), this]
  simp only [eq_comm]

/-- coefficient of `x` on eigenvector `k` -/
noncomputable def coef (z : ι → ι → 𝕜) (x : ι → 𝕜) (k : ι) : 𝕜 := ∑ j, (starRingEnd 𝕜) (z k j) * x j

theorem expand {T : ι → ι → 𝕜} {lam : ι → ℝ} {z : ι → ι → 𝕜} (h : Eigen T lam z) (x : ι → 𝕜) (i : ι) :
    x i = ∑ k, coef z x k * z k i := by
  unfold coef
  simp only [Finset.sum_mul]
  rw [Finset.sum_comm]
  have : ∀ j, ∑ k, (starRingEnd 𝕜) (z k j) * x j * z k i = (if i = j then 1 else 0) * x j := by
    intro j
    rw [← eigen_complete h i j, Finset.sum_mul]
    exact Finset.sum_congr rfl (fun k _ => by ring)
  simp [this]

theorem T_solve {T : ι → ι → 𝕜} {lam : ι → ℝ} {z : ι → ι → 𝕜} (h : Eigen T lam z) (f : ι → ℝ) (x : ι → 𝕜) (i : ι) :
    ∑ j, T i j * eigenSolve z f x j = ∑ k, coef z x k * ((lam k * f k : ℝ) : 𝕜) * z k i := by
  unfold eigenSolve
  simp only [Finset.mul_sum]
  rw [Finset.sum_comm]
  apply Finset.sum_congr rfl
  intro k _
  have h1 : ∀ j, T i j * (z k j * ((∑ j, (starRingEnd 𝕜) (z k j) * x j) * (f k : 𝕜))) = T i j * z k j * (coef z x k * (f k : 𝕜)) := by
    intro j; unfold coef; ring
  simp only [h1, ← Finset.sum_mul]
  rw [h.eig k i]
  push_cast
  ring

/-- `N ⟨x, T y⟩ = ⟨Σ x_i d_i, Σ y_i d_i⟩` -/
theorem gram_form [Nonempty ι] (O : ι → V) (x y : ι → 𝕜) :
    inner 𝕜 (∑ i, x i • (O i - mean 𝕜 (samplesSet O))) (∑ i, y i • (O i - mean 𝕜 (samplesSet O))) =
      (Fintype.card ι : 𝕜) * ∑ i, (starRingEnd 𝕜) (x i) * ∑ j, gram 𝕜 O i j * y j := by
  have hN : (Fintype.card ι : 𝕜) ≠ 0 := by exact_mod_cast Fintype.card_ne_zero
  rw [sum_inner, Finset.mul_sum]
  apply Finset.sum_congr rfl
  intro i _
  rw [inner_sum, Finset.mul_sum, Finset.mul_sum]
  apply Finset.sum_congr rfl
  intro j _
  rw [inner_smul_left, inner_smul_right, gram]
  field_simp

/-- the covariance of a combination of the deviations -/
theorem cov_comb [Nonempty ι] (O : ι → V) (y : ι → 𝕜) :
    cov 𝕜 (samplesSet O) (∑ i, y i • (O i - mean 𝕜 (samplesSet O))) =
      ∑ i, (∑ j, gram 𝕜 O i j * y j) • (O i - mean 𝕜 (samplesSet O)) := by
  have hN : (Fintype.card ι : 𝕜) ≠ 0 := by exact_mod_cast Fintype.card_ne_zero
  rw [cov_family, Finset.smul_sum]
  apply Finset.sum_congr rfl
  intro i _
  rw [inner_sum, smul_smul, Finset.mul_sum]
  congr 1
  apply Finset.sum_congr rfl
  intro j _
  rw [inner_smul_right, gram]
  field_simp

/-- **C70, descent.** Whatever the tolerances and the cutoff mode, the MinSR direction never points against the
estimated gradient: `Re⟨g, δ⟩ ≥ 0`. -/
theorem C70_descent [Nonempty ι] (O : ι → V) (E : ι → 𝕜) (lam : ι → ℝ) (z : ι → ι → 𝕜)
    (h : Eigen (gram 𝕜 O) lam z) (soft : Bool) (cut : ℝ) :
    0 ≤ RCLike.re (inner 𝕜 (gradEstimate E O) (minsrDirection O E z fun k => filterEv soft cut (lam k))) := by
  unfold minsrDirection
  rw [grad_eq, backSubst_eq, gram_form]
  set x := epsilonBar E ((∑ j, E j) / (Fintype.card ι : 𝕜)) with hx
  simp only [T_solve h]
  have e : ∑ i, (starRingEnd 𝕜) (x i) * ∑ k, coef z x k * ((lam k * filterEv soft cut (lam k) : ℝ) : 𝕜) * z k i
      = ((∑ k, (lam k * filterEv soft cut (lam k)) * ‖coef z x k‖ ^ 2 : ℝ) : 𝕜) := by
    simp only [Finset.mul_sum]
    rw [Finset.sum_comm]
    push_cast
    apply Finset.sum_congr rfl
    intro k _
    have h1 : ∀ i, (starRingEnd 𝕜) (x i) * (coef z x k * ((lam k : 𝕜) * (filterEv soft cut (lam k) : 𝕜)) * z k i)
        = (starRingEnd 𝕜) ((starRingEnd 𝕜) (z k i) * x i) * (coef z x k * ((lam k : 𝕜) * (filterEv soft cut (lam k) : 𝕜))) := by
      intro i; simp only [map_mul, RingHomCompTriple.comp_apply, RingHom.id_apply]; ring
    rw [Finset.sum_congr rfl (fun i _ => h1 i), ← Finset.sum_mul, ← map_sum]
    have h2 : (∑ i, (starRingEnd 𝕜) (z k i) * x i) = coef z x k := rfl
    rw [h2, ← RCLike.conj_mul]
    ring
  rw [e]
  have hc : (Fintype.card ι : 𝕜) = (((Fintype.card ι : ℝ)) : 𝕜) := by push_cast; rfl
  rw [hc, ← RCLike.ofReal_mul, RCLike.ofReal_re]
  apply mul_nonneg (by positivity)
  apply Finset.sum_nonneg
  intro k _
  exact mul_nonneg (filter_range soft cut (lam k)).1 (by positivity)

/-- **C70, exact solve.** If the hard cutoff keeps every nonzero eigenvalue, the MinSR direction solves the
stochastic-reconfiguration equation `S δ = g` exactly, and it is the solution of least norm. -/
theorem C70_solves_sr [Nonempty ι] (O : ι → V) (E : ι → 𝕜) (lam : ι → ℝ) (z : ι → ι → 𝕜)
    (h : Eigen (gram 𝕜 O) lam z) (cut : ℝ) (hcut : ∀ k, lam k ≠ 0 → cut < |lam k|) :
    cov 𝕜 (samplesSet O) (minsrDirection O E z fun k => filterEv false cut (lam k)) = gradEstimate E O ∧
    ∀ δ', cov 𝕜 (samplesSet O) δ' = gradEstimate E O →
      ‖minsrDirection O E z fun k => filterEv false cut (lam k)‖ ≤ ‖δ'‖ := by
  have hN : (Fintype.card ι : 𝕜) ≠ 0 := by exact_mod_cast Fintype.card_ne_zero
  set d : ι → V := fun i => O i - mean 𝕜 (samplesSet O) with hdd
  set x := epsilonBar E ((∑ j, E j) / (Fintype.card ι : 𝕜)) with hx
  set f : ι → ℝ := fun k => filterEv false cut (lam k) with hf
  have hfl : ∀ k, lam k * f k = if lam k = 0 then 0 else 1 := by
    intro k
    rw [hf]; simp only [filterEv, Bool.false_eq_true, if_false]
    by_cases h0 : lam k = 0
    · simp [h0]
    · rw [if_pos (hcut k h0), if_neg h0, mul_one_div_cancel h0]
  have hdir : minsrDirection O E z f = ∑ i, eigenSolve z f x i • d i := by
    unfold minsrDirection; rw [backSubst_eq]
  have hsolve : cov 𝕜 (samplesSet O) (minsrDirection O E z f) = gradEstimate E O := by
    rw [hdir, cov_comb, grad_eq, ← hx]
    -- the difference is a combination with coefficients in the kernel of the Gram matrix
    set w : ι → 𝕜 := fun i => x i - ∑ j, gram 𝕜 O i j * eigenSolve z f x j with hw
    have hwe : ∀ i, w i = ∑ k, coef z x k * ((if lam k = 0 then 1 else 0 : ℝ) : 𝕜) * z k i := by
      intro i
      rw [hw]; simp only
      rw [T_solve h, expand h x i, ← Finset.sum_sub_distrib]
      apply Finset.sum_congr rfl
      intro k _
      rw [hfl k]
      split_ifs <;> simp
    have hker : ∀ i, ∑ j, gram 𝕜 O i j * w j = 0 := by
      intro i
      simp only [hwe, Finset.mul_sum]
      rw [Finset.sum_comm]
      apply Finset.sum_eq_zero
      intro k _
      have : ∀ j, gram 𝕜 O i j * (coef z x k * ((if lam k = 0 then 1 else 0 : ℝ) : 𝕜) * z k j)
          = gram 𝕜 O i j * z k j * (coef z x k * ((if lam k = 0 then 1 else 0 : ℝ) : 𝕜)) := by intro j; ring
      simp only [this, ← Finset.sum_mul]
      rw [h.eig k i]
      split_ifs with h0
      · simp [h0]
      · simp
    have hz : ∑ i, w i • d i = 0 := by
      have := gram_form (𝕜 := 𝕜) O w w
      simp only [hker, mul_zero, Finset.sum_const_zero] at this
      exact inner_self_eq_zero.1 this
    have : ∑ i, x i • d i - ∑ i, (∑ j, gram 𝕜 O i j * eigenSolve z f x j) • d i = 0 := by
      rw [← Finset.sum_sub_distrib, ← hz]
      apply Finset.sum_congr rfl
      intro i _
      rw [hw, sub_smul]
    exact (sub_eq_zero.1 this).symm
  refine ⟨hsolve, fun δ' h' => ?_⟩
  set δ := minsrDirection O E z f with hδ
  -- `S (δ' - δ) = 0`, so the difference is orthogonal to all deviations
  have hlin : cov 𝕜 (samplesSet O) (δ' - δ) = 0 := by
    have : cov 𝕜 (samplesSet O) (δ' - δ) = cov 𝕜 (samplesSet O) δ' - cov 𝕜 (samplesSet O) δ := by
      simp only [cov_family, inner_sub_right, sub_smul, Finset.sum_sub_distrib]
      rw [smul_sub]
    rw [this, h', hsolve, sub_self]
  have hq := cov_quad (𝕜 := 𝕜) (samplesSet O) (δ' - δ)
  rw [hlin, inner_zero_right, map_zero] at hq
  have hcard : (samplesSet O).card = Fintype.card ι := by unfold samplesSet; rw [Multiset.card_map]; rfl
  have hsum : ((samplesSet O).map fun o => ‖inner 𝕜 (o - mean 𝕜 (samplesSet O)) (δ' - δ)‖ ^ 2).sum = ∑ i, ‖inner 𝕜 (d i) (δ' - δ)‖ ^ 2 := by
    rw [hdd]
    generalize mean 𝕜 (samplesSet O) = m
    unfold samplesSet; rw [Multiset.map_map]; rfl
  rw [hsum, hcard] at hq
  have hNr : ((Fintype.card ι : ℝ)⁻¹) ≠ 0 := by
    have : (Fintype.card ι : ℝ) ≠ 0 := by exact_mod_cast Fintype.card_ne_zero
    positivity
  have h0 : ∑ i, ‖inner 𝕜 (d i) (δ' - δ)‖ ^ 2 = 0 := by
    rcases mul_eq_zero.1 hq.symm with h | h
    · exact absurd h hNr
    · exact h
  have horth : ∀ i, inner 𝕜 (d i) (δ' - δ) = 0 := by
    intro i
    have := (Finset.sum_eq_zero_iff_of_nonneg (fun i _ => by positivity)).1 h0 i (Finset.mem_univ i)
    exact norm_eq_zero.1 (pow_eq_zero_iff (two_ne_zero)|>.1 this)
  have hperp : inner 𝕜 δ (δ' - δ) = 0 := by
    generalize δ' - δ = e at horth
    rw [hdir, sum_inner]
    apply Finset.sum_eq_zero
    intro i _
    rw [inner_smul_left, horth i, mul_zero]
  have hpy : ‖δ'‖ ^ 2 = ‖δ‖ ^ 2 + ‖δ' - δ‖ ^ 2 := by
    have := norm_add_sq (𝕜 := 𝕜) δ (δ' - δ)
    rw [hperp, map_zero, mul_zero, add_zero, add_sub_cancel] at this
    exact this
  have : ‖δ‖ ^ 2 ≤ ‖δ'‖ ^ 2 := by rw [hpy]; nlinarith [sq_nonneg ‖δ' - δ‖]
  exact le_of_sq_le_sq this (norm_nonneg _)

/-- non-vacuity: two samples `0` and `2` with energies `1` and `5`; the matrix is `½ [[1,-1],[-1,1]]` with
eigenvalues 0 and 1 -/
example : Eigen (𝕜 := ℝ) (gram ℝ (fun i : Fin 2 => if i = 0 then (0 : ℝ) else 2)) ![0, 1]
    ![![1 / √2, 1 / √2], ![1 / √2, -(1 / √2)]] := by
  have h2 : (1 / √2 : ℝ) * (1 / √2) = 1 / 2 := by
    rw [div_mul_div_comm, Real.mul_self_sqrt (by norm_num)]; norm_num
  constructor
  · intro k l
    fin_cases k <;> fin_cases l <;> simp [Fin.sum_univ_two] <;> field_simp <;> norm_num
  · intro k i
    fin_cases k <;> fin_cases i <;> simp [Fin.sum_univ_two, gram, mean, samplesSet] <;> norm_num <;> ring

/-! ## C71: the stochastic-reconfiguration solve never aborts -/

/-- the S matrix with shift as a linear map -/
noncomputable def srMap (s : Multiset V) (shift : 𝕜) : V →ₗ[𝕜] V where
  toFun v := cov 𝕜 s v + shift • v
  map_add' u v := by
    unfold cov
    simp only [inner_add_right, add_smul, Multiset.sum_map_add, smul_add]
    abel
  map_smul' a v := by
    unfold cov
    simp only [inner_smul_right, RingHom.id_apply, smul_add]
    have : (s.map fun o => (a * inner 𝕜 (o - mean 𝕜 s) v) • (o - mean 𝕜 s)).sum
        = a • (s.map fun o => inner 𝕜 (o - mean 𝕜 s) v • (o - mean 𝕜 s)).sum := by
      rw [Multiset.smul_sum, Multiset.map_map]
      simp only [Function.comp_def, smul_smul]
    rw [this, smul_comm, smul_comm shift a]

/-- **C71.** Exact arithmetic, any non-negative shift (zero included): conjugate gradient on the
stochastic-reconfiguration system with the estimated gradient as right-hand side never reports an
indefinite matrix or a breakdown (the two outcomes that abort the optimization), from any initial guess, and
needs at most as many iterations as the dimension. -/
theorem C71_sr_never_aborts [FiniteDimensional 𝕜 V] [Nonempty ι] (O : ι → V) (E : ι → 𝕜) (shift : ℝ) (hs : 0 ≤ shift)
    (A : V → V) (hA : ∀ v, A v = cov 𝕜 (samplesSet O) v + (shift : 𝕜) • v) (x0 : V) (pr : CG.Params ℝ) (eps : ℝ)
    (hortho : 0 ≤ pr.ortho) :
    let res := CG.solve (CG.exactOps 𝕜 V eps) A (gradEstimate E O) x0 pr
    res.reason ≠ .indefinite ∧ res.reason ≠ .breakdown ∧ res.iterations ≤ Module.finrank 𝕜 V := by
  have hAe : A = srMap (𝕜 := 𝕜) (samplesSet O) (shift : 𝕜) := funext hA
  rw [hAe]
  have hsymm : (srMap (𝕜 := 𝕜) (samplesSet O) (shift : 𝕜)).IsSymmetric := by
    intro u v
    show inner 𝕜 (cov 𝕜 (samplesSet O) u + (shift : 𝕜) • u) v = inner 𝕜 u (cov 𝕜 (samplesSet O) v + (shift : 𝕜) • v)
    rw [inner_add_left, inner_add_right, cov_symm, inner_smul_left, inner_smul_right]
    simp
  have hq : ∀ v, RCLike.re (inner 𝕜 v (srMap (𝕜 := 𝕜) (samplesSet O) (shift : 𝕜) v)) =
      RCLike.re (inner 𝕜 v (cov 𝕜 (samplesSet O) v)) + shift * ‖v‖ ^ 2 := by
    intro v
    show RCLike.re (inner 𝕜 v (cov 𝕜 (samplesSet O) v + (shift : 𝕜) • v)) = _
    rw [inner_add_right, inner_smul_right, map_add, RCLike.re_ofReal_mul]
    congr 2
    rw [inner_self_eq_norm_sq_to_K]; norm_cast
  rcases hs.lt_or_eq with hpos | hzero
  · obtain ⟨h1, h2, h3, _⟩ := CG.C69_positive_definite eps (srMap (𝕜 := 𝕜) (samplesSet O) (shift : 𝕜)) (gradEstimate E O) x0 pr
      hsymm (fun v hv => by
        rw [hq]
        have := cov_nonneg (𝕜 := 𝕜) (samplesSet O) v
        have h2 : 0 < ‖v‖ := norm_pos_iff.2 hv
        positivity) hortho
    exact ⟨h2, h3, h1⟩
  · have hb : gradEstimate E O ∈ LinearMap.range (srMap (𝕜 := 𝕜) (samplesSet O) (shift : 𝕜)) := by
      -- the range of a symmetric map is the orthogonal complement of its kernel
      set S := srMap (𝕜 := 𝕜) (samplesSet O) (shift : 𝕜) with hS
      have hort : gradEstimate E O ∈ (LinearMap.ker S)ᗮ := by
        rw [Submodule.mem_orthogonal]
        intro u hu
        have hu0 : cov 𝕜 (samplesSet O) u = 0 := by
          have : cov 𝕜 (samplesSet O) u + (shift : 𝕜) • u = 0 := hu
          rw [← hzero] at this; simpa using this
        have hqq := cov_quad (𝕜 := 𝕜) (samplesSet O) u
        rw [hu0, inner_zero_right, map_zero] at hqq
        have hcard : (samplesSet O).card = Fintype.card ι := by unfold samplesSet; rw [Multiset.card_map]; rfl
        have hsum : ((samplesSet O).map fun o => ‖inner 𝕜 (o - mean 𝕜 (samplesSet O)) u‖ ^ 2).sum =
            ∑ i, ‖inner 𝕜 (O i - mean 𝕜 (samplesSet O)) u‖ ^ 2 := by
          generalize mean 𝕜 (samplesSet O) = m
          unfold samplesSet; rw [Multiset.map_map]; rfl
        rw [hsum, hcard] at hqq
        have h0 : ∑ i, ‖inner 𝕜 (O i - mean 𝕜 (samplesSet O)) u‖ ^ 2 = 0 := by
          rcases mul_eq_zero.1 hqq.symm with h | h
          · have : (Fintype.card ι : ℝ) ≠ 0 := by exact_mod_cast Fintype.card_ne_zero
            exact absurd h (by positivity)
          · exact h
        rw [grad_eq, inner_sum]
        apply Finset.sum_eq_zero
        intro i _
        have := (Finset.sum_eq_zero_iff_of_nonneg (fun i _ => by positivity)).1 h0 i (Finset.mem_univ i)
        have h1 := norm_eq_zero.1 (pow_eq_zero_iff (two_ne_zero)|>.1 this)
        rw [inner_smul_right, ← inner_conj_symm, h1, map_zero, mul_zero]
      have hle : (LinearMap.ker S)ᗮ ≤ LinearMap.range S := by
        have h1 : (LinearMap.range S)ᗮ ≤ LinearMap.ker S := by
          intro u hu
          rw [LinearMap.mem_ker]
          rw [Submodule.mem_orthogonal] at hu
          have := hu (S (S u)) ⟨S u, rfl⟩
          rw [hsymm (S u) u] at this
          exact inner_self_eq_zero.1 this
        have h2 := Submodule.orthogonal_le h1
        rwa [Submodule.orthogonal_orthogonal] at h2
      exact hle hort
    obtain ⟨h1, h2, h3, _⟩ := CG.C69_semidefinite eps (srMap (𝕜 := 𝕜) (samplesSet O) (shift : 𝕜)) (gradEstimate E O) x0 pr
      hsymm (fun v => by
        rw [hq, ← hzero]
        have := cov_nonneg (𝕜 := 𝕜) (samplesSet O) v
        linarith) hb hortho
    exact ⟨h2, h3, h1.trans (Submodule.finrank_le _)⟩

end minsr
end QLPeps.SR
