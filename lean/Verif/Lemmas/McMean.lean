import Verif.Lemmas.McRun
import Verif.Lemmas.EvaluatorMC

/-! # Helper lemmas: sample means of the Monte Carlo evaluator -/

namespace QLPeps.Evaluator

open Finset

variable {ι X : Type*} {𝕜 : Type*} [RCLike 𝕜] [DecidableEq ι]

theorem mcOstarMean_eq (n : ℕ) (ranks : List (List (Sample ι X 𝕜)))
    (h : ∀ l ∈ ranks, l.length = n) (r : ι) (b : ℕ) (x : X) :
    mcOstarMean n ranks r b x = sampleMean ranks.flatten (fun s => logDeriv s r b x) := by
  have hlen : ranks.flatten.length = ranks.length * n := by
    clear * - h
    induction ranks with
    | nil => simp
    | cons a l ih =>
      rw [List.flatten_cons, List.length_append, ih (fun l' hl' => h l' (List.mem_cons_of_mem _ hl')),
        h a List.mem_cons_self, List.length_cons]; ring
  unfold mcOstarMean mpiMean sampleMean
  rw [foldl_add, zero_add, hlen, List.length_map]
  clear hlen h
  have hsum : (List.map (fun t : Tps ι X 𝕜 => t r b x) (List.map (fun samples r b x =>
      (mcSums samples).1 r b x * ((1 / (n : ℝ) : ℝ) : 𝕜)) ranks)).sum
      = ((List.map (fun s => logDeriv s r b x) ranks.flatten).sum) / (n : 𝕜) := by
    induction ranks with
    | nil => simp
    | cons a l ih =>
      simp only [List.map_cons, List.sum_cons, List.flatten_cons, List.map_append, List.sum_append]
      rw [ih, (mcSums_eq a r b x).1]
      push_cast
      ring
  rw [hsum]
  push_cast
  ring

theorem sum_take_getD {α M : Type*} [AddCommMonoid M] (L : List α) (z : α) (f : α → M) (m : ℕ)
    (hm : m ≤ L.length) : ((L.take m).map f).sum = ∑ i ∈ range m, f (L.getD i z) := by
  rw [← QLPeps.ExactRun.sum_range_getD (L.take m) z f, List.length_take, min_eq_left hm]
  refine sum_congr rfl fun i hi => ?_
  have hi' := mem_range.1 hi
  rw [List.getD_eq_getElem _ _ (by rw [List.length_take]; omega), List.getD_eq_getElem _ _ (by omega),
    List.getElem_take]

theorem sampleMean_ofFn {α : Type*} (size n m : ℕ) (l : Fin size → List α) (hn : ∀ i, (l i).length = n)
    (hm : m ≤ n) (z : α) (F : α → 𝕜) :
    sampleMean ((List.ofFn l).flatMap fun l => l.take m) F =
      (∑ i, ∑ k ∈ range m, F ((l i).getD k z)) / ((size * m : ℕ) : 𝕜) := by
  have h1 : ((List.ofFn l).flatMap fun l => l.take m).length = size * m := by
    rw [List.length_flatMap, List.map_ofFn, List.sum_ofFn]
    rw [sum_congr rfl (g := fun _ => m) fun i _ => by
      simp only [Function.comp, List.length_take, hn]; omega]
    simp
  unfold sampleMean
  rw [h1]
  congr 1
  rw [List.map_flatMap, List.flatMap_def, List.sum_flatten, List.map_map, List.map_ofFn, List.sum_ofFn]
  refine sum_congr rfl fun i _ => ?_
  exact sum_take_getD (l i) z F m (by rw [hn]; exact hm)

theorem sampleMean_linear (ℓ : Tps ι X 𝕜 →ₗ[𝕜] 𝕜) (L : List (Sample ι X 𝕜)) (g : Sample ι X 𝕜 → 𝕜) :
    ℓ (fun r b x => sampleMean L fun s => g s * logDeriv s r b x) =
      sampleMean L fun s => g s * ℓ (logDeriv s) := by
  have h : (fun r b x => sampleMean L fun s => g s * logDeriv s r b x) =
      ((L.length : 𝕜)⁻¹) • (L.map fun s => g s • (logDeriv s : Tps ι X 𝕜)).sum := by
    funext r b x
    unfold sampleMean
    rw [div_eq_inv_mul]
    simp only [Pi.smul_apply, smul_eq_mul]
    congr 1
    induction L with
    | nil => rfl
    | cons a L ih => simp only [List.map_cons, List.sum_cons, ih, Pi.add_apply, Pi.smul_apply, smul_eq_mul]
  rw [h, map_smul, map_list_sum, List.map_map]
  unfold sampleMean
  rw [div_eq_inv_mul, smul_eq_mul]
  congr 3
  funext s
  simp [smul_eq_mul]

theorem logDeriv_increment (x : Sample ι X 𝕜) (h : x.amplitude ≠ 0) :
    (logDeriv x : Tps ι X 𝕜) = ((x.amplitude * star x.amplitude)⁻¹) • increment x := by
  funext r b i
  simp only [Pi.smul_apply, smul_eq_mul, logDeriv, increment]
  have h2 : star x.amplitude ≠ 0 := star_ne_zero.2 h
  split_ifs
  · field_simp
  · simp

end QLPeps.Evaluator
