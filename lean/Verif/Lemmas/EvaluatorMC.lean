import Mathlib.Tactic
import Verif.Lemmas.EvaluatorDeriv
import Verif.Props.Statistics

namespace QLPeps.Evaluator

open Finset QLPeps.Statistics

variable {ι X : Type*} {𝕜 : Type*} [RCLike 𝕜] [DecidableEq ι]

theorem mcSums_eq (l : List (Sample ι X 𝕜)) (r : ι) (b : ℕ) (x : X) :
    (mcSums l).1 r b x = (l.map (fun s => logDeriv s r b x)).sum ∧
    (mcSums l).2 r b x = (l.map (fun s => star s.eloc * logDeriv s r b x)).sum := by
  have ho : ∀ s : Sample ι X 𝕜, ostar s r b x = logDeriv s r b x := by
    intro s
    unfold ostar logDeriv
    split_ifs
    · rw [one_div, star_inv₀]; field_simp
    · rfl
  have main : ∀ (l : List (Sample ι X 𝕜)) (a : Tps ι X 𝕜 × Tps ι X 𝕜),
      (l.foldl mcStep a).1 r b x = a.1 r b x + (l.map (fun s => logDeriv s r b x)).sum ∧
      (l.foldl mcStep a).2 r b x
        = a.2 r b x + (l.map (fun s => star s.eloc * logDeriv s r b x)).sum := by
    intro l
    induction l with
    | nil => simp
    | cons s l ih =>
      intro a
      rw [List.foldl_cons]
      refine ⟨(ih _).1.trans ?_, (ih _).2.trans ?_⟩ <;> simp [mcStep, ho, add_assoc]
  have := main l (fun _ _ _ => 0, fun _ _ _ => 0)
  exact ⟨this.1.trans (zero_add _), this.2.trans (zero_add _)⟩

/-- The gradient as a combination of sample means, for whatever energy was subtracted. -/
theorem mcGradient_eq (n : ℕ) (ranks : List (List (Sample ι X 𝕜)))
    (h : ∀ l ∈ ranks, l.length = n) (r : ι) (b : ℕ) (x : X) :
    mcGradient n ranks r b x
      = sampleMean ranks.flatten (fun s => star s.eloc * logDeriv s r b x)
        - star (mcEnergy ranks) * sampleMean ranks.flatten (fun s => logDeriv s r b x) := by
  have hlen : ranks.flatten.length = ranks.length * n := by
    clear * - h
    induction ranks with
    | nil => simp
    | cons a l ih =>
      rw [List.flatten_cons, List.length_append, ih (fun l' hl' => h l' (List.mem_cons_of_mem _ hl')),
        h a List.mem_cons_self, List.length_cons]; ring
  unfold mcGradient mpiMean sampleMean
  generalize mcEnergy ranks = e
  rw [foldl_add, zero_add, hlen, List.length_map]
  clear hlen h
  have hsum : (List.map (fun t : Tps ι X 𝕜 => t r b x) (List.map (mcRankGrad e n) ranks)).sum
      = ((List.map (fun s => star s.eloc * logDeriv s r b x) ranks.flatten).sum
          - star e * (List.map (fun s => logDeriv s r b x) ranks.flatten).sum) / (n : 𝕜) := by
    induction ranks with
    | nil => simp
    | cons a l ih =>
      simp only [List.map_cons, List.sum_cons, List.flatten_cons, List.map_append, List.sum_append]
      rw [ih]
      unfold mcRankGrad
      rw [(mcSums_eq a r b x).1, (mcSums_eq a r b x).2, star_neg]
      push_cast
      ring
  rw [hsum]
  push_cast
  ring

omit [DecidableEq ι] in
theorem mcEnergy_take (n : ℕ) (hn : 0 < n) (ranks : List (List (Sample ι X 𝕜))) (hr : ranks ≠ [])
    (h : ∀ l ∈ ranks, l.length = n) :
    mcEnergy ranks = sampleMean (ranks.flatMap (fun l => l.take (n - n % Nat.sqrt n))) (·.eloc) := by
  unfold mcEnergy
  rw [C19_mean _ n hn (by
    intro xs hx
    obtain ⟨l, hl, rfl⟩ := List.mem_map.1 hx
    rw [List.length_map, h l hl]) (by simpa using hr)]
  unfold average sampleMean
  rw [show (List.flatMap (fun xs => List.take (n - n % n.sqrt) xs) (List.map (fun l => List.map (·.eloc) l) ranks))
    = (ranks.flatMap (fun l => l.take (n - n % n.sqrt))).map (fun s : Sample ι X 𝕜 => s.eloc) from by
      rw [List.flatMap_map, List.map_flatMap]
      simp [List.map_take]]
  rw [List.length_map]

end QLPeps.Evaluator
