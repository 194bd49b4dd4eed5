import Verif.Model.Bmps
import Mathlib.Algebra.BigOperators.Group.Finset.Piecewise

/-!
# C99: combining two indices loses nothing

The combiner that the boundary MPS code inserts at both ends of a row is an isometry from the pair of
indices to the combined index: different pairs go to different values, every value is reached.
-/

namespace QLPeps.Bmps

variable {𝕜 : Type*} [RCLike 𝕜]

/-- every pair of values of the two indices belongs to exactly one value of the combined index -/
theorem C99_combine_total (d1 d2 x y : ℕ) (hx : x < d1) (hy : y < d2) :
    ∃ z < d1 * d2, ∀ w, (indexCombine (𝕜 := 𝕜) d1 d2).elem [x, y, w] = if w = z then 1 else 0 := by
  refine ⟨x * d2 + y, ?_, fun w => by simp [indexCombine]⟩
  calc x * d2 + y < x * d2 + d2 := by omega
    _ = (x + 1) * d2 := by ring
    _ ≤ d1 * d2 := Nat.mul_le_mul_right _ hx

/-- the combiner is an isometry: summed over the combined index it gives the identity on pairs -/
theorem C99_combine_isometry (d1 d2 x y x' y' : ℕ) (hx : x < d1) (hy : y < d2) (_hx' : x' < d1)
    (hy' : y' < d2) :
    ∑ z ∈ Finset.range (d1 * d2), (indexCombine (𝕜 := 𝕜) d1 d2).elem [x, y, z] *
      (indexCombine (𝕜 := 𝕜) d1 d2).elem [x', y', z] = if x = x' ∧ y = y' then 1 else 0 := by
  obtain ⟨z, hz, h⟩ := C99_combine_total (𝕜 := 𝕜) d1 d2 x y hx hy
  simp only [h, ite_mul, one_mul, zero_mul, Finset.sum_ite_eq', Finset.mem_range, hz, if_true]
  have e : z = x * d2 + y := by
    have := h (x * d2 + y)
    by_contra hne
    rw [if_neg (fun q => hne q.symm)] at this
    simp [indexCombine] at this
  subst e
  have key : x * d2 + y = x' * d2 + y' ↔ x = x' ∧ y = y' := by
    constructor
    · intro q
      have hm := congrArg (· % d2) q
      have hd := congrArg (· / d2) q
      have hpos : 0 < d2 := by omega
      simp only [Nat.mul_comm _ d2, Nat.mul_add_mod, Nat.mod_eq_of_lt hy, Nat.mod_eq_of_lt hy',
        Nat.mul_add_div hpos, Nat.div_eq_of_lt hy, Nat.div_eq_of_lt hy', Nat.add_zero] at hm hd
      exact ⟨hd, hm⟩
    · rintro ⟨rfl, rfl⟩; rfl
  simp [indexCombine, key]

/-- with dimensions two and three, the pairs (0, 2) and (1, 0) stay apart -/
example : ∑ z ∈ Finset.range (2 * 3), (indexCombine (𝕜 := ℝ) 2 3).elem [0, 2, z] *
    (indexCombine (𝕜 := ℝ) 2 3).elem [1, 0, z] = 0 := by
  rw [C99_combine_isometry 2 3 0 2 1 0 (by omega) (by omega) (by omega) (by omega)]; simp

end QLPeps.Bmps
