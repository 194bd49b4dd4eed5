import Mathlib.Data.List.Basic

/-!
# Model of `std::next_permutation` and of the `do ... while(next_permutation)` loop

Used by `/repo/include/qlpeps/vmc_basic/configuration_update_strategies/square_3site_updater.h`
(lines 121-127) and by
`/repo/include/qlpeps/algorithm/vmc_update/exact_summation_energy_evaluator.h`
(`GenerateAllPermutationConfigs`, lines 74-95).
-/

namespace QLPeps.NextPerm

/-- Replace the rightmost element larger than `a` in `l` by `a`; returns that element and
the changed list. (`std::next_permutation`: `std::iter_swap(i, j)` with `j` the last
position holding an element larger than the pivot.) -/
def swapLastGreater (a : ℕ) : List ℕ → Option (ℕ × List ℕ)
  | [] => none
  | b :: l => match swapLastGreater a l with
    | some (c, l') => some (c, b :: l')
    | none => if a < b then some (b, a :: l) else none

/-- `std::next_permutation` (C++ standard library) on a list; `none` is the return value
`false`. The pivot is the last position `i` with `a[i] < a[i+1]`: the recursion first
looks for a pivot in the tail; when there is none the tail is non-increasing, so the head is
the pivot iff some tail element is larger. The suffix is reversed after the swap. -/
def nextPerm : List ℕ → Option (List ℕ)
  | [] => none
  | a :: l => match nextPerm l with
    | some l' => some (a :: l')
    | none => match swapLastGreater a l with
      | some (c, l') => some (c :: l'.reverse)
      | none => none

/-- `do { out.push_back(v); } while (std::next_permutation(v.begin(), v.end()));`
with at most `fuel` iterations; `none` when the fuel does not suffice. -/
def permLoop : ℕ → List ℕ → Option (List (List ℕ))
  | 0, _ => none
  | n + 1, v => match nextPerm v with
    | none => some [v]
    | some v' => (permLoop n v').map (v :: ·)

end QLPeps.NextPerm
