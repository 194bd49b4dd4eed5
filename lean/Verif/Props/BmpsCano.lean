import Verif.Lemmas.BmpsCanoBad
import Verif.Lemmas.BmpsCanoAfter
import Verif.Lemmas.BmpsVarCano
import Verif.Lemmas.TruncSvd

/-!
# Canonical forms of a boundary MPS and its entanglement entropies

C148, C149.
-/

namespace QLPeps.BmpsCano

open QLPeps.Contractor QLPeps.Bmps QLPeps.Box QLPeps.BmpsCano.Spec
open QLPeps.BmpsVar (amp_eq isMps_iff isMpo_iff sumCoors_box Libs Scheme multiply variational1_canonical variational2_canonical)
open QLPeps.Peps (Tn Lib contractN transpose norm2 sumCoors)
open QLPeps.BmpsVar.Spec (Factorizations Keeps amp normSq IsMps IsMpo inOrder overlap)


noncomputable section

variable {𝕜 : Type*} [RCLike 𝕜] {fac : Facs 𝕜} {ds : List ℕ}

/-- C148, in part: Take an object from a constructor or from a multiplication with a row, whose state does not vanish, and call
its members in any order, either all but `Reverse` and `RightCanonicalizeTruncate`, or `Centralize`,
`GetEntanglementEntropy` and `Reverse`. Every call with arguments in range succeeds. The object represents its state, reversed by
every `Reverse` and normalized by every `GetEntanglementEntropy`. Then `Centralize` with any target records it as the center,
does not change the state, and all tensors before the target are isometric from the left, all after it from the right. Missing: histories with
`RightCanonicalizeTruncate` (`truncate_misleads`) and with `Reverse` among calls for single tensors (`reverse_misleads`). -/
theorem centralize_canonical_partial (hg : Good fac) {o : Obj 𝕜} (hf : Fresh ds o) (hN : 0 < o.tens.length)
    (hne : normSq ds (fun xs => amp o.tens xs 0) ≠ 0) {hs : List Call} (hin : ∀ q ∈ hs, InRange o.tens.length q)
    (hp : Plain hs ∨ Whole hs) :
    ∃ o', calls fac hs o = some o' ∧ o'.tens.length = o.tens.length ∧ Represents o' (after hs ds o) ∧
      ∀ c < o.tens.length, ∃ o'', centralize fac c o' = some o'' ∧ o''.center = c ∧ o''.tens.length = o.tens.length ∧
        Represents o'' (after hs ds o) ∧ Canonical c o''.tens := by
  obtain ⟨o', a1, a2⟩ := history hg hf hN hne hin hp
  refine ⟨o', a1, a2.len, represents a2, fun c hc => ?_⟩
  obtain ⟨o'', b1, b2, b3, b4, b5, b6, b7, -⟩ := centralize_run hg a2.shp (a2.clen.trans a2.len.symm) (c := c) (by rw [a2.len]; exact hc) a2.inv
  refine ⟨o'', b1, b5, b3.trans a2.len, ⟨(isMps_iff _ _ _).2 b2, fun xs hx => ?_⟩, b7⟩
  rw [amp_eq, b6 xs (mem_box.2 hx), a2.val xs (mem_box.2 hx)]

/-- C148: The results of the variational multiplications, which are marked as isometric from the right, are, but for the
first tensor. -/
theorem variational_fresh {lib : Libs 𝕜} (hf : ∀ te dmin dmax, Factorizations (lib te dmin dmax)) {scheme : Scheme}
    (hs : scheme ≠ .svd) (te : ℝ) (dmin dmax : ℕ) (tol : ℝ) (maxIter : ℕ) (p : Pos) {mps mpo : List (Tn 𝕜)} {fs : List ℕ}
    (h1 : IsMps mps 1 ds) (h2 : IsMpo p (inOrder p mpo) 1 ds fs) (hn : 3 ≤ mps.length) {res : List (Tn 𝕜)}
    (hr : multiply lib scheme te dmin dmax (some tol) (some maxIter) p mps mpo = .ok res) : Canonical 0 res := by
  rw [isMps_iff] at h1
  rw [isMpo_iff] at h2
  have he : reverseIfNeeded p mpo = inOrder p mpo := by cases p <;> rfl
  have e0 : ¬(mps.length = 2 ∨ scheme = .svd) := by rintro (h | h); · omega
                                                    · exact hs h
  have e1 : ¬mps.length < 2 := by omega
  rw [multiply, if_neg e0] at hr
  cases scheme with
  | svd => exact absurd rfl hs
  | two =>
    obtain ⟨r, a, b⟩ := variational2_canonical hf te dmin dmax tol maxIter h1 h2 (by omega)
    simp only [if_neg e1, if_true, he, a] at hr
    cases hr
    exact b
  | one =>
    obtain ⟨r, a, b⟩ := variational1_canonical hf te dmin dmax tol maxIter h1 h2 (by omega)
    simp only [if_neg e1, reduceCtorEq, if_false, he, a] at hr
    cases hr
    exact b

/-- C148 does not hold with `Reverse` among calls for single tensors: it does not exchange the marks of an object without a center.
`RightCanonicalizeTen(1)`, `Reverse` and `Centralize(0)` leave a tensor which is not isometric. -/
theorem reverse_misleads (hg : Good fac) : Fresh [1, 1] (two 𝕜) ∧
    (∀ q ∈ [Call.rightTen 1, .reverse], InRange (two 𝕜).tens.length q) ∧
    ∃ o', calls fac [.rightTen 1, .reverse, .centralize 0] (two 𝕜) = some o' ∧ o'.center = 0 ∧ ¬Canonical 0 o'.tens := by
  refine ⟨⟨(isMps_iff _ _ _).2 two_shp, .inr (.inl rfl)⟩, by simp [InRange, two, unmarked], ?_⟩
  obtain ⟨o1, a1, a2, a3⟩ := rightTen_spec hg (o := two 𝕜) (i := 0) two_shp rfl (by simp [two, unmarked])
  have hl : o1.tens.length = 2 := a2.len
  have hcen : o1.center = -1 := a2.center
  obtain ⟨x, y, hxy⟩ := List.length_eq_two.1 hl
  have hm : ∀ j, (reverse o1).cano.getD j .none = o1.cano.getD j .none := fun j => by
    simp only [reverse, hcen, ne_eq, not_true_eq_false, if_false]
  have hlr : (reverse o1).tens.length = 2 := by simp [reverse, hl]
  have hrc : rightCano fac 1 (reverse o1) = some (reverse o1) := rightCano_done (by omega) fun j h1 h2 => by
    obtain rfl : j = 1 := by omega
    rw [hm, a2.marks]; rfl
  refine ⟨{ reverse o1 with center := 0 }, ?_, rfl, fun hc => ?_⟩
  · simp only [calls, call, a1, Option.bind_some]
    rw [centralize, if_neg (by simp), Option.bind_some, hlr, if_pos (by omega), hrc]
    rfl
  · have hc := hc.2 1 (by omega) (by change 1 < (reverse o1).tens.length; omega)
    have e : ({ reverse o1 with center := 0 } : Obj 𝕜).tens.getD 1 nil = transpose [2, 1, 0] x := by
      simp [reverse, hxy]
    rw [e] at hc
    have hy : RightIso y := by rw [hxy] at a3; exact a3
    have hs : Shp [x, y] 1 [1, 1] := hxy ▸ a2.shp
    refine two_not hs ?_ ⟨?_, hy⟩
    · rw [← hxy, a2.val _ (by simp [mem_box]), two_val]; simp
    · have := leftIso_transpose hc
      obtain ⟨d, b, _, _, hx, _⟩ := hs
      obtain ⟨A, X, B, i1, i2⟩ := this
      obtain ⟨t1, t2⟩ := BmpsVar.transpose_210 hx
      obtain ⟨u1, u2⟩ := BmpsVar.transpose_210 t1
      refine ⟨A, X, B, by rw [← i1, u1, hx], fun b hb b' hb' => ?_⟩
      rw [← i2 b hb b' hb']
      simp only [u2, t2]

/-- C148 does not hold with `RightCanonicalizeTruncate`, which leaves the marks as they are: after `Centralize(1)` and
`RightCanonicalizeTruncate(1)`, even without truncation, `Centralize(1)` leaves a tensor which is not isometric. -/
theorem truncate_misleads (hg : Good fac) {te : ℝ} {dmin dmax : ℕ} (hk : ∀ t, Keeps (fac.lib te dmin dmax) t 1) :
    Fresh [1, 1] (two 𝕜) ∧ (∀ q ∈ [Call.centralize 1, .truncate te dmin dmax 1], InRange (two 𝕜).tens.length q) ∧
    ∃ o', calls fac [.centralize 1, .truncate te dmin dmax 1, .centralize 1] (two 𝕜) = some o' ∧ o'.center = 1 ∧ ¬Canonical 1 o'.tens := by
  refine ⟨⟨(isMps_iff _ _ _).2 two_shp, .inr (.inl rfl)⟩, by simp [InRange, two, unmarked], ?_⟩
  obtain ⟨o1, a1, a2, a3, a4, a5, a6, -, a8, -, -⟩ := centralize_run hg (o := two 𝕜) (c := 1) two_shp rfl (by simp [two, unmarked])
    (unmarked_trusted fun j => by simp only [two, unmarked, replicate_getD, ite_self])
  have hl : o1.tens.length = 2 := a3
  obtain ⟨o2, b1, b2, b3, b4⟩ := truncate_spec hg a2 (a4.trans a3.symm) (i := 0) (by omega) (te := te) (dmin := dmin) (dmax := dmax) hk
  have hl2 : o2.tens.length = 2 := b2.len.trans hl
  obtain ⟨x, y, hxy⟩ := List.length_eq_two.1 hl2
  refine ⟨{ o2 with center := 1 }, ?_, rfl, fun hc => ?_⟩
  · simp only [calls, call, a1, Option.bind_some, b1]
    rw [centralize, if_pos (by simp), leftCano_done fun j hj => ?_, Option.bind_some, hl2, if_neg (by simp)]
    · rfl
    · rw [b3]; exact a8 j (by omega)
  · have hx := hc.1 0 (by omega)
    rw [hxy] at b4
    have hx : LeftIso x := by
      change LeftIso (o2.tens.getD 0 nil) at hx
      rw [hxy] at hx; exact hx
    have b4 : RightIso y := b4
    refine two_not (a := x) (b := y) (hxy ▸ b2.shp) ?_ ⟨hx, b4⟩
    rw [← hxy, b2.val [0, 0] (by simp [mem_box]), a6 _ (by simp [mem_box]), two_val]; simp

/-! ## entropies -/

open Classical in
/-- C149, in part: After the same histories as for `centralize_canonical_partial`, `GetEntanglementEntropy(n)` succeeds, with one
entry for every bond. Let `ρ` be the reduced density matrix of the normalized state for the tensors up to the bond. For `n ≥ 2` the entry is
`-log(Tr ρⁿ) / (n - 1)`. For `n = 1` it is `-∑ p log p` over probabilities `p`, which are the nonzero eigenvalues of `ρ`,
unless a singular value vanishes, which gives NaN. For `n = 0` it is `0`. The object is normalized and all its tensors but the first
are isometric from the right, yet the recorded center is the last tensor. Missing: histories with `RightCanonicalizeTruncate` (`entropy_wrong`). -/
theorem entropy_renyi_partial (hg : Good fac) {o : Obj 𝕜} (hf : Fresh ds o) (hN : 0 < o.tens.length)
    (hne : normSq ds (fun xs => amp o.tens xs 0) ≠ 0) {hs : List Call} (hin : ∀ q ∈ hs, InRange o.tens.length q)
    (hp : Plain hs ∨ Whole hs) (n : ℕ) :
    ∃ o' o'' r, calls fac hs o = some o' ∧ entropy fac n o' = some (o'', r) ∧ r.length = o.tens.length - 1 ∧
      Represents o'' (meaning (.entropy n) (after hs ds o)) ∧ Canonical 0 o''.tens ∧ o''.center = o.tens.length - 1 ∧
      ∀ i < o.tens.length - 1, ∀ (as bs : List ℕ) (ρ : List ℕ → List ℕ → 𝕜), as = (after hs ds o).1.take (i + 1) →
        bs = (after hs ds o).1.drop (i + 1) → ρ = reduced bs (unit (after hs ds o).1 (after hs ds o).2) →
        (2 ≤ n → r.getD i none = some (-Real.log (RCLike.re (Spec.trace as (power as ρ n))) / (n - 1))) ∧
        (n = 1 → ∃ D p, Spectrum as ρ D p ∧ (∀ k, 0 ≤ p k) ∧ ∑ k ∈ Finset.range D, p k = 1 ∧
          r.getD i none = if ∃ k < D, p k = 0 then none else some (∑ k ∈ Finset.range D, -p k * Real.log (p k))) ∧
        (n = 0 → r.getD i none = some 0) := by
  obtain ⟨o', a1, a2⟩ := history hg hf hN hne hin hp
  generalize after hs ds o = s at *
  have hamp : ∀ xs ∈ box s.1, amp o'.tens xs 0 = s.2 xs := fun xs hxs => by rw [amp_eq, a2.val xs hxs]
  obtain ⟨o'', r, b1, b2, b3, b4, b5, b6, b7, b8, b9, b10, b11⟩ := entropy_run hg n a2.shp (a2.clen.trans a2.len.symm)
    (by rw [a2.len]; exact hN) a2.inv (by rw [normSq_congr hamp]; exact a2.ne)
  rw [a2.len] at b3 b4 b5 b8 b9 b10 b11
  refine ⟨o', o'', r, a1, b1, b10, ⟨(isMps_iff _ _ _).2 b2, fun xs hx => ?_⟩, b7, b5, ?_⟩
  · rw [amp_eq, b6 xs (mem_box.2 hx)]
    exact unit_congr hamp xs (mem_box.2 hx)
  · rintro i hi as bs ρ rfl rfl rfl
    obtain ⟨d, c1, c2⟩ := b11 i hi
    have c2 := reduced_congr (unit_congr hamp) c2
    have hone : ∑ k ∈ Finset.range d.dim, d.val k * d.val k = 1 := by
      have h1 := spectrum_power c2 0
      rw [trace_reduced, normSq_unit a2.ne] at h1
      apply RCLike.ofReal_injective (K := 𝕜)
      rw [h1]
      simp
    refine ⟨fun hn => ?_, fun hn => ?_, fun hn => ?_⟩
    · have h1 := spectrum_power c2 (n - 1)
      rw [show n - 1 + 1 = n by omega] at h1
      rw [c1, h1, RCLike.ofReal_re, entropyOf, if_neg (by omega), if_neg (by omega)]
      simp only [Finset.prod_const, Finset.card_range, ← pow_succ', show n - 1 + 1 = n by omega]
    · subst hn
      refine ⟨d.dim, _, c2, fun k => mul_self_nonneg _, hone, ?_⟩
      rw [c1, entropyOf, if_pos rfl]
    · subst hn
      rw [c1, entropyOf, if_neg (by omega), if_pos rfl]
      simp [hone]

/-- C149: After `Centralize` to the last tensor and `RightCanonicalizeTruncate` of it, even without truncation, the entropy
which is reported for the last bond is the logarithm of an integer, whatever the state. -/
theorem entropy_after_truncation (hg : Good fac) {te : ℝ} {dmin dmax : ℕ} (hk : ∀ t, Keeps (fac.lib te dmin dmax) t 1) {o : Obj 𝕜}
    (hf : Fresh ds o) {N : ℕ} (hN : o.tens.length = N + 2) (hne : normSq ds (fun xs => amp o.tens xs 0) ≠ 0) {n : ℕ} (hn : 2 ≤ n) :
    ∃ o' o'' r, ∃ D : ℕ, calls fac [.centralize (N + 1), .truncate te dmin dmax (N + 1)] o = some o' ∧
      Represents o' (ds, fun xs => amp o.tens xs 0) ∧ entropy fac n o' = some (o'', r) ∧ r.length = N + 1 ∧
      r.getD N none = some (Real.log D) := by
  obtain ⟨f1, f2, -⟩ := fresh_cases hf
  obtain ⟨o1, a1, a2, a3, a4, a5, a6, -, a8, -, -⟩ := centralize_run hg (c := N + 1) f1 f2 (by omega) (fresh_truthful hf).trusted
  obtain ⟨o2, b1, b2, b3, b4⟩ := truncate_spec hg a2 (a4.trans a3.symm) (i := N) (by omega) (te := te) (dmin := dmin) (dmax := dmax) hk
  have hv : ∀ xs ∈ box ds, mv o2.tens xs 0 = mv o.tens xs 0 := fun xs hxs => (b2.val xs hxs).trans (a6 xs hxs)
  obtain ⟨o3, r, D, c1, c2, c3⟩ := stale_entropy hg hn b2.shp (b2.clen.trans b2.len.symm) (N := N) (by rw [b2.len, a3, hN])
    (fun j hj => by rw [b3]; exact a8 j (by omega)) b4 (by
      by_contra h
      push Not at h
      apply hne
      rw [normSq, sumCoors_box]
      refine Finset.sum_eq_zero fun xs hxs => ?_
      rw [amp_eq, ← hv xs hxs, h xs hxs]; simp)
  refine ⟨o2, o3, r, D, ?_, ⟨(isMps_iff _ _ _).2 b2.shp, fun xs hx => ?_⟩, c1, c2, c3⟩
  · simp only [calls, call, a1, Option.bind_some, b1]
  · rw [amp_eq, hv xs (mem_box.2 hx), ← amp_eq]

/-- the state `4/5 |00⟩ + 3/5 |11⟩` -/
def pairState (𝕜 : Type*) [RCLike 𝕜] : Obj 𝕜 := unmarked [⟨[1, 2, 2], fun x => if x.getD 1 0 = x.getD 2 0 then 1 else 0⟩,
  ⟨[2, 2, 1], fun x => if x.getD 0 0 = x.getD 1 0 then (if x.getD 0 0 = 0 then 4 / 5 else 3 / 5) else 0⟩]

theorem pair_fresh : Fresh [2, 2] (pairState 𝕜) := ⟨⟨2, 2, _, rfl, rfl, 2, 1, _, rfl, rfl, rfl, rfl⟩, .inr (.inl rfl)⟩

theorem pair_amp (x y : ℕ) (hx : x < 2) (hy : y < 2) : amp (pairState 𝕜).tens [x, y] 0 = if x = y then (if x = 0 then 4 / 5 else 3 / 5) else 0 := by
  interval_cases x <;> interval_cases y <;> simp [pairState, unmarked, amp, Finset.sum_range_succ]

theorem pair_norm : normSq [2, 2] (fun xs => amp (pairState 𝕜).tens xs 0) = 1 := by
  simp only [normSq, sumCoors, Finset.sum_range_succ, Finset.sum_range_zero]
  rw [pair_amp 0 0, pair_amp 0 1, pair_amp 1 0, pair_amp 1 1] <;> norm_num

/-- the purity of either half is 337/625 -/
theorem pair_purity : RCLike.re (Spec.trace [2] (power [2] (reduced [2] (unit [2, 2] fun xs => amp (pairState 𝕜).tens xs 0)) 2)) = 337 / 625 := by
  have hu : ∀ x < 2, ∀ y < 2, unit [2, 2] (fun xs => amp (pairState 𝕜).tens xs 0) [x, y] = if x = y then (if x = 0 then 4 / 5 else 3 / 5) else 0 := by
    intro x hx y hy
    rw [unit, pair_norm, pair_amp x y hx hy]; simp
  have hr : ∀ x < 2, ∀ y < 2, reduced [2] (unit [2, 2] fun xs => amp (pairState 𝕜).tens xs 0) [x] [y] =
      if x = y then (if x = 0 then 16 / 25 else 9 / 25) else 0 := by
    intro x hx y hy
    simp only [reduced, sumCoors, Finset.sum_range_succ, Finset.sum_range_zero, List.cons_append, List.nil_append]
    rw [hu x hx 0 (by omega), hu x hx 1 (by omega), hu y hy 0 (by omega), hu y hy 1 (by omega)]
    interval_cases x <;> interval_cases y <;> norm_num [map_ofNat]
  have : Spec.trace [2] (power [2] (reduced [2] (unit [2, 2] fun xs => amp (pairState 𝕜).tens xs 0)) 2) = ((337 / 625 : ℝ) : 𝕜) := by
    simp only [Spec.trace, power, sumCoors, Finset.sum_range_succ, Finset.sum_range_zero]
    rw [hr 0 (by omega) 0 (by omega), hr 0 (by omega) 1 (by omega), hr 1 (by omega) 0 (by omega), hr 1 (by omega) 1 (by omega)]
    rw [RCLike.ofReal_div, RCLike.ofReal_ofNat, RCLike.ofReal_ofNat]
    norm_num
  rw [this, RCLike.ofReal_re]

/-- C149 does not hold with `RightCanonicalizeTruncate`: for the state `4/5 |00⟩ + 3/5 |11⟩`, after `Centralize(1)` and
`RightCanonicalizeTruncate(1)` without truncation, the object still represents the state, and `GetEntanglementEntropy(2)` does not return its
entropy. -/
theorem entropy_wrong (hg : Good fac) {te : ℝ} {dmin dmax : ℕ} (hk : ∀ t, Keeps (fac.lib te dmin dmax) t 1) :
    ∃ o' o'' r, calls fac [.centralize 1, .truncate te dmin dmax 1] (pairState 𝕜) = some o' ∧
      Represents o' ([2, 2], fun xs => amp (pairState 𝕜).tens xs 0) ∧ entropy fac 2 o' = some (o'', r) ∧
      r.getD 0 none ≠ some (-Real.log (RCLike.re (Spec.trace [2] (power [2]
        (reduced [2] (unit [2, 2] fun xs => amp (pairState 𝕜).tens xs 0)) 2))) / ((2 : ℕ) - 1)) := by
  obtain ⟨o', o'', r, D, h1, h2, h3, -, h5⟩ := entropy_after_truncation hg hk (pair_fresh (𝕜 := 𝕜)) (N := 0) rfl
    (by rw [pair_norm]; exact one_ne_zero) le_rfl
  refine ⟨o', o'', r, h1, h2, h3, ?_⟩
  rw [h5, pair_purity]
  intro h
  have h := Option.some.inj h
  rw [← Real.log_inv] at h
  push_cast at h
  norm_num at h
  rcases Nat.eq_zero_or_pos D with rfl | hD
  · have : (0 : ℝ) < Real.log (625 / 337) := Real.log_pos (by norm_num)
    simp at h
    linarith
  · have := Real.log_injOn_pos (Set.mem_Ioi.2 (by exact_mod_cast hD)) (Set.mem_Ioi.2 (by norm_num)) h
    have : 337 * D = 625 := by
      have h2 : (337 : ℝ) * D = 625 := by rw [this]; norm_num
      exact_mod_cast h2
    omega

/-! ## factorizations with these properties exist -/

/-- exact factorizations, and truncation to the bond dimension `dmax` -/
def exactFacs (𝕜 : Type) [RCLike 𝕜] : Facs 𝕜 where
  lib := fun _ _ dmax => Peps.truncLib dmax
  lq t := (⟨t.shape.take 1 ++ [(Peps.full t 1).s.dim], fun x => (Peps.full t 1).u.elem x * ((Peps.full t 1).s.val (x.getLastD 0) : 𝕜)⟩,
    ⟨(Peps.full t 1).s.dim :: t.shape.drop 1, (Peps.full t 1).vt.elem⟩)
  full := { qr := (Peps.truncLib 1).qr, svd := Peps.full }

theorem exactFacs_good (𝕜 : Type) [RCLike 𝕜] : Good (exactFacs 𝕜) where
  lib _ _ d := Peps.truncLib_factorizations d
  lq t := by
    refine ⟨_, rfl, rfl, fun x y hx hy => ?_, Peps.full_vv t 1⟩
    rw [← Peps.full_product t 1 x y hx hy]
    exact Finset.sum_congr rfl fun m _ => by simp [exactFacs]
  full := by
    refine ⟨(Peps.truncLib_factorizations 1).qr, fun t n => ?_, Peps.full_uu, Peps.full_vv, Peps.full_ut, Peps.full_tv⟩
    obtain ⟨h1, h2, -⟩ := (Peps.exists_sorted_of t n).choose_spec
    exact ⟨h1, h2⟩
  keeps t := Peps.full_product t 1

/-- the hypotheses of the histories hold for a state of two tensors, with calls of either kind -/
example : ∃ o', calls (exactFacs ℂ) [.centralize 0, .entropy 1, .left 0, .rightTen 1, .leftTen 0, .right 1] (pairState ℂ) = some o' := by
  obtain ⟨o', h, -⟩ := centralize_canonical_partial (exactFacs_good ℂ) pair_fresh (by simp [pairState, unmarked])
    (by rw [pair_norm]; exact one_ne_zero) (hs := [.centralize 0, .entropy 1, .left 0, .rightTen 1, .leftTen 0, .right 1])
    (by simp [InRange, pairState, unmarked]) (.inl (by simp [Plain]))
  exact ⟨o', h⟩

example : ∃ o' o'' r, calls (exactFacs ℝ) [.centralize 1, .reverse, .entropy 3, .centralize 0, .reverse] (pairState ℝ) = some o' ∧
    entropy (exactFacs ℝ) 2 o' = some (o'', r) ∧ r.length = 1 := by
  obtain ⟨o', o'', r, h, h', h'', -⟩ := entropy_renyi_partial (exactFacs_good ℝ) pair_fresh (by simp [pairState, unmarked])
    (by rw [pair_norm]; exact one_ne_zero) (hs := [.centralize 1, .reverse, .entropy 3, .centralize 0, .reverse])
    (by simp [InRange, pairState, unmarked]) (.inr (by simp [Whole])) 2
  exact ⟨o', o'', r, h, h', h''⟩

/-- without calls, the entropy is that of the state -/
example : ∃ o' r, entropy (exactFacs ℝ) 2 (pairState ℝ) = some (o', r) ∧ r.getD 0 none = some (Real.log (625 / 337)) := by
  obtain ⟨o', o'', r, h1, h2, -, -, -, -, h⟩ := entropy_renyi_partial (exactFacs_good ℝ) pair_fresh (by simp [pairState, unmarked])
    (by rw [pair_norm]; exact one_ne_zero) (hs := []) (by simp) (.inl (by simp [Plain])) 2
  obtain rfl : pairState ℝ = o' := Option.some.inj h1
  refine ⟨o'', r, h2, ?_⟩
  rw [(h 0 (by simp [pairState, unmarked]) [2] [2] _ rfl rfl rfl).1 le_rfl]
  have := pair_purity (𝕜 := ℝ)
  simp only [after, List.foldl_nil] at this ⊢
  rw [this, ← Real.log_inv]
  norm_num

/-- the hypothesis of the refutations: a bond dimension which suffices -/
example : ∃ fac : Facs ℝ, Good fac ∧ ∀ te dmin dmax t, Keeps (fac.lib te dmin dmax) t 1 :=
  ⟨{ exactFacs ℝ with lib := fun _ _ _ => (exactFacs ℝ).full },
    ⟨fun _ _ _ => (exactFacs_good ℝ).full, (exactFacs_good ℝ).lq, (exactFacs_good ℝ).full, (exactFacs_good ℝ).keeps⟩,
    fun _ _ _ => (exactFacs_good ℝ).keeps⟩

end

end QLPeps.BmpsCano
