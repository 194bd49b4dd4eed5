import Verif.Lemmas.BmpsCanoTrunc
import Verif.Lemmas.BmpsVarCano
import Verif.Props.BmpsCano

/-!
# Truncating a bond of a boundary MPS

C150.
-/

namespace QLPeps.BmpsCano

open QLPeps.Bmps QLPeps.Box QLPeps.BmpsCano.Spec
open QLPeps.BmpsVar (amp_eq isMps_iff sumCoors_box)
open QLPeps.Peps (Tn Lib)
open QLPeps.BmpsVar.Spec (Factorizations amp normSq AtMost Discards)

noncomputable section

variable {𝕜 : Type*} [RCLike 𝕜] {fac : Facs 𝕜} {ds : List ℕ}

theorem calls_append (hs hs' : List Call) : ∀ o : Obj 𝕜, calls fac (hs ++ hs') o = (calls fac hs o).bind (calls fac hs') := by
  induction hs with
  | nil => intro o; rfl
  | cons h hs ih =>
    intro o
    rw [List.cons_append, calls, calls, Option.bind_assoc]
    exact congrArg _ (funext ih)

theorem shp_replace (post : List (Tn 𝕜)) {b b' : Tn 𝕜} (h : b'.shape = b.shape) (pre : List (Tn 𝕜)) : ∀ (A : ℕ) (ds : List ℕ),
    Shp (pre ++ b :: post) A ds → Shp (pre ++ b' :: post) A ds := by
  induction pre with
  | nil =>
    rintro A ds ⟨d, r, ds', h1, h2, h3⟩
    exact ⟨d, r, ds', h1, h.trans h2, h3⟩
  | cons e pre ih =>
    rintro A ds ⟨d, r, ds', h1, h2, h3⟩
    exact ⟨d, r, ds', h1, h2, ih _ _ h3⟩

/-- C150: After a history of calls (as for `centralize_canonical_partial`), `Centralize(i)` and `RightCanonicalizeTruncate(i)`, the
bond before the tensor `i` is not larger than the number of singular values that `SVD` may keep, and the object is canonical
about the tensor before. The squared norm of the new state and the squared error add up to the squared norm
of the state. If `SVD` discards at most the part `ε` of the weight, the squared error is at most this part of the squared norm.
If `SVD` keeps the largest singular values, no state with a Schmidt rank up to the new bond is closer to the state. -/
theorem truncation_best (hg : Good fac) {o : Obj 𝕜} (hf : Fresh ds o) (hne : normSq ds (fun xs => amp o.tens xs 0) ≠ 0)
    {hs : List Call} (hin : ∀ q ∈ hs, InRange o.tens.length q) (hp : Plain hs ∨ Whole hs) {i : ℕ} (hi : 1 ≤ i)
    (hN : i < o.tens.length) (te : ℝ) (dmin dmax : ℕ) :
    ∃ o' D φ, calls fac (hs ++ [.centralize i, .truncate te dmin dmax i]) o = some o' ∧ o'.tens.length = o.tens.length ∧
      Represents o' ((after hs ds o).1, φ) ∧ Canonical (i - 1) o'.tens ∧ (o'.tens.getD i nil).shape.getD 0 0 = D ∧
      (∀ D', AtMost (fac.lib te dmin dmax) D' → D ≤ D') ∧ Rank (after hs ds o).1 i D φ ∧
      normSq (after hs ds o).1 φ + normSq (after hs ds o).1 (fun xs => (after hs ds o).2 xs - φ xs) =
        normSq (after hs ds o).1 (after hs ds o).2 ∧
      (∀ ε, Discards (fac.lib te dmin dmax) ε →
        normSq (after hs ds o).1 (fun xs => (after hs ds o).2 xs - φ xs) ≤ ε * normSq (after hs ds o).1 (after hs ds o).2) ∧
      (Largest (fac.lib te dmin dmax) → ∀ ψ, Rank (after hs ds o).1 i D ψ →
        normSq (after hs ds o).1 (fun xs => (after hs ds o).2 xs - φ xs) ≤
          normSq (after hs ds o).1 (fun xs => (after hs ds o).2 xs - ψ xs)) := by
  obtain ⟨o0, a1, a2⟩ := history hg hf (by omega) hne hin hp
  generalize after hs ds o = s at *
  obtain ⟨o1, b1, b2, b3, b4, b5, b6, b7, -⟩ := centralize_run hg a2.shp (a2.clen.trans a2.len.symm) (c := i) (by rw [a2.len]; exact hN) a2.inv
  obtain ⟨i, rfl⟩ : ∃ j, i = j + 1 := ⟨i - 1, by omega⟩
  have hlen : o1.tens.length = o.tens.length := b3.trans a2.len
  obtain ⟨pre, a, b, post, c1, c2, c3, c4⟩ := split_pair (es := o1.tens) (i := i) (by omega)
  set lib := fac.lib te dmin dmax with hlib
  have hlf : Factorizations lib := hg.lib te dmin dmax
  have htr : truncate fac te dmin dmax (i + 1) o1 = some { o1 with tens := pre ++ (canoStep lib a b).1 :: (canoStep lib a b).2 :: post } := by
    rw [truncate]
    simp only [get_of (show i < o1.tens.length by omega), get_of (show i + 1 < o1.tens.length by omega), c3, c4, ← hlib]
    rw [c1, ← c2, set_pair]
  rw [c1] at b2 b6 b7
  have hpa : ∀ e ∈ pre ++ [a], LeftIso e := mem_pre (pre := pre ++ [a]) (rest := b :: post) (c := i + 1) (by simp [c2]) (by simpa using b7)
  have hpo : ∀ e ∈ post, RightIso e := mem_post (pre := pre ++ [a]) (c := i + 1) (by simp [c2]) (by simpa using b7)
  obtain ⟨u, v, d1, d2, d3⟩ := split_of hlf (pre := pre ++ [a]) (b := b) (post := post) (by simpa using b2) hpa hpo
  have hpl : (pre ++ [a]).length = i + 1 := by simp [c2]
  simp only [List.append_assoc, List.cons_append, List.nil_append, hpl] at d1 d3
  obtain ⟨L, X, M, hb⟩ : ∃ L X M, b.shape = [L, X, M] := by
    obtain ⟨L, X, M, h⟩ := List.length_eq_three.1 d2
    exact ⟨L, X, M, h⟩
  obtain ⟨e1, e2, e3, e4⟩ := split_best d1
  -- the truncated object
  have hcs : Shp (pre ++ a :: cut lib b :: post) 1 s.1 := by
    simpa using shp_replace post (b := b) (b' := cut lib b) rfl (pre ++ [a]) 1 s.1 (by simpa using b2)
  obtain ⟨f1, f2⟩ := pair_replace (same_cut hlf a b) post pre 1 s.1 hcs
  have hval : ∀ xs ∈ box s.1, s.2 xs = mv (pre ++ a :: b :: post) xs 0 := fun xs hxs => by rw [b6 xs hxs, a2.val xs hxs]
  have hsub : ∀ χ : List ℕ → 𝕜, normSq s.1 (fun xs => s.2 xs - χ xs) = normSq s.1 (fun xs => mv (pre ++ a :: b :: post) xs 0 - χ xs) :=
    fun χ => normSq_congr fun xs hxs => by rw [hval xs hxs]
  have hnm : normSq s.1 s.2 = normSq s.1 fun xs => mv (pre ++ a :: b :: post) xs 0 := normSq_congr hval
  obtain ⟨-, s2⟩ := hlf.shape b 1
  refine ⟨{ o1 with tens := pre ++ (canoStep lib a b).1 :: (canoStep lib a b).2 :: post }, (lib.svd b 1).s.dim,
    fun xs => mv (pre ++ a :: cut lib b :: post) xs 0, ?_, ?_, ⟨(isMps_iff _ _ _).2 f1, fun xs hxs => ?_⟩, ⟨fun j hj => ?_, fun j hj hj' => ?_⟩, ?_,
    fun D' hD => hD b d2, e3, ?_, fun ε hε => ?_, fun hL ψ hψ => ?_⟩
  · rw [calls_append, a1, Option.bind_some]
    simp only [calls, call, b1, Option.bind_some, htr]
  · have := congrArg List.length c1
    simp only [List.length_append, List.length_cons] at this ⊢
    omega
  · rw [amp_eq]
    exact f2 xs (mem_box.2 hxs) 0 (by omega)
  · have := hpa (pre.getD j nil) (List.mem_append_left _ (by rw [List.getD_eq_getElem _ _ (by omega)]; exact List.getElem_mem _))
    change LeftIso ((pre ++ _).getD j nil)
    rwa [List.getD_append _ _ _ _ (by omega)]
  · change RightIso ((pre ++ _).getD j nil)
    rw [List.getD_append_right _ _ _ _ (by omega)]
    obtain ⟨k, rfl⟩ : ∃ k, j = pre.length + (k + 1) := ⟨j - pre.length - 1, by omega⟩
    rw [show pre.length + (k + 1) - pre.length = k + 1 by omega, List.getD_cons_succ]
    cases k with
    | zero => exact svd_rightIso hlf hb
    | succ k =>
      rw [List.getD_cons_succ]
      simp only [List.length_append, List.length_cons] at hj'
      refine hpo _ ?_
      rw [List.getD_eq_getElem _ _ (by omega)]
      exact List.getElem_mem _
  · rw [List.getD_append_right _ _ _ _ (by omega), c2, show i + 1 - i = 0 + 1 by omega, List.getD_cons_succ, List.getD_cons_zero]
    change (lib.svd b 1).vt.shape.getD 0 0 = _
    rw [s2]; rfl
  · rw [hsub, e1, e2, hnm]; ring
  · rw [hsub, e2, hnm]
    have h1 := hε b d2
    rw [← d1.nm] at h1
    linarith
  · rw [hsub, hsub]
    exact e4 (d3 hL) ψ hψ

/-! ## the hypotheses hold -/

theorem exactFacs_largest (𝕜 : Type) [RCLike 𝕜] (te : ℝ) (dmin dmax : ℕ) : Largest ((exactFacs 𝕜).lib te dmin dmax) :=
  fun t v h m hm => (Peps.truncLib_largest dmax).largest t 1 v h m hm

/-- a state of two tensors is truncated to the bond dimension 1, after calls of both kinds -/
example : ∃ o' φ, calls (exactFacs ℂ) [.centralize 1, .entropy 1, .reverse, .centralize 1, .truncate 0 1 1 1] (pairState ℂ) = some o' ∧
    (o'.tens.getD 1 nil).shape.getD 0 0 ≤ 1 ∧ Represents o' ((after [.centralize 1, .entropy 1, .reverse] [2, 2] (pairState ℂ)).1, φ) := by
  obtain ⟨o', D, φ, h1, -, h3, -, h5, h6, -⟩ := truncation_best (exactFacs_good ℂ) pair_fresh
    (by rw [pair_norm]; exact one_ne_zero) (hs := [.centralize 1, .entropy 1, .reverse])
    (by simp [InRange, pairState, unmarked]) (.inr (by simp [Whole])) (i := 1) le_rfl (by simp [pairState, unmarked]) 0 1 1
  exact ⟨o', φ, h1, h5 ▸ h6 1 (fun t _ => (Peps.truncLib_largest 1).dim t 1), h3⟩

/-- the bond dimension 1 is not enough for this state: the truncation changes it -/
example : ∃ o' φ, calls (exactFacs ℝ) [.centralize 1, .truncate 0 1 1 1] (pairState ℝ) = some o' ∧
    Represents o' ([2, 2], φ) ∧ 0 < normSq [2, 2] (fun xs => amp (pairState ℝ).tens xs 0 - φ xs) := by
  obtain ⟨o', D, φ, h1, -, h3, -, h5, h6, ⟨f, g, h7⟩, -⟩ := truncation_best (exactFacs_good ℝ) pair_fresh
    (by rw [pair_norm]; exact one_ne_zero) (hs := []) (by simp) (.inl (by simp [Plain])) (i := 1) le_rfl (by simp [pairState, unmarked]) 0 1 1
  refine ⟨o', φ, h1, h3, ?_⟩
  have hD : D ≤ 1 := h6 1 (fun t _ => (Peps.truncLib_largest 1).dim t 1)
  obtain ⟨p, q, hpq⟩ : ∃ p q : ℕ → ℝ, ∀ x < 2, ∀ y < 2, φ [x, y] = p x * q y := by
    have h8 : ∀ x < 2, ∀ y < 2, φ [x, y] = ∑ k ∈ Finset.range D, f k [x] * g k [y] := fun x hx y hy =>
      h7 [x] [y] (List.Forall₂.cons hx List.Forall₂.nil) (List.Forall₂.cons hy List.Forall₂.nil)
    rcases Nat.le_one_iff_eq_zero_or_eq_one.1 hD with rfl | rfl
    · exact ⟨fun _ => 0, fun _ => 0, fun x hx y hy => by rw [h8 x hx y hy]; simp⟩
    · exact ⟨fun x => f 0 [x], fun y => g 0 [y], fun x hx y hy => by rw [h8 x hx y hy]; simp⟩
  simp only [normSq, Peps.sumCoors, Finset.sum_range_succ, Finset.sum_range_zero]
  rw [pair_amp 0 0 (by omega) (by omega), pair_amp 0 1 (by omega) (by omega), pair_amp 1 0 (by omega) (by omega),
    pair_amp 1 1 (by omega) (by omega), hpq 0 (by omega) 0 (by omega), hpq 0 (by omega) 1 (by omega), hpq 1 (by omega) 0 (by omega),
    hpq 1 (by omega) 1 (by omega)]
  simp only [Real.norm_eq_abs, sq_abs, zero_add, if_true, zero_ne_one, one_ne_zero, if_false]
  by_contra h
  push Not at h
  have s1 := sq_nonneg (4 / 5 - p 0 * q 0)
  have s2 := sq_nonneg (0 - p 0 * q 1)
  have s3 := sq_nonneg (0 - p 1 * q 0)
  have s4 := sq_nonneg (3 / 5 - p 1 * q 1)
  have e1 := pow_eq_zero_iff two_ne_zero |>.1 (le_antisymm (by linarith) s1)
  have e2 := pow_eq_zero_iff two_ne_zero |>.1 (le_antisymm (by linarith) s4)
  have e3 := pow_eq_zero_iff two_ne_zero |>.1 (le_antisymm (by linarith) s2)
  rw [zero_sub, neg_eq_zero] at e3
  rcases mul_eq_zero.1 e3 with e | e
  · rw [e] at e1; norm_num at e1
  · rw [e] at e2; norm_num at e2

end

end QLPeps.BmpsCano
