import Verif.Lemmas.BmpsVarLoss
import Verif.Lemmas.BmpsVarMono
import Verif.Lemmas.TruncSvd

/-!
# The variational compressions of the boundary MPS

Properties C139, C140 and C141.
-/

namespace QLPeps.BmpsVar

open QLPeps.Contractor QLPeps.Bmps QLPeps.Box QLPeps.BmpsVar.Spec
open QLPeps.Peps (Tn truncLib truncLib_factorizations truncLib_largest)

noncomputable section

variable {𝕜 : Type*} [RCLike 𝕜]

theorem reverse_eq (p : Pos) (mpo : List (Tn 𝕜)) : reverseIfNeeded p mpo = inOrder p mpo := by
  cases p <;> rfl

theorem ne_nil_of {mps mpo : List (Tn 𝕜)} {p : Pos} {ds fs : List ℕ} (h1 : Shp mps 1 ds) (h2 : RShp p mpo 1 ds fs)
    (hn : 3 ≤ mps.length) : fs ≠ [] := by
  obtain ⟨_, _, hc⟩ := chain_of h1 h2
  rintro rfl
  have := hc.lenf
  simp at this
  omega

theorem multiply_best {lib : Libs 𝕜} (hf : ∀ te dmin dmax, Factorizations (lib te dmin dmax)) {scheme : Scheme}
    (hs : scheme ≠ .svd) (te : ℝ) (dmin dmax : ℕ) (tol : ℝ) (maxIter : ℕ) (p : Pos) {mps mpo : List (Tn 𝕜)} {ds fs : List ℕ}
    (h1 : Shp mps 1 ds) (h2 : RShp p (inOrder p mpo) 1 ds fs) (hn : 3 ≤ mps.length) (ex : Prop)
    (hb : ex → ∀ e ∈ mps.tail, e.shape.getD 0 0 ≤ 2)
    (hk2 : ex → ∀ f : Tn 𝕜, f.shape.length = 3 → f.shape.getD 0 0 ≤ 2 → Keeps (lib 0 1 2) f 1) (hp : ex → ∀ f ∈ fs, 0 < f)
    (hk : ex → ∀ (f : Tn 𝕜) n, (f.shape.take n).prod ≤ fs.prod → Keeps (lib te dmin dmax) f n)
    (hk0 : ex → ∀ (f : Tn 𝕜) n, (f.shape.take n).prod ≤ fs.prod → Keeps (lib 0 dmax dmax) f n)
    (hk1 : ex → ∀ (f : Tn 𝕜) n, (f.shape.take n).prod ≤ fs.prod → Keeps (lib te dmax dmax) f n) :
    ∃ md wd res, multiply lib scheme te dmin dmax (some tol) (some maxIter) p mps mpo = .ok (finalize res) ∧
      Best p mps (inOrder p mpo) fs md wd ex res := by
  have e0 : ¬(mps.length = 2 ∨ scheme = .svd) := by rintro (h | h); · omega
                                                    · exact hs h
  have e1 : ¬mps.length < 2 := by omega
  cases scheme with
  | svd => exact absurd rfl hs
  | two =>
    obtain ⟨md, wd, res, a, b⟩ := variational2_best hf te dmin dmax tol maxIter h1 h2 (by omega) ex hb hk2 hp hk
    refine ⟨md, wd, res, ?_, b⟩
    rw [multiply, if_neg e0]
    simp only [if_neg e1, if_true, reverse_eq, a]
  | one =>
    obtain ⟨md, wd, res, a, b⟩ := variational1_best hf te dmin dmax tol maxIter h1 h2 (by omega) ex hb hk2 hp hk hk0 hk1
    refine ⟨md, wd, res, ?_, b⟩
    rw [multiply, if_neg e0]
    simp only [if_neg e1, reverse_eq, reduceCtorEq, if_false, a]

/-- C139: With a variational scheme and at least three tensors, for every truncation, tolerance and number of iterations,
the multiplication succeeds. The result is a boundary MPS on the outer legs of the row. The tensors after the first one are
orthonormal. No other choice of the first tensor is closer to the exact product, and none is as close. The squared
norm of the result and the squared error add up to the squared norm of the exact product. -/
theorem variational_best {lib : Libs 𝕜} (hf : ∀ te dmin dmax, Factorizations (lib te dmin dmax)) {scheme : Scheme}
    (hs : scheme ≠ .svd) (te : ℝ) (dmin dmax : ℕ) (tol : ℝ) (maxIter : ℕ) (p : Pos) {mps mpo : List (Tn 𝕜)} {ds fs : List ℕ}
    (h1 : IsMps mps 1 ds) (h2 : IsMpo p (inOrder p mpo) 1 ds fs) (hn : 3 ≤ mps.length) :
    ∃ first rest B, multiply lib scheme te dmin dmax (some tol) (some maxIter) p mps mpo = .ok (first :: rest) ∧
      IsMps (first :: rest) 1 fs ∧ first.shape = [1, fs.getD 0 0, B] ∧
      (∀ c < B, ∀ c' < B, overlap (fs.drop 1) (fun ys => amp rest ys c') (fun ys => amp rest ys c) =
        if c = c' then 1 else 0) ∧
      (∀ other : Tn 𝕜, other.shape = first.shape →
        normSq fs (fun ys => product p mps (inOrder p mpo) ds ys - amp (first :: rest) ys 0) ≤
            normSq fs (fun ys => product p mps (inOrder p mpo) ds ys - amp (other :: rest) ys 0) ∧
          (normSq fs (fun ys => product p mps (inOrder p mpo) ds ys - amp (other :: rest) ys 0) =
            normSq fs (fun ys => product p mps (inOrder p mpo) ds ys - amp (first :: rest) ys 0) →
            ∀ x < fs.getD 0 0, ∀ c < B, other.elem [0, x, c] = first.elem [0, x, c])) ∧
      normSq fs (product p mps (inOrder p mpo) ds) = normSq fs (fun ys => amp (first :: rest) ys 0) +
        normSq fs (fun ys => product p mps (inOrder p mpo) ds ys - amp (first :: rest) ys 0) := by
  rw [isMps_iff] at h1
  rw [isMpo_iff] at h2
  obtain ⟨md, wd, res, a, b⟩ := multiply_best hf hs te dmin dmax tol maxIter p h1 h2 hn False False.elim False.elim False.elim
    False.elim False.elim False.elim
  obtain ⟨first, rest, B, c1, c2, c3, c4, c5, c6, _⟩ := best_spec h1 h2 (ne_nil_of h1 h2 hn) b
  refine ⟨first, rest, B, by rw [a, c1], (isMps_iff _ _ _).2 c3, c2, c4, ?_, ?_⟩
  · intro other ho
    rw [c5 other ho]
    refine ⟨le_add_of_nonneg_right (Finset.sum_nonneg fun _ _ => Finset.sum_nonneg fun _ _ => sq_nonneg _), ?_⟩
    intro h x hx c hc
    have h0 : ∑ x ∈ Finset.range (fs.getD 0 0), ∑ c ∈ Finset.range B, ‖first.elem [0, x, c] - other.elem [0, x, c]‖ ^ 2 = 0 := by
      linarith
    rw [Finset.sum_eq_zero_iff_of_nonneg fun _ _ => Finset.sum_nonneg fun _ _ => sq_nonneg _] at h0
    have h3 := h0 x (Finset.mem_range.2 hx)
    rw [Finset.sum_eq_zero_iff_of_nonneg fun _ _ => sq_nonneg _] at h3
    have h4 := h3 c (Finset.mem_range.2 hc)
    rw [pow_eq_zero_iff two_ne_zero, norm_eq_zero, sub_eq_zero] at h4
    exact h4.symm
  · have h := c5 ⟨first.shape, fun _ => 0⟩ rfl
    have e : ∀ ys, fs ≠ [] → ys ∈ box fs → amp ((⟨first.shape, fun _ => 0⟩ : Tn 𝕜) :: rest) ys 0 = 0 := by
      intro ys hne hys
      obtain ⟨f, fs', rfl⟩ := List.exists_cons_of_ne_nil hne
      obtain ⟨y, ys, rfl, _, _⟩ := mem_box_cons.1 hys
      simp [amp]
    have e2 : normSq fs (fun ys => product p mps (inOrder p mpo) ds ys - amp ((⟨first.shape, fun _ => 0⟩ : Tn 𝕜) :: rest) ys 0) =
        normSq fs (product p mps (inOrder p mpo) ds) := by
      simp only [normSq, sumCoors_box]
      exact Finset.sum_congr rfl fun ys hys => by rw [e ys (ne_nil_of h1 h2 hn) hys, sub_zero]
    rw [← e2, h, c6, add_comm]
    simp

/-- C141: With the one-site scheme, allowing for more iterations never gives a result that is further from the exact
product, whatever the truncation, the tolerance and the tensors. -/
theorem iterations_improve {lib : Libs 𝕜} (hf : ∀ te dmin dmax, Factorizations (lib te dmin dmax))
    (te : ℝ) (dmin dmax : ℕ) (tol : ℝ) {few many : ℕ} (hm : few ≤ many) (p : Pos) {mps mpo : List (Tn 𝕜)} {ds fs : List ℕ}
    (h1 : IsMps mps 1 ds) (h2 : IsMpo p (inOrder p mpo) 1 ds fs) (hn : 3 ≤ mps.length) :
    ∃ res res', multiply lib .one te dmin dmax (some tol) (some few) p mps mpo = .ok res ∧
      multiply lib .one te dmin dmax (some tol) (some many) p mps mpo = .ok res' ∧
      normSq fs (fun ys => product p mps (inOrder p mpo) ds ys - amp res' ys 0) ≤
        normSq fs (fun ys => product p mps (inOrder p mpo) ds ys - amp res ys 0) := by
  have e0 : ¬(mps.length = 2 ∨ Scheme.one = .svd) := by rintro (h | h); · omega
                                                        · exact absurd h (by decide)
  have e1 : ¬mps.length < 2 := by omega
  obtain ⟨f1, r1, B1, a1, _, a3, _, _, a4⟩ := variational_best hf (scheme := .one) (by decide) te dmin dmax tol few p h1 h2 hn
  obtain ⟨f2, r2, B2, b1, _, b3, _, _, b4⟩ := variational_best hf (scheme := .one) (by decide) te dmin dmax tol many p h1 h2 hn
  rw [isMps_iff] at h1
  rw [isMpo_iff] at h2
  obtain ⟨md, wd, s1, s2, c1, c2, c3, c4, c5⟩ := variational1_mono hf te dmin dmax tol hm h1 h2 (by omega)
  obtain ⟨g1, t1, D1, u1, u2, _, _, _, u3, _⟩ := best_spec h1 h2 (ne_nil_of h1 h2 hn) c3
  obtain ⟨g2, t2, D2, v1, v2, _, _, _, v3, _⟩ := best_spec h1 h2 (ne_nil_of h1 h2 hn) c4
  have h3 := c5 _ _ _ _ _ _ u1 u2 v1 v2
  rw [multiply, if_neg e0] at a1 b1
  simp only [if_neg e1, reverse_eq, reduceCtorEq, if_false, c1, c2, u1, v1, Out.ok.injEq] at a1 b1
  rw [← u3, ← v3, a1, b1] at h3
  refine ⟨f1 :: r1, f2 :: r2, ?_, ?_, by linarith⟩
  · rw [multiply, if_neg e0]
    simp only [if_neg e1, reverse_eq, reduceCtorEq, if_false, c1, u1, a1]
  · rw [multiply, if_neg e0]
    simp only [if_neg e1, reverse_eq, reduceCtorEq, if_false, c2, v1, b1]

/-- C139: With two tensors, every scheme does the same as `SVD_COMPRESS`. -/
theorem two_tensors (lib : Libs 𝕜) (scheme : Scheme) (te : ℝ) (dmin dmax : ℕ) (tol : Option ℝ) (maxIter : Option ℕ) (p : Pos)
    (mps mpo : List (Tn 𝕜)) (hn : mps.length = 2) :
    multiply lib scheme te dmin dmax tol maxIter p mps mpo = multiply lib .svd te dmin dmax none none p mps mpo := by
  simp [multiply, hn]

/-- C139: A variational scheme without tolerance or without number of iterations throws, unless there are two tensors. -/
theorem missing_parameter (lib : Libs 𝕜) {scheme : Scheme} (hs : scheme ≠ .svd) (te : ℝ) (dmin dmax : ℕ) {tol : Option ℝ}
    {maxIter : Option ℕ} (h : tol = none ∨ maxIter = none) (p : Pos) (mps mpo : List (Tn 𝕜)) (hn : mps.length ≠ 2) :
    multiply lib scheme te dmin dmax tol maxIter p mps mpo = .badOptional := by
  rcases h with rfl | rfl
  · simp [multiply, hn, hs]
  · cases tol <;> simp [multiply, hn, hs]

/-- C139: With a single tensor, a variational scheme is undefined behaviour. -/
theorem single_tensor (lib : Libs 𝕜) {scheme : Scheme} (hs : scheme ≠ .svd) (te : ℝ) (dmin dmax : ℕ) (tol : ℝ)
    (maxIter : ℕ) (p : Pos) (e : Tn 𝕜) (mpo : List (Tn 𝕜)) :
    multiply lib scheme te dmin dmax (some tol) (some maxIter) p [e] mpo = .undefined := by
  simp [multiply, hs]

/-- C140, in part: The result is the exact product if no truncation error is allowed for, the bond dimension suffices for every state
of the outer legs, and the bonds of the boundary MPS have a dimension of at most two. Missing: boundary MPS with larger
bonds, for which this does not hold (`variational_loses_component`). -/
theorem variational_exact_partial {lib : Libs 𝕜} (hf : ∀ te dmin dmax, Factorizations (lib te dmin dmax))
    (hk : ∀ dmin dmax, KeepsLargest (lib 0 dmin dmax) dmax) {scheme : Scheme} (hs : scheme ≠ .svd) (dmin dmax : ℕ) (tol : ℝ)
    (maxIter : ℕ) (p : Pos) {mps mpo : List (Tn 𝕜)} {ds fs : List ℕ} (h1 : IsMps mps 1 ds) (h2 : IsMpo p (inOrder p mpo) 1 ds fs)
    (hn : 3 ≤ mps.length) (hd : fs.prod ≤ dmax) (hb : ∀ e ∈ mps.tail, e.shape.getD 0 0 ≤ 2) :
    ∃ res, multiply lib scheme 0 dmin dmax (some tol) (some maxIter) p mps mpo = .ok res ∧ IsMps res 1 fs ∧
      ∀ ys, List.Forall₂ (· < ·) ys fs → amp res ys 0 = product p mps (inOrder p mpo) ds ys := by
  rw [isMps_iff] at h1
  rw [isMpo_iff] at h2
  obtain ⟨md, wd, res, a, b⟩ := multiply_best hf hs 0 dmin dmax tol maxIter p h1 h2 hn (∀ f ∈ fs, 0 < f) (fun _ => hb)
    (fun _ f h3 h => keeps_of_rows (hf 0 1 2) (hk 1 2) (by
      obtain ⟨sh, g⟩ := f
      match sh, h3 with
      | [x, _, _], _ => simpa using h))
    id (fun _ f n h => keeps_of_rows (hf ..) (hk dmin dmax) (h.trans hd)) (fun _ f n h => keeps_of_rows (hf ..) (hk dmax dmax) (h.trans hd))
    (fun _ f n h => keeps_of_rows (hf ..) (hk dmax dmax) (h.trans hd))
  obtain ⟨first, rest, B, c1, c2, c3, _, _, _, c7⟩ := best_spec h1 h2 (ne_nil_of h1 h2 hn) b
  refine ⟨first :: rest, by rw [a, c1], (isMps_iff _ _ _).2 c3, fun ys hys => c7 ?_ ys (mem_box.2 hys)⟩
  have key : ∀ {ys fs : List ℕ}, List.Forall₂ (· < ·) ys fs → ∀ f ∈ fs, 0 < f := by
    intro ys fs hys f hf
    induction hys with
    | nil => simp at hf
    | cons h _ ih =>
      rcases List.mem_cons.1 hf with rfl | h'
      · omega
      · exact ih h'
  exact key hys

/-- C140 is false of the code without the bound on the bonds: the boundary MPS `3 |000⟩ + 2 |111⟩ + |222⟩`, whose bonds have the dimension three,
times a row which changes nothing. Whatever the truncation parameters and the number of iterations, the result
of the two-site scheme has no component `|222⟩`: the first guess is made from a copy which is truncated to bonds
of dimension two, and the sweeps never leave its span. -/
theorem variational_loses_component {lib : Libs ℝ} (hf : ∀ te dmin dmax, Factorizations (lib te dmin dmax))
    (hk : KeepsLargest (lib 0 1 2) 2) (te : ℝ) (dmin dmax : ℕ)
    (hp : ∀ t n, ∀ m < ((lib te dmin dmax).svd t n).s.dim, 0 < ((lib te dmin dmax).svd t n).s.val m) (tol : ℝ) (maxIter : ℕ) :
    IsMps Loss.ghz 1 [3, 3, 3] ∧ IsMpo .down Loss.idMpo 1 [3, 3, 3] [3, 3, 3] ∧
    product .down Loss.ghz Loss.idMpo [3, 3, 3] [2, 2, 2] = 1 ∧
    ∃ res, multiply lib .two te dmin dmax (some tol) (some maxIter) .down Loss.ghz Loss.idMpo = .ok res ∧
      amp res [2, 2, 2] 0 = 0 := by
  refine ⟨(isMps_iff _ _ _).2 Loss.ghz_shp, (isMpo_iff _ _ _ _ _).2 Loss.idMpo_shp, ?_, ?_⟩
  · rw [product_eq Loss.ghz_shp Loss.idMpo_shp (mem_box.2 (.cons (by norm_num) (.cons (by norm_num) (.cons (by norm_num) .nil)))), Loss.tv_last]
  · obtain ⟨res, a, b⟩ := Loss.variational2_lost hf hk te dmin dmax hp tol maxIter
    refine ⟨res, ?_, by rw [amp_eq, b]⟩
    have e : reverseIfNeeded .down Loss.idMpo = Loss.idMpo := rfl
    rw [multiply, if_neg (by simp [Loss.ghz])]
    simp only [e, if_true, a]
    rw [if_neg (by simp [Loss.ghz])]

/-! ## the hypotheses are met -/

/-- factorizations with truncation to the largest singular values exist -/
def sample (𝕜 : Type) [RCLike 𝕜] : Libs 𝕜 := fun _ _ dmax => truncLib dmax

example : (∀ te dmin dmax, Factorizations (sample ℂ te dmin dmax)) ∧ ∀ dmin dmax, KeepsLargest (sample ℂ 0 dmin dmax) dmax :=
  ⟨fun _ _ d => truncLib_factorizations d, fun _ d => truncLib_largest d⟩

/-- a boundary MPS of three tensors with bonds of dimension two, and a row of site tensors -/
def mps3 : List (Tn ℂ) := [⟨[1, 2, 2], fun x => if x = [0, 0, 1] then Complex.I else 2⟩, ⟨[2, 2, 2], fun x => x.sum⟩,
  ⟨[2, 2, 1], fun x => if x.getD 0 0 = x.getD 1 0 then 1 else 3⟩]

def row3 : List (Tn ℂ) := [⟨[1, 2, 2, 3], fun x => x.sum⟩, ⟨[2, 2, 2, 3], fun x => x.prod⟩, ⟨[2, 2, 1, 3], fun x => x.sum + Complex.I⟩]

example : IsMps mps3 1 [2, 2, 2] ∧ IsMpo .down (inOrder .down row3) 1 [2, 2, 2] [3, 3, 3] ∧ 3 ≤ mps3.length ∧
    ∀ e ∈ mps3.tail, e.shape.getD 0 0 ≤ 2 := by
  refine ⟨⟨2, 2, [2, 2], rfl, rfl, 2, 2, [2], rfl, rfl, 2, 1, [], rfl, rfl, rfl, rfl⟩,
    ⟨2, 2, 3, _, _, rfl, rfl, rfl, 2, 2, 3, _, _, rfl, rfl, rfl, 2, 1, 3, _, _, rfl, rfl, rfl, rfl, rfl, rfl⟩, le_rfl, ?_⟩
  simp [mps3]

/-- what `variational_best` says of them, with bonds truncated to two and one iteration -/
example : ∃ first rest, multiply (sample ℂ) .one 0 1 2 (some 1e-8) (some 1) .down mps3 row3 = .ok (first :: rest) :=
  let ⟨first, rest, _, h, _⟩ := variational_best (lib := sample ℂ) (fun _ _ d => truncLib_factorizations d) (scheme := .one)
    (by simp) 0 1 2 1e-8 1 .down (mps := mps3) (mpo := row3) (ds := [2, 2, 2]) (fs := [3, 3, 3])
    ⟨2, 2, [2, 2], rfl, rfl, 2, 2, [2], rfl, rfl, 2, 1, [], rfl, rfl, rfl, rfl⟩
    ⟨2, 2, 3, _, _, rfl, rfl, rfl, 2, 2, 3, _, _, rfl, rfl, rfl, 2, 1, 3, _, _, rfl, rfl, rfl, rfl, rfl, rfl⟩ le_rfl
  ⟨first, rest, h⟩

/-- what `iterations_improve` says of them -/
example : ∃ res res', multiply (sample ℂ) .one 0 1 2 (some 1e-8) (some 0) .down mps3 row3 = .ok res ∧
    multiply (sample ℂ) .one 0 1 2 (some 1e-8) (some 10) .down mps3 row3 = .ok res' ∧
    normSq [3, 3, 3] (fun ys => product .down mps3 row3 [2, 2, 2] ys - amp res' ys 0) ≤
      normSq [3, 3, 3] (fun ys => product .down mps3 row3 [2, 2, 2] ys - amp res ys 0) :=
  iterations_improve (lib := sample ℂ) (fun _ _ d => truncLib_factorizations d) 0 1 2 1e-8 (by norm_num) .down
    (mps := mps3) (mpo := row3) (ds := [2, 2, 2]) (fs := [3, 3, 3])
    ⟨2, 2, [2, 2], rfl, rfl, 2, 2, [2], rfl, rfl, 2, 1, [], rfl, rfl, rfl, rfl⟩
    ⟨2, 2, 3, _, _, rfl, rfl, rfl, 2, 2, 3, _, _, rfl, rfl, rfl, 2, 1, 3, _, _, rfl, rfl, rfl, rfl, rfl, rfl⟩ le_rfl

/-- the component is lost for a bond dimension that suffices -/
example : ∃ res, multiply (sample ℝ) .two 0 1 27 (some 1e-8) (some 100) .down Loss.ghz Loss.idMpo = .ok res ∧ amp res [2, 2, 2] 0 = 0 :=
  (variational_loses_component (lib := sample ℝ) (fun _ _ d => truncLib_factorizations d) (truncLib_largest 2) 0 1 27
    (truncLib_largest 27).pos 1e-8 100).2.2.2

end

end QLPeps.BmpsVar
