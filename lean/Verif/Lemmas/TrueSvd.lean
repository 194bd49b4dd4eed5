import Verif.Props.Peps
import Verif.Spec.TrgHoles
import Mathlib.Analysis.Matrix.Spectrum

/-!
# A library with true singular value decompositions

The hypotheses on the library (`Exact`, `SvdNonNeg`, `SingularVectors`) are those of a singular value decomposition.
One exists for every tensor, by the spectral theorem.
-/

namespace QLPeps.Peps

open QLPeps.Peps.Spec

noncomputable section

variable {𝕜 : Type} [RCLike 𝕜]

/-- a singular value decomposition without zeros -/
structure IsSvd {p q : ℕ} (M : Fin p → Fin q → 𝕜) (k : ℕ) (U : Fin p → ℕ → 𝕜) (S : ℕ → ℝ) (W : ℕ → Fin q → 𝕜) :
    Prop where
  pos : ∀ m < k, 0 < S m
  product : ∀ i j, ∑ m ∈ Finset.range k, U i m * (S m : 𝕜) * W m j = M i j
  left : ∀ m < k, ∀ j, ∑ i, (starRingEnd 𝕜) (U i m) * M i j = (S m : 𝕜) * W m j
  right : ∀ m < k, ∀ i, ∑ j, M i j * (starRingEnd 𝕜) (W m j) = U i m * (S m : 𝕜)

open Matrix in
theorem exists_svd {p q : ℕ} (M : Fin p → Fin q → 𝕜) : ∃ k U S W, IsSvd M k U S W := by
  classical
  set A : Matrix (Fin p) (Fin q) 𝕜 := Matrix.of M with hA'
  have hH : (Aᴴ * A).IsHermitian := isHermitian_conjTranspose_mul_self A
  set V : Matrix (Fin q) (Fin q) 𝕜 := (hH.eigenvectorUnitary : Matrix (Fin q) (Fin q) 𝕜) with hV
  have hV1 : V * Vᴴ = 1 := by
    have := Unitary.coe_mul_star_self hH.eigenvectorUnitary
    simpa [star_eq_conjTranspose] using this
  have hV2 : Vᴴ * V = 1 := by
    have := Unitary.coe_star_mul_self hH.eigenvectorUnitary
    simpa [star_eq_conjTranspose] using this
  have hdiag : Vᴴ * (Aᴴ * A) * V = diagonal (RCLike.ofReal ∘ hH.eigenvalues) := by
    have := hH.conjStarAlgAut_star_eigenvectorUnitary
    rw [Unitary.conjStarAlgAut_star_apply] at this
    simpa [star_eq_conjTranspose] using this
  set l := hH.eigenvalues with hl
  set B := A * V with hB
  have hBB : Bᴴ * B = diagonal (RCLike.ofReal ∘ l) := by
    rw [hB, conjTranspose_mul, ← hdiag]
    simp only [Matrix.mul_assoc]
  have hAB : A = B * Vᴴ := by rw [hB, Matrix.mul_assoc, hV1, Matrix.mul_one]
  have hBA : Bᴴ * A = diagonal (RCLike.ofReal ∘ l) * Vᴴ := by
    rw [← hBB, Matrix.mul_assoc, ← hAB]
  have hnorm : ∀ m, l m = ∑ x, ‖B x m‖ ^ 2 := fun m => by
    have h := congrFun (congrFun hBB m) m
    rw [Matrix.mul_apply, diagonal_apply_eq] at h
    simp only [conjTranspose_apply, Function.comp, RCLike.star_def, RCLike.conj_mul] at h
    exact_mod_cast h.symm
  have hl0 : ∀ i, 0 ≤ l i := fun i => by
    rw [hnorm]; exact Finset.sum_nonneg fun _ _ => sq_nonneg _
  have hcol : ∀ m, l m = 0 → ∀ i, B i m = 0 := fun m hm i => by
    rw [hnorm] at hm
    have := (Finset.sum_eq_zero_iff_of_nonneg (fun x _ => sq_nonneg ‖B x m‖)).1 hm i (Finset.mem_univ i)
    simpa using this
  let e := (Fintype.equivFin {m : Fin q // l m ≠ 0}).symm
  have hpos : ∀ m : {m : Fin q // l m ≠ 0}, 0 < Real.sqrt (l m) := fun m =>
    Real.sqrt_pos.2 (lt_of_le_of_ne (hl0 m) m.2.symm)
  have hsq : ∀ m, (Real.sqrt (l m) : 𝕜) * (Real.sqrt (l m) : 𝕜) = (l m : 𝕜) := fun m => by
    rw [← RCLike.ofReal_mul, Real.mul_self_sqrt (hl0 m)]
  refine ⟨Fintype.card {m : Fin q // l m ≠ 0},
    fun i m => if h : m < _ then B i (e ⟨m, h⟩) / (Real.sqrt (l (e ⟨m, h⟩)) : 𝕜) else 0,
    fun m => if h : m < _ then Real.sqrt (l (e ⟨m, h⟩)) else 0,
    fun m j => if h : m < _ then (starRingEnd 𝕜) (V j (e ⟨m, h⟩)) else 0, ?_, ?_, ?_, ?_⟩
  · intro m hm
    rw [dif_pos hm]
    exact hpos _
  · intro i j
    rw [Finset.sum_range]
    simp only [Fin.is_lt, dif_pos, Fin.eta]
    rw [e.sum_comp (fun m : {m : Fin q // l m ≠ 0} => B i m / (Real.sqrt (l m) : 𝕜) * (Real.sqrt (l m) : 𝕜) *
      (starRingEnd 𝕜) (V j m))]
    have h := congrFun (congrFun hAB i) j
    rw [Matrix.mul_apply] at h
    change _ = A i j
    rw [h]
    rw [← Finset.sum_subtype (p := fun m => l m ≠ 0) (Finset.univ.filter fun m => l m ≠ 0) (by simp)
      (fun m => B i m / (Real.sqrt (l m) : 𝕜) * (Real.sqrt (l m) : 𝕜) * (starRingEnd 𝕜) (V j m))]
    rw [Finset.sum_filter]
    refine Finset.sum_congr rfl fun m _ => ?_
    by_cases hm : l m = 0
    · rw [if_neg (by simp [hm]), hcol m hm, zero_mul]
    · have hne : (Real.sqrt (l m) : 𝕜) ≠ 0 := by exact_mod_cast (hpos ⟨m, hm⟩).ne'
      rw [if_pos hm, div_mul_cancel₀ _ hne]
      rfl
  · intro m hm j
    have h := congrFun (congrFun hBA (e ⟨m, hm⟩ : Fin q)) j
    rw [Matrix.mul_apply, Matrix.diagonal_mul] at h
    simp only [dif_pos hm, map_div₀, RCLike.conj_ofReal]
    have hne : (Real.sqrt (l (e ⟨m, hm⟩)) : 𝕜) ≠ 0 := by exact_mod_cast (hpos _).ne'
    simp only [div_mul_eq_mul_div, ← Finset.sum_div]
    rw [div_eq_iff hne]
    refine Eq.trans (by simp [conjTranspose_apply, hA']) (h.trans ?_)
    rw [Function.comp, ← hsq, conjTranspose_apply]
    simp only [RCLike.star_def]
    ring
  · intro m hm i
    simp only [dif_pos hm, RCLike.conj_conj]
    have hne : (Real.sqrt (l (e ⟨m, hm⟩)) : 𝕜) ≠ 0 := by exact_mod_cast (hpos _).ne'
    rw [div_mul_cancel₀ _ hne]
    rfl

theorem sum_allCoords (sh : List ℕ) (f : List ℕ → 𝕜) : ((allCoords sh).map f).sum = sumCoors sh f := by
  induction sh generalizing f with
  | nil => simp [allCoords, sumCoors]
  | cons d ds ih =>
    have h : ∀ l : List ℕ, ((l.flatMap fun k => (allCoords ds).map (k :: ·)).map f).sum =
        (l.map fun k => sumCoors ds fun ks => f (k :: ks)).sum := by
      intro l
      induction l with
      | nil => rfl
      | cons k l ihl =>
        rw [List.flatMap_cons, List.map_append, List.sum_append, ihl, List.map_cons, List.sum_cons, List.map_map,
          ← ih fun ks => f (k :: ks)]
        rfl
    rw [allCoords, h, sumCoors, Finset.sum_eq_multiset_sum]
    rfl

/-- the matrix of a tensor: its first `n` legs against the others -/
def matOf (t : Tn 𝕜) (n : ℕ) (i : Fin (allCoords (t.shape.take n)).length) (j : Fin (allCoords (t.shape.drop n)).length) :
    𝕜 := t.elem ((allCoords (t.shape.take n))[i] ++ (allCoords (t.shape.drop n))[j])

theorem exists_svd_of (t : Tn 𝕜) (n : ℕ) : ∃ d : Svd 𝕜, d.u.shape = t.shape.take n ++ [d.s.dim] ∧
    d.vt.shape = d.s.dim :: t.shape.drop n ∧ d.dim = d.s.dim ∧ d.err = 0 ∧
    IsSvd (matOf t n) d.s.dim (fun i m => d.u.elem ((allCoords (t.shape.take n))[i] ++ [m])) d.s.val
      (fun m j => d.vt.elem (m :: (allCoords (t.shape.drop n))[j])) := by
  classical
  obtain ⟨k, U, S, W, h⟩ := exists_svd (matOf t n)
  refine ⟨⟨⟨t.shape.take n ++ [k], fun x => if h : (allCoords (t.shape.take n)).idxOf x.dropLast <
      (allCoords (t.shape.take n)).length then U ⟨_, h⟩ (x.getLastD 0) else 0⟩, ⟨k, S⟩,
    ⟨k :: t.shape.drop n, fun y => if h : (allCoords (t.shape.drop n)).idxOf y.tail <
      (allCoords (t.shape.drop n)).length then W (y.headD 0) ⟨_, h⟩ else 0⟩, 0, k⟩, rfl, rfl, rfl, rfl, ?_⟩
  have e1 : (fun (i : Fin (allCoords (t.shape.take n)).length) (m : ℕ) =>
      if h : (allCoords (t.shape.take n)).idxOf ((allCoords (t.shape.take n))[i] ++ [m]).dropLast <
      (allCoords (t.shape.take n)).length then U ⟨_, h⟩ (((allCoords (t.shape.take n))[i] ++ [m]).getLastD 0) else 0) = U := by
    funext i m
    simp only [List.dropLast_concat, List.getLastD_concat, Fin.getElem_fin, (nodup_allCoords _).idxOf_getElem, i.2, dif_pos]
  have e2 : (fun (m : ℕ) (j : Fin (allCoords (t.shape.drop n)).length) =>
      if h : (allCoords (t.shape.drop n)).idxOf (m :: (allCoords (t.shape.drop n))[j]).tail <
      (allCoords (t.shape.drop n)).length then W ((m :: (allCoords (t.shape.drop n))[j]).headD 0) ⟨_, h⟩ else 0) = W := by
    funext m j
    simp only [List.tail_cons, List.headD_cons, Fin.getElem_fin, (nodup_allCoords _).idxOf_getElem, j.2, dif_pos]
  dsimp only
  rw [e1, e2]
  exact h

/-- a library with true singular value decompositions that truncates nothing -/
def svdLib : Lib 𝕜 where
  qr := idFactor
  svd t n := (exists_svd_of t n).choose

theorem svdLib_spec (t : Tn 𝕜) (n : ℕ) : (svdLib.svd t n).u.shape = t.shape.take n ++ [(svdLib.svd t n).s.dim] ∧
    (svdLib.svd t n).vt.shape = (svdLib.svd t n).s.dim :: t.shape.drop n ∧
    (svdLib.svd t n).dim = (svdLib.svd t n).s.dim ∧ (svdLib.svd t n).err = 0 ∧
    IsSvd (matOf t n) (svdLib.svd t n).s.dim
      (fun i m => (svdLib.svd t n).u.elem ((allCoords (t.shape.take n))[i] ++ [m])) (svdLib.svd t n).s.val
      (fun m j => (svdLib.svd t n).vt.elem (m :: (allCoords (t.shape.drop n))[j])) := (exists_svd_of t n).choose_spec

theorem svdLib_exact : Exact (svdLib : Lib 𝕜) where
  qr t n := ⟨(allCoords (t.shape.take n)).length, rfl, rfl, fun _ _ hx _ => idFactor_spec t n hx⟩
  svd_shape t n := ⟨(svdLib_spec t n).1, (svdLib_spec t n).2.1⟩
  svd_dim t n := (svdLib_spec t n).2.2.1
  svd_err t n := (svdLib_spec t n).2.2.2.1.ge
  svd t n _ x y hx hy := by
    obtain ⟨i, hi, rfl⟩ := List.getElem_of_mem (mem_allCoords.2 hx)
    obtain ⟨j, hj, rfl⟩ := List.getElem_of_mem (mem_allCoords.2 hy)
    exact (svdLib_spec t n).2.2.2.2.product ⟨i, hi⟩ ⟨j, hj⟩

theorem svdLib_pos (t : Tn 𝕜) (n i : ℕ) (hi : i < (svdLib.svd t n).s.dim) : 0 < (svdLib.svd t n).s.val i :=
  (svdLib_spec t n).2.2.2.2.pos i hi

theorem svdLib_nonneg : SvdNonNeg (svdLib : Lib 𝕜) := fun t n i hi => (svdLib_pos t n i hi).le

theorem svdLib_err (t : Tn 𝕜) (n : ℕ) : (svdLib.svd t n).err = 0 := (svdLib_spec t n).2.2.2.1

theorem sum_two {sh : List ℕ} {a b : ℕ} (hs : sh = [a, b]) (f : List ℕ → 𝕜) :
    ∑ i : Fin (allCoords sh).length, f (allCoords sh)[(i : ℕ)] =
      ∑ x ∈ Finset.range a, ∑ y ∈ Finset.range b, f [x, y] := by
  subst hs
  rw [Fin.sum_univ_fun_getElem, sum_allCoords]
  rfl

theorem svdLib_vectors : QLPeps.Trg.Spec.SingularVectors (svdLib : Lib 𝕜) where
  left t a b c e ht m hm z hz w hw := by
    have h := (svdLib_spec t 2).2.2.2.2.left m hm
    have hj := mem_allCoords.2 (show Valid (t.shape.drop 2) [z, w] by rw [ht]; exact .cons hz (.cons hw .nil))
    obtain ⟨j, hj, hj'⟩ := List.getElem_of_mem hj
    have h := h ⟨j, hj⟩
    simp only [matOf, Fin.getElem_fin, hj'] at h
    exact (sum_two (show t.shape.take 2 = [a, b] by rw [ht]; rfl) fun x =>
      (starRingEnd 𝕜) ((svdLib.svd t 2).u.elem (x ++ [m])) * t.elem (x ++ [z, w])).symm.trans h
  right t a b c e ht m hm x hx y hy := by
    have h := (svdLib_spec t 2).2.2.2.2.right m hm
    have hj := mem_allCoords.2 (show Valid (t.shape.take 2) [x, y] by rw [ht]; exact .cons hx (.cons hy .nil))
    obtain ⟨j, hj, hj'⟩ := List.getElem_of_mem hj
    have h := h ⟨j, hj⟩
    simp only [matOf, Fin.getElem_fin, hj'] at h
    exact (sum_two (show t.shape.drop 2 = [c, e] by rw [ht]; rfl) fun y' =>
      t.elem ([x, y] ++ y') * (starRingEnd 𝕜) ((svdLib.svd t 2).vt.elem (m :: y'))).symm.trans h

end

end QLPeps.Peps
