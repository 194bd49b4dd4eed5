import Verif.Lemmas.TrueSvd
import Verif.Lemmas.BmpsVarBest
import Mathlib.Data.Fin.Tuple.Sort
import Mathlib.LinearAlgebra.Matrix.Rank

/-!
# Truncated singular value decompositions

A library with true singular value decompositions, with the singular values in descending order and at most `D` of
them kept.
-/

namespace QLPeps.Peps

open QLPeps.Peps.Spec

noncomputable section

variable {𝕜 : Type} [RCLike 𝕜]

/-- a singular value decomposition without zeros, with orthonormal vectors and descending singular values -/
structure Sorted {p q : ℕ} (M : Fin p → Fin q → 𝕜) (k : ℕ) (U : Fin p → ℕ → 𝕜) (S : ℕ → ℝ) (W : ℕ → Fin q → 𝕜) :
    Prop extends IsSvd M k U S W where
  uu : ∀ m < k, ∀ m' < k, ∑ i, (starRingEnd 𝕜) (U i m) * U i m' = if m = m' then 1 else 0
  ww : ∀ m < k, ∀ m' < k, ∑ j, W m j * (starRingEnd 𝕜) (W m' j) = if m = m' then 1 else 0
  sorted : ∀ m m', m ≤ m' → m' < k → S m' ≤ S m

open Matrix in
theorem exists_sorted {p q : ℕ} (M : Fin p → Fin q → 𝕜) : ∃ k U S W, Sorted M k U S W := by
  classical
  set A : Matrix (Fin p) (Fin q) 𝕜 := Matrix.of M with hA'
  have hH : (Aᴴ * A).IsHermitian := isHermitian_conjTranspose_mul_self A
  set V : Matrix (Fin q) (Fin q) 𝕜 := (hH.eigenvectorUnitary : Matrix (Fin q) (Fin q) 𝕜) with hV
  have hV1 : V * Vᴴ = 1 := by
    have := Unitary.coe_mul_star_self hH.eigenvectorUnitary
    simpa [star_eq_conjTranspose] using this
  have hV2 : Vᴴ * V = 1 := by
    have := Unitary.coe_star_mul_self hH.eigenvectorUnitary
    simpa [star_eq_conjTranspose] using this
  have hdiag : Vᴴ * (Aᴴ * A) * V = diagonal (RCLike.ofReal ∘ hH.eigenvalues) := by
    have := hH.conjStarAlgAut_star_eigenvectorUnitary
    rw [Unitary.conjStarAlgAut_star_apply] at this
    simpa [star_eq_conjTranspose] using this
  set l := hH.eigenvalues with hl
  set B := A * V with hB
  have hBB : Bᴴ * B = diagonal (RCLike.ofReal ∘ l) := by
    rw [hB, conjTranspose_mul, ← hdiag]
    simp only [Matrix.mul_assoc]
  have hAB : A = B * Vᴴ := by rw [hB, Matrix.mul_assoc, hV1, Matrix.mul_one]
  have hBA : Bᴴ * A = diagonal (RCLike.ofReal ∘ l) * Vᴴ := by
    rw [← hBB, Matrix.mul_assoc, ← hAB]
  have hnorm : ∀ m, l m = ∑ x, ‖B x m‖ ^ 2 := fun m => by
    have h := congrFun (congrFun hBB m) m
    rw [Matrix.mul_apply, diagonal_apply_eq] at h
    simp only [conjTranspose_apply, Function.comp, RCLike.star_def, RCLike.conj_mul] at h
    exact_mod_cast h.symm
  have hl0 : ∀ i, 0 ≤ l i := fun i => by
    rw [hnorm]; exact Finset.sum_nonneg fun _ _ => sq_nonneg _
  have hcol : ∀ m, l m = 0 → ∀ i, B i m = 0 := fun m hm i => by
    rw [hnorm] at hm
    have := (Finset.sum_eq_zero_iff_of_nonneg (fun x _ => sq_nonneg ‖B x m‖)).1 hm i (Finset.mem_univ i)
    simpa using this
  let e0 := (Fintype.equivFin {m : Fin q // l m ≠ 0}).symm
  let e := (Tuple.sort fun i => -l (e0 i)).trans e0
  have hsort : ∀ i j, i ≤ j → l (e j) ≤ l (e i) := fun i j hij => by
    have := Tuple.monotone_sort (fun i => -l (e0 i)) hij
    exact neg_le_neg_iff.1 this
  have hpos : ∀ m : {m : Fin q // l m ≠ 0}, 0 < Real.sqrt (l m) := fun m =>
    Real.sqrt_pos.2 (lt_of_le_of_ne (hl0 m) m.2.symm)
  have hsq : ∀ m, (Real.sqrt (l m) : 𝕜) * (Real.sqrt (l m) : 𝕜) = (l m : 𝕜) := fun m => by
    rw [← RCLike.ofReal_mul, Real.mul_self_sqrt (hl0 m)]
  refine ⟨Fintype.card {m : Fin q // l m ≠ 0},
    fun i m => if h : m < _ then B i (e ⟨m, h⟩) / (Real.sqrt (l (e ⟨m, h⟩)) : 𝕜) else 0,
    fun m => if h : m < _ then Real.sqrt (l (e ⟨m, h⟩)) else 0,
    fun m j => if h : m < _ then (starRingEnd 𝕜) (V j (e ⟨m, h⟩)) else 0, ⟨?_, ?_, ?_, ?_⟩, ?_, ?_, ?_⟩
  · intro m hm
    rw [dif_pos hm]
    exact hpos _
  · intro i j
    rw [Finset.sum_range]
    simp only [Fin.is_lt, dif_pos, Fin.eta]
    rw [e.sum_comp (fun m : {m : Fin q // l m ≠ 0} => B i m / (Real.sqrt (l m) : 𝕜) * (Real.sqrt (l m) : 𝕜) *
      (starRingEnd 𝕜) (V j m))]
    have h := congrFun (congrFun hAB i) j
    rw [Matrix.mul_apply] at h
    change _ = A i j
    rw [h]
    rw [← Finset.sum_subtype (p := fun m => l m ≠ 0) (Finset.univ.filter fun m => l m ≠ 0) (by simp)
      (fun m => B i m / (Real.sqrt (l m) : 𝕜) * (Real.sqrt (l m) : 𝕜) * (starRingEnd 𝕜) (V j m))]
    rw [Finset.sum_filter]
    refine Finset.sum_congr rfl fun m _ => ?_
    by_cases hm : l m = 0
    · rw [if_neg (by simp [hm]), hcol m hm, zero_mul]
    · have hne : (Real.sqrt (l m) : 𝕜) ≠ 0 := by exact_mod_cast (hpos ⟨m, hm⟩).ne'
      rw [if_pos hm, div_mul_cancel₀ _ hne]
      rfl
  · intro m hm j
    have h := congrFun (congrFun hBA (e ⟨m, hm⟩ : Fin q)) j
    rw [Matrix.mul_apply, Matrix.diagonal_mul] at h
    simp only [dif_pos hm, map_div₀, RCLike.conj_ofReal]
    have hne : (Real.sqrt (l (e ⟨m, hm⟩)) : 𝕜) ≠ 0 := by exact_mod_cast (hpos _).ne'
    simp only [div_mul_eq_mul_div, ← Finset.sum_div]
    rw [div_eq_iff hne]
    refine Eq.trans (by simp [conjTranspose_apply, hA']) (h.trans ?_)
    rw [Function.comp, ← hsq, conjTranspose_apply]
    simp only [RCLike.star_def]
    ring
  · intro m hm i
    simp only [dif_pos hm, RCLike.conj_conj]
    have hne : (Real.sqrt (l (e ⟨m, hm⟩)) : 𝕜) ≠ 0 := by exact_mod_cast (hpos _).ne'
    rw [div_mul_cancel₀ _ hne]
    rfl
  · intro m hm m' hm'
    simp only [dif_pos hm, dif_pos hm', map_div₀, RCLike.conj_ofReal]
    have hne : (Real.sqrt (l (e ⟨m, hm⟩)) : 𝕜) ≠ 0 := by exact_mod_cast (hpos _).ne'
    have hne' : (Real.sqrt (l (e ⟨m', hm'⟩)) : 𝕜) ≠ 0 := by exact_mod_cast (hpos _).ne'
    have h := congrFun (congrFun hBB (e ⟨m, hm⟩ : Fin q)) (e ⟨m', hm'⟩ : Fin q)
    rw [Matrix.mul_apply] at h
    simp only [conjTranspose_apply, RCLike.star_def] at h
    rw [Finset.sum_congr rfl fun i _ => div_mul_div_comm _ _ _ _, ← Finset.sum_div, h]
    by_cases hmm : m = m'
    · subst hmm
      rw [diagonal_apply_eq, if_pos rfl, Function.comp, ← hsq, div_self (mul_ne_zero hne hne)]
    · rw [diagonal_apply_ne, if_neg hmm, zero_div]
      intro hh
      exact hmm (by simpa using e.injective (Subtype.ext hh))
  · intro m hm m' hm'
    simp only [dif_pos hm, dif_pos hm', RCLike.conj_conj]
    have h := congrFun (congrFun hV2 (e ⟨m, hm⟩ : Fin q)) (e ⟨m', hm'⟩ : Fin q)
    rw [Matrix.mul_apply] at h
    simp only [conjTranspose_apply, RCLike.star_def] at h
    rw [h]
    by_cases hmm : m = m'
    · subst hmm
      rw [one_apply_eq, if_pos rfl]
    · rw [one_apply_ne, if_neg hmm]
      intro hh
      exact hmm (by simpa using e.injective (Subtype.ext hh))
  · intro m m' hmm hm'
    simp only [dif_pos hm', dif_pos (lt_of_le_of_lt hmm hm')]
    exact Real.sqrt_le_sqrt (hsort _ _ hmm)

theorem exists_sorted_of (t : Tn 𝕜) (n : ℕ) : ∃ d : Svd 𝕜, d.u.shape = t.shape.take n ++ [d.s.dim] ∧
    d.vt.shape = d.s.dim :: t.shape.drop n ∧ d.dim = d.s.dim ∧ d.err = 0 ∧
    Sorted (matOf t n) d.s.dim (fun i m => d.u.elem ((allCoords (t.shape.take n))[i] ++ [m])) d.s.val
      (fun m j => d.vt.elem (m :: (allCoords (t.shape.drop n))[j])) := by
  classical
  obtain ⟨k, U, S, W, h⟩ := exists_sorted (matOf t n)
  refine ⟨⟨⟨t.shape.take n ++ [k], fun x => if h : (allCoords (t.shape.take n)).idxOf x.dropLast <
      (allCoords (t.shape.take n)).length then U ⟨_, h⟩ (x.getLastD 0) else 0⟩, ⟨k, S⟩,
    ⟨k :: t.shape.drop n, fun y => if h : (allCoords (t.shape.drop n)).idxOf y.tail <
      (allCoords (t.shape.drop n)).length then W (y.headD 0) ⟨_, h⟩ else 0⟩, 0, k⟩, rfl, rfl, rfl, rfl, ?_⟩
  have e1 : (fun (i : Fin (allCoords (t.shape.take n)).length) (m : ℕ) =>
      if h : (allCoords (t.shape.take n)).idxOf ((allCoords (t.shape.take n))[i] ++ [m]).dropLast <
      (allCoords (t.shape.take n)).length then U ⟨_, h⟩ (((allCoords (t.shape.take n))[i] ++ [m]).getLastD 0) else 0) = U := by
    funext i m
    simp only [List.dropLast_concat, List.getLastD_concat, Fin.getElem_fin, (nodup_allCoords _).idxOf_getElem, i.2, dif_pos]
  have e2 : (fun (m : ℕ) (j : Fin (allCoords (t.shape.drop n)).length) =>
      if h : (allCoords (t.shape.drop n)).idxOf (m :: (allCoords (t.shape.drop n))[j]).tail <
      (allCoords (t.shape.drop n)).length then W ((m :: (allCoords (t.shape.drop n))[j]).headD 0) ⟨_, h⟩ else 0) = W := by
    funext m j
    simp only [List.tail_cons, List.headD_cons, Fin.getElem_fin, (nodup_allCoords _).idxOf_getElem, j.2, dif_pos]
  dsimp only
  rw [e1, e2]
  exact h

/-- the singular value decomposition of a tensor -/
def full (t : Tn 𝕜) (n : ℕ) : Svd 𝕜 := (exists_sorted_of t n).choose

theorem full_spec (t : Tn 𝕜) (n : ℕ) : Sorted (matOf t n) (full t n).s.dim
      (fun i m => (full t n).u.elem ((allCoords (t.shape.take n))[i] ++ [m])) (full t n).s.val
      (fun m j => (full t n).vt.elem (m :: (allCoords (t.shape.drop n))[j])) := (exists_sorted_of t n).choose_spec.2.2.2.2

/-- a library which keeps at most `D` singular values -/
def truncLib (D : ℕ) : Lib 𝕜 where
  qr t n := (⟨t.shape.take n ++ [(full t n).s.dim], (full t n).u.elem⟩,
    ⟨(full t n).s.dim :: t.shape.drop n, fun y => ((full t n).s.val (y.headD 0) : 𝕜) * (full t n).vt.elem y⟩)
  svd t n := ⟨⟨t.shape.take n ++ [min (full t n).s.dim D], (full t n).u.elem⟩, ⟨min (full t n).s.dim D, (full t n).s.val⟩,
    ⟨min (full t n).s.dim D :: t.shape.drop n, (full t n).vt.elem⟩,
    (∑ m ∈ Finset.range ((full t n).s.dim - D), (full t n).s.val (D + m) ^ 2) /
      ∑ m ∈ Finset.range (full t n).s.dim, (full t n).s.val m ^ 2, min (full t n).s.dim D⟩

theorem fin_sum {M : Type*} [AddCommMonoid M] (sh : List ℕ) (f : List ℕ → M) :
    ∑ i : Fin (allCoords sh).length, f (allCoords sh)[i] = sumCoors sh f := by
  have h : ∀ sh : List ℕ, ((allCoords sh).map f).sum = sumCoors sh f := by
    intro sh
    induction sh generalizing f with
    | nil => simp [allCoords, sumCoors]
    | cons d ds ih =>
      have h : ∀ l : List ℕ, ((l.flatMap fun k => (allCoords ds).map (k :: ·)).map f).sum =
          (l.map fun k => sumCoors ds fun ks => f (k :: ks)).sum := by
        intro l
        induction l with
        | nil => rfl
        | cons k l ihl =>
          rw [List.flatMap_cons, List.map_append, List.sum_append, ihl, List.map_cons, List.sum_cons, List.map_map,
            ← ih fun ks => f (k :: ks)]
          rfl
      rw [allCoords, h, sumCoors, Finset.sum_eq_multiset_sum]
      rfl
  rw [← h]
  exact Fin.sum_univ_fun_getElem (allCoords sh) f

section

variable (t : Tn 𝕜) (n : ℕ)

theorem full_uu : ∀ m < (full t n).s.dim, ∀ m' < (full t n).s.dim, sumCoors (t.shape.take n) (fun x =>
      (starRingEnd 𝕜) ((full t n).u.elem (x ++ [m])) * (full t n).u.elem (x ++ [m'])) =
        if m = m' then 1 else 0 := by
  intro m hm m' hm'
  rw [← fin_sum]
  exact (full_spec t n).uu m hm m' hm'

theorem full_vv : ∀ m < (full t n).s.dim, ∀ m' < (full t n).s.dim, sumCoors (t.shape.drop n) (fun y =>
      (full t n).vt.elem (m :: y) * (starRingEnd 𝕜) ((full t n).vt.elem (m' :: y))) =
        if m = m' then 1 else 0 := by
  intro m hm m' hm'
  rw [← fin_sum]
  exact (full_spec t n).ww m hm m' hm'

theorem full_ut : ∀ m < (full t n).s.dim, ∀ y, List.Forall₂ (· < ·) y (t.shape.drop n) →
    sumCoors (t.shape.take n) (fun x => (starRingEnd 𝕜) ((full t n).u.elem (x ++ [m])) * t.elem (x ++ y)) =
      ((full t n).s.val m : 𝕜) * (full t n).vt.elem (m :: y) := by
  intro m hm y hy
  obtain ⟨j, hj, rfl⟩ := List.getElem_of_mem (mem_allCoords.2 hy)
  rw [← fin_sum]
  exact (full_spec t n).left m hm ⟨j, hj⟩

theorem full_tv : ∀ m < (full t n).s.dim, ∀ x, List.Forall₂ (· < ·) x (t.shape.take n) →
    sumCoors (t.shape.drop n) (fun y => t.elem (x ++ y) * (starRingEnd 𝕜) ((full t n).vt.elem (m :: y))) =
      (full t n).u.elem (x ++ [m]) * ((full t n).s.val m : 𝕜) := by
  intro m hm x hx
  obtain ⟨j, hj, rfl⟩ := List.getElem_of_mem (mem_allCoords.2 hx)
  rw [← fin_sum]
  exact (full_spec t n).right m hm ⟨j, hj⟩

theorem full_product : ∀ x y, List.Forall₂ (· < ·) x (t.shape.take n) → List.Forall₂ (· < ·) y (t.shape.drop n) →
    ∑ m ∈ Finset.range (full t n).s.dim, (full t n).u.elem (x ++ [m]) *
      ((full t n).s.val m : 𝕜) * (full t n).vt.elem (m :: y) = t.elem (x ++ y) := by
  intro x y hx hy
  obtain ⟨i, hi, rfl⟩ := List.getElem_of_mem (mem_allCoords.2 hx)
  obtain ⟨j, hj, rfl⟩ := List.getElem_of_mem (mem_allCoords.2 hy)
  exact (full_spec t n).product ⟨i, hi⟩ ⟨j, hj⟩

end

open QLPeps.BmpsVar QLPeps.BmpsVar.Spec

theorem truncLib_factorizations (D : ℕ) : Factorizations (truncLib D : Lib 𝕜) where
  qr t n := by
    refine ⟨(full t n).s.dim, rfl, rfl, ?_, ?_, full_uu t n⟩
    · have := orth_card (S := Box.box (t.shape.drop n)) (C := (full t n).s.dim)
        (F := fun m y => (full t n).vt.elem (m :: y)) (fun m hm m' hm' => by
          rw [← sumCoors_box]
          exact full_vv t n m hm m' hm')
      rwa [card_box] at this
    · intro x y hx hy
      rw [← full_product t n x y hx hy]
      exact Finset.sum_congr rfl fun m _ => (mul_assoc _ _ _).symm
  shape _ _ := ⟨rfl, rfl⟩
  uu t n m hm m' hm' := full_uu t n m (lt_of_lt_of_le hm (min_le_left _ _)) m' (lt_of_lt_of_le hm' (min_le_left _ _))
  vv t n m hm m' hm' := full_vv t n m (lt_of_lt_of_le hm (min_le_left _ _)) m' (lt_of_lt_of_le hm' (min_le_left _ _))
  ut t n m hm := full_ut t n m (lt_of_lt_of_le hm (min_le_left _ _))
  tv t n m hm := full_tv t n m (lt_of_lt_of_le hm (min_le_left _ _))

theorem truncLib_largest (D : ℕ) : KeepsLargest (truncLib D : Lib 𝕜) D where
  dim _ _ := min_le_right _ _
  pos t n m hm := (full_spec t n).pos m (lt_of_lt_of_le hm (min_le_left _ _))
  all t n hd x y hx hy := by
    have h : min (full t n).s.dim D = (full t n).s.dim := by
      change min (full t n).s.dim D < D at hd
      omega
    change ∑ m ∈ Finset.range (min (full t n).s.dim D), _ = _
    rw [h]
    exact full_product t n x y hx hy
  largest t n v hv m hm := by
    change ∀ m < min (full t n).s.dim D, sumCoors (t.shape.drop n) (fun y => (full t n).vt.elem (m :: y) * v y) = 0 at hv
    change m < min (full t n).s.dim D at hm
    change _ ≤ (full t n).s.val m ^ 2 * _
    set K := (full t n).s.dim with hK
    simp only [sumCoors_box] at hv ⊢
    -- components of the vector
    let A : ℕ → 𝕜 := fun m => ∑ y ∈ Box.box (t.shape.drop n), (full t n).vt.elem (m :: y) * v y
    have hA : ∀ m < min K D, A m = 0 := hv
    have e1 : ∀ x ∈ Box.box (t.shape.take n), ∑ y ∈ Box.box (t.shape.drop n), t.elem (x ++ y) * v y =
        ∑ m ∈ Finset.range K, ((full t n).s.val m * A m) * (full t n).u.elem (x ++ [m]) := by
      intro x hx
      rw [Finset.sum_congr rfl fun y hy => by
        rw [← full_product t n x y (Box.mem_box.1 hx) (Box.mem_box.1 hy), Finset.sum_mul]]
      rw [Finset.sum_comm]
      refine Finset.sum_congr rfl fun m _ => ?_
      simp only [A, Finset.mul_sum, Finset.sum_mul]
      exact Finset.sum_congr rfl fun y _ => by ring
    have hS : ∀ m' ∈ Finset.range K, ‖((full t n).s.val m' : 𝕜) * A m'‖ ^ 2 ≤ (full t n).s.val m ^ 2 * ‖A m'‖ ^ 2 := by
      intro m' hm'
      by_cases hlt : m' < min K D
      · rw [hA m' hlt]; simp
      · rw [norm_mul, mul_pow, RCLike.norm_ofReal, sq_abs]
        refine mul_le_mul_of_nonneg_right ?_ (sq_nonneg _)
        have hm'K := Finset.mem_range.1 hm'
        have h1 := (full_spec t n).sorted m m' (by omega) hm'K
        have h2 := (full_spec t n).pos m' hm'K
        exact pow_le_pow_left₀ h2.le h1 2
    -- norm of the image
    have huu' : ∀ c < K, ∀ c' < K, ∑ x ∈ Box.box (t.shape.take n), (full t n).u.elem (x ++ [c]) *
        (starRingEnd 𝕜) ((full t n).u.elem (x ++ [c'])) = if c = c' then 1 else 0 := by
      intro c hc c' hc'
      have := full_uu t n c' hc' c hc
      rw [sumCoors_box] at this
      simp only [eq_comm (a := c') (b := c)] at this
      rw [← this]
      exact Finset.sum_congr rfl fun x _ => mul_comm _ _
    have hvv' : ∀ c < K, ∀ c' < K, ∑ y ∈ Box.box (t.shape.drop n), (starRingEnd 𝕜) ((full t n).vt.elem (c :: y)) *
        (starRingEnd 𝕜) ((starRingEnd 𝕜) ((full t n).vt.elem (c' :: y))) = if c = c' then 1 else 0 := by
      intro c hc c' hc'
      have := full_vv t n c' hc' c hc
      rw [sumCoors_box] at this
      simp only [eq_comm (a := c') (b := c)] at this
      rw [← this]
      exact Finset.sum_congr rfl fun x _ => by rw [RCLike.conj_conj, mul_comm]
    have e2 : ∑ x ∈ Box.box (t.shape.take n), ‖∑ m ∈ Finset.range K, ((full t n).s.val m * A m) *
        (full t n).u.elem (x ++ [m])‖ ^ 2 = ∑ m ∈ Finset.range K, ‖((full t n).s.val m : 𝕜) * A m‖ ^ 2 := by
      have := parseval (F := fun m x => (full t n).u.elem (x ++ [m])) huu' (fun m => (full t n).s.val m * A m)
        (fun m => (full t n).s.val m * A m)
      simp only [RCLike.mul_conj] at this
      apply RCLike.ofReal_injective (K := 𝕜)
      push_cast
      exact this
    have e3 := pythagoras (F := fun m y => (starRingEnd 𝕜) ((full t n).vt.elem (m :: y))) hvv' v A (fun _ => 0)
      (fun c _ => by simp [A])
    simp only [zero_mul, Finset.sum_const_zero, sub_zero] at e3
    rw [Finset.sum_congr rfl fun x hx => by rw [e1 x hx], e2]
    refine (Finset.sum_le_sum hS).trans ?_
    rw [← Finset.mul_sum]
    refine mul_le_mul_of_nonneg_left ?_ (sq_nonneg _)
    rw [e3]
    exact le_add_of_nonneg_left (Finset.sum_nonneg fun _ _ => sq_nonneg _)

end

end QLPeps.Peps
