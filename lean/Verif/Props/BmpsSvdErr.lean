import Verif.Lemmas.BmpsSvdErr
import Verif.Props.BmpsVar
import Mathlib.Algebra.Order.Ring.Pow

/-!
# The error of `SVD_COMPRESS`

Property C144.
-/

namespace QLPeps.BmpsVar

open QLPeps.Contractor QLPeps.Bmps QLPeps.Box QLPeps.BmpsVar.Spec
open QLPeps.Peps (Tn Lib Svd sumCoors truncLib truncLib_factorizations full full_uu full_vv full_product)

noncomputable section

variable {𝕜 : Type*} [RCLike 𝕜]

/-- the squared error is what the norm of the result lacks -/
theorem svd_sum {p : Pos} {mps mpo rest : List (Tn 𝕜)} {ds fs : List ℕ} {f : Tn 𝕜} {B : ℕ}
    (hne : fs ≠ [])
    (h5 : ∀ t : Tn 𝕜, t.shape = f.shape →
        normSq fs (fun ys => product p mps mpo ds ys - amp (t :: rest) ys 0) =
          normSq fs (fun ys => product p mps mpo ds ys - amp (f :: rest) ys 0) +
            ∑ x ∈ Finset.range (fs.getD 0 0), ∑ c ∈ Finset.range B, ‖f.elem [0, x, c] - t.elem [0, x, c]‖ ^ 2)
    (h6 : normSq fs (fun ys => amp (f :: rest) ys 0) =
        ∑ x ∈ Finset.range (fs.getD 0 0), ∑ c ∈ Finset.range B, ‖f.elem [0, x, c]‖ ^ 2) :
    normSq fs (product p mps mpo ds) = normSq fs (fun ys => amp (f :: rest) ys 0) +
        normSq fs (fun ys => product p mps mpo ds ys - amp (f :: rest) ys 0) := by
  have h := h5 ⟨f.shape, fun _ => 0⟩ rfl
  have e : ∀ ys, ys ∈ box fs → amp ((⟨f.shape, fun _ => 0⟩ : Tn 𝕜) :: rest) ys 0 = 0 := by
    intro ys hys
    obtain ⟨f, fs', rfl⟩ := List.exists_cons_of_ne_nil hne
    obtain ⟨y, ys, rfl, _, _⟩ := mem_box_cons.1 hys
    simp [amp]
  have e2 : normSq fs (fun ys => product p mps mpo ds ys - amp ((⟨f.shape, fun _ => 0⟩ : Tn 𝕜) :: rest) ys 0) =
      normSq fs (product p mps mpo ds) := by
    simp only [normSq, sumCoors_box]
    exact Finset.sum_congr rfl fun ys hys => by rw [e ys hys, sub_zero]
  rw [← e2, h, h6, add_comm]
  simp

theorem normSq_nonneg (fs : List ℕ) (φ : List ℕ → 𝕜) : 0 ≤ normSq fs φ := by
  rw [normSq, sumCoors_box]
  exact Finset.sum_nonneg fun _ _ => sq_nonneg _

theorem cauchy (fs : List ℕ) (φ ψ : List ℕ → 𝕜) : ‖overlap fs φ ψ‖ ^ 2 ≤ normSq fs φ * normSq fs ψ := by
  rw [overlap, normSq, normSq]
  simp only [sumCoors_box]
  refine (pow_le_pow_left₀ (norm_nonneg _) (norm_sum_le _ _) 2).trans ?_
  simp only [norm_mul, RCLike.norm_conj]
  exact Finset.sum_mul_sq_le_sq_mul_sq _ _ _

/-- C144: `SVD_COMPRESS`, for every truncation. The result is a boundary MPS on the outer legs of the row, and its bonds
are not larger than the number of singular values that are kept. The tensors after the first one are orthonormal. No
other choice of the first tensor is closer to the exact product. The squared norm of the result and the squared error
add up to the squared norm of the exact product. -/
theorem svd_best {lib : Lib 𝕜} (hf : Factorizations lib) (p : Pos) {mps mpo : List (Tn 𝕜)} {ds fs : List ℕ}
    (h1 : IsMps mps 1 ds) (h2 : IsMpo p (inOrder p mpo) 1 ds fs) (hne : mps ≠ []) :
    ∃ first rest B, multiplyMPO lib p mps mpo = first :: rest ∧
      IsMps (first :: rest) 1 fs ∧ first.shape = [1, fs.getD 0 0, B] ∧
      (∀ D, AtMost lib D → ∀ e ∈ rest, e.shape.getD 0 0 ≤ D) ∧
      (∀ c < B, ∀ c' < B, overlap (fs.drop 1) (fun ys => amp rest ys c') (fun ys => amp rest ys c) =
        if c = c' then 1 else 0) ∧
      (∀ other : Tn 𝕜, other.shape = first.shape →
        normSq fs (fun ys => product p mps (inOrder p mpo) ds ys - amp (first :: rest) ys 0) ≤
            normSq fs (fun ys => product p mps (inOrder p mpo) ds ys - amp (other :: rest) ys 0)) ∧
      normSq fs (product p mps (inOrder p mpo) ds) = normSq fs (fun ys => amp (first :: rest) ys 0) +
        normSq fs (fun ys => product p mps (inOrder p mpo) ds ys - amp (first :: rest) ys 0) := by
  obtain ⟨f, rest, B, c1, c2, c3, c4, c5, c6, c7, c8, _⟩ := svd_spec hf ((isMps_iff _ _ _).1 h1)
    ((isMpo_iff _ _ _ _ _).1 h2) hne _ rfl
  refine ⟨f, rest, B, ?_, (isMps_iff _ _ _).2 c4, c2, c8, c5, ?_, svd_sum c3 c6 c7⟩
  · rw [multiplyMPO, reverse_eq, c1]
  · intro other ho
    rw [c6 other ho]
    exact le_add_of_nonneg_right (Finset.sum_nonneg fun _ _ => Finset.sum_nonneg fun _ _ => sq_nonneg _)

/-- C144: If every truncation discards at most the part `ε` of the weight, then a compression of `N` tensors keeps at
least the part `(1 - ε)^(N - 1)` of the squared norm of the exact product. The squared error is at most `(N - 1) ε` times
that squared norm. The overlap with any state of the outer legs (the rest of the network) changes accordingly. -/
theorem svd_error {lib : Lib 𝕜} (hf : Factorizations lib) {ε : ℝ} (hε : ε ≤ 1) (hd : Discards lib ε) (p : Pos)
    {mps mpo : List (Tn 𝕜)} {ds fs : List ℕ} (h1 : IsMps mps 1 ds) (h2 : IsMpo p (inOrder p mpo) 1 ds fs) (hne : mps ≠ []) :
    let exact' := product p mps (inOrder p mpo) ds
    let result := fun ys => amp (multiplyMPO lib p mps mpo) ys 0
    (1 - ε) ^ (mps.length - 1) * normSq fs exact' ≤ normSq fs result ∧ normSq fs result ≤ normSq fs exact' ∧
    normSq fs (fun ys => exact' ys - result ys) ≤ (mps.length - 1 : ℕ) * ε * normSq fs exact' ∧
    ∀ φ, ‖overlap fs φ exact' - overlap fs φ result‖ ^ 2 ≤
      normSq fs φ * ((mps.length - 1 : ℕ) * ε * normSq fs exact') := by
  intro exact' result
  obtain ⟨f, rest, B, c1, c2, c3, c4, c5, c6, c7, c8, c9⟩ := svd_spec hf ((isMps_iff _ _ _).1 h1)
    ((isMpo_iff _ _ _ _ _).1 h2) hne _ rfl
  have hsum := svd_sum c3 c6 c7
  have hr : result = fun ys => amp (f :: rest) ys 0 := by
    funext ys
    simp only [result]
    rw [multiplyMPO, reverse_eq, c1]
  have hlen : mps.length = fs.length := by
    obtain ⟨l1, l2⟩ := RShp.length ((isMpo_iff _ _ _ _ _).1 h2)
    rw [Shp.length ((isMps_iff _ _ _).1 h1), ← l1, l2]
  have h9 := c9 ε hε hd
  have hbern := one_add_mul_le_pow (a := -ε) (by linarith) (fs.length - 1)
  rw [← sub_eq_add_neg] at hbern
  have hN := normSq_nonneg fs (product p mps (inOrder p mpo) ds)
  have hE := normSq_nonneg fs (fun ys => product p mps (inOrder p mpo) ds ys - amp (f :: rest) ys 0)
  have herr : normSq fs (fun ys => exact' ys - result ys) ≤ (mps.length - 1 : ℕ) * ε * normSq fs exact' := by
    simp only [hr, exact']
    rw [hlen]
    have := mul_le_mul_of_nonneg_right hbern hN
    nlinarith
  refine ⟨by rw [hr, hlen]; exact h9, by rw [hr]; linarith, herr, fun φ => ?_⟩
  have e : overlap fs φ exact' - overlap fs φ result = overlap fs φ (fun ys => exact' ys - result ys) := by
    simp only [overlap, sumCoors_box, mul_sub, Finset.sum_sub_distrib]
  rw [e]
  exact (cauchy _ _ _).trans (mul_le_mul_of_nonneg_left herr (normSq_nonneg _ _))

/-! ## factorizations which discard as much as they may -/

section

variable {𝕜 : Type} [RCLike 𝕜]

theorem full_weight (t : Tn 𝕜) (h : t.shape.length = 3) :
    normSq t.shape t.elem = ∑ m ∈ Finset.range (full t 1).s.dim, (full t 1).s.val m ^ 2 := by
  obtain ⟨a, b, c, e⟩ := List.length_eq_three.1 h
  have hp := full_product t 1
  have hu := full_uu t 1
  have hv := full_vv t 1
  rw [e] at hp hu hv
  simp only [List.take_succ_cons, List.take_zero, List.drop_succ_cons, List.drop_zero, sumCoors_box] at hp hu hv
  have h1 : normSq t.shape t.elem = ∑ x ∈ Finset.range a, ∑ y ∈ box [b, c], ‖t.elem (x :: y)‖ ^ 2 := by
    rw [normSq, e, sumCoors_box, sum_box_cons]
  rw [h1, Finset.sum_comm]
  have h2 : ∀ y ∈ box [b, c], ∑ x ∈ Finset.range a, ‖t.elem (x :: y)‖ ^ 2 =
      ∑ m ∈ Finset.range (full t 1).s.dim, ‖((full t 1).s.val m : 𝕜) * (full t 1).vt.elem (m :: y)‖ ^ 2 := by
    intro y hy
    rw [← iso_norm (S := Finset.range a) (C := (full t 1).s.dim) (F := fun x m => (full t 1).u.elem [x, m]) (fun m hm m' hm' => by
      have := hu m hm m' hm'
      rw [sum_box_cons] at this
      simpa only [sum_box_nil, List.cons_append, List.nil_append] using this)]
    refine Finset.sum_congr rfl fun x hx => ?_
    rw [show x :: y = [x] ++ y from rfl, ← hp [x] y (.cons (Finset.mem_range.1 hx) .nil) (mem_box.1 hy)]
    congr 2
    exact Finset.sum_congr rfl fun m _ => mul_assoc _ _ _
  rw [Finset.sum_congr rfl h2, Finset.sum_comm]
  refine Finset.sum_congr rfl fun m hm => ?_
  have hm := Finset.mem_range.1 hm
  have h3 : ∑ y ∈ box [b, c], ‖(full t 1).vt.elem (m :: y)‖ ^ 2 = 1 := by
    have := hv m hm m hm
    rw [if_pos rfl] at this
    apply RCLike.ofReal_injective (K := 𝕜)
    simp only [RCLike.ofReal_sum, sq_eq]
    rw [RCLike.ofReal_one, ← this]
    exact Finset.sum_congr rfl fun y _ => mul_comm _ _
  simp only [norm_mul, mul_pow, RCLike.norm_ofReal, sq_abs]
  rw [← Finset.mul_sum, h3, mul_one]

/-- `D` singular values carry all but the part `ε` of the weight -/
def Enough (ε : ℝ) (t : Tn 𝕜) (n D : ℕ) : Prop :=
  (1 - ε) * ∑ m ∈ Finset.range (full t n).s.dim, (full t n).s.val m ^ 2 ≤
    ∑ m ∈ Finset.range (min (full t n).s.dim D), (full t n).s.val m ^ 2

theorem enough {ε : ℝ} (h : 0 ≤ ε) (t : Tn 𝕜) (n : ℕ) : ∃ D, Enough ε t n D := by
  refine ⟨(full t n).s.dim, ?_⟩
  rw [Enough, min_self]
  have := Finset.sum_nonneg (s := Finset.range (full t n).s.dim) (f := fun m => (full t n).s.val m ^ 2) fun _ _ => sq_nonneg _
  nlinarith

open Classical in
/-- as few singular values as the truncation error `ε` allows for -/
def errLib (ε : ℝ) : Lib 𝕜 where
  qr := (truncLib 0).qr
  svd t n := (truncLib (if h : ∃ D, Enough ε t n D then Nat.find h else 0)).svd t n

theorem errLib_factorizations (ε : ℝ) : Factorizations (errLib ε : Lib 𝕜) where
  qr := (truncLib_factorizations 0).qr
  shape t n := (truncLib_factorizations _).shape t n
  uu t n := (truncLib_factorizations _).uu t n
  vv t n := (truncLib_factorizations _).vv t n
  ut t n := (truncLib_factorizations _).ut t n
  tv t n := (truncLib_factorizations _).tv t n

theorem errLib_discards {ε : ℝ} (h : 0 ≤ ε) : Discards (errLib ε : Lib 𝕜) ε := by
  classical
  intro t ht
  rw [full_weight t ht]
  change _ ≤ ∑ m ∈ Finset.range (min (full t 1).s.dim (if h : ∃ D, Enough ε t 1 D then Nat.find h else 0)), (full t 1).s.val m ^ 2
  rw [dif_pos (enough h t 1)]
  exact Nat.find_spec (enough h t 1)

end

/-- a nontrivial case: three tensors, a tenth of the weight discarded at every bond -/
example : normSq [3, 3, 3] (fun ys => product .down mps3 row3 [2, 2, 2] ys -
      amp (multiplyMPO (errLib (1 / 10)) .down mps3 row3) ys 0) ≤
    (2 : ℕ) * (1 / 10) * normSq [3, 3, 3] (product .down mps3 row3 [2, 2, 2]) :=
  (svd_error (lib := errLib (1 / 10)) (errLib_factorizations _) (by norm_num) (errLib_discards (by norm_num)) .down
    (mps := mps3) (mpo := row3) (ds := [2, 2, 2]) (fs := [3, 3, 3])
    ⟨2, 2, [2, 2], rfl, rfl, 2, 2, [2], rfl, rfl, 2, 1, [], rfl, rfl, rfl, rfl⟩
    ⟨2, 2, 3, _, _, rfl, rfl, rfl, 2, 2, 3, _, _, rfl, rfl, rfl, 2, 1, 3, _, _, rfl, rfl, rfl, rfl, rfl, rfl⟩
    (by simp [mps3])).2.2.1

/-- bonds of dimension two, and the error -/
example : ∃ first rest B, multiplyMPO (truncLib 2) .down mps3 row3 = first :: rest ∧ first.shape = [1, 3, B] ∧
    ∀ e ∈ rest, e.shape.getD 0 0 ≤ 2 :=
  let ⟨f, r, B, h, _, hs, hD, _⟩ := svd_best (lib := truncLib 2) (truncLib_factorizations _) .down
    (mps := mps3) (mpo := row3) (ds := [2, 2, 2]) (fs := [3, 3, 3])
    ⟨2, 2, [2, 2], rfl, rfl, 2, 2, [2], rfl, rfl, 2, 1, [], rfl, rfl, rfl, rfl⟩
    ⟨2, 2, 3, _, _, rfl, rfl, rfl, 2, 2, 3, _, _, rfl, rfl, rfl, 2, 1, 3, _, _, rfl, rfl, rfl, rfl, rfl, rfl⟩
    (by simp [mps3])
  ⟨f, r, B, h, hs, hD 2 fun _ _ => min_le_right _ _⟩

end

end QLPeps.BmpsVar
