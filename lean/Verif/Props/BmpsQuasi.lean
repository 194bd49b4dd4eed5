import Verif.Lemmas.BmpsQuasi
import Verif.Props.BmpsSvdErr
import Verif.Props.BmpsCanoTrunc

/-!
# How far `SVD_COMPRESS` is from the best boundary MPS

Property C153.
-/

namespace QLPeps.BmpsQuasi

open QLPeps.Contractor QLPeps.Bmps QLPeps.Box QLPeps.BmpsCano QLPeps.BmpsCano.Spec QLPeps.BmpsVar.Spec
open QLPeps.BmpsVar
open QLPeps.Peps (Tn Lib truncLib)

noncomputable section

variable {𝕜 : Type*} [RCLike 𝕜] {lib : Lib 𝕜} {p : Pos} {mps mpo : List (Tn 𝕜)} {ds fs : List ℕ}

/-- the bond before a tensor -/
def bond (es : List (Tn 𝕜)) (i : ℕ) : ℕ := (es.getD i nil).shape.getD 0 0

theorem quasi_aux (hf : Factorizations lib) (hL : Largest lib) (h1 : IsMps mps 1 ds) (h2 : IsMpo p (inOrder p mpo) 1 ds fs)
    (hne : mps ≠ []) (χ : List ℕ → 𝕜)
    (hχ : ∀ i, 1 ≤ i → i < mps.length → Rank fs i (bond (multiplyMPO lib p mps mpo) i) χ ∨
      ∀ t, (lib.svd t 1).s.dim = bond (multiplyMPO lib p mps mpo) i → Keeps lib t 1) :
    normSq fs (fun ys => product p mps (inOrder p mpo) ds ys - amp (multiplyMPO lib p mps mpo) ys 0) ≤
      (mps.length - 1 : ℕ) * normSq fs fun ys => product p mps (inOrder p mpo) ds ys - χ ys := by
  have h1 := (isMps_iff _ _ _).1 h1
  have h2 := (isMpo_iff _ _ _ _ _).1 h2
  rw [multiplyMPO, reverse_eq] at *
  generalize inOrder p mpo = mpo at *
  generalize hr : Peps.transpose [2, 0, 1] (indexCombine (𝕜 := 𝕜) ((mpo.headD nil).shape.getD (prePost p) 0) ((mps.headD nil).shape.getD 0 0)) = r at *
  obtain ⟨m1, m2⟩ := mul_spec' hf p mps mpo ds fs h1 h2 hne r hr.symm
  have m3 : ∀ e ∈ (mulLoop lib p r mps mpo).dropLast, QLPeps.BmpsVar.LIso e := by
    obtain ⟨r1, _⟩ := combine_r (𝕜 := 𝕜) _ _ (head_mpo h1 h2 hne) (head_mps h1 hne)
    exact mulLoop_iso hf p mps r mpo 1 1 1 ds fs (by rw [← hr, r1, head_mpo h1 h2 hne, head_mps h1 hne]) h1 h2
  have m4 := Shp.length m1
  have m5 : ∀ ys ∈ box fs, mv (mulLoop lib p r mps mpo) ys 0 = product p mps mpo ds ys := by
    intro ys hys
    rw [m2 ys hys, product_eq h1 h2 hys, tv_eq p mps mpo 1 1 ds fs h1 h2 ys hys]
  have hlen : mps.length = fs.length := by
    obtain ⟨l1, l2⟩ := RShp.length h2
    rw [Shp.length h1, ← l1, l2]
  generalize mulLoop lib p r mps mpo = es at *
  have hes : es ≠ [] := by
    rintro rfl
    rw [List.length_nil] at m4
    exact hne (List.length_eq_zero_iff.1 (by omega))
  obtain ⟨f, rest, c1, -, c3, c4⟩ := quasi hf hL es [] hes m1 (by simp) m3
  rw [c1] at hχ ⊢
  have hN : rest.length = mps.length - 1 := by omega
  have := c4 χ fun i hi => by
    have := hχ (i + 1) (by omega) (by omega)
    rw [bond, List.getD_cons_succ] at this
    rwa [List.length_nil, Nat.zero_add, Nat.add_comm 1 i]
  rw [hN] at this
  simp only [List.nil_append] at this
  rw [normSq_congr (φ := fun ys => product p mps mpo ds ys - amp (f :: rest) ys 0) fun xs hxs => by rw [← m5 xs hxs, amp_eq],
    normSq_congr (φ := fun ys => product p mps mpo ds ys - χ ys) fun xs hxs => by rw [← m5 xs hxs]]
  exact this

/-- C153: With `SVD_COMPRESS` and a decomposition that keeps the largest singular values, the squared error of `MultiplyMPO` on `N` tensors is at most `N - 1`
times the one of any state whose Schmidt rank at every bond is at most the bond dimension of the result. -/
theorem svd_quasi_best (hf : Factorizations lib) (hL : Largest lib) (h1 : IsMps mps 1 ds) (h2 : IsMpo p (inOrder p mpo) 1 ds fs)
    (hne : mps ≠ []) (χ : List ℕ → 𝕜)
    (hχ : ∀ i, 1 ≤ i → i < mps.length → Rank fs i (bond (multiplyMPO lib p mps mpo) i) χ) :
    normSq fs (fun ys => product p mps (inOrder p mpo) ds ys - amp (multiplyMPO lib p mps mpo) ys 0) ≤
      (mps.length - 1 : ℕ) * normSq fs fun ys => product p mps (inOrder p mpo) ds ys - χ ys :=
  quasi_aux hf hL h1 h2 hne χ fun i hi hi' => Or.inl (hχ i hi hi')

theorem rank_mono {i D D' : ℕ} (h : D ≤ D') {χ : List ℕ → 𝕜} (hr : Rank fs i D χ) : Rank fs i D' χ := by
  obtain ⟨f, g, hr⟩ := hr
  refine ⟨fun k x => if k < D then f k x else 0, g, fun x y hx hy => ?_⟩
  rw [hr x y hx hy, ← Finset.sum_subset (Finset.range_subset_range.2 h)]
  · exact Finset.sum_congr rfl fun k hk => by simp only [if_pos (Finset.mem_range.1 hk)]
  · intro k _ hk
    have : ¬k < D := by simpa using hk
    simp only [if_neg this, zero_mul]

/-- the Schmidt rank of a boundary MPS at a bond is at most the bond dimension -/
theorem rank_mps {es : List (Tn 𝕜)} (h : IsMps es 1 fs) {i : ℕ} (hi : i < es.length) : Rank fs i (bond es i) fun ys => amp es ys 0 := by
  have h := (isMps_iff _ _ _).1 h
  have hl : (es.take i).length = i := by simp; omega
  rw [← List.take_append_drop i es] at h
  obtain ⟨B, p1, q⟩ := shp_split (es.drop i) (es.take i) 1 fs h
  have hB : bond es i = B := by
    rw [bond, List.getD_eq_getElem _ _ hi]
    rw [List.drop_eq_getElem_cons hi] at q
    obtain ⟨d, b, ds', -, e, -⟩ := q
    rw [e]; rfl
  rw [hl] at p1 q
  rw [hB]
  refine ⟨fun k x => lv (es.take i) x 0 k, fun k y => mv (es.drop i) y k, fun x y hx hy => ?_⟩
  change amp es (x ++ y) 0 = ∑ k ∈ Finset.range B, lv (es.take i) x 0 k * mv (es.drop i) y k
  rw [amp_eq]
  conv_lhs => rw [← List.take_append_drop i es]
  exact mv_split (es.take i) 1 _ p1 x (mem_box.2 hx) y 0 (by omega)

/-- C153: In particular the result is, up to the factor `N - 1` in the squared error, as good as any boundary MPS with bonds of these dimensions. -/
theorem svd_quasi_mps (hf : Factorizations lib) (hL : Largest lib) (h1 : IsMps mps 1 ds) (h2 : IsMpo p (inOrder p mpo) 1 ds fs)
    (hne : mps ≠ []) (other : List (Tn 𝕜)) (ho : IsMps other 1 fs)
    (hb : ∀ i, 1 ≤ i → i < mps.length → bond other i ≤ bond (multiplyMPO lib p mps mpo) i) :
    normSq fs (fun ys => product p mps (inOrder p mpo) ds ys - amp (multiplyMPO lib p mps mpo) ys 0) ≤
      (mps.length - 1 : ℕ) * normSq fs fun ys => product p mps (inOrder p mpo) ds ys - amp other ys 0 := by
  have hlen : other.length = mps.length := by
    obtain ⟨l1, l2⟩ := RShp.length ((isMpo_iff _ _ _ _ _).1 h2)
    rw [Shp.length ((isMps_iff _ _ _).1 ho), Shp.length ((isMps_iff _ _ _).1 h1), ← l1, l2]
  exact svd_quasi_best hf hL h1 h2 hne _ fun i hi hi' => rank_mono (hb i hi hi') (rank_mps ho (by omega))

/-- C153: On two tensors no boundary MPS with a bond of this dimension is closer to the exact product. -/
theorem svd_two_best (hf : Factorizations lib) (hL : Largest lib) (h1 : IsMps mps 1 ds) (h2 : IsMpo p (inOrder p mpo) 1 ds fs)
    (hn : mps.length = 2) (other : List (Tn 𝕜)) (ho : IsMps other 1 fs) (hb : bond other 1 ≤ bond (multiplyMPO lib p mps mpo) 1) :
    normSq fs (fun ys => product p mps (inOrder p mpo) ds ys - amp (multiplyMPO lib p mps mpo) ys 0) ≤
      normSq fs fun ys => product p mps (inOrder p mpo) ds ys - amp other ys 0 := by
  have := svd_quasi_mps hf hL h1 h2 (by rintro rfl; simp at hn) other ho fun i hi hi' => by
    obtain rfl : i = 1 := by omega
    exact hb
  rw [hn] at this
  simpa using this

/-- C153: The same with the bond dimension `D` the truncation was given: the squared error is at most `N - 1` times the one of any state whose Schmidt ranks
are at most `D`. -/
theorem svd_quasi_max {D : ℕ} (hf : Factorizations lib) (hL : KeepsLargest lib D) (h1 : IsMps mps 1 ds) (h2 : IsMpo p (inOrder p mpo) 1 ds fs)
    (hne : mps ≠ []) (χ : List ℕ → 𝕜) (hχ : ∀ i, 1 ≤ i → i < mps.length → Rank fs i D χ) :
    normSq fs (fun ys => product p mps (inOrder p mpo) ds ys - amp (multiplyMPO lib p mps mpo) ys 0) ≤
      (mps.length - 1 : ℕ) * normSq fs fun ys => product p mps (inOrder p mpo) ds ys - χ ys :=
  quasi_aux hf (fun t v h m hm => hL.largest t 1 v h m hm) h1 h2 hne χ fun i hi hi' =>
    (Nat.lt_or_ge (bond (multiplyMPO lib p mps mpo) i) D).elim (fun h => Or.inr fun t ht => hL.all t 1 (ht ▸ h))
      fun h => Or.inl (rank_mono h (hχ i hi hi'))

/-- C153: ... and in particular of any boundary MPS whose bond dimensions are at most `D`. -/
theorem svd_quasi_max_mps {D : ℕ} (hf : Factorizations lib) (hL : KeepsLargest lib D) (h1 : IsMps mps 1 ds) (h2 : IsMpo p (inOrder p mpo) 1 ds fs)
    (hne : mps ≠ []) (other : List (Tn 𝕜)) (ho : IsMps other 1 fs) (hb : ∀ i, 1 ≤ i → i < mps.length → bond other i ≤ D) :
    normSq fs (fun ys => product p mps (inOrder p mpo) ds ys - amp (multiplyMPO lib p mps mpo) ys 0) ≤
      (mps.length - 1 : ℕ) * normSq fs fun ys => product p mps (inOrder p mpo) ds ys - amp other ys 0 := by
  have hlen : other.length = mps.length := by
    obtain ⟨l1, l2⟩ := RShp.length ((isMpo_iff _ _ _ _ _).1 h2)
    rw [Shp.length ((isMps_iff _ _ _).1 ho), Shp.length ((isMps_iff _ _ _).1 h1), ← l1, l2]
  exact svd_quasi_max hf hL h1 h2 hne _ fun i hi hi' => rank_mono (hb i hi hi') (rank_mps ho (by omega))

/-- bonds of dimension one: within twice the squared error of any product state -/
example (a b c : Tn ℂ) (ha : a.shape = [1, 3, 1]) (hb : b.shape = [1, 3, 1]) (hc : c.shape = [1, 3, 1]) :
    normSq [3, 3, 3] (fun ys => product .down mps3 row3 [2, 2, 2] ys - amp (multiplyMPO (truncLib 1) .down mps3 row3) ys 0) ≤
      (2 : ℕ) * normSq [3, 3, 3] fun ys => product .down mps3 row3 [2, 2, 2] ys - amp [a, b, c] ys 0 :=
  svd_quasi_max_mps (lib := truncLib 1) (Peps.truncLib_factorizations _) (Peps.truncLib_largest 1)
    (p := .down) (mps := mps3) (mpo := row3) (ds := [2, 2, 2]) (fs := [3, 3, 3])
    ⟨2, 2, [2, 2], rfl, rfl, 2, 2, [2], rfl, rfl, 2, 1, [], rfl, rfl, rfl, rfl⟩
    ⟨2, 2, 3, _, _, rfl, rfl, rfl, 2, 2, 3, _, _, rfl, rfl, rfl, 2, 1, 3, _, _, rfl, rfl, rfl, rfl, rfl, rfl⟩
    (by simp [mps3]) [a, b, c] ⟨3, 1, [3, 3], rfl, ha, 3, 1, [3], rfl, hb, 3, 1, [], rfl, hc, rfl, rfl⟩
    fun i hi hi' => by
      have hi' : i < 3 := hi'
      interval_cases i <;> simp [bond, hb, hc]

end

end QLPeps.BmpsQuasi
