import Verif.Lemmas.BmpsCanoTrunc
import Verif.Lemmas.BmpsSvdErr

/-!
# Projections on parts of a chain, and the errors of all bonds together
-/

namespace QLPeps.BmpsQuasi

open QLPeps.Bmps QLPeps.Box QLPeps.BmpsCano QLPeps.BmpsCano.Spec
open QLPeps.BmpsVar (amp_eq isMps_iff sumCoors_box pythagoras parseval cano_trunc LIso)
open QLPeps.Peps (Tn Lib)
open QLPeps.BmpsVar.Spec (Factorizations normSq)

noncomputable section

variable {𝕜 : Type*} [RCLike 𝕜]

/-- the projection of the legs after `j` on the span of `w` -/
def projAt (ds : List ℕ) (j B : ℕ) (w : ℕ → List ℕ → 𝕜) (ψ : List ℕ → 𝕜) (xs : List ℕ) : 𝕜 :=
  ∑ c ∈ Finset.range B, (∑ y ∈ box (ds.drop j), (starRingEnd 𝕜) (w c y) * ψ (xs.take j ++ y)) * w c (xs.drop j)

def Orth (E : List ℕ) (B : ℕ) (w : ℕ → List ℕ → 𝕜) : Prop :=
  ∀ c < B, ∀ c' < B, ∑ y ∈ box E, w c y * (starRingEnd 𝕜) (w c' y) = if c = c' then 1 else 0

variable {ds : List ℕ} {j B : ℕ} {w : ℕ → List ℕ → 𝕜}

theorem normSq_cut (j : ℕ) (χ : List ℕ → 𝕜) :
    normSq ds χ = ∑ x ∈ box (ds.take j), ∑ y ∈ box (ds.drop j), ‖χ (x ++ y)‖ ^ 2 := by
  rw [normSq, sumCoors_box]
  conv_lhs => rw [← List.take_append_drop j ds]
  exact sum_box_append _ _ fun xs => ‖χ xs‖ ^ 2

theorem box_take_length (hj : j ≤ ds.length) {x : List ℕ} (hx : x ∈ box (ds.take j)) : x.length = j := by
  rw [(mem_box.1 hx).length_eq, List.length_take, min_eq_left hj]

theorem projAt_app (hj : j ≤ ds.length) (ψ : List ℕ → 𝕜) {x : List ℕ} (hx : x ∈ box (ds.take j)) (y : List ℕ) :
    projAt ds j B w ψ (x ++ y) = ∑ c ∈ Finset.range B, (∑ y' ∈ box (ds.drop j), (starRingEnd 𝕜) (w c y') * ψ (x ++ y')) * w c y := by
  have h := box_take_length hj hx
  rw [projAt, List.take_left' h, List.drop_left' h]

theorem proj_pyth (ho : Orth (ds.drop j) B w) (hj : j ≤ ds.length) (ψ : List ℕ → 𝕜) :
    normSq ds ψ = normSq ds (projAt ds j B w ψ) + normSq ds fun xs => ψ xs - projAt ds j B w ψ xs := by
  rw [normSq_cut j, normSq_cut j, normSq_cut j, ← Finset.sum_add_distrib]
  refine Finset.sum_congr rfl fun x hx => ?_
  set A : ℕ → 𝕜 := fun c => ∑ y' ∈ box (ds.drop j), (starRingEnd 𝕜) (w c y') * ψ (x ++ y') with hA
  have h1 := pythagoras ho (fun y => ψ (x ++ y)) A (fun _ => 0) fun c _ => rfl
  have h2 := parseval ho A A
  simp only [zero_mul, Finset.sum_const_zero, sub_zero] at h1
  have h3 : ∑ y ∈ box (ds.drop j), ‖∑ c ∈ Finset.range B, A c * w c y‖ ^ 2 = ∑ c ∈ Finset.range B, ‖A c‖ ^ 2 := by
    simp only [RCLike.mul_conj] at h2
    apply RCLike.ofReal_injective (K := 𝕜)
    push_cast
    exact h2
  simp only [projAt_app hj ψ hx]
  rw [h1, h3, add_comm]

theorem proj_sub (ψ χ : List ℕ → 𝕜) (xs : List ℕ) :
    projAt ds j B w (fun xs => ψ xs - χ xs) xs = projAt ds j B w ψ xs - projAt ds j B w χ xs := by
  simp only [projAt, mul_sub, Finset.sum_sub_distrib, sub_mul]

theorem normSq_nonneg (φ : List ℕ → 𝕜) : 0 ≤ normSq ds φ := by
  rw [normSq, sumCoors_box]
  exact Finset.sum_nonneg fun _ _ => sq_nonneg _

theorem proj_le (ho : Orth (ds.drop j) B w) (hj : j ≤ ds.length) (ψ χ : List ℕ → 𝕜) :
    normSq ds (fun xs => projAt ds j B w ψ xs - projAt ds j B w χ xs) ≤ normSq ds fun xs => ψ xs - χ xs := by
  have h := proj_pyth ho hj fun xs => ψ xs - χ xs
  rw [normSq_congr (fun xs _ => proj_sub ψ χ xs)] at h
  have := normSq_nonneg (ds := ds) fun xs => (ψ xs - χ xs) - projAt ds j B w (fun xs => ψ xs - χ xs) xs
  linarith

theorem proj_rank {i D : ℕ} (hi : i ≤ j) (hj : j ≤ ds.length) {χ : List ℕ → 𝕜} (h : Rank ds i D χ) : Rank ds i D (projAt ds j B w χ) := by
  obtain ⟨f, g, h⟩ := h
  refine ⟨f, fun k y => ∑ c ∈ Finset.range B, (∑ y' ∈ box (ds.drop j), (starRingEnd 𝕜) (w c y') * g k (y.take (j - i) ++ y')) * w c (y.drop (j - i)),
    fun x y hx hy => ?_⟩
  have hl : x.length = i := box_take_length (hi.trans hj) (mem_box.2 hx)
  have t1 : (x ++ y).take j = x ++ y.take (j - i) := by
    rw [List.take_append, hl, List.take_of_length_le (by omega)]
  have t2 : (x ++ y).drop j = y.drop (j - i) := by
    rw [List.drop_append, hl, List.drop_of_length_le (by omega), List.nil_append]
  rw [projAt, t1, t2]
  have hm : ∀ y' ∈ box (ds.drop j), List.Forall₂ (· < ·) (y.take (j - i) ++ y') (ds.drop i) := by
    intro y' hy'
    have e : ds.drop i = (ds.drop i).take (j - i) ++ ds.drop j := by
      conv_lhs => rw [← List.take_append_drop (j - i) (ds.drop i)]
      rw [List.drop_drop, Nat.add_sub_cancel' hi]
    rw [e]
    exact List.rel_append (List.forall₂_take _ hy) (mem_box.1 hy')
  have e : ∀ c, ∑ y' ∈ box (ds.drop j), (starRingEnd 𝕜) (w c y') * χ (x ++ y.take (j - i) ++ y') =
      ∑ k ∈ Finset.range D, f k x * ∑ y' ∈ box (ds.drop j), (starRingEnd 𝕜) (w c y') * g k (y.take (j - i) ++ y') := by
    intro c
    simp only [Finset.mul_sum]
    rw [Finset.sum_comm]
    refine Finset.sum_congr rfl fun y' hy' => ?_
    rw [List.append_assoc, h x _ hx (hm y' hy'), Finset.mul_sum]
    exact Finset.sum_congr rfl fun k _ => by ring
  simp only [e, Finset.sum_mul, Finset.mul_sum]
  rw [Finset.sum_comm]
  refine Finset.sum_congr rfl fun k _ => Finset.sum_congr rfl fun c _ => Finset.sum_congr rfl fun y' _ => ?_
  ring

/-! ## chains -/

theorem pshp_append (rest : List (Tn 𝕜)) {B : ℕ} {ds2 : List ℕ} (h : Shp rest B ds2) (pre : List (Tn 𝕜)) : ∀ (A : ℕ) (ds1 : List ℕ),
    PShp pre A ds1 B → Shp (pre ++ rest) A (ds1 ++ ds2) := by
  induction pre with
  | nil => rintro A ds1 ⟨rfl, rfl⟩; exact h
  | cons e pre ih =>
    rintro A ds1 ⟨d, b, ds', rfl, h1, h2⟩
    exact ⟨d, b, _, rfl, h1, ih b ds' h2⟩

/-- after the compression of its end, a chain is projected on the states of the compressed tensors -/
theorem stage {lib : Lib 𝕜} (hf : Factorizations lib) {pre es : List (Tn 𝕜)} (hne : es ≠ []) (hs : Shp (pre ++ es) 1 ds)
    {f : Tn 𝕜} {fs : List (Tn 𝕜)} (hc : canoLoop lib es = f :: fs) :
    ∃ B, Orth (ds.drop (pre.length + 1)) B (fun c ys => mv fs ys c) ∧ pre.length + 1 ≤ ds.length ∧ Shp (pre ++ f :: fs) 1 ds ∧
      ∀ xs ∈ box ds, mv (pre ++ f :: fs) xs 0 = projAt ds (pre.length + 1) B (fun c ys => mv fs ys c) (fun xs => mv (pre ++ es) xs 0) xs := by
  obtain ⟨A, p1, q⟩ := shp_split es pre 1 ds hs
  obtain ⟨f', fs', Y, B, ds', c1, c2, c3, c4, c5, c6, -⟩ := cano_trunc hf es A _ hne q
  rw [hc] at c1
  obtain ⟨rfl, rfl⟩ := List.cons.inj c1
  have hd : ds.drop (pre.length + 1) = ds' := by
    rw [← List.drop_drop, c2, List.drop_succ_cons, List.drop_zero]
  have hk : pre.length + 1 ≤ ds.length := by
    have := congrArg List.length c2
    rw [List.length_drop, List.length_cons] at this
    omega
  have hq : Shp (f :: fs) A (ds.drop pre.length) := by rw [c2]; exact ⟨Y, B, ds', rfl, c3, c4⟩
  refine ⟨B, by rw [hd]; exact c5, hk, ?_, fun xs hxs => ?_⟩
  · have := pshp_append (f :: fs) hq pre 1 _ p1
    rwa [List.take_append_drop] at this
  · have hx := mem_box.2 (List.forall₂_take pre.length (mem_box.1 hxs))
    have hy := mem_box.2 (List.forall₂_drop pre.length (mem_box.1 hxs))
    rw [← List.take_append_drop pre.length xs]
    generalize xs.take pre.length = X at *
    generalize xs.drop pre.length = Z at *
    rw [c2] at hy
    obtain ⟨x, ys, rfl, hx', hys⟩ := mem_box_cons.1 hy
    have hl : X.length = pre.length := box_take_length (by omega) hx
    have e1 : (X ++ x :: ys).take (pre.length + 1) = X ++ [x] := by
      rw [List.take_append, List.take_of_length_le (by omega), hl, Nat.add_sub_cancel_left]; rfl
    have e2 : (X ++ x :: ys).drop (pre.length + 1) = ys := by
      rw [List.drop_append, List.drop_of_length_le (by omega), hl, Nat.add_sub_cancel_left]; rfl
    rw [projAt, e1, e2, hd, mv_split pre 1 _ p1 X hx _ 0 (by omega)]
    have e3 : ∀ l ∈ Finset.range A, lv pre X 0 l * mv (f :: fs) (x :: ys) l =
        ∑ c ∈ Finset.range B, lv pre X 0 l * (∑ y' ∈ box ds', (starRingEnd 𝕜) (mv fs y' c) * mv es (x :: y') l) * mv fs ys c := by
      intro l hl'
      rw [mv, c3, Finset.mul_sum]
      refine Finset.sum_congr rfl fun c hc' => ?_
      rw [c6 l (Finset.mem_range.1 hl') x hx' c (Finset.mem_range.1 hc')]
      ring
    rw [Finset.sum_congr rfl e3, Finset.sum_comm]
    refine Finset.sum_congr rfl fun c _ => ?_
    rw [← Finset.sum_mul]
    congr 1
    simp only [Finset.mul_sum]
    rw [Finset.sum_comm]
    refine Finset.sum_congr rfl fun y' _ => ?_
    rw [List.append_assoc, List.cons_append, List.nil_append, mv_split pre 1 _ p1 X hx _ 0 (by omega), Finset.mul_sum]
    exact Finset.sum_congr rfl fun l _ => by ring

theorem normSq_sub_self (φ : List ℕ → 𝕜) : normSq ds (fun xs => φ xs - φ xs) = 0 := by
  rw [normSq, sumCoors_box]
  simp

/-- the errors of the bonds add up -/
theorem quasi {lib : Lib 𝕜} (hf : Factorizations lib) (hL : Largest lib) (es : List (Tn 𝕜)) : ∀ pre : List (Tn 𝕜),
    es ≠ [] → Shp (pre ++ es) 1 ds → (∀ e ∈ pre, LIso e) → (∀ e ∈ es.dropLast, LIso e) →
    ∃ f fs, canoLoop lib es = f :: fs ∧ (∀ e ∈ fs, RightIso e) ∧ fs.length + 1 = es.length ∧
      ∀ χ : List ℕ → 𝕜, (∀ i < fs.length, Rank ds (pre.length + 1 + i) ((fs.getD i nil).shape.getD 0 0) χ ∨
          ∀ t, (lib.svd t 1).s.dim = (fs.getD i nil).shape.getD 0 0 → BmpsVar.Spec.Keeps lib t 1) →
        normSq ds (fun xs => mv (pre ++ es) xs 0 - mv (pre ++ f :: fs) xs 0) ≤
          fs.length * normSq ds fun xs => mv (pre ++ es) xs 0 - χ xs := by
  induction es with
  | nil => intro pre h; exact absurd rfl h
  | cons e es ih =>
    intro pre _ hs hp he
    cases es with
    | nil =>
      refine ⟨e, [], rfl, by simp, rfl, fun χ _ => ?_⟩
      rw [normSq_sub_self]; simp
    | cons e' es =>
      have hp' : ∀ g ∈ pre ++ [e], LIso g := by
        intro g hg
        rcases List.mem_append.1 hg with h | h
        · exact hp g h
        · rw [List.mem_singleton.1 h]; exact he e (by simp)
      obtain ⟨f, fs, h1, h2, h3, h4⟩ := ih (pre ++ [e]) (by simp) (by simpa using hs) hp' fun g hg => he g (by
        rw [List.dropLast_cons_of_ne_nil (by simp)]; exact List.mem_cons_of_mem _ hg)
      have hc : canoLoop lib (e :: e' :: es) = (canoStep lib e f).1 :: (canoStep lib e f).2 :: fs := by
        rw [canoLoop, h1]
      obtain ⟨B1, o1, l1, t1, v1⟩ := stage hf (pre := pre ++ [e]) (es := e' :: es) (by simp) (by simpa using hs) h1
      obtain ⟨B2, o2, l2, t2, v2⟩ := stage hf (pre := pre) (es := e :: e' :: es) (by simp) hs hc
      obtain ⟨u, v, d1, d2, d3⟩ := split_of hf (pre := pre ++ [e]) (b := f) (post := fs) t1 hp' h2
      obtain ⟨b1, b2, b3, b4⟩ := split_best d1
      obtain ⟨L, X, M, hb⟩ := List.length_eq_three.1 d2
      have hD : (canoStep lib e f).2.shape.getD 0 0 = (lib.svd f 1).s.dim := by
        change (lib.svd f 1).vt.shape.getD 0 0 = _
        rw [(hf.shape f 1).2]; rfl
      have hcut : Shp (pre ++ e :: cut lib f :: fs) 1 ds := by
        obtain ⟨Q, p1, q1, q2, q3, q4, q5, q6⟩ := shp_split (f :: fs) (pre ++ [e]) 1 ds t1
        have := pshp_append (cut lib f :: fs) ⟨q1, q2, q3, q4, q5, q6⟩ (pre ++ [e]) 1 _ p1
        rw [List.take_append_drop] at this
        simpa using this
      obtain ⟨-, r2⟩ := pair_replace (same_cut hf e f) fs pre 1 ds hcut
      have hlen : (pre ++ [e]).length = pre.length + 1 := by simp
      simp only [List.append_assoc, List.cons_append, List.nil_append, hlen] at *
      have n1 := proj_pyth o1 l1 fun xs => mv (pre ++ e :: e' :: es) xs 0
      have n2 := proj_pyth o2 l2 fun xs => mv (pre ++ e :: e' :: es) xs 0
      have m1 : normSq ds (fun xs => mv (pre ++ e :: e' :: es) xs 0 - mv (pre ++ e :: f :: fs) xs 0) = _ :=
        normSq_congr fun xs hxs => congrArg (fun z => mv (pre ++ e :: e' :: es) xs 0 - z) (v1 xs hxs)
      have m2 : normSq ds (fun xs => mv (pre ++ e :: e' :: es) xs 0 - mv (pre ++ (canoStep lib e f).1 :: (canoStep lib e f).2 :: fs) xs 0) = _ :=
        normSq_congr fun xs hxs => congrArg (fun z => mv (pre ++ e :: e' :: es) xs 0 - z) (v2 xs hxs)
      rw [← normSq_congr v1, ← m1] at n1
      rw [← normSq_congr v2, ← m2] at n2
      have hcv : normSq ds (fun xs => mv (pre ++ (canoStep lib e f).1 :: (canoStep lib e f).2 :: fs) xs 0) =
          normSq ds fun xs => mv (pre ++ e :: cut lib f :: fs) xs 0 := normSq_congr fun xs hxs => r2 xs hxs 0 (by omega)
      refine ⟨_, _, hc, ?_, by simp [← h3], fun χ hχ => ?_⟩
      · intro g hg
        rcases List.mem_cons.1 hg with rfl | h
        · exact svd_rightIso hf hb
        · exact h2 g h
      · have k1 := h4 χ fun i hi => by
          have := hχ (i + 1) (by simpa using hi)
          rw [List.getD_cons_succ] at this
          rwa [show pre.length + 1 + 1 + i = pre.length + 1 + (i + 1) by omega]
        have k0 := hχ 0 (by simp)
        rw [List.getD_cons_zero, hD, Nat.add_zero] at k0
        rw [List.length_cons]
        push_cast
        rcases k0 with k0 | k0
        · have k2 := b4 (d3 hL) _ (proj_rank (B := B1) (w := fun c ys => mv fs ys c) (j := pre.length + 1 + 1) (by omega) l1 k0)
          have k3 := proj_le o1 l1 (fun xs => mv (pre ++ e :: e' :: es) xs 0) χ
          rw [normSq_congr (φ := fun xs => mv (pre ++ e :: f :: fs) xs 0 - projAt ds (pre.length + 1 + 1) B1 (fun c ys => mv fs ys c) χ xs)
            fun xs hxs => by rw [v1 xs hxs]] at k2
          have k4 := k2.trans k3
          rw [hcv] at n2
          linarith
        · obtain ⟨-, r3⟩ := pair_replace (same_svd hf e f (k0 f rfl)) fs pre 1 ds t1
          have hcv' : normSq ds (fun xs => mv (pre ++ (canoStep lib e f).1 :: (canoStep lib e f).2 :: fs) xs 0) =
            normSq ds fun xs => mv (pre ++ e :: f :: fs) xs 0 := normSq_congr fun xs hxs => r3 xs hxs 0 (by omega)
          have k5 : 0 ≤ normSq ds fun xs => mv (pre ++ e :: e' :: es) xs 0 - χ xs := normSq_nonneg _
          rw [hcv'] at n2
          linarith

end

end QLPeps.BmpsQuasi
