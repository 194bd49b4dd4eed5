import Verif.Lemmas.BmpsVarRun

/-! # The initial guess of the variational compressions -/

namespace QLPeps.BmpsVar

open QLPeps.Contractor QLPeps.Sweep QLPeps.Bmps QLPeps.Box
open QLPeps.Peps (Tn Lib rot contract contractN transpose dag sumCoors)
open QLPeps.BmpsVar.Spec (Factorizations Keeps)

noncomputable section

variable {𝕜 : Type*} [RCLike 𝕜]

/-- a tensor which is an isometry from its left leg -/
def TIso (g : Tn 𝕜) : Prop :=
  ∃ Q Y C, g.shape = [Q, Y, C] ∧ ∀ q < Q, ∀ q' < Q, ∑ y ∈ Finset.range Y, ∑ c ∈ Finset.range C,
    g.elem [q, y, c] * (starRingEnd 𝕜) (g.elem [q', y, c]) = if q = q' then 1 else 0

theorem canoLoop_spec' {lib : Lib 𝕜} (hf : Factorizations lib) (es : List (Tn 𝕜)) :
    ∀ (A : ℕ) (ds : List ℕ), Shp es A ds → Shp (canoLoop lib es) A ds ∧
      (∀ g ∈ (canoLoop lib es).tail, TIso g) ∧
      ∀ K : ℕ → Prop, (∀ f : Tn 𝕜, f.shape.length = 3 → K (f.shape.getD 0 0) → Keeps lib f 1) →
        (∀ e ∈ es.tail, K (e.shape.getD 0 0)) →
        ∀ xs ∈ box ds, ∀ a < A, mv (canoLoop lib es) xs a = mv es xs a := by
  induction es with
  | nil => intro A ds h; exact ⟨h, by simp [canoLoop], fun _ _ _ _ _ _ _ => rfl⟩
  | cons e es ih =>
    cases es with
    | nil => intro A ds h; exact ⟨h, by simp [canoLoop], fun _ _ _ _ _ _ _ => rfl⟩
    | cons e' es =>
    intro A ds h
    obtain ⟨X, L, ds', rfl, h1, h2⟩ := h
    obtain ⟨i1, i3, i2⟩ := ih L ds' h2
    have he' : e'.shape.getD 0 0 = L := by
      obtain ⟨_, _, _, _, h, _⟩ := h2
      simp [h]
    cases hc : canoLoop lib (e' :: es) with
    | nil =>
      rw [hc] at i1
      obtain ⟨_, rfl⟩ := i1
      obtain ⟨_, _, _, h, _⟩ := h2
      exact absurd h (by simp)
    | cons f fs =>
      rw [hc] at i1 i2 i3
      obtain ⟨Y, R, ds'', rfl, j1, j2⟩ := i1
      obtain ⟨s1, s2⟩ := hf.shape f 1
      rw [j1] at s1 s2
      obtain ⟨u1, u2⟩ := cano_u s1
      obtain ⟨v1, v2⟩ := cano_prev h1 u1
      have hcl : canoLoop lib (e :: e' :: es) =
          contractN e [2] (contractN (lib.svd f 1).u [1] (lib.svd f 1).s.ten [0]) [0] ::
            (lib.svd f 1).vt :: fs := by
        rw [canoLoop, hc]; rfl
      rw [hcl]
      refine ⟨⟨X, _, _, rfl, v1, Y, R, ds'', rfl, s2, j2⟩, ?_, ?_⟩
      · intro g hg
        rw [List.tail_cons, List.mem_cons] at hg
        rcases hg with rfl | hg
        · refine ⟨_, Y, R, s2, fun q hq q' hq' => ?_⟩
          have := hf.vv f 1 q hq q' hq'
          rw [j1, sumCoors_box, List.drop_succ_cons, List.drop_zero, sum_box_cons] at this
          simp only [sum_box_cons, sum_box_nil] at this
          exact this
        · exact i3 g hg
      intro K hK hb xs hxs a ha
      have i2 := i2 K hK (fun e he => hb e (List.mem_of_mem_tail (by simpa using he)))
      have s3 := hK f (by rw [j1]; rfl) (by
        have := hb e' (by simp)
        rw [he'] at this
        simpa [j1] using this)
      rw [Keeps, j1] at s3
      obtain ⟨x, xs, rfl, hx, hxs⟩ := mem_box_cons.1 hxs
      have hxs' := hxs
      obtain ⟨y, ys, rfl, hy, hys⟩ := mem_box_cons.1 hxs
      have hmv : mv (e :: e' :: es) (x :: y :: ys) a =
          ∑ l ∈ Finset.range L, e.elem [a, x, l] * mv (f :: fs) (y :: ys) l := by
        rw [mv, h1]
        exact Finset.sum_congr rfl fun l hl => by rw [i2 _ hxs' l (Finset.mem_range.1 hl)]
      rw [hmv]
      simp only [mv, v1, s2, j1, List.getD_cons_succ, List.getD_cons_zero, List.drop_succ_cons,
        List.drop_zero]
      set K := (lib.svd f 1).s.dim with hK
      calc ∑ b ∈ Finset.range K, (contractN e [2]
              (contractN (lib.svd f 1).u [1] (lib.svd f 1).s.ten [0]) [0]).elem [a, x, b] *
            ∑ c ∈ Finset.range R, (lib.svd f 1).vt.elem [b, y, c] * mv fs ys c
          = ∑ b ∈ Finset.range K, ∑ c ∈ Finset.range R, ∑ l ∈ Finset.range L,
              e.elem [a, x, l] * ((lib.svd f 1).u.elem [l, b] * ((lib.svd f 1).s.val b : 𝕜) *
                (lib.svd f 1).vt.elem [b, y, c]) * mv fs ys c := by
            refine Finset.sum_congr rfl fun b hb => ?_
            rw [v2, Finset.mul_sum]
            refine Finset.sum_congr rfl fun c _ => ?_
            rw [Finset.sum_mul]
            refine Finset.sum_congr rfl fun l _ => ?_
            rw [u2 l b (Finset.mem_range.1 hb)]
            ring
        _ = ∑ l ∈ Finset.range L, ∑ c ∈ Finset.range R, ∑ b ∈ Finset.range K,
              e.elem [a, x, l] * ((lib.svd f 1).u.elem [l, b] * ((lib.svd f 1).s.val b : 𝕜) *
                (lib.svd f 1).vt.elem [b, y, c]) * mv fs ys c := by
            rw [pull2]
            exact Finset.sum_congr rfl fun l _ => Finset.sum_comm
        _ = _ := by
            refine Finset.sum_congr rfl fun l hl => ?_
            rw [Finset.mul_sum]
            refine Finset.sum_congr rfl fun c hc => ?_
            rw [← Finset.sum_mul, ← Finset.mul_sum]
            have := s3 [l] [y, c] (.cons (Finset.mem_range.1 hl) .nil)
              (.cons hy (.cons (Finset.mem_range.1 hc) .nil))
            simp only [List.cons_append, List.nil_append] at this
            rw [this, mul_assoc]

/-- the factorizations without the singular value decompositions -/
def onlyQr (lib : Lib 𝕜) : Lib 𝕜 where
  qr := lib.qr
  svd t n := ⟨⟨t.shape.take n ++ [0], fun _ => 0⟩, ⟨0, fun _ => 0⟩, ⟨0 :: t.shape.drop n, fun _ => 0⟩, 1, 0⟩

theorem onlyQr_exact {lib : Lib 𝕜} (hf : Factorizations lib) : Peps.Spec.Exact (onlyQr lib) where
  qr t n := by
    obtain ⟨k, h1, h2, _, h3, _⟩ := hf.qr t n
    exact ⟨k, h1, h2, h3⟩
  svd_shape _ _ := ⟨rfl, rfl⟩
  svd_dim _ _ := rfl
  svd_err _ _ := zero_le_one
  svd _ _ h := absurd h one_ne_zero

theorem mulLoop_onlyQr (lib : Lib 𝕜) (p : Pos) (es : List (Tn 𝕜)) : ∀ (r : Tn 𝕜) (ts : List (Tn 𝕜)),
    mulLoop (onlyQr lib) p r es ts = mulLoop lib p r es ts := by
  induction es with
  | nil => intro r ts; simp [mulLoop]
  | cons e es ih =>
    intro r ts
    cases es with
    | nil => cases ts <;> simp [mulLoop]
    | cons e' es =>
      cases ts with
      | nil => simp [mulLoop]
      | cons t ts =>
        simp only [mulLoop]
        rw [ih]
        rfl

/-- the product of a boundary MPS with a row before the truncation -/
theorem mul_spec' {lib : Lib 𝕜} (hf : Factorizations lib) (p : Pos) (es ts : List (Tn 𝕜)) (ds fs : List ℕ)
    (hes : Shp es 1 ds) (hts : RShp p ts 1 ds fs) (hne : es ≠ []) (r : Tn 𝕜)
    (hr : r = transpose [2, 0, 1] (indexCombine (𝕜 := 𝕜) ((ts.headD nil).shape.getD (prePost p) 0)
      ((es.headD nil).shape.getD 0 0))) :
    Shp (mulLoop lib p r es ts) 1 fs ∧
    ∀ ys ∈ box fs, mv (mulLoop lib p r es ts) ys 0 = ∑ xs ∈ box ds, mv es xs 0 * rv p ts xs ys 0 := by
  have h1 : (es.headD nil).shape.getD 0 0 = 1 := by
    cases es with
    | nil => exact absurd rfl hne
    | cons e es => obtain ⟨_, _, _, _, h, _⟩ := hes; simp [h]
  have h2 : (ts.headD nil).shape.getD (prePost p) 0 = 1 := by
    cases ts with
    | nil =>
      obtain ⟨_, rfl, _⟩ := hts
      cases es with
      | nil => exact absurd rfl hne
      | cons e es => obtain ⟨_, _, _, h, _⟩ := hes; exact absurd h (by simp)
    | cons t ts =>
      obtain ⟨_, _, _, _, _, _, _, h, _⟩ := hts
      cases p <;> simp only [FShape] at h <;> simp [h, prePost, num]
  obtain ⟨r1, r2⟩ := combine_r (𝕜 := 𝕜) _ _ h2 h1
  obtain ⟨a1, a2⟩ := mulLoop_spec (onlyQr_exact hf) p es hne r ts 1 1 1 ds fs (by rw [hr, r1, h1, h2]) hes hts
  rw [mulLoop_onlyQr] at a1 a2
  refine ⟨a1, fun ys hys => ?_⟩
  rw [a2 ys hys 0 (by omega)]
  simp only [Finset.range_one, Finset.sum_singleton]
  rw [hr, r2, one_mul]

/-- the bonds of the product before the truncation -/
theorem mulLoop_dims {lib : Lib 𝕜} (hf : Factorizations lib) (p : Pos) (es : List (Tn 𝕜)) :
    ∀ (r : Tn 𝕜) (ts : List (Tn 𝕜)) (M A D : ℕ) (ds fs : List ℕ), (∀ f ∈ fs, 0 < f) →
      r.shape = [M, A, D] → Shp es D ds → RShp p ts A ds fs →
      ∀ e ∈ (mulLoop lib p r es ts).tail, e.shape.getD 0 0 ≤ M * fs.prod := by
  induction es with
  | nil => intro r ts M A D ds fs _ _ _ _ e he; simp [mulLoop] at he
  | cons e es ih =>
    intro r ts M A D ds fs hp hr he ht
    obtain ⟨X, D', ds', rfl, he1, he2⟩ := he
    cases ts with
    | nil => obtain ⟨_, h, _⟩ := ht; exact absurd h (by simp)
    | cons t ts =>
    obtain ⟨X', b, Y, ds'', fs', h, rfl, ht1, ht2⟩ := ht
    obtain ⟨rfl, rfl⟩ : X' = X ∧ ds'' = ds' := by simpa using h.symm
    cases es with
    | nil => intro g hg; simp [mulLoop] at hg
    | cons e' es =>
      obtain ⟨h3, _⟩ := mul_tmp2 he1 hr p ht1
      obtain ⟨h5, _⟩ := transpose_1320 h3
      intro g hg
      simp only [mulLoop, List.tail_cons] at hg
      obtain ⟨k, q1, q2, _, _, q5⟩ := hf.qr (transpose [1, 3, 2, 0]
        (contract2 (contract e 0 r 2) 3 t (prePost p))) 2
      rw [h5] at q1 q2 q5
      have hk : k ≤ M * Y := by
        have := orth_card (S := box [M, Y]) (C := k) (F := fun m x => (starRingEnd 𝕜) ((lib.qr (transpose [1, 3, 2, 0]
          (contract2 (contract e 0 r 2) 3 t (prePost p))) 2).1.elem (x ++ [m]))) (fun c hc c' hc' => by
            rw [← q5 c hc c' hc', sumCoors_box]
            simp only [RCLike.conj_conj]
            rfl)
        rw [card_box] at this
        simpa using this
      have hp' : ∀ f ∈ fs', 0 < f := fun f hf => hp f (List.mem_cons_of_mem _ hf)
      have hpos : 0 < fs'.prod := List.prod_pos hp'
      have hle : k * fs'.prod ≤ M * (Y :: fs').prod := by
        rw [List.prod_cons, ← mul_assoc]
        exact Nat.mul_le_mul_right _ hk
      have hs := (mulLoop_spec (onlyQr_exact hf) p (e' :: es) (by simp) (lib.qr (transpose [1, 3, 2, 0]
        (contract2 (contract e 0 r 2) 3 t (prePost p))) 2).2 ts k b D' ds'' fs' (by rw [q2]; rfl) he2 ht2).1
      rw [mulLoop_onlyQr] at hs
      have hrec := ih (lib.qr (transpose [1, 3, 2, 0]
        (contract2 (contract e 0 r 2) 3 t (prePost p))) 2).2 ts k b D' ds'' fs' hp' (by rw [q2]; rfl) he2 ht2
      generalize mulLoop lib p (lib.qr (transpose [1, 3, 2, 0]
        (contract2 (contract e 0 r 2) 3 t (prePost p))) 2).2 (e' :: es) ts = out at hs hrec hg
      cases out with
      | nil => exact absurd hg (by simp)
      | cons o os =>
        rcases List.mem_cons.1 hg with rfl | hg
        · obtain ⟨_, _, _, _, h, _⟩ := hs
          rw [h]
          exact (Nat.le_mul_of_pos_right _ hpos).trans hle
        · exact (hrec g hg).trans hle

theorem keeps_of_rows {lib : Lib 𝕜} (hf : Factorizations lib) {D : ℕ} (hD : Spec.KeepsLargest lib D) {t : Tn 𝕜} {n : ℕ}
    (h : (t.shape.take n).prod ≤ D) : Keeps lib t n := by
  by_cases hd : (lib.svd t n).s.dim < D
  · exact hD.all t n hd
  have hdim : (lib.svd t n).s.dim = D := le_antisymm (hD.dim t n) (not_lt.1 hd)
  have huu := hf.uu t n
  have hut := hf.ut t n
  have hc := orth_card (S := box (t.shape.take n)) (C := (lib.svd t n).s.dim)
    (F := fun m x => (starRingEnd 𝕜) ((lib.svd t n).u.elem (x ++ [m]))) (fun c hc c' hc' => by
      rw [← huu c hc c' hc', sumCoors_box]
      simp only [RCLike.conj_conj])
  have hcard : (box (t.shape.take n)).card = (lib.svd t n).s.dim := by
    rw [card_box] at hc ⊢
    omega
  let X : Matrix (Fin (lib.svd t n).s.dim) (box (t.shape.take n)) 𝕜 := Matrix.of fun c x =>
    (starRingEnd 𝕜) ((lib.svd t n).u.elem (x.1 ++ [c.1]))
  have hX : X * X.conjTranspose = 1 := by
    ext c c'
    rw [Matrix.mul_apply, Matrix.one_apply]
    have := huu c c.2 c' c'.2
    rw [sumCoors_box, ← Finset.sum_coe_sort] at this
    refine Eq.trans ?_ (this.trans ?_)
    · simp [X]
    · simp [Fin.ext_iff]
  have hX' : X.conjTranspose * X = 1 := (Matrix.mul_eq_one_comm_of_card_eq _ _ _ (by
    rw [Fintype.card_fin, Fintype.card_coe, hcard])).1 hX
  intro x y hx hy
  have h2 : ∀ m ∈ Finset.range (lib.svd t n).s.dim, (lib.svd t n).u.elem (x ++ [m]) * ((lib.svd t n).s.val m : 𝕜) *
      (lib.svd t n).vt.elem (m :: y) = ∑ x' ∈ box (t.shape.take n), (lib.svd t n).u.elem (x ++ [m]) *
        (starRingEnd 𝕜) ((lib.svd t n).u.elem (x' ++ [m])) * t.elem (x' ++ y) := by
    intro m hm
    rw [mul_assoc, ← hut m (Finset.mem_range.1 hm) y hy, sumCoors_box, Finset.mul_sum]
    exact Finset.sum_congr rfl fun x' _ => by ring
  rw [Finset.sum_congr rfl h2, Finset.sum_comm]
  have hxm : x ∈ box (t.shape.take n) := mem_box.2 hx
  have h3 : ∀ x' ∈ box (t.shape.take n), ∑ m ∈ Finset.range (lib.svd t n).s.dim, (lib.svd t n).u.elem (x ++ [m]) *
        (starRingEnd 𝕜) ((lib.svd t n).u.elem (x' ++ [m])) = if x = x' then 1 else 0 := by
    intro x' hx'
    have := congrFun (congrFun hX' ⟨x, hxm⟩) ⟨x', hx'⟩
    rw [Matrix.mul_apply, Matrix.one_apply] at this
    rw [Finset.sum_range]
    refine Eq.trans ?_ (this.trans ?_)
    · simp [X]
    · simp
  simp only [← Finset.sum_mul]
  rw [Finset.sum_congr rfl fun x' hx' => by rw [h3 x' hx']]
  simp [hxm]

theorem centralize_spec {lib : Lib 𝕜} (hf : Factorizations lib) (n : ℕ) : ∀ (es : List (Tn 𝕜)), es.length = n →
    ∀ (A : ℕ) (ds : List ℕ), Shp es A ds → Shp (centralize lib es) A ds ∧
      (∀ B, (∀ e ∈ es.tail, e.shape.getD 0 0 ≤ B) → ∀ e ∈ (centralize lib es).tail, e.shape.getD 0 0 ≤ B) ∧
      ∀ xs ∈ box ds, ∀ a < A, mv (centralize lib es) xs a = mv es xs a := by
  induction n with
  | zero =>
    intro es hn
    obtain rfl : es = [] := by simpa using hn
    intro A ds h
    rw [show centralize lib ([] : List (Tn 𝕜)) = [] by simp [centralize]]
    exact ⟨h, fun _ h => h, fun _ _ _ _ => rfl⟩
  | succ n ih =>
    intro es hn A ds h
    match es, hn, h with
    | [e], _, h =>
      rw [show centralize lib [e] = [e] by simp [centralize]]
      exact ⟨h, fun _ h => h, fun _ _ _ _ => rfl⟩
    | e :: e' :: es, hn, h =>
      obtain ⟨X, L, ds', rfl, h1, h2⟩ := h
      obtain ⟨Y, R, ds'', rfl, h3, h4⟩ := h2
      obtain ⟨k, q1, q2, q3, q4, _⟩ := hf.qr e 2
      rw [h1] at q1 q2 q3 q4
      simp only [List.take_succ_cons, List.take_zero, List.drop_succ_cons, List.drop_zero, List.cons_append,
        List.nil_append, List.prod_cons, List.prod_nil, mul_one] at q1 q2 q3 q4
      have hc : (contractN (lib.qr e 2).2 [1] e' [0]).shape = [k, Y, R] ∧ ∀ a y b,
          (contractN (lib.qr e 2).2 [1] e' [0]).elem [a, y, b] =
            ∑ l ∈ Finset.range L, (lib.qr e 2).2.elem [a, l] * e'.elem [l, y, b] := by
        generalize (lib.qr e 2).2 = t at q2
        obtain ⟨sh, g⟩ := t
        obtain rfl : sh = _ := q2
        obtain ⟨sh, g'⟩ := e'
        obtain rfl : sh = _ := h3
        exact ⟨rfl, fun _ _ _ => rfl⟩
      obtain ⟨c1, c2⟩ := hc
      obtain ⟨i1, i2, i3⟩ := ih (contractN (lib.qr e 2).2 [1] e' [0] :: es) (by simpa using hn) k (Y :: ds'')
        ⟨Y, R, ds'', rfl, c1, h4⟩
      rw [show centralize lib (e :: e' :: es) =
        (lib.qr e 2).1 :: centralize lib (contractN (lib.qr e 2).2 [1] e' [0] :: es) by rw [centralize]]
      refine ⟨⟨X, k, _, rfl, q1, i1⟩, ?_, ?_⟩
      · intro B hB g hg
        rw [List.tail_cons] at hg
        have hL : L ≤ B := by
          have := hB e' (by simp)
          simpa [h3] using this
        have j := i2 B (fun e he => hB e (by
          rw [List.tail_cons] at he ⊢
          exact List.mem_cons_of_mem _ he))
        cases hh : centralize lib (contractN (lib.qr e 2).2 [1] e' [0] :: es) with
        | nil => rw [hh] at hg; exact absurd hg (by simp)
        | cons f fs =>
          rw [hh] at hg j i1
          rcases List.mem_cons.1 hg with rfl | hg
          · obtain ⟨_, _, _, _, h, _⟩ := i1
            rw [h]
            simpa using q3.trans hL
          · exact j g hg
      · intro xs hxs a ha
        obtain ⟨x, xs, rfl, hx, hxs⟩ := mem_box_cons.1 hxs
        have hxs' := hxs
        obtain ⟨y, ys, rfl, hy, hys⟩ := mem_box_cons.1 hxs
        rw [mv, q1]
        simp only [List.getD_cons_succ, List.getD_cons_zero]
        rw [Finset.sum_congr rfl fun b hb => by rw [i3 _ hxs' b (Finset.mem_range.1 hb)]]
        simp only [mv, c1, c2, h1, h3, List.getD_cons_succ, List.getD_cons_zero, Finset.mul_sum, Finset.sum_mul]
        calc _ = ∑ l ∈ Finset.range L, ∑ c ∈ Finset.range R, ∑ b ∈ Finset.range k,
              (lib.qr e 2).1.elem [a, x, b] * ((lib.qr e 2).2.elem [b, l] * e'.elem [l, y, c] * mv es ys c) := by
              rw [pull2]
              exact Finset.sum_congr rfl fun l _ => Finset.sum_comm
          _ = _ := by
              refine Finset.sum_congr rfl fun l hl => Finset.sum_congr rfl fun c _ => ?_
              have := q4 [a, x] [l] (.cons ha (.cons hx .nil)) (.cons (Finset.mem_range.1 hl) .nil)
              simp only [List.cons_append, List.nil_append] at this
              rw [← this, Finset.sum_mul]
              exact Finset.sum_congr rfl fun b _ => by ring

/-! ## dimensions -/

theorem shp_dims (es : List (Tn 𝕜)) : ∀ (A : ℕ) (ds : List ℕ), Shp es A ds → ∃ md : ℕ → ℕ, md 0 = A ∧
    md es.length = 1 ∧ ds.length = es.length ∧
    ∀ i < es.length, (es.getD i nil).shape = [md i, ds.getD i 0, md (i + 1)] := by
  induction es with
  | nil =>
    rintro A ds ⟨rfl, rfl⟩
    exact ⟨fun _ => 1, rfl, rfl, rfl, fun i hi => absurd hi (by simp)⟩
  | cons e es ih =>
    rintro A ds ⟨d, b, ds', rfl, h1, h2⟩
    obtain ⟨md, m0, mn, hl, hm⟩ := ih b ds' h2
    refine ⟨fun i => i.casesOn A md, rfl, mn, by simpa using hl, fun i hi => ?_⟩
    cases i with
    | zero => simpa [m0] using h1
    | succ i => simpa using hm i (by simpa using hi)

theorem rshp_dims (p : Pos) (ts : List (Tn 𝕜)) : ∀ (A : ℕ) (ds fs : List ℕ), RShp p ts A ds fs →
    ∃ wd : ℕ → ℕ, wd 0 = A ∧ wd ts.length = 1 ∧ ds.length = ts.length ∧ fs.length = ts.length ∧
    ∀ i < ts.length, FShape p (ts.getD i nil) (wd i) (ds.getD i 0) (wd (i + 1)) (fs.getD i 0) := by
  induction ts with
  | nil =>
    rintro A ds fs ⟨rfl, rfl, rfl⟩
    exact ⟨fun _ => 1, rfl, rfl, rfl, rfl, fun i hi => absurd hi (by simp)⟩
  | cons t ts ih =>
    rintro A ds fs ⟨x, b, y, ds', fs', rfl, rfl, h1, h2⟩
    obtain ⟨wd, w0, wn, hl, hl', hm⟩ := ih b ds' fs' h2
    refine ⟨fun i => i.casesOn A wd, rfl, wn, by simpa using hl, by simpa using hl', fun i hi => ?_⟩
    cases i with
    | zero => simpa [w0] using h1
    | succ i => simpa using hm i (by simpa using hi)

theorem chain_of {p : Pos} {mps mpo : List (Tn 𝕜)} {ds fs : List ℕ} (h1 : Shp mps 1 ds) (h2 : RShp p mpo 1 ds fs) :
    ∃ md wd, Chain p mps mpo fs mps.length md wd (ds.getD · 0) := by
  obtain ⟨md, m0, mn, hl, hm⟩ := shp_dims mps 1 ds h1
  obtain ⟨wd, w0, wn, hl', hf, hw⟩ := rshp_dims p mpo 1 ds fs h2
  have e : mpo.length = mps.length := by omega
  rw [e] at wn hw
  exact ⟨md, wd, rfl, e, by omega, hm, hw, m0, mn, w0, wn⟩

theorem mv_dag (es : List (Tn 𝕜)) : ∀ (ys : List ℕ) (c : ℕ), mv (es.map dag) ys c = (starRingEnd 𝕜) (mv es ys c) := by
  induction es with
  | nil => intro ys c; simp [mv]
  | cons e es ih =>
    intro ys c
    cases ys with
    | nil => simp [mv]
    | cons y ys => simp [mv, ih, dag]

theorem shp_dag (es : List (Tn 𝕜)) : ∀ (A : ℕ) (ds : List ℕ), Shp es A ds → Shp (es.map dag) A ds := by
  induction es with
  | nil => intro A ds h; exact h
  | cons e es ih =>
    rintro A ds ⟨d, b, ds', rfl, h1, h2⟩
    exact ⟨d, b, ds', rfl, h1, ih b ds' h2⟩

variable {p : Pos} {mps mpo : List (Tn 𝕜)} {fs : List ℕ} {n : ℕ} {md wd xd : ℕ → ℕ} {ex : Prop}

theorem cut_all (h : Chain p mps mpo fs n md wd xd) : ∀ (k : ℕ), k ≤ n → ∀ ys1 ys2 : List ℕ, ys1.length = k →
    cutv p mps mpo md wd k ys1 ys2 = tv p mps mpo (ys1.reverse ++ ys2) 0 0 := by
  intro k
  induction k with
  | zero =>
    intro _ ys1 ys2 h1
    obtain rfl : ys1 = [] := by simpa using h1
    exact cut_zero h ys2
  | succ k ih =>
    intro hk ys1 ys2 h1
    cases ys1 with
    | nil => simp at h1
    | cons y ys1 =>
      rw [cut_move h hk, ih (by omega) ys1 (y :: ys2) (by simpa using h1)]
      simp

theorem box_append {ds es xs ys : List ℕ} (h1 : xs ∈ box ds) (h2 : ys ∈ box es) : xs ++ ys ∈ box (ds ++ es) := by
  rw [mem_box] at *
  exact List.rel_append h1 h2

/-- a right-isometric chain as the result of the compression so far -/
theorem start_inv (h : Chain p mps mpo fs n md wd xd) (hn : 2 ≤ n) {guess : List (Tn 𝕜)} (hg : Shp guess 1 fs)
    (hi : ∀ g ∈ guess.tail, TIso g)
    (hv : ex → ∀ ys ∈ box fs, mv guess ys 0 = tv p mps mpo ys 0 0) :
    ∃ st, start p mps mpo guess = some st ∧ Inv p mps mpo fs n md wd ex 0 (n - 2) st := by
  obtain ⟨qd, q0, qn, hl, hq⟩ := shp_dims guess 1 fs hg
  have hlen : guess.length = n := by rw [← hl, h.lenf]
  rw [hlen] at qn hq
  have hlr : (guess.map dag).length = n := by simpa using hlen
  have hget : ∀ i < n, (guess.map dag).getD i nil = dag (guess.getD i nil) := fun i hi => by
    rw [List.getD_eq_getElem _ _ (by omega), List.getD_eq_getElem _ _ (by omega), List.getElem_map]
  have hb : boundaries p mps mpo (guess.map dag) = (corner [1, 1, 1], corner [1, 1, 1]) := by
    have hn1 : n - 1 + 1 = n := by omega
    have e1 := h.t 0 (by omega)
    have e2 := h.t (n - 1) (by omega)
    rw [hn1, h.wn] at e2
    rw [h.w0] at e1
    have a1 : (mpo.getD 0 nil).shape.getD (prePost p) 0 = 1 := by
      cases p <;> simp only [FShape] at e1 <;> rw [e1] <;> simp [prePost, num]
    have a2 : (mpo.getD (n - 1) nil).shape.getD ((num p + 1) % 4) 0 = 1 := by
      cases p <;> simp only [FShape] at e2 <;> rw [e2] <;> simp [num]
    rw [boundaries, h.len]
    rw [a1, a2, hget 0 (by omega), hget (n - 1) (by omega)]
    simp only [dag]
    rw [hq 0 (by omega), hq (n - 1) (by omega), h.e 0 (by omega), h.e (n - 1) (by omega), hn1, h.mn, qn, q0, h.m0]
    rfl
  let P : ℕ → Tn 𝕜 → Prop := fun k r => REnv p (mps.drop k) (mpo.drop k) ((guess.map dag).drop k) (fs.drop k)
    (md k) (wd k) (qd k) r
  have hstep : ∀ i, 1 ≤ i → i < n → ∀ r, P (i + 1) r →
      P i (growRight (rightHalf p (mps.getD i nil) (mpo.getD i nil) r) ((guess.map dag).getD i nil)) := by
    intro i h1 hin r hr
    dsimp only [P] at hr ⊢
    rw [drop_cons (l := mps) (k := i) (h.len ▸ hin) nil, drop_cons (l := mpo) (k := i) (h.len' ▸ hin) nil,
      drop_cons (l := guess.map dag) (k := i) (by omega) nil, drop_cons (l := fs) (k := i) (h.lenf ▸ hin) 0]
    refine REnv.grow hr (h.e i hin) (h.t i hin) (by rw [hget i hin]; exact hq i hin) ?_
    obtain ⟨Q, Y, C, t1, t2⟩ := hi (guess.getD i nil) (by
      obtain ⟨i, rfl⟩ : ∃ j, i = j + 1 := ⟨i - 1, by omega⟩
      cases guess with
      | nil => simp at hlen; omega
      | cons g gs =>
        rw [List.getD_cons_succ, List.tail_cons, List.getD_eq_getElem _ _ (by simp at hlen; omega)]
        exact List.getElem_mem _)
    rw [hq i hin] at t1
    injection t1 with t1 t3
    injection t3 with t3 t4
    injection t4 with t4 _
    subst t1 t3 t4
    intro q hq q' hq'
    rw [hget i hin]
    simp only [dag, RCLike.conj_conj]
    have := t2 q' hq' q hq
    simp only [eq_comm (a := q') (b := q)] at this
    rw [← this]
    exact Finset.sum_congr rfl fun y _ => Finset.sum_congr rfl fun c _ => mul_comm _ _
  have hgrow : ∀ k j rs, n = k + 2 + j → RStack n P j rs →
      ∃ rs', growEnvs p mps mpo (guess.map dag) k rs = some rs' ∧ RStack n P (n - 2) rs' := by
    intro k
    induction k with
    | zero =>
      intro j rs hj hs
      obtain ⟨r, rs', rfl, _⟩ := hs.cons
      exact ⟨_, by rw [growEnvs], by rwa [show n - 2 = j by omega]⟩
    | succ k ih =>
      intro j rs hj hs
      obtain ⟨r, rs', rfl, hr⟩ := hs.cons
      rw [growEnvs]
      refine ih (j + 1) _ (by omega) ⟨_, _, rfl, ?_, hs⟩
      rw [show n - (j + 1) = k + 2 by omega]
      refine hstep (k + 2) (by omega) (by omega) r ?_
      rwa [show k + 2 + 1 = n - j by omega]
  have hP : ∀ k ≤ n, ∀ r, P k r → RE p mps mpo fs md wd ex k (guess.map dag) r := by
    intro k hk r hr
    refine ⟨qd k, hr, fun hex => ⟨fun ys1 c => mvr (guess.take k).reverse ys1 c, fun ys1 h1 ys2 h2 => ?_⟩⟩
    have l1 : ys1.length = k := by rw [length_of_mem h1]; simp [h.lenf, hk]
    have l2 : ys2.length = n - k := by rw [length_of_mem h2]; simp [h.lenf]
    rw [cut_all h k hk ys1 ys2 l1, ← hv hex]
    · have hs : Shp (guess.drop k) (qd k) (fs.drop k) := by
        have : ∀ (k : ℕ), k ≤ n → Shp (guess.drop k) (qd k) (fs.drop k) := by
          intro k
          induction k with
          | zero => intro _; rw [q0]; simpa using hg
          | succ k ih =>
            intro hk
            have := ih (by omega)
            rw [drop_cons (l := guess) (k := k) (by omega) nil] at this
            obtain ⟨d, b, ds', t1, t2, t3⟩ := this
            rw [drop_cons (l := fs) (k := k) (by rw [h.lenf]; omega) 0] at t1
            rw [hq k hk] at t2
            injection t1 with _ t1
            injection t2 with _ t2
            injection t2 with _ t2
            injection t2 with t2 _
            rw [t1, t2]
            exact t3
        exact this k hk
      have e1 := mvr_reverse_aux (guess.drop k) (guess.take k).reverse (qd k) (fs.drop k) ys2 ys1 hs (by simp; omega)
      rw [← List.reverse_append, List.take_append_drop,
        show ys2.reverse ++ ys1 = (ys1.reverse ++ ys2).reverse by simp,
        mvr_reverse hg (by simp; omega)] at e1
      rw [← e1]
      refine Finset.sum_congr rfl fun c _ => ?_
      rw [← List.map_drop, mv_dag, RCLike.conj_conj, mul_comm]
    · have := box_append (reverse_mem_box.2 h1) h2
      simpa using this
  obtain ⟨rs, g1, g2⟩ := hgrow (n - 2) 0 [corner [1, 1, 1]] (by omega) ⟨_, rfl, by
    dsimp only [P]
    rw [List.drop_of_length_le (by rw [h.len]), List.drop_of_length_le (by rw [h.len']),
      List.drop_of_length_le (by omega), List.drop_of_length_le (by rw [h.lenf]), h.mn, h.wn, qn]
    exact REnv.nil p⟩
  refine ⟨_, by rw [start, hb, h.len]; dsimp only; rw [g1]; rfl, hlr, ⟨_, rfl, 1, ?_, ?_⟩, ?_⟩
  · simp only [List.take_zero, List.reverse_nil, h.m0, h.w0]
    exact LEnv.nil p
  · intro _
    refine ⟨fun _ ys2 => cutv p mps mpo md wd 0 [] ys2, fun ys1 h1 ys2 _ => ?_⟩
    simp only [List.take_zero, List.reverse_nil, mem_box_nil] at h1
    subst h1
    simp [mvr]
  · exact RStack.mono_le (fun k hk r hr => hP k hk r hr) g2

end

end QLPeps.BmpsVar
