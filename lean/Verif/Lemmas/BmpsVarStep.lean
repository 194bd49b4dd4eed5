import Verif.Lemmas.BmpsVarEnv
import Verif.Spec.BmpsVar
import Mathlib.Data.List.GetD
import Mathlib.LinearAlgebra.Matrix.Rank

/-! # The steps of the variational compressions -/

namespace QLPeps.BmpsVar

open QLPeps.Contractor QLPeps.Sweep QLPeps.Bmps QLPeps.Box
open QLPeps.Peps (Tn Lib rot contract contractN transpose dag sumCoors)
open QLPeps.BmpsVar.Spec (Factorizations Keeps)

noncomputable section

variable {𝕜 : Type*} [RCLike 𝕜]

theorem drop_cons {α : Type*} {l : List α} {k : ℕ} (h : k < l.length) (d : α) :
    l.drop k = l.getD k d :: l.drop (k + 1) := by
  rw [List.drop_eq_getElem_cons h, List.getD_eq_getElem _ _ h]

theorem take_succ_rev {α : Type*} {l : List α} {k : ℕ} (h : k < l.length) (d : α) :
    (l.take (k + 1)).reverse = l.getD k d :: (l.take k).reverse := by
  rw [List.take_succ, List.getElem?_eq_getElem h, List.getD_eq_getElem _ _ h]
  simp

/-- the shapes of a boundary MPS and of a row -/
structure Chain (p : Pos) (mps mpo : List (Tn 𝕜)) (fs : List ℕ) (n : ℕ) (md wd xd : ℕ → ℕ) : Prop where
  len : mps.length = n
  len' : mpo.length = n
  lenf : fs.length = n
  e : ∀ i < n, (mps.getD i nil).shape = [md i, xd i, md (i + 1)]
  t : ∀ i < n, FShape p (mpo.getD i nil) (wd i) (xd i) (wd (i + 1)) (fs.getD i 0)
  m0 : md 0 = 1
  mn : md n = 1
  w0 : wd 0 = 1
  wn : wd n = 1

/-- the product, cut before site `k` -/
def cutv (p : Pos) (mps mpo : List (Tn 𝕜)) (md wd : ℕ → ℕ) (k : ℕ) (ys1 ys2 : List ℕ) : 𝕜 :=
  ∑ w ∈ Finset.range (wd k), ∑ m ∈ Finset.range (md k),
    ltv p (mps.take k).reverse (mpo.take k).reverse ys1 m w * tv p (mps.drop k) (mpo.drop k) ys2 m w

section

variable {p : Pos} {mps mpo : List (Tn 𝕜)} {fs : List ℕ} {n : ℕ} {md wd xd : ℕ → ℕ}

theorem cut_move (h : Chain p mps mpo fs n md wd xd) {k : ℕ} (hk : k < n) (y : ℕ) (ys1 ys2 : List ℕ) :
    cutv p mps mpo md wd (k + 1) (y :: ys1) ys2 = cutv p mps mpo md wd k ys1 (y :: ys2) := by
  rw [cutv, cutv, take_succ_rev (l := mps) (h.len ▸ hk) nil, take_succ_rev (l := mpo) (h.len' ▸ hk) nil,
    drop_cons (l := mps) (k := k) (h.len ▸ hk) nil, drop_cons (l := mpo) (k := k) (h.len' ▸ hk) nil]
  simp only [ltv, tv, h.e k hk, FShape.prevDim (h.t k hk), (h.t k hk).nextDim, List.getD_cons_succ,
    List.getD_cons_zero, Finset.sum_mul, Finset.mul_sum]
  calc _ = ∑ w' ∈ Finset.range (wd (k + 1)), ∑ v ∈ Finset.range (wd k), ∑ q ∈ Finset.range (md k),
      ∑ u ∈ Finset.range (xd k), ∑ m' ∈ Finset.range (md (k + 1)),
        (mps.getD k nil).elem [q, u, m'] * fe p (mpo.getD k nil) v u w' y *
          ltv p (mps.take k).reverse (mpo.take k).reverse ys1 q v *
          tv p (mps.drop (k + 1)) (mpo.drop (k + 1)) ys2 m' w' := by
        refine Finset.sum_congr rfl fun w' _ => ?_
        rw [Finset.sum_comm]
        refine Finset.sum_congr rfl fun v _ => ?_
        rw [pull2]
        exact Finset.sum_congr rfl fun q _ => Finset.sum_comm
    _ = _ := by
        rw [Finset.sum_comm]
        refine Finset.sum_congr rfl fun v _ => ?_
        rw [Finset.sum_comm]
        refine Finset.sum_congr rfl fun q _ => ?_
        rw [Finset.sum_comm]
        refine Finset.sum_congr rfl fun u _ => Finset.sum_congr rfl fun w' _ =>
          Finset.sum_congr rfl fun m' _ => ?_
        ring

theorem cut_zero (h : Chain p mps mpo fs n md wd xd) (ys : List ℕ) :
    cutv p mps mpo md wd 0 [] ys = tv p mps mpo ys 0 0 := by
  simp [cutv, h.m0, h.w0, ltv]

/-- the product around site `i`, in terms of the two halves -/
theorem cut_at (h : Chain p mps mpo fs n md wd xd) {i : ℕ} (hi : i < n) (x : ℕ) (ys1 ys2 : List ℕ) :
    cutv p mps mpo md wd i ys1 (x :: ys2) =
      ∑ w ∈ Finset.range (wd (i + 1)), ∑ m ∈ Finset.range (md (i + 1)),
        ltv p (mps.getD i nil :: (mps.take i).reverse) (mpo.getD i nil :: (mpo.take i).reverse) (x :: ys1) m w *
        tv p (mps.drop (i + 1)) (mpo.drop (i + 1)) ys2 m w := by
  rw [← cut_move h hi, cutv, take_succ_rev (l := mps) (h.len ▸ hi) nil, take_succ_rev (l := mpo) (h.len' ▸ hi) nil]

/-- a right environment of the sites from `k` on -/
def RE (p : Pos) (mps mpo : List (Tn 𝕜)) (fs : List ℕ) (md wd : ℕ → ℕ) (ex : Prop) (k : ℕ)
    (res : List (Tn 𝕜)) (r : Tn 𝕜) : Prop :=
  ∃ C, REnv p (mps.drop k) (mpo.drop k) (res.drop k) (fs.drop k) (md k) (wd k) C r ∧
    (ex → ∃ G : List ℕ → ℕ → 𝕜, ∀ ys1 ∈ box (fs.take k).reverse, ∀ ys2 ∈ box (fs.drop k),
      cutv p mps mpo md wd k ys1 ys2 =
        ∑ c ∈ Finset.range C, (starRingEnd 𝕜) (mv (res.drop k) ys2 c) * G ys1 c)

/-- a left environment of the sites before `k` -/
def LE (p : Pos) (mps mpo : List (Tn 𝕜)) (fs : List ℕ) (md wd : ℕ → ℕ) (ex : Prop) (k : ℕ)
    (res : List (Tn 𝕜)) (l : Tn 𝕜) : Prop :=
  ∃ C, LEnv p (mps.take k).reverse (mpo.take k).reverse (res.take k).reverse (fs.take k).reverse
      (md k) (wd k) C l ∧
    (ex → ∃ G : ℕ → List ℕ → 𝕜, ∀ ys1 ∈ box (fs.take k).reverse, ∀ ys2 ∈ box (fs.drop k),
      cutv p mps mpo md wd k ys1 ys2 =
        ∑ c ∈ Finset.range C, (starRingEnd 𝕜) (mvr (res.take k).reverse ys1 c) * G c ys2)

/-- a state in the span of an orthonormal family is the sum of its components -/
theorem span_eq {α : Type*} {S : Finset α} {C : ℕ} {F : ℕ → α → 𝕜}
    (h : ∀ c < C, ∀ c' < C, ∑ x ∈ S, F c x * (starRingEnd 𝕜) (F c' x) = if c = c' then 1 else 0)
    (T : α → 𝕜) (G : ℕ → 𝕜) (hT : ∀ x ∈ S, T x = ∑ c ∈ Finset.range C, (starRingEnd 𝕜) (F c x) * G c) :
    ∀ x ∈ S, T x = ∑ c ∈ Finset.range C, (starRingEnd 𝕜) (F c x) * ∑ x' ∈ S, F c x' * T x' := by
  intro x hx
  rw [hT x hx]
  refine Finset.sum_congr rfl fun c hc => ?_
  congr 1
  calc G c = ∑ c' ∈ Finset.range C, (if c = c' then 1 else 0) * G c' := by
        simp only [ite_mul, one_mul, zero_mul, Finset.sum_ite_eq, if_pos hc]
    _ = ∑ c' ∈ Finset.range C, (∑ x ∈ S, F c x * (starRingEnd 𝕜) (F c' x)) * G c' :=
        Finset.sum_congr rfl fun c' hc' => by
          rw [h c (Finset.mem_range.1 hc) c' (Finset.mem_range.1 hc')]
    _ = _ := by
        simp only [Finset.sum_mul]
        rw [Finset.sum_comm]
        refine Finset.sum_congr rfl fun x' hx' => ?_
        rw [hT x' hx', Finset.mul_sum]
        exact Finset.sum_congr rfl fun c' _ => by ring

/-! ## the tensors that are factorized -/

theorem two_elem (h : Chain p mps mpo fs n md wd xd) {i : ℕ} (hi : i + 1 < n) {as bs : List (Tn 𝕜)} {C C' : ℕ}
    {l r : Tn 𝕜} {fl fr : List ℕ}
    (hl : LEnv p (mps.take i).reverse (mpo.take i).reverse as fl (md i) (wd i) C l)
    (hr : REnv p (mps.drop (i + 2)) (mpo.drop (i + 2)) bs fr (md (i + 2)) (wd (i + 2)) C' r) :
    let M := twoSite (leftHalf p l (mps.getD i nil) (mpo.getD i nil))
      (rightHalf p (mps.getD (i + 1) nil) (mpo.getD (i + 1) nil) r)
    M.shape = [C, fs.getD i 0, C', fs.getD (i + 1) 0] ∧
    ∀ c < C, ∀ x, ∀ c' < C', ∀ x', M.elem [c, x, c', x'] = (starRingEnd 𝕜)
      (∑ ys1 ∈ box fl, mvr as ys1 c * ∑ ys2 ∈ box fr, mv bs ys2 c' *
        cutv p mps mpo md wd i ys1 (x :: x' :: ys2)) := by
  intro M
  have hi' : i < n := by omega
  obtain ⟨s1, _⟩ := leftHalf_elem p hl.shape (h.e i hi') (h.t i hi')
  obtain ⟨s2, _⟩ := rightHalf_elem p (h.e (i + 1) hi) (h.t (i + 1) hi) hr.shape
  obtain ⟨s3, s4⟩ := twoSite_elem s1 s2
  refine ⟨s3, fun c hc x c' hc' x' => ?_⟩
  rw [s4]
  congr 1
  simp only [hl.half (h.e i hi') (h.t i hi') _ c hc, hr.half (h.e (i + 1) hi) (h.t (i + 1) hi) c' hc']
  simp only [cut_at h hi', drop_cons (l := mps) (k := i + 1) (h.len ▸ hi) nil,
    drop_cons (l := mpo) (k := i + 1) (h.len' ▸ hi) nil]
  simp only [Finset.mul_sum, Finset.sum_mul]
  rw [pull3]
  refine Finset.sum_congr rfl fun a _ => ?_
  rw [pull2]
  exact Finset.sum_congr rfl fun b _ => Finset.sum_congr rfl fun w _ => Finset.sum_congr rfl fun m _ => by ring

theorem one_right_elem (h : Chain p mps mpo fs n md wd xd) {i : ℕ} (hi : i < n) {as bs : List (Tn 𝕜)} {C C' : ℕ}
    {l r : Tn 𝕜} {fl fr : List ℕ}
    (hl : LEnv p (mps.take i).reverse (mpo.take i).reverse as fl (md i) (wd i) C l)
    (hr : REnv p (mps.drop (i + 1)) (mpo.drop (i + 1)) bs fr (md (i + 1)) (wd (i + 1)) C' r) :
    let M := oneSiteRight (leftHalf p l (mps.getD i nil) (mpo.getD i nil)) r
    M.shape = [C, fs.getD i 0, C'] ∧
    ∀ c < C, ∀ x, ∀ c' < C', M.elem [c, x, c'] = (starRingEnd 𝕜)
      (∑ ys1 ∈ box fl, mvr as ys1 c * ∑ ys2 ∈ box fr, mv bs ys2 c' *
        cutv p mps mpo md wd i ys1 (x :: ys2)) := by
  intro M
  obtain ⟨s1, _⟩ := leftHalf_elem p hl.shape (h.e i hi) (h.t i hi)
  obtain ⟨s3, s4⟩ := oneSiteRight_elem s1 hr.shape
  refine ⟨s3, fun c hc x c' hc' => ?_⟩
  rw [s4]
  congr 1
  simp only [hl.half (h.e i hi) (h.t i hi) _ c hc]
  rw [Finset.sum_comm]
  have : ∀ w ∈ Finset.range (wd (i + 1)), ∀ m ∈ Finset.range (md (i + 1)), r.elem [m, w, c'] = _ :=
    fun w hw m hm => hr.elem m (Finset.mem_range.1 hm) w (Finset.mem_range.1 hw) c' hc'
  rw [Finset.sum_congr rfl fun w hw => Finset.sum_congr rfl fun m hm => by rw [this w hw m hm]]
  simp only [cut_at h hi]
  simp only [Finset.mul_sum, Finset.sum_mul]
  rw [pull3]
  refine Finset.sum_congr rfl fun a _ => ?_
  rw [pull2]
  exact Finset.sum_congr rfl fun b _ => Finset.sum_congr rfl fun w _ => Finset.sum_congr rfl fun m _ => by ring

theorem one_left_elem (h : Chain p mps mpo fs n md wd xd) {i : ℕ} (hi : i < n) {as bs : List (Tn 𝕜)} {C C' : ℕ}
    {l r : Tn 𝕜} {fl fr : List ℕ}
    (hl : LEnv p (mps.take i).reverse (mpo.take i).reverse as fl (md i) (wd i) C l)
    (hr : REnv p (mps.drop (i + 1)) (mpo.drop (i + 1)) bs fr (md (i + 1)) (wd (i + 1)) C' r) :
    let M := oneSiteLeft (rightHalf p (mps.getD i nil) (mpo.getD i nil) r) l
    M.shape = [C', fs.getD i 0, C] ∧
    ∀ c < C, ∀ x, ∀ c' < C', M.elem [c', x, c] = (starRingEnd 𝕜)
      (∑ ys1 ∈ box fl, mvr as ys1 c * ∑ ys2 ∈ box fr, mv bs ys2 c' *
        cutv p mps mpo md wd i ys1 (x :: ys2)) := by
  intro M
  obtain ⟨s1, _⟩ := rightHalf_elem p (h.e i hi) (h.t i hi) hr.shape
  obtain ⟨s3, s4⟩ := oneSiteLeft_elem s1 hl.shape
  refine ⟨s3, fun c hc x c' hc' => ?_⟩
  rw [s4]
  congr 1
  simp only [hr.half (h.e i hi) (h.t i hi) c' hc']
  have : ∀ w ∈ Finset.range (wd i), ∀ m ∈ Finset.range (md i), l.elem [c, w, m] = _ :=
    fun w hw m hm => hl.elem m (Finset.mem_range.1 hm) w (Finset.mem_range.1 hw) c hc
  rw [Finset.sum_congr rfl fun w hw => Finset.sum_congr rfl fun m hm => by rw [this w hw m hm]]
  simp only [cutv, drop_cons (l := mps) (k := i) (h.len ▸ hi) nil, drop_cons (l := mpo) (k := i) (h.len' ▸ hi) nil]
  simp only [Finset.mul_sum, Finset.sum_mul]
  rw [pull2]
  refine Finset.sum_congr rfl fun a _ => ?_
  rw [pull2]
  exact Finset.sum_congr rfl fun b _ => Finset.sum_congr rfl fun w _ => Finset.sum_congr rfl fun m _ => by ring

/-- a function of two arguments in the spans of two orthonormal families -/
theorem recon {α β : Type*} {S : Finset α} {S' : Finset β} {C C' : ℕ} {F : ℕ → α → 𝕜} {H : ℕ → β → 𝕜}
    (hF : ∀ c < C, ∀ c' < C, ∑ x ∈ S, F c x * (starRingEnd 𝕜) (F c' x) = if c = c' then 1 else 0)
    (hH : ∀ c < C', ∀ c' < C', ∑ x ∈ S', H c x * (starRingEnd 𝕜) (H c' x) = if c = c' then 1 else 0)
    (K : α → β → 𝕜) (G : ℕ → β → 𝕜) (G' : α → ℕ → 𝕜)
    (h1 : ∀ a ∈ S, ∀ b ∈ S', K a b = ∑ c ∈ Finset.range C, (starRingEnd 𝕜) (F c a) * G c b)
    (h2 : ∀ a ∈ S, ∀ b ∈ S', K a b = ∑ c ∈ Finset.range C', (starRingEnd 𝕜) (H c b) * G' a c)
    (M : ℕ → ℕ → 𝕜)
    (hM : ∀ c < C, ∀ c' < C', M c c' = (starRingEnd 𝕜) (∑ a ∈ S, F c a * ∑ b ∈ S', H c' b * K a b)) :
    ∀ a ∈ S, ∀ b ∈ S', K a b = (starRingEnd 𝕜)
      (∑ c ∈ Finset.range C, ∑ c' ∈ Finset.range C', F c a * M c c' * H c' b) := by
  intro a ha b hb
  rw [span_eq hF (fun a => K a b) (fun c => G c b) (fun a ha => h1 a ha b hb) a ha]
  rw [map_sum]
  refine Finset.sum_congr rfl fun c hc => ?_
  have : ∀ a' ∈ S, K a' b = ∑ c' ∈ Finset.range C', (starRingEnd 𝕜) (H c' b) * ∑ b' ∈ S', H c' b' * K a' b' :=
    fun a' ha' => span_eq hH (fun b => K a' b) (fun c => G' a' c) (fun b hb => h2 a' ha' b hb) b hb
  rw [Finset.sum_congr rfl fun a' ha' => by rw [this a' ha']]
  rw [map_sum, Finset.mul_sum]
  simp only [Finset.mul_sum]
  rw [Finset.sum_comm]
  refine Finset.sum_congr rfl fun c' hc' => ?_
  rw [hM c (Finset.mem_range.1 hc) c' (Finset.mem_range.1 hc')]
  simp only [map_mul, RCLike.conj_conj, map_sum, Finset.mul_sum, Finset.sum_mul]
  exact Finset.sum_congr rfl fun a' _ => Finset.sum_congr rfl fun b' _ => by ring

theorem sumCoors_box {M : Type*} [AddCommMonoid M] (sh : List ℕ) (f : List ℕ → M) :
    sumCoors sh f = ∑ x ∈ box sh, f x := by
  induction sh generalizing f with
  | nil => rw [sum_box_nil]; rfl
  | cons d ds ih =>
    rw [sum_box_cons, sumCoors]
    exact Finset.sum_congr rfl fun k _ => ih _

theorem transpose_021 {t : Tn 𝕜} {a b c : ℕ} (ht : t.shape = [a, b, c]) :
    (transpose [0, 2, 1] t).shape = [a, c, b] ∧
    ∀ i j k, (transpose [0, 2, 1] t).elem [i, j, k] = t.elem [i, k, j] := by
  obtain ⟨sh, g⟩ := t
  obtain rfl : sh = _ := ht
  exact ⟨rfl, fun _ _ _ => rfl⟩

theorem transpose_210 {t : Tn 𝕜} {a b c : ℕ} (ht : t.shape = [a, b, c]) :
    (transpose [2, 1, 0] t).shape = [c, b, a] ∧
    ∀ i j k, (transpose [2, 1, 0] t).elem [i, j, k] = t.elem [k, j, i] := by
  obtain ⟨sh, g⟩ := t
  obtain rfl : sh = _ := ht
  exact ⟨rfl, fun _ _ _ => rfl⟩

/-! ## the factors -/

theorem svd4 {lib : Lib 𝕜} (hf : Factorizations lib) {t : Tn 𝕜} {a b c e : ℕ} (ht : t.shape = [a, b, c, e])
    {d : Peps.Svd 𝕜} (hd : d = lib.svd t 2) :
    d.u.shape = [a, b, d.s.dim] ∧ d.vt.shape = [d.s.dim, c, e] ∧
    (∀ m < d.s.dim, ∀ m' < d.s.dim, ∑ x ∈ Finset.range a, ∑ y ∈ Finset.range b,
      (starRingEnd 𝕜) (d.u.elem [x, y, m]) * d.u.elem [x, y, m'] = if m = m' then 1 else 0) ∧
    (∀ m < d.s.dim, ∀ m' < d.s.dim, ∑ x ∈ Finset.range e, ∑ y ∈ Finset.range c,
      d.vt.elem [m, y, x] * (starRingEnd 𝕜) (d.vt.elem [m', y, x]) = if m = m' then 1 else 0) ∧
    (∀ m < d.s.dim, ∀ i < a, ∀ j < b, ∑ x ∈ Finset.range e, ∑ y ∈ Finset.range c,
      t.elem [i, j, y, x] * (starRingEnd 𝕜) (d.vt.elem [m, y, x]) = d.u.elem [i, j, m] * (d.s.val m : 𝕜)) ∧
    (Keeps lib t 2 → ∀ i < a, ∀ j < b, ∀ y < c, ∀ x < e, ∑ m ∈ Finset.range d.s.dim,
      d.u.elem [i, j, m] * (d.s.val m : 𝕜) * d.vt.elem [m, y, x] = t.elem [i, j, y, x]) := by
  subst hd
  have h1 := hf.shape t 2
  have h2 := hf.uu t 2
  have h3 := hf.vv t 2
  have h4 := hf.tv t 2
  rw [ht] at h1 h2 h3 h4
  refine ⟨h1.1, h1.2, h2, ?_, ?_, ?_⟩
  · intro m hm m' hm'
    rw [← h3 m hm m' hm', Finset.sum_comm]
    rfl
  · intro m hm i hi j hj
    refine Eq.trans ?_ (h4 m hm [i, j] (.cons hi (.cons hj .nil)))
    rw [Finset.sum_comm]
    rfl
  · intro hk i hi j hj y hy x hx
    have := hk [i, j] [y, x] (by rw [ht]; exact .cons hi (.cons hj .nil)) (by rw [ht]; exact .cons hy (.cons hx .nil))
    exact this

theorem qr3 {lib : Lib 𝕜} (hf : Factorizations lib) {t : Tn 𝕜} {a b c : ℕ} (ht : t.shape = [a, b, c]) :
    ∃ k, (lib.qr t 2).1.shape = [a, b, k] ∧ (lib.qr t 2).2.shape = [k, c] ∧ k ≤ c ∧
    (∀ m < k, ∀ m' < k, ∑ x ∈ Finset.range a, ∑ y ∈ Finset.range b,
      (starRingEnd 𝕜) ((lib.qr t 2).1.elem [x, y, m]) * (lib.qr t 2).1.elem [x, y, m'] = if m = m' then 1 else 0) ∧
    (∀ i < a, ∀ j < b, ∀ z < c, ∑ m ∈ Finset.range k, (lib.qr t 2).1.elem [i, j, m] * (lib.qr t 2).2.elem [m, z] =
      t.elem [i, j, z]) := by
  obtain ⟨k, h1, h2, h3, h4, h5⟩ := hf.qr t 2
  rw [ht] at h1 h2 h3 h4 h5
  refine ⟨k, h1, h2, by simpa using h3, h5, fun i hi j hj z hz => ?_⟩
  exact h4 [i, j] [z] (.cons hi (.cons hj .nil)) (.cons hz .nil)

/-! ## the steps -/

theorem take_set_self {α : Type*} {l : List α} {i : ℕ} (hi : i < l.length) (a : α) :
    ((l.set i a).take (i + 1)).reverse = a :: (l.take i).reverse := by
  rw [take_succ_rev (by simpa using hi) a, List.getD_eq_getElem _ _ (by simpa using hi), List.getElem_set_self,
    List.take_set_of_le le_rfl]

theorem drop_set_self {α : Type*} {l : List α} {i : ℕ} (hi : i < l.length) (a : α) :
    (l.set i a).drop i = a :: l.drop (i + 1) := by
  rw [drop_cons (by simpa using hi) a, List.getD_eq_getElem _ _ (by simpa using hi), List.getElem_set_self,
    List.drop_set_of_lt (by omega)]

theorem LE.set {ex : Prop} {k i : ℕ} (hk : k ≤ i) {res : List (Tn 𝕜)} {l a : Tn 𝕜} :
    LE p mps mpo fs md wd ex k (res.set i a) l ↔ LE p mps mpo fs md wd ex k res l := by
  rw [LE, LE, List.take_set_of_le hk]

theorem RE.set {ex : Prop} {k i : ℕ} (hk : i < k) {res : List (Tn 𝕜)} {l a : Tn 𝕜} :
    RE p mps mpo fs md wd ex k (res.set i a) l ↔ RE p mps mpo fs md wd ex k res l := by
  rw [RE, RE, List.drop_set_of_lt hk]

theorem box_take_succ (h : Chain p mps mpo fs n md wd xd) {i : ℕ} (hi : i < n) :
    (fs.take (i + 1)).reverse = fs.getD i 0 :: (fs.take i).reverse := take_succ_rev (h.lenf ▸ hi) 0

theorem box_drop (h : Chain p mps mpo fs n md wd xd) {i : ℕ} (hi : i < n) :
    fs.drop i = fs.getD i 0 :: fs.drop (i + 1) := drop_cons (h.lenf ▸ hi) 0

theorem card_box (ds : List ℕ) : (box ds).card = ds.prod := by
  have : ((box ds).card : ℕ) = ∑ x ∈ box ds, 1 := by simp
  rw [this]
  induction ds with
  | nil => rw [sum_box_nil]; rfl
  | cons d ds ih => rw [sum_box_cons, List.prod_cons, ih (by simp)]; simp

/-- an orthonormal family is not larger than the space -/
theorem orth_card {α : Type*} {S : Finset α} {C : ℕ} {F : ℕ → α → 𝕜}
    (h : ∀ c < C, ∀ c' < C, ∑ x ∈ S, F c x * (starRingEnd 𝕜) (F c' x) = if c = c' then 1 else 0) : C ≤ S.card := by
  let X : Matrix (Fin C) S 𝕜 := Matrix.of fun c x => F c x
  have hX : X * X.conjTranspose = 1 := by
    ext c c'
    rw [Matrix.mul_apply, Matrix.one_apply]
    have := h c c.2 c' c'.2
    rw [← Finset.sum_coe_sort] at this
    refine Eq.trans ?_ (this.trans ?_)
    · rfl
    · simp [Fin.ext_iff]
  have h1 := Matrix.rank_mul_le_left X X.conjTranspose
  rw [hX, Matrix.rank_one, Fintype.card_fin] at h1
  refine h1.trans (X.rank_le_card_width.trans ?_)
  rw [Fintype.card_coe]

theorem prod_take_le {fs : List ℕ} (hp : ∀ f ∈ fs, 0 < f) (k : ℕ) : (fs.take k).prod ≤ fs.prod := by
  conv_rhs => rw [← List.take_append_drop k fs, List.prod_append]
  exact Nat.le_mul_of_pos_right _ (List.prod_pos fun f hf => hp f (List.mem_of_mem_drop hf))

theorem rows_le (h : Chain p mps mpo fs n md wd xd) {i : ℕ} (hi : i < n) (hp : ∀ f ∈ fs, 0 < f)
    {es ts as : List (Tn 𝕜)} {M W C c e : ℕ} {l m : Tn 𝕜} (hl : LEnv p es ts as (fs.take i).reverse M W C l)
    (hm : m.shape = [C, fs.getD i 0, c, e]) : (m.shape.take 2).prod ≤ fs.prod := by
  have h1 := orth_card (F := fun c ys => mvr as ys c) hl.iso'
  rw [card_box, List.prod_reverse] at h1
  have h2 := congrArg List.prod (box_take_succ h hi)
  rw [List.prod_reverse, List.prod_cons, List.prod_reverse] at h2
  rw [hm]
  have h3 := prod_take_le hp (i + 1)
  rw [h2] at h3
  simp only [List.take_succ_cons, List.take_zero, List.prod_cons, List.prod_nil, mul_one]
  rw [mul_comm]
  exact (Nat.mul_le_mul_left _ h1).trans h3

/-- the product in terms of the tensor of a two-site step -/
theorem recon_two (h : Chain p mps mpo fs n md wd xd) {i : ℕ} (hi : i + 1 < n) {ex : Prop} (hex : ex)
    {res : List (Tn 𝕜)} {l r : Tn 𝕜} {C C' : ℕ}
    (hl : LEnv p (mps.take i).reverse (mpo.take i).reverse (res.take i).reverse (fs.take i).reverse (md i) (wd i) C l)
    (hls : ex → ∃ G : ℕ → List ℕ → 𝕜, ∀ ys1 ∈ box (fs.take i).reverse, ∀ ys2 ∈ box (fs.drop i),
      cutv p mps mpo md wd i ys1 ys2 =
        ∑ c ∈ Finset.range C, (starRingEnd 𝕜) (mvr (res.take i).reverse ys1 c) * G c ys2)
    (hr : REnv p (mps.drop (i + 2)) (mpo.drop (i + 2)) (res.drop (i + 2)) (fs.drop (i + 2)) (md (i + 2))
      (wd (i + 2)) C' r)
    (hrs : ex → ∃ G : List ℕ → ℕ → 𝕜, ∀ ys1 ∈ box (fs.take (i + 2)).reverse, ∀ ys2 ∈ box (fs.drop (i + 2)),
      cutv p mps mpo md wd (i + 2) ys1 ys2 =
        ∑ c ∈ Finset.range C', (starRingEnd 𝕜) (mv (res.drop (i + 2)) ys2 c) * G ys1 c) :
    ∀ ys1 ∈ box (fs.take i).reverse, ∀ x < fs.getD i 0, ∀ x' < fs.getD (i + 1) 0, ∀ ys2 ∈ box (fs.drop (i + 2)),
    cutv p mps mpo md wd i ys1 (x :: x' :: ys2) = (starRingEnd 𝕜)
      (∑ c ∈ Finset.range C, ∑ c' ∈ Finset.range C', mvr (res.take i).reverse ys1 c *
        (twoSite (leftHalf p l (mps.getD i nil) (mpo.getD i nil))
          (rightHalf p (mps.getD (i + 1) nil) (mpo.getD (i + 1) nil) r)).elem [c, x, c', x'] *
        mv (res.drop (i + 2)) ys2 c') := by
  intro ys1 h1 x hx x' hx' ys2 h2
  obtain ⟨G, hG⟩ := hls hex
  obtain ⟨G', hG'⟩ := hrs hex
  refine recon (F := fun c a => mvr (res.take i).reverse a c) (H := fun c b => mv (res.drop (i + 2)) b c) hl.iso' hr.iso
    (fun a b => cutv p mps mpo md wd i a (x :: x' :: b)) (fun c b => G c (x :: x' :: b))
    (fun a c => G' (x' :: x :: a) c) ?_ ?_
    (fun c c' => (twoSite (leftHalf p l (mps.getD i nil) (mpo.getD i nil))
          (rightHalf p (mps.getD (i + 1) nil) (mpo.getD (i + 1) nil) r)).elem [c, x, c', x']) ?_ ys1 h1 ys2 h2
  · intro a ha b hb
    refine hG a ha _ ?_
    rw [box_drop h (show i < n by omega), box_drop h hi]
    exact cons_mem_box.2 ⟨hx, cons_mem_box.2 ⟨hx', hb⟩⟩
  · intro a ha b hb
    rw [← cut_move h (show i < n by omega), ← cut_move h hi]
    refine hG' _ ?_ b hb
    rw [box_take_succ h hi, box_take_succ h (show i < n by omega)]
    exact cons_mem_box.2 ⟨hx', cons_mem_box.2 ⟨hx, ha⟩⟩
  · intro c hc c' hc'
    exact (two_elem h hi hl hr).2 c hc x c' hc' x'

theorem push_left (h : Chain p mps mpo fs n md wd xd) {lib : Lib 𝕜} (hf : Factorizations lib) {ex : Prop}
    (hk : ex → (∀ f ∈ fs, 0 < f) ∧ ∀ t : Tn 𝕜, (t.shape.take 2).prod ≤ fs.prod → Keeps lib t 2) {i : ℕ} (hi : i + 1 < n) {res : List (Tn 𝕜)} (hlen : res.length = n) {l r : Tn 𝕜}
    (hl : LE p mps mpo fs md wd ex i res l) (hr : RE p mps mpo fs md wd ex (i + 2) res r) :
    ∀ tmp1 tmp3 d, tmp1 = leftHalf p l (mps.getD i nil) (mpo.getD i nil) →
    tmp3 = rightHalf p (mps.getD (i + 1) nil) (mpo.getD (i + 1) nil) r → d = lib.svd (twoSite tmp1 tmp3) 2 →
    LE p mps mpo fs md wd ex (i + 1) (res.set i d.u) (growLeft tmp1 d.u) := by
  intro tmp1 tmp3 d e1 e3 hd
  have hi' : i < n := by omega
  obtain ⟨C, hl, hls⟩ := hl
  obtain ⟨C', hr, hrs⟩ := hr
  have m1 := (two_elem h hi hl hr).1
  have hrec := fun hex => recon_two h hi (ex := ex) hex hl hls hr hrs
  rw [← e1, ← e3] at m1
  simp only [← e1, ← e3] at hrec
  obtain ⟨s1, s2, s3, s4, s5, s6⟩ := svd4 hf m1 hd
  refine ⟨d.s.dim, ?_, ?_⟩
  · rw [take_succ_rev (l := mps) (h.len ▸ hi') nil, take_succ_rev (l := mpo) (h.len' ▸ hi') nil,
      take_set_self (by omega), box_take_succ h hi']
    rw [e1]
    exact hl.grow (h.e i hi') (h.t i hi') s1 s3
  · intro hex
    refine ⟨fun m ys2 => (starRingEnd 𝕜) (∑ c' ∈ Finset.range C', (d.s.val m : 𝕜) * d.vt.elem [m, c', ys2.headD 0] *
      mv (res.drop (i + 2)) ys2.tail c'), fun ys1 h1 ys2 h2 => ?_⟩
    rw [box_take_succ h hi'] at h1
    rw [box_drop h hi] at h2
    obtain ⟨x, ys1, rfl, hx, h1⟩ := mem_box_cons.1 h1
    obtain ⟨x', ys2, rfl, hx', h2⟩ := mem_box_cons.1 h2
    rw [cut_move h hi', hrec hex ys1 h1 x hx x' hx' ys2 h2, take_set_self (by omega)]
    have key := s6 ((hk hex).2 (twoSite tmp1 tmp3) (rows_le h hi' (hk hex).1 hl m1))
    simp only [← map_mul, ← map_sum]
    congr 1
    simp only [mvr, s1, List.getD_cons_zero, List.headD_cons, List.tail_cons, Finset.sum_mul, Finset.mul_sum]
    calc _ = ∑ c ∈ Finset.range C, ∑ c' ∈ Finset.range C', ∑ m ∈ Finset.range d.s.dim,
          d.u.elem [c, x, m] * mvr (res.take i).reverse ys1 c * ((d.s.val m : 𝕜) * d.vt.elem [m, c', x'] *
            mv (res.drop (i + 2)) ys2 c') := by
          refine Finset.sum_congr rfl fun c hc => Finset.sum_congr rfl fun c' hc' => ?_
          rw [← key c (Finset.mem_range.1 hc) x hx c' (Finset.mem_range.1 hc') x' hx', Finset.mul_sum, Finset.sum_mul]
          exact Finset.sum_congr rfl fun m _ => by ring
      _ = _ := by
          rw [pull2]
          first
          | rfl
          | exact Finset.sum_congr rfl fun m _ => Finset.sum_comm

theorem push_right (h : Chain p mps mpo fs n md wd xd) {lib : Lib 𝕜} (hf : Factorizations lib) {ex : Prop}
    (hk : ex → (∀ f ∈ fs, 0 < f) ∧ ∀ t : Tn 𝕜, (t.shape.take 2).prod ≤ fs.prod → Keeps lib t 2) {i : ℕ} (hi : i + 1 < n) {res : List (Tn 𝕜)} (hlen : res.length = n) {l r : Tn 𝕜}
    (hl : LE p mps mpo fs md wd ex i res l) (hr : RE p mps mpo fs md wd ex (i + 2) res r) :
    ∀ tmp1 tmp3 d, tmp1 = leftHalf p l (mps.getD i nil) (mpo.getD i nil) →
    tmp3 = rightHalf p (mps.getD (i + 1) nil) (mpo.getD (i + 1) nil) r → d = lib.svd (twoSite tmp1 tmp3) 2 →
    RE p mps mpo fs md wd ex (i + 1) (res.set (i + 1) (transpose [0, 2, 1] d.vt))
      (growRight tmp3 (transpose [0, 2, 1] d.vt)) := by
  intro tmp1 tmp3 d e1 e3 hd
  have hi' : i < n := by omega
  obtain ⟨C, hl, hls⟩ := hl
  obtain ⟨C', hr, hrs⟩ := hr
  have m1 := (two_elem h hi hl hr).1
  have hrec := fun hex => recon_two h hi (ex := ex) hex hl hls hr hrs
  rw [← e1, ← e3] at m1
  simp only [← e1, ← e3] at hrec
  obtain ⟨s1, s2, s3, s4, s5, s6⟩ := svd4 hf m1 hd
  obtain ⟨v1, v2⟩ := transpose_021 s2
  refine ⟨d.s.dim, ?_, ?_⟩
  · rw [drop_cons (l := mps) (k := i + 1) (h.len ▸ hi) nil, drop_cons (l := mpo) (k := i + 1) (h.len' ▸ hi) nil,
      drop_set_self (by omega), box_drop h hi]
    rw [e3]
    refine hr.grow (h.e (i + 1) hi) (h.t (i + 1) hi) v1 fun q hq q' hq' => ?_
    simp only [v2]
    exact s4 q hq q' hq'
  · intro hex
    refine ⟨fun ys1 m => (starRingEnd 𝕜) (∑ c ∈ Finset.range C, mvr (res.take i).reverse ys1.tail c *
      d.u.elem [c, ys1.headD 0, m] * (d.s.val m : 𝕜)), fun ys1 h1 ys2 h2 => ?_⟩
    rw [box_take_succ h hi'] at h1
    rw [box_drop h hi] at h2
    obtain ⟨x, ys1, rfl, hx, h1⟩ := mem_box_cons.1 h1
    obtain ⟨x', ys2, rfl, hx', h2⟩ := mem_box_cons.1 h2
    rw [cut_move h hi', hrec hex ys1 h1 x hx x' hx' ys2 h2, drop_set_self (by omega)]
    have key := s6 ((hk hex).2 (twoSite tmp1 tmp3) (rows_le h hi' (hk hex).1 hl m1))
    simp only [← map_mul, ← map_sum]
    congr 1
    simp only [mv, v1, v2, List.getD_cons_zero, List.getD_cons_succ, List.headD_cons, List.tail_cons, Finset.sum_mul,
      Finset.mul_sum]
    calc _ = ∑ c ∈ Finset.range C, ∑ c' ∈ Finset.range C', ∑ m ∈ Finset.range d.s.dim,
          d.vt.elem [m, c', x'] * mv (res.drop (i + 2)) ys2 c' * (mvr (res.take i).reverse ys1 c *
            d.u.elem [c, x, m] * (d.s.val m : 𝕜)) := by
          refine Finset.sum_congr rfl fun c hc => Finset.sum_congr rfl fun c' hc' => ?_
          rw [← key c (Finset.mem_range.1 hc) x hx c' (Finset.mem_range.1 hc') x' hx', Finset.mul_sum, Finset.sum_mul]
          exact Finset.sum_congr rfl fun m _ => by ring
      _ = _ := by
          rw [pull2]

/-- the product in terms of a matrix with the elements of a one-site step -/
theorem recon_one (h : Chain p mps mpo fs n md wd xd) {i : ℕ} (hi : i < n) {ex : Prop} (hex : ex)
    {res : List (Tn 𝕜)} {l r : Tn 𝕜} {C C' : ℕ}
    (hl : LEnv p (mps.take i).reverse (mpo.take i).reverse (res.take i).reverse (fs.take i).reverse (md i) (wd i) C l)
    (hls : ex → ∃ G : ℕ → List ℕ → 𝕜, ∀ ys1 ∈ box (fs.take i).reverse, ∀ ys2 ∈ box (fs.drop i),
      cutv p mps mpo md wd i ys1 ys2 =
        ∑ c ∈ Finset.range C, (starRingEnd 𝕜) (mvr (res.take i).reverse ys1 c) * G c ys2)
    (hr : REnv p (mps.drop (i + 1)) (mpo.drop (i + 1)) (res.drop (i + 1)) (fs.drop (i + 1)) (md (i + 1))
      (wd (i + 1)) C' r)
    (hrs : ex → ∃ G : List ℕ → ℕ → 𝕜, ∀ ys1 ∈ box (fs.take (i + 1)).reverse, ∀ ys2 ∈ box (fs.drop (i + 1)),
      cutv p mps mpo md wd (i + 1) ys1 ys2 =
        ∑ c ∈ Finset.range C', (starRingEnd 𝕜) (mv (res.drop (i + 1)) ys2 c) * G ys1 c)
    (M : ℕ → ℕ → ℕ → 𝕜) (hM : ∀ c < C, ∀ x, ∀ c' < C', M c x c' = (starRingEnd 𝕜)
      (∑ ys1 ∈ box (fs.take i).reverse, mvr (res.take i).reverse ys1 c * ∑ ys2 ∈ box (fs.drop (i + 1)),
        mv (res.drop (i + 1)) ys2 c' * cutv p mps mpo md wd i ys1 (x :: ys2))) :
    ∀ ys1 ∈ box (fs.take i).reverse, ∀ x < fs.getD i 0, ∀ ys2 ∈ box (fs.drop (i + 1)),
    cutv p mps mpo md wd i ys1 (x :: ys2) = (starRingEnd 𝕜)
      (∑ c ∈ Finset.range C, ∑ c' ∈ Finset.range C', mvr (res.take i).reverse ys1 c * M c x c' *
        mv (res.drop (i + 1)) ys2 c') := by
  intro ys1 h1 x hx ys2 h2
  obtain ⟨G, hG⟩ := hls hex
  obtain ⟨G', hG'⟩ := hrs hex
  refine recon (F := fun c a => mvr (res.take i).reverse a c) (H := fun c b => mv (res.drop (i + 1)) b c) hl.iso' hr.iso
    (fun a b => cutv p mps mpo md wd i a (x :: b)) (fun c b => G c (x :: b))
    (fun a c => G' (x :: a) c) ?_ ?_ (fun c c' => M c x c') ?_ ys1 h1 ys2 h2
  · intro a ha b hb
    refine hG a ha _ ?_
    rw [box_drop h hi]
    exact cons_mem_box.2 ⟨hx, hb⟩
  · intro a ha b hb
    rw [← cut_move h hi]
    refine hG' _ ?_ b hb
    rw [box_take_succ h hi]
    exact cons_mem_box.2 ⟨hx, ha⟩
  · intro c hc c' hc'
    exact hM c hc x c' hc'

theorem one_right (h : Chain p mps mpo fs n md wd xd) {lib : Lib 𝕜} (hf : Factorizations lib) {ex : Prop}
    {i : ℕ} (hi : i < n) {res : List (Tn 𝕜)} (hlen : res.length = n) {l r : Tn 𝕜}
    (hl : LE p mps mpo fs md wd ex i res l) (hr : RE p mps mpo fs md wd ex (i + 1) res r) :
    ∀ tmp1 q, tmp1 = leftHalf p l (mps.getD i nil) (mpo.getD i nil) → q = (lib.qr (oneSiteRight tmp1 r) 2).1 →
    LE p mps mpo fs md wd ex (i + 1) (res.set i q) (growLeft tmp1 q) := by
  intro tmp1 q e1 hq
  obtain ⟨C, hl, hls⟩ := hl
  obtain ⟨C', hr, hrs⟩ := hr
  have m := one_right_elem h hi hl hr
  dsimp only at m
  rw [← e1] at m
  obtain ⟨m1, m2⟩ := m
  obtain ⟨k, s1, s2, _, s3, s4⟩ := qr3 hf m1
  rw [← hq] at s1
  simp only [← hq] at s3 s4
  refine ⟨k, ?_, ?_⟩
  · rw [take_succ_rev (l := mps) (h.len ▸ hi) nil, take_succ_rev (l := mpo) (h.len' ▸ hi) nil,
      take_set_self (by omega), box_take_succ h hi, e1]
    exact hl.grow (h.e i hi) (h.t i hi) s1 s3
  · intro hex
    refine ⟨fun m ys2 => (starRingEnd 𝕜) (∑ c' ∈ Finset.range C', (lib.qr (oneSiteRight tmp1 r) 2).2.elem [m, c'] *
      mv (res.drop (i + 1)) ys2 c'), fun ys1 h1 ys2 h2 => ?_⟩
    rw [box_take_succ h hi] at h1
    obtain ⟨x, ys1, rfl, hx, h1⟩ := mem_box_cons.1 h1
    rw [cut_move h hi, recon_one h hi hex hl hls hr hrs (fun c x c' => (oneSiteRight tmp1 r).elem [c, x, c'])
      (fun c hc x c' hc' => m2 c hc x c' hc') ys1 h1 x hx ys2 h2, take_set_self (by omega)]
    simp only [← map_mul, ← map_sum]
    congr 1
    simp only [mvr, s1, List.getD_cons_zero, Finset.sum_mul, Finset.mul_sum]
    calc _ = ∑ c ∈ Finset.range C, ∑ c' ∈ Finset.range C', ∑ m ∈ Finset.range k,
          q.elem [c, x, m] * mvr (res.take i).reverse ys1 c * ((lib.qr (oneSiteRight tmp1 r) 2).2.elem [m, c'] *
            mv (res.drop (i + 1)) ys2 c') := by
          refine Finset.sum_congr rfl fun c hc => Finset.sum_congr rfl fun c' hc' => ?_
          rw [← s4 c (Finset.mem_range.1 hc) x hx c' (Finset.mem_range.1 hc'), Finset.mul_sum, Finset.sum_mul]
          exact Finset.sum_congr rfl fun m _ => by ring
      _ = _ := by
          rw [pull2]
          exact Finset.sum_congr rfl fun m _ => Finset.sum_comm

theorem one_left (h : Chain p mps mpo fs n md wd xd) {lib : Lib 𝕜} (hf : Factorizations lib) {ex : Prop}
    {i : ℕ} (hi : i < n) {res : List (Tn 𝕜)} (hlen : res.length = n) {l r : Tn 𝕜}
    (hl : LE p mps mpo fs md wd ex i res l) (hr : RE p mps mpo fs md wd ex (i + 1) res r) :
    ∀ tmp1 q, tmp1 = rightHalf p (mps.getD i nil) (mpo.getD i nil) r →
    q = transpose [2, 1, 0] (lib.qr (oneSiteLeft tmp1 l) 2).1 →
    RE p mps mpo fs md wd ex i (res.set i q) (growRight tmp1 q) := by
  intro tmp1 q e1 hq
  obtain ⟨C, hl, hls⟩ := hl
  obtain ⟨C', hr, hrs⟩ := hr
  have m := one_left_elem h hi hl hr
  dsimp only at m
  rw [← e1] at m
  obtain ⟨m1, m2⟩ := m
  obtain ⟨k, s1, s2, _, s3, s4⟩ := qr3 hf m1
  obtain ⟨v1, v2⟩ := transpose_210 s1
  rw [← hq] at v1
  simp only [← hq] at v2
  refine ⟨k, ?_, ?_⟩
  · rw [drop_cons (l := mps) (k := i) (h.len ▸ hi) nil, drop_cons (l := mpo) (k := i) (h.len' ▸ hi) nil,
      drop_set_self (by omega), box_drop h hi, e1]
    refine hr.grow (h.e i hi) (h.t i hi) v1 fun m hm m' hm' => ?_
    simp only [v2, eq_comm (a := m) (b := m')]
    rw [← s3 m' hm' m hm, Finset.sum_comm]
    exact Finset.sum_congr rfl fun _ _ => Finset.sum_congr rfl fun _ _ => mul_comm _ _
  · intro hex
    refine ⟨fun ys1 m => (starRingEnd 𝕜) (∑ c ∈ Finset.range C, mvr (res.take i).reverse ys1 c *
      (lib.qr (oneSiteLeft tmp1 l) 2).2.elem [m, c]), fun ys1 h1 ys2 h2 => ?_⟩
    rw [box_drop h hi] at h2
    obtain ⟨x, ys2, rfl, hx, h2⟩ := mem_box_cons.1 h2
    rw [recon_one h hi hex hl hls hr hrs (fun c x c' => (oneSiteLeft tmp1 l).elem [c', x, c])
      (fun c hc x c' hc' => m2 c hc x c' hc') ys1 h1 x hx ys2 h2, drop_set_self (by omega)]
    simp only [← map_mul, ← map_sum]
    congr 1
    simp only [mv, v1, v2, List.getD_cons_zero, List.getD_cons_succ, Finset.sum_mul, Finset.mul_sum]
    calc _ = ∑ c ∈ Finset.range C, ∑ c' ∈ Finset.range C', ∑ m ∈ Finset.range k,
          (lib.qr (oneSiteLeft tmp1 l) 2).1.elem [c', x, m] * mv (res.drop (i + 1)) ys2 c' *
            (mvr (res.take i).reverse ys1 c * (lib.qr (oneSiteLeft tmp1 l) 2).2.elem [m, c]) := by
          refine Finset.sum_congr rfl fun c hc => Finset.sum_congr rfl fun c' hc' => ?_
          rw [← s4 c' (Finset.mem_range.1 hc') x hx c (Finset.mem_range.1 hc), Finset.mul_sum, Finset.sum_mul]
          exact Finset.sum_congr rfl fun m _ => by ring
      _ = _ := by
          rw [pull2]

end

end

end QLPeps.BmpsVar
