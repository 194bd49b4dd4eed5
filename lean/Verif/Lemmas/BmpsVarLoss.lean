import Verif.Lemmas.BmpsVarBest

/-! # A boundary MPS of which the two-site variational compression loses a component -/

namespace QLPeps.BmpsVar.Loss

open QLPeps.Contractor QLPeps.Sweep QLPeps.Bmps QLPeps.Box QLPeps.BmpsVar
open QLPeps.Peps (Tn Lib rot contract contractN transpose dag sumCoors)
open QLPeps.BmpsVar.Spec (Factorizations Keeps KeepsLargest IsMps IsMpo)

noncomputable section

/-- the boundary MPS `3 |000⟩ + 2 |111⟩ + |222⟩` -/
def ghz : List (Tn ℝ) :=
  [⟨[1, 3, 3], fun x => if x.getD 1 0 = x.getD 2 0 then 3 - x.getD 1 0 else 0⟩,
    ⟨[3, 3, 3], fun x => if x.getD 0 0 = x.getD 1 0 ∧ x.getD 1 0 = x.getD 2 0 then 1 else 0⟩,
    ⟨[3, 3, 1], fun x => if x.getD 0 0 = x.getD 1 0 then 1 else 0⟩]

/-- the row which changes nothing -/
def idMpo : List (Tn ℝ) := List.replicate 3 ⟨[1, 3, 1, 3], fun x => if x.getD 1 0 = x.getD 3 0 then 1 else 0⟩

theorem gram_qr {lib : Lib ℝ} (hf : Factorizations lib) {t : Tn ℝ} {a b c : ℕ} (ht : t.shape = [a, b, c]) :
    ∃ k, (lib.qr t 2).2.shape = [k, c] ∧ ∀ z < c, ∀ z' < c,
      ∑ m ∈ Finset.range k, (lib.qr t 2).2.elem [m, z] * (lib.qr t 2).2.elem [m, z'] =
        ∑ i ∈ Finset.range a, ∑ j ∈ Finset.range b, t.elem [i, j, z] * t.elem [i, j, z'] := by
  obtain ⟨k, _, h2, _, h4, h5⟩ := qr3 hf ht
  refine ⟨k, h2, fun z hz z' hz' => ?_⟩
  have := parseval (S := Finset.range a ×ˢ Finset.range b) (C := k)
    (F := fun m x => (lib.qr t 2).1.elem [x.1, x.2, m]) (fun m hm m' hm' => by
      rw [Finset.sum_product, ← h4 m hm m' hm']
      simp) (fun m => (lib.qr t 2).2.elem [m, z]) (fun m => (lib.qr t 2).2.elem [m, z'])
  simp only [conj_trivial] at this
  rw [← this, Finset.sum_product]
  refine Finset.sum_congr rfl fun i hi => Finset.sum_congr rfl fun j hj => ?_
  rw [← h5 i (Finset.mem_range.1 hi) j (Finset.mem_range.1 hj) z hz,
    ← h5 i (Finset.mem_range.1 hi) j (Finset.mem_range.1 hj) z' hz']
  simp only [mul_comm]

theorem contract_left {r e : Tn ℝ} {k a b c : ℕ} (hr : r.shape = [k, a]) (he : e.shape = [a, b, c]) :
    (contractN r [1] e [0]).shape = [k, b, c] ∧ ∀ m x y, (contractN r [1] e [0]).elem [m, x, y] =
      ∑ q ∈ Finset.range a, r.elem [m, q] * e.elem [q, x, y] := by
  obtain ⟨sh, g⟩ := r
  obtain rfl : sh = _ := hr
  obtain ⟨sh, h⟩ := e
  obtain rfl : sh = _ := he
  exact ⟨rfl, fun _ _ _ => rfl⟩

theorem centralize_ghz {lib : Lib ℝ} (hf : Factorizations lib) : ∃ q0 q1 c k, centralize lib ghz = [q0, q1, c] ∧
    c.shape = [k, 3, 1] ∧ ∀ x < 3, ∀ x' < 3, ∑ m ∈ Finset.range k, c.elem [m, x, 0] * c.elem [m, x', 0] =
      if x = x' then (3 - (x : ℝ)) ^ 2 else 0 := by
  obtain ⟨k0, a1, a2⟩ := gram_qr hf (t := ghz.getD 0 nil) (a := 1) (b := 3) (c := 3) rfl
  obtain ⟨b1, b2⟩ := contract_left (e := ghz.getD 1 nil) (b := 3) (c := 3) a1 rfl
  obtain ⟨k1, c1, c2⟩ := gram_qr hf b1
  obtain ⟨d1, d2⟩ := contract_left (e := ghz.getD 2 nil) (b := 3) (c := 1) c1 rfl
  refine ⟨_, _, _, k1, by rw [ghz]; simp only [centralize]; rfl, d1, ?_⟩
  intro x hx x' hx'
  have e1 : ∀ m, ∀ x < 3, ∑ q ∈ Finset.range 3, (lib.qr (contractN (lib.qr (ghz.getD 0 nil) 2).2 [1] (ghz.getD 1 nil) [0]) 2).2.elem [m, q] *
      (ghz.getD 2 nil).elem [q, x, 0] =
      (lib.qr (contractN (lib.qr (ghz.getD 0 nil) 2).2 [1] (ghz.getD 1 nil) [0]) 2).2.elem [m, x] := by
    intro m x hx
    rw [Finset.sum_eq_single_of_mem x (Finset.mem_range.2 hx) (by
      intro q _ hq
      simp [ghz, hq])]
    simp [ghz]
  have e2 : ∀ m, ∀ j < 3, ∀ x < 3, ∑ q ∈ Finset.range 3, (lib.qr (ghz.getD 0 nil) 2).2.elem [m, q] * (ghz.getD 1 nil).elem [q, j, x] =
      if j = x then (lib.qr (ghz.getD 0 nil) 2).2.elem [m, x] else 0 := by
    intro m j hj x hx
    by_cases hjx : j = x
    · subst hjx
      rw [if_pos rfl, Finset.sum_eq_single_of_mem j (Finset.mem_range.2 hj) (by
        intro q _ hq
        simp [ghz, hq])]
      simp [ghz]
    · rw [if_neg hjx]
      exact Finset.sum_eq_zero fun q _ => by simp [ghz, hjx]
  have e3 : ∀ x < 3, ∀ x' < 3, ∑ i ∈ Finset.range 1, ∑ j ∈ Finset.range 3, (ghz.getD 0 nil).elem [i, j, x] * (ghz.getD 0 nil).elem [i, j, x'] =
      if x = x' then (3 - (x : ℝ)) ^ 2 else 0 := by
    intro x hx x' hx'
    interval_cases x <;> interval_cases x' <;> simp [ghz, Finset.sum_range_succ] <;> norm_num
  calc _ = ∑ m ∈ Finset.range k1, (lib.qr (contractN (lib.qr (ghz.getD 0 nil) 2).2 [1] (ghz.getD 1 nil) [0]) 2).2.elem [m, x] *
        (lib.qr (contractN (lib.qr (ghz.getD 0 nil) 2).2 [1] (ghz.getD 1 nil) [0]) 2).2.elem [m, x'] := by
        refine Finset.sum_congr rfl fun m _ => ?_
        rw [d2, d2, e1 m x hx, e1 m x' hx']
    _ = _ := c2 x hx x' hx'
    _ = ∑ i ∈ Finset.range k0, ∑ j ∈ Finset.range 3, (if j = x then (lib.qr (ghz.getD 0 nil) 2).2.elem [i, x] else 0) *
          (if j = x' then (lib.qr (ghz.getD 0 nil) 2).2.elem [i, x'] else 0) := by
        refine Finset.sum_congr rfl fun i _ => Finset.sum_congr rfl fun j hj => ?_
        rw [b2, b2, e2 i j (Finset.mem_range.1 hj) x hx, e2 i j (Finset.mem_range.1 hj) x' hx']
    _ = if x = x' then ∑ i ∈ Finset.range k0, (lib.qr (ghz.getD 0 nil) 2).2.elem [i, x] * (lib.qr (ghz.getD 0 nil) 2).2.elem [i, x'] else 0 := by
        split_ifs with h
        · subst h
          refine Finset.sum_congr rfl fun i _ => ?_
          rw [Finset.sum_eq_single_of_mem x (Finset.mem_range.2 hx) (by intro j _ hj; simp [hj])]
          simp
        · refine Finset.sum_eq_zero fun i _ => Finset.sum_eq_zero fun j _ => ?_
          by_cases h1 : j = x
          · subst h1; simp [h]
          · simp [h1]
    _ = _ := by
        rw [a2 x hx x' hx', e3 x hx x' hx']
        split_ifs <;> rfl

/-- the third component is not kept -/
theorem vt_zero {lib : Lib ℝ} (hf : Factorizations lib) (hk : KeepsLargest lib 2) {c : Tn ℝ} {k : ℕ}
    (hc : c.shape = [k, 3, 1]) (hg : ∀ x < 3, ∀ x' < 3, ∑ m ∈ Finset.range k, c.elem [m, x, 0] * c.elem [m, x', 0] =
      if x = x' then (3 - (x : ℝ)) ^ 2 else 0) :
    ∀ m < (lib.svd c 1).s.dim, (lib.svd c 1).vt.elem [m, 2, 0] = 0 := by
  have hut := hf.ut c 1
  have htv := hf.tv c 1
  have hdim := hk.dim c 1
  have hlar := hk.largest c 1
  rw [hc] at hut htv hlar
  simp only [List.take_succ_cons, List.take_zero, List.drop_succ_cons, List.drop_zero, sumCoors, conj_trivial,
    RCLike.ofReal_real_eq_id, id, List.cons_append, List.nil_append, Finset.sum_range_one] at hut htv hlar
  have eig : ∀ m < (lib.svd c 1).s.dim, ∀ x < 3,
      (lib.svd c 1).s.val m ^ 2 * (lib.svd c 1).vt.elem [m, x, 0] = (3 - (x : ℝ)) ^ 2 * (lib.svd c 1).vt.elem [m, x, 0] := by
    intro m hm x hx
    have h1 := hut m hm [x, 0] (.cons hx (.cons (by norm_num) .nil))
    calc _ = (lib.svd c 1).s.val m * ((lib.svd c 1).s.val m * (lib.svd c 1).vt.elem [m, x, 0]) := by ring
      _ = ∑ i ∈ Finset.range k, ((lib.svd c 1).u.elem [i, m] * (lib.svd c 1).s.val m) * c.elem [i, x, 0] := by
          rw [← h1, Finset.mul_sum]
          exact Finset.sum_congr rfl fun i _ => by ring
      _ = ∑ i ∈ Finset.range k, ∑ y ∈ Finset.range 3, (lib.svd c 1).vt.elem [m, y, 0] * (c.elem [i, y, 0] * c.elem [i, x, 0]) := by
          refine Finset.sum_congr rfl fun i hi => ?_
          have h2 := htv m hm [i] (.cons (Finset.mem_range.1 hi) .nil)
          simp only [List.cons_append, List.nil_append] at h2
          rw [← h2, Finset.sum_mul]
          exact Finset.sum_congr rfl fun y _ => by ring
      _ = ∑ y ∈ Finset.range 3, (lib.svd c 1).vt.elem [m, y, 0] * if y = x then (3 - (y : ℝ)) ^ 2 else 0 := by
          rw [Finset.sum_comm]
          refine Finset.sum_congr rfl fun y hy => ?_
          rw [← hg y (Finset.mem_range.1 hy) x hx, Finset.mul_sum]
      _ = _ := by
          rw [Finset.sum_eq_single_of_mem x (Finset.mem_range.2 hx) (by intro y _ hy; simp [hy])]
          simp [mul_comm]
  intro m hm
  by_contra hne
  have hs : (lib.svd c 1).s.val m ^ 2 = 1 := by
    have := mul_right_cancel₀ hne (eig m hm 2 (by norm_num))
    rw [this]; norm_num
  have z0 : (lib.svd c 1).vt.elem [m, 0, 0] = 0 := by
    have := eig m hm 0 (by norm_num)
    rw [hs] at this
    norm_num at this
    linarith
  have z1 : (lib.svd c 1).vt.elem [m, 1, 0] = 0 := by
    have := eig m hm 1 (by norm_num)
    rw [hs] at this
    norm_num at this
    linarith
  have other : ∀ m' < (lib.svd c 1).s.dim, (lib.svd c 1).vt.elem [m', 0, 0] = 0 ∨ (lib.svd c 1).vt.elem [m', 1, 0] = 0 := by
    intro m' hm'
    by_contra h
    push Not at h
    have h1 := mul_right_cancel₀ h.1 (eig m' hm' 0 (by norm_num))
    have h2 := mul_right_cancel₀ h.2 (eig m' hm' 1 (by norm_num))
    rw [h1] at h2
    norm_num at h2
  obtain ⟨j, hj, hz⟩ : ∃ j < 2, ∀ m' < (lib.svd c 1).s.dim, (lib.svd c 1).vt.elem [m', j, 0] = 0 := by
    by_cases h : ∃ m' < (lib.svd c 1).s.dim, (lib.svd c 1).vt.elem [m', 0, 0] ≠ 0
    · obtain ⟨m', hm', h0⟩ := h
      refine ⟨1, by norm_num, fun m'' hm'' => ?_⟩
      have : m' ≠ m := by rintro rfl; exact h0 z0
      rcases (show m'' = m' ∨ m'' = m by omega) with rfl | rfl
      · exact (other m'' hm'').resolve_left h0
      · exact z1
    · push Not at h
      exact ⟨0, by norm_num, h⟩
  have hj3 : j < 3 := by omega
  have h := hlar (fun y => if y = [j, 0] then 1 else 0) (fun m' hm' => by
    rw [Finset.sum_eq_single_of_mem j (Finset.mem_range.2 hj3) (by intro y _ hy; simp [hy])]
    simp [hz m' hm']) m hm
  rw [Finset.sum_eq_single_of_mem (s := Finset.range 3) j (Finset.mem_range.2 hj3) (by intro y _ hy; simp [hy]), hs] at h
  have h2 : ∀ i, ∑ y ∈ Finset.range 3, c.elem [i, y, 0] * (if [y, 0] = [j, 0] then (1 : ℝ) else 0) = c.elem [i, j, 0] := by
    intro i
    rw [Finset.sum_eq_single_of_mem j (Finset.mem_range.2 hj3) (by intro y _ hy; simp [hy])]
    simp
  simp only [h2, Real.norm_eq_abs, sq_abs] at h
  have h3 := hg j hj3 j hj3
  simp only [← pow_two, if_true] at h3
  rw [h3] at h
  norm_num at h
  interval_cases j <;> norm_num at h

theorem canoLoop_three (lib : Lib ℝ) (a b c : Tn ℝ) : ∃ a' b', canoLoop lib [a, b, c] = [a', b', (lib.svd c 1).vt] :=
  ⟨_, _, rfl⟩

/-- the last tensor of the product with a row -/
theorem mul_last {v r t : Tn ℝ} {k A M : ℕ} (hv : v.shape = [k, 3, 1]) (hr : r.shape = [M, A, k])
    (ht : t.shape = [A, 3, 1, 3]) :
    (mulLoop lib .down r [v] [t]) = [contractN (contract2 (contract v 0 r 2) 3 t 0) [0, 2] (indexCombine 1 1) [0, 1]] ∧
    (contractN (contract2 (contract v 0 r 2) 3 t 0) [0, 2] (indexCombine (𝕜 := ℝ) 1 1) [0, 1]).shape = [M, 3, 1] ∧
    ∀ i y, (contractN (contract2 (contract v 0 r 2) 3 t 0) [0, 2] (indexCombine 1 1) [0, 1]).elem [i, y, 0] =
      ∑ a ∈ Finset.range A, ∑ x ∈ Finset.range 3, (∑ q ∈ Finset.range k, v.elem [q, x, 0] * r.elem [i, a, q]) *
        t.elem [a, x, 0, y] := by
  obtain ⟨sh, v⟩ := v
  obtain rfl : sh = _ := hv
  obtain ⟨sh, r⟩ := r
  obtain rfl : sh = _ := hr
  obtain ⟨sh, t⟩ := t
  obtain rfl : sh = _ := ht
  refine ⟨rfl, rfl, fun i y => ?_⟩
  have : (contractN (contract2 (contract (⟨[k, 3, 1], v⟩ : Tn ℝ) 0 ⟨[M, A, k], r⟩ 2) 3 ⟨[A, 3, 1, 3], t⟩ 0) [0, 2]
      (indexCombine 1 1) [0, 1]).elem [i, y, 0] =
      ∑ a ∈ Finset.range 1, ∑ b ∈ Finset.range 1, (∑ a' ∈ Finset.range A, ∑ x ∈ Finset.range 3,
        (∑ q ∈ Finset.range k, v [q, x, a] * r [i, a', q]) * t [a', x, b, y]) *
        (indexCombine (𝕜 := ℝ) 1 1).elem [a, b, 0] := rfl
  rw [this]
  simp [indexCombine]

theorem mul_step {lib : Lib ℝ} (hf : Factorizations lib) {p : Pos} {r e t : Tn ℝ} {M A D X D' b Y : ℕ} (hr : r.shape = [M, A, D])
    (he : e.shape = [D, X, D']) (ht : FShape p t A X b Y) : ∃ k q r', r'.shape = [k, b, D'] ∧
      ∀ e' es ts, mulLoop lib p r (e :: e' :: es) (t :: ts) = q :: mulLoop lib p r' (e' :: es) ts := by
  obtain ⟨h3, _⟩ := mul_tmp2 he hr p ht
  obtain ⟨h5, _⟩ := transpose_1320 h3
  obtain ⟨k, _, h, _⟩ := hf.qr (transpose [1, 3, 2, 0] (contract2 (contract e 0 r 2) 3 t (prePost p))) 2
  rw [h5] at h
  exact ⟨k, _, _, h, fun _ _ _ => rfl⟩

theorem ghz_shp : Shp ghz 1 [3, 3, 3] := ⟨3, 3, [3, 3], rfl, rfl, 3, 3, [3], rfl, rfl, 3, 1, [], rfl, rfl, rfl, rfl⟩

theorem idMpo_shp : RShp .down idMpo 1 [3, 3, 3] [3, 3, 3] :=
  ⟨3, 1, 3, _, _, rfl, rfl, rfl, 3, 1, 3, _, _, rfl, rfl, rfl, 3, 1, 3, _, _, rfl, rfl, rfl, rfl, rfl, rfl⟩

/-- the last tensor of the first guess has no third component -/
theorem guess_zero {lib : Libs ℝ} (hf : ∀ te dmin dmax, Factorizations (lib te dmin dmax)) (hk : KeepsLargest (lib 0 1 2) 2)
    (te : ℝ) (dmin dmax : ℕ) (hp : ∀ t n, ∀ m < ((lib te dmin dmax).svd t n).s.dim, 0 < ((lib te dmin dmax).svd t n).s.val m) :
    ∃ g0 g1 g2 k, initGuess lib te dmin dmax .down ghz idMpo = [g0, g1, g2] ∧ g2.shape = [k, 3, 1] ∧
      ∀ m < k, g2.elem [m, 2, 0] = 0 := by
  obtain ⟨q0, q1, c, k, h1, h2, h3⟩ := centralize_ghz (hf 0 1 2)
  have hz := vt_zero (hf 0 1 2) hk h2 h3
  have hs := (canoLoop_spec' (hf 0 1 2) _ 1 _ (centralize_spec (hf 0 1 2) _ ghz rfl 1 _ ghz_shp).1).1
  rw [h1] at hs
  obtain ⟨a, b, hab⟩ := canoLoop_three (lib 0 1 2) q0 q1 c
  rw [hab] at hs
  have hvs := ((hf 0 1 2).shape c 1).2
  rw [h2] at hvs
  obtain ⟨X, D1, _, e, s1, X', D2, _, e', s2, _⟩ := hs
  obtain ⟨rfl, rfl⟩ : 3 = X ∧ [3, 3] = _ := by simpa using e
  obtain ⟨rfl, rfl⟩ : 3 = X' ∧ [3] = _ := by simpa using e'
  rename_i hvv
  obtain ⟨_, _, _, _, s3, _⟩ := hvv
  have hD : D2 = ((lib 0 1 2).svd c 1).s.dim := by
    rw [hvs] at s3
    simpa using (List.cons.inj s3).1.symm
  subst hD
  obtain ⟨k1, q, r1, t1, t2⟩ := mul_step (hf te dmin dmax) (p := .down) (r := transpose [2, 0, 1] (indexCombine (𝕜 := ℝ) 1 1))
    (t := ⟨[1, 3, 1, 3], fun x => if x.getD 1 0 = x.getD 3 0 then 1 else 0⟩) (M := 1) (A := 1) (b := 1) (Y := 3) rfl s1 rfl
  obtain ⟨k2, q', r2, t3, t4⟩ := mul_step (hf te dmin dmax) (p := .down) 
    (t := ⟨[1, 3, 1, 3], fun x => if x.getD 1 0 = x.getD 3 0 then 1 else 0⟩) (b := 1) (Y := 3) t1 s2 rfl
  obtain ⟨m1, m2, m3⟩ := mul_last (lib := lib te dmin dmax) hvs t3
    (t := ⟨[1, 3, 1, 3], fun x => if x.getD 1 0 = x.getD 3 0 then 1 else 0⟩) rfl
  generalize hlast : contractN (contract2 (contract ((lib 0 1 2).svd c 1).vt 0 r2 2) 3
    (⟨[1, 3, 1, 3], fun x => if x.getD 1 0 = x.getD 3 0 then 1 else 0⟩ : Tn ℝ) 0) [0, 2] (indexCombine 1 1) [0, 1] = last at m1 m2 m3
  have hg : ∃ g0 g1, initGuess lib te dmin dmax .down ghz idMpo = [g0, g1, ((lib te dmin dmax).svd last 1).vt] := by
    rw [initGuess, h1, hab]
    have : mulLoop (lib te dmin dmax) .down (transpose [2, 0, 1] (indexCombine (𝕜 := ℝ) 1 1)) [a, b, ((lib 0 1 2).svd c 1).vt] idMpo =
        [q, q', last] := by
      rw [idMpo]
      simp only [List.replicate]
      rw [t2, t4, m1]
    have e1 : ((idMpo.headD nil).shape.getD (prePost .down) 0) = 1 := rfl
    have e2 : (([a, b, ((lib 0 1 2).svd c 1).vt].headD nil).shape.getD 0 0) = 1 := by simp [s1]
    rw [e1, e2, this]
    exact ⟨_, _, rfl⟩
  obtain ⟨g0, g1, hg⟩ := hg
  have hls := ((hf te dmin dmax).shape last 1).2
  rw [m2] at hls
  refine ⟨g0, g1, _, _, hg, hls, fun m hm => ?_⟩
  have h := (hf te dmin dmax).ut last 1 m hm [2, 0] (by rw [m2]; exact .cons (by norm_num) (.cons (by norm_num) .nil))
  rw [m2] at h
  simp only [List.take_succ_cons, List.take_zero, sumCoors, conj_trivial, RCLike.ofReal_real_eq_id, id, List.cons_append,
    List.nil_append] at h
  have h0 : ∀ i, last.elem [i, 2, 0] = 0 := by
    intro i
    rw [m3]
    refine Finset.sum_eq_zero fun a _ => Finset.sum_eq_zero fun x _ => ?_
    by_cases hx : x = 2
    · subst hx
      rw [Finset.sum_eq_zero fun q hq => by rw [hz q (Finset.mem_range.1 hq), zero_mul], zero_mul]
    · simp [hx]
  simp only [h0, mul_zero, Finset.sum_const_zero] at h
  exact (mul_eq_zero.1 h.symm).resolve_left (hp last 1 m hm).ne'

theorem tv_zero : ∀ x < 3, ∀ x' < 3, ∀ y < 3, x ≠ y → tv .down ghz idMpo [x, x', y] 0 0 = 0 := by
  intro x hx x' hx' y hy h
  interval_cases x <;> interval_cases x' <;> interval_cases y <;>
    first
    | exact absurd rfl h
    | simp [tv, ghz, idMpo, fe, nextDim, Finset.sum_range_succ, List.replicate]

theorem tv_last : tv .down ghz idMpo [2, 2, 2] 0 0 = 1 := by
  simp [tv, ghz, idMpo, fe, nextDim, Finset.sum_range_succ, List.replicate]
  try norm_num

variable {md wd xd : ℕ → ℕ} {lib : Lib ℝ}

/-- the last tensor has no third component -/
def Lost (res : List (Tn ℝ)) : Prop := ∃ k, (res.getD 2 nil).shape = [k, 3, 1] ∧ ∀ m < k, (res.getD 2 nil).elem [m, 2, 0] = 0

theorem drop_two {res : List (Tn ℝ)} (h : res.length = 3) : res.drop 2 = [res.getD 2 nil] := by
  match res, h with
  | [a, b, c], _ => rfl

theorem take_one {res : List (Tn ℝ)} (h : res.length = 3) : (res.take 1).reverse = [res.getD 0 nil] := by
  match res, h with
  | [a, b, c], _ => rfl

theorem sweep_lost (h : Chain .down ghz idMpo [3, 3, 3] 3 md wd xd) (hf : Factorizations lib)
    (hp : ∀ t n, ∀ m < (lib.svd t n).s.dim, 0 < (lib.svd t n).s.val m) {st : State ℝ}
    (hst : Inv .down ghz idMpo [3, 3, 3] 3 md wd False 0 1 st) (hl : Lost st.res) :
    ∃ st', sweep2 lib .down ghz idMpo st = some st' ∧ Inv .down ghz idMpo [3, 3, 3] 3 md wd False 0 1 st' ∧ Lost st'.res := by
  have key : ∀ x < 3, ∀ x' < 3, ∀ y < 3, x ≠ y → cutv .down ghz idMpo md wd 0 [] [x, x', y] = 0 := fun x hx x' hx' y hy hne => by
    rw [cut_zero h, tv_zero x hx x' hx' y hy hne]
  -- the step to the right
  obtain ⟨s1, a1, a2⟩ := pushLeft_inv h hf (ex := False) False.elim (i := 0) (j := 0) rfl hst
  have hu : (s1.res.getD 0 nil).shape.getD 2 0 = (s1.res.getD 0 nil).shape.getD 2 0 → ∀ c, (s1.res.getD 0 nil).shape = [1, 3, c] →
      ∀ m < c, (s1.res.getD 0 nil).elem [0, 2, m] = 0 := by
    intro _
    obtain ⟨hlen, ⟨l, e1, C, hl', _⟩, ⟨r, rs, e2, ⟨C', hr', _⟩, _⟩⟩ := hst
    rw [pushLeft, e1, e2] at a1
    obtain rfl := (Option.some.inj a1).symm
    obtain ⟨m1, m2⟩ := two_elem h (i := 0) (by norm_num) hl' hr'
    dsimp only
    generalize hM : twoSite (leftHalf .down l (ghz.getD 0 nil) (idMpo.getD 0 nil))
      (rightHalf .down (ghz.getD (0 + 1) nil) (idMpo.getD (0 + 1) nil) r) = M at m1 m2
    obtain ⟨d1, d2, _, _, d5, _⟩ := svd4 hf m1 rfl
    have hC : C = 1 := hl'.chain.1
    subst hC
    rw [show (st.res.set 0 ((lib.svd M 2).u)).getD 0 nil = (lib.svd M 2).u by
      rw [List.getD_eq_getElem _ _ (by simp [hlen])]; simp]
    intro c hc m hm
    have hcd : c = (lib.svd M 2).s.dim := by
      rw [d1] at hc
      simpa using (List.cons.inj (List.cons.inj (List.cons.inj hc).2).2).1.symm
    rw [hcd] at hm
    have h5 := d5 m hm 0 (by norm_num) 2 (by simp)
    have h0 : ∀ x' < 3, ∀ c' < C', M.elem [0, 2, c', x'] = 0 := by
      intro x' hx' c' hc'
      rw [m2 0 (by norm_num) 2 c' hc' x']
      obtain ⟨kk, k1, k2⟩ := hl
      have hch := hr'.chain
      rw [drop_two hlen] at hch
      obtain ⟨_, _, _, _, hsh, _⟩ := hch
      have hCk : C' = kk := by rw [k1] at hsh; simpa using (List.cons.inj hsh).1.symm
      simp only [List.take_zero, List.reverse_nil, sum_box_nil, conj_trivial]
      refine mul_eq_zero_of_right _ (Finset.sum_eq_zero fun ys hys => ?_)
      obtain ⟨y, ys, rfl, hy, hys⟩ := mem_box_cons.1 hys
      obtain rfl := mem_box_nil.1 hys
      by_cases hy2 : y = 2
      · subst hy2
        rw [drop_two hlen]
        simp only [mv, k1, List.getD_cons_succ, List.getD_cons_zero, Finset.sum_range_one, mul_one]
        rw [k2 c' (hCk ▸ hc'), zero_mul]
      · rw [key 2 (by norm_num) x' hx' y hy (Ne.symm hy2), mul_zero]
    rw [Finset.sum_eq_zero fun x hx => Finset.sum_eq_zero fun y hy => by
      rw [h0 x (by simpa using hx) y (Finset.mem_range.1 hy), zero_mul]] at h5
    exact (mul_eq_zero.1 h5.symm).resolve_right (by simpa using (hp M 2 m hm).ne')
  replace hu := hu rfl
  -- the step to the left
  obtain ⟨s2, b1, b2⟩ := pushRight_inv h hf (ex := False) False.elim (i := 0) (j := 0) rfl a2
  refine ⟨s2, ?_, b2, ?_⟩
  · change (((upTo (pushLeft lib .down ghz idMpo) 1 st)).bind (downFrom (pushRight lib .down ghz idMpo) 1)) = _
    simp only [upTo, Option.bind_some, a1, downFrom]
    rw [show (0 + 1 : ℕ) = 1 from rfl] at b1
    rw [b1]
    rfl
  · obtain ⟨hlen, ⟨l, ls, e1, ⟨C, hl', _⟩, _⟩, ⟨r, e2, ⟨C', hr', _⟩⟩⟩ := a2
    rw [pushRight, e1, e2] at b1
    obtain rfl := (Option.some.inj b1).symm
    obtain ⟨m1, m2⟩ := two_elem h (i := 0 + 1) (by norm_num) hl' hr'
    dsimp only
    generalize hM : twoSite (leftHalf .down l (ghz.getD (0 + 1) nil) (idMpo.getD (0 + 1) nil))
      (rightHalf .down (ghz.getD (0 + 1 + 1) nil) (idMpo.getD (0 + 1 + 1) nil) r) = M at m1 m2
    obtain ⟨d1, d2, _⟩ := svd4 hf m1 rfl
    have hC' : C' = 1 := by
      have hch := hr'.chain
      rw [show List.drop 3 s1.res = [] from List.drop_eq_nil_of_le (by omega)] at hch
      exact hch.1
    subst hC'
    obtain ⟨t1, t2⟩ := transpose_021 d2
    have hget : (s1.res.set (0 + 1 + 1) (transpose [0, 2, 1] (lib.svd M 2).vt)).getD 2 nil = transpose [0, 2, 1] (lib.svd M 2).vt := by
      rw [List.getD_eq_getElem _ _ (by simp [hlen])]; simp
    refine ⟨(lib.svd M 2).s.dim, by rw [hget, t1]; rfl, fun m hm => ?_⟩
    rw [hget, t2]
    have h5 := hf.ut M 2 m hm [0, 2] (by rw [m1]; exact .cons (by norm_num) (.cons (by simp) .nil))
    have h0 : ∀ c < C, ∀ x < 3, M.elem [c, x, 0, 2] = 0 := by
      intro c hc x hx
      rw [m2 c hc x 0 (by norm_num) 2]
      have hch := hl'.chain
      rw [show 0 + 1 = 1 from rfl, take_one hlen] at hch
      obtain ⟨dd, aa, ds', e, hsh, ha, hds⟩ := hch
      obtain ⟨rfl, -⟩ : 3 = dd ∧ _ := List.cons.inj e
      subst ha
      have hz := hu C hsh
      simp only [conj_trivial]
      refine Finset.sum_eq_zero fun ys hys => ?_
      obtain ⟨y, ys, rfl, hy, hys⟩ := mem_box_cons.1 hys
      obtain rfl := mem_box_nil.1 hys
      by_cases hy2 : y = 2
      · subst hy2
        rw [show 0 + 1 = 1 from rfl, take_one hlen]
        simp only [mvr, hsh, List.getD_cons_zero, Finset.sum_range_one]
        rw [hz c hc]; simp
      · refine mul_eq_zero_of_right _ ?_
        refine Finset.sum_eq_zero fun ys2 hys2 => ?_
        obtain rfl := mem_box_nil.1 hys2
        rw [cut_move h (k := 0) (by norm_num), key y hy x hx 2 (by norm_num) hy2, mul_zero]
    rw [m1] at h5
    simp only [List.take_succ_cons, List.take_zero, sumCoors, List.cons_append, List.nil_append] at h5
    rw [Finset.sum_eq_zero fun x hx => Finset.sum_eq_zero fun y hy => by
      rw [h0 x (Finset.mem_range.1 hx) y (by simpa using hy), mul_zero]] at h5
    exact (mul_eq_zero.1 h5.symm).resolve_left (by simpa using (hp M 2 m hm).ne')

theorem iterate_lost (h : Chain .down ghz idMpo [3, 3, 3] 3 md wd xd) (hf : Factorizations lib)
    (hp : ∀ t n, ∀ m < (lib.svd t n).s.dim, 0 < (lib.svd t n).s.val m) (tol : ℝ) (n : ℕ) : ∀ (last : Option Peps.Diag) (st : State ℝ),
    Inv .down ghz idMpo [3, 3, 3] 3 md wd False 0 1 st → Lost st.res →
    ∃ st', iterate2 lib .down ghz idMpo tol n last st = some st' ∧ Inv .down ghz idMpo [3, 3, 3] 3 md wd False 0 1 st' ∧ Lost st'.res := by
  induction n with
  | zero => exact fun _ st h1 h2 => ⟨st, rfl, h1, h2⟩
  | succ n ih =>
    intro last st h1 h2
    obtain ⟨s1, a1, a2, a3⟩ := sweep_lost h hf hp h1 h2
    rw [iterate2, a1, Option.bind_some]
    by_cases hc : converged2 tol last s1.s
    · rw [if_pos hc]; exact ⟨s1, rfl, a2, a3⟩
    · rw [if_neg hc]; exact ih _ s1 a2 a3

/-- the result of the two-site scheme has no third component -/
theorem variational2_lost {lib : Libs ℝ} (hf : ∀ te dmin dmax, Factorizations (lib te dmin dmax)) (hk : KeepsLargest (lib 0 1 2) 2)
    (te : ℝ) (dmin dmax : ℕ) (hp : ∀ t n, ∀ m < ((lib te dmin dmax).svd t n).s.dim, 0 < ((lib te dmin dmax).svd t n).s.val m)
    (tol : ℝ) (maxIter : ℕ) : ∃ res, variational2 lib te dmin dmax tol maxIter .down ghz idMpo = some res ∧
      mv res [2, 2, 2] 0 = 0 := by
  obtain ⟨md, wd, hc⟩ := chain_of ghz_shp idMpo_shp
  obtain ⟨g0, g1, g2, k, e, e1, e2⟩ := guess_zero hf hk te dmin dmax hp
  obtain ⟨i1, i2, _⟩ := initGuess_spec hf te dmin dmax ghz_shp idMpo_shp (by simp [ghz])
  obtain ⟨s0, a1, a2⟩ := start_inv (ex := False) hc (by simp [ghz]) i1 i2 False.elim
  have hlost : Lost s0.res := by
    have : s0.res = (initGuess lib te dmin dmax .down ghz idMpo).map dag := by
      rw [start] at a1
      obtain ⟨r, _, rfl⟩ := Option.map_eq_some_iff.1 a1
      rfl
    rw [this, e]
    refine ⟨k, e1, fun m hm => ?_⟩
    change (starRingEnd ℝ) (g2.elem [m, 2, 0]) = 0
    rw [e2 m hm, map_zero]
  obtain ⟨s1, b1, b2, b3⟩ := iterate_lost hc (hf te dmin dmax) hp tol maxIter none s0 a2 hlost
  obtain ⟨s2, tmp3, c1, ⟨a, as, B, c2, c3, c4, _⟩, _⟩ := final2_inv hc (by simp [ghz]) (hf te dmin dmax) False.elim b2
  refine ⟨finalize s2.res, ?_, ?_⟩
  · rw [variational2, a1]
    simp only [Option.bind_eq_bind, Option.bind_some, b1, c1]
    rfl
  · have hlost : Lost s2.res := by
      obtain ⟨hlen, ⟨l, e1, _⟩, ⟨r, rs, e2, _⟩⟩ := b2
      rw [final2, e1, e2] at c1
      obtain ⟨rfl, -⟩ := Prod.mk.inj (Option.some.inj c1)
      obtain ⟨k, k1, k2⟩ := b3
      have hget : ∀ x y : Tn ℝ, ((s1.res.set 0 x).set 1 y).getD 2 nil = s1.res.getD 2 nil := by
        intro x y
        match s1.res, hlen with
        | [a, b, c], _ => rfl
      exact ⟨k, by rw [hget, k1], by rw [hget]; exact k2⟩
    obtain ⟨k, k1, k2⟩ := hlost
    rw [c2] at k1 k2 ⊢
    have c5 : Shp as B [3, 3] := c4
    match as, c5, k1, k2 with
    | [], c5, _, _ => exact absurd c5.2 (by simp)
    | [_], ⟨_, _, _, f1, _, _, f2⟩, _, _ => subst f2; exact absurd f1 (by simp)
    | r1 :: r2 :: rest, ⟨d, b, ds', f1, f2, d', b', ds'', f3, f4, _⟩, k1, k2 =>
      change r2.shape = _ at k1
      have hb : b = k := by rw [k1] at f4; simpa using (List.cons.inj f4).1.symm
      subst hb
      change ∀ m < b, r2.elem [m, 2, 0] = 0 at k2
      simp only [finalize, List.map_cons]
      change ∑ q ∈ Finset.range (a.shape.getD 2 0), (dag a).elem [0, 2, q] * ∑ m ∈ Finset.range (r1.shape.getD 2 0), (dag r1).elem [q, 2, m] *
        ∑ j ∈ Finset.range (r2.shape.getD 2 0), (dag r2).elem [m, 2, j] * _ = 0
      refine Finset.sum_eq_zero fun q _ => mul_eq_zero_of_right _ (Finset.sum_eq_zero fun m hm => mul_eq_zero_of_right _
        (Finset.sum_eq_zero fun j hj => mul_eq_zero_of_left ?_ _))
      rw [f2] at hm
      rw [k1] at hj
      obtain rfl : j = 0 := by simpa using hj
      change (starRingEnd ℝ) (r2.elem [m, 2, 0]) = 0
      rw [k2 m (Finset.mem_range.1 hm), map_zero]

end

end QLPeps.BmpsVar.Loss
