import Verif.Lemmas.BmpsCanoCalls

/-! # Canonical forms of a boundary MPS: marks which do not tell the truth -/

namespace QLPeps.BmpsCano

open QLPeps.Bmps QLPeps.Box QLPeps.BmpsCano.Spec
open QLPeps.BmpsVar (amp_eq isMps_iff sumCoors_box)
open QLPeps.Peps (Tn Lib contractN transpose norm2 sumCoors)
open QLPeps.BmpsVar.Spec (Factorizations Keeps amp normSq IsMps overlap)

noncomputable section

variable {𝕜 : Type*} [RCLike 𝕜] {fac : Facs 𝕜} {ds : List ℕ}

theorem dropWhile_nil {α : Type*} {p : α → Bool} (l : List α) (h : ∀ x ∈ l, p x = true) : l.dropWhile p = [] := by
  induction l with
  | nil => rfl
  | cons a l ih => rw [List.dropWhile_cons_of_pos (h a (by simp)), ih fun x hx => h x (by simp [hx])]

theorem leftCano_done {o : Obj 𝕜} {stop : ℕ} (h : ∀ j ≤ stop, o.cano.getD j .none = .left) : leftCano fac stop o = some o := by
  rw [leftCano, dropWhile_nil _ fun i hi => decide_eq_true (h i (by have := List.mem_range.1 hi; omega))]
  rfl

theorem rightCano_done {o : Obj 𝕜} {stop : ℕ} (hn : stop < o.tens.length)
    (h : ∀ j, stop ≤ j → j < o.tens.length → o.cano.getD j .none = .right) : rightCano fac stop o = some o := by
  rw [rightCano, if_pos hn, dropWhile_nil _ fun i hi => ?_]
  · rfl
  · obtain ⟨k, hk, rfl⟩ := List.mem_map.1 hi
    have := List.mem_range.1 hk
    exact decide_eq_true (h (o.tens.length - 1 - k) (by omega) (by omega))

theorem truncate_spec (hg : Good fac) {o : Obj 𝕜} (hs : Shp o.tens 1 ds) (hc : o.cano.length = o.tens.length) {i : ℕ}
    (hi : i + 1 < o.tens.length) {te : ℝ} {dmin dmax : ℕ} (hk : ∀ t, Keeps (fac.lib te dmin dmax) t 1) :
    ∃ o', truncate fac te dmin dmax (i + 1) o = some o' ∧ Eqv ds o o' ∧ o'.cano = o.cano ∧ RightIso (o'.tens.getD (i + 1) nil) := by
  obtain ⟨L, X, M, h⟩ := shape_at hs hi
  have st := step_of hs hc hi .none .none (same_svd (hg.lib te dmin dmax) _ _ (hk (o.tens.getD (i + 1) nil)))
  refine ⟨⟨_, o.cano, o.center⟩, by rw [truncate]; simp only [get_of (show i < o.tens.length by omega), get_of hi], ⟨st.shp, st.len, ?_, rfl, st.val⟩, rfl, ?_⟩
  · exact hc
  · rw [getD_set_pair _ _ _ _ _ _ hi, if_neg (by omega), if_pos rfl]
    exact svd_rightIso (hg.lib te dmin dmax) h

/-! ## isometries with small legs -/

theorem small_iso {q : ℕ → 𝕜} {B : ℕ} (h : ∀ b < B, ∀ b' < B, q b * (starRingEnd 𝕜) (q b') = if b = b' then 1 else 0) : B ≤ 1 := by
  by_contra hB
  have h00 := h 0 (by omega) 0 (by omega)
  have h11 := h 1 (by omega) 1 (by omega)
  have h01 := h 0 (by omega) 1 (by omega)
  simp only [if_true, zero_ne_one, if_false] at h00 h11 h01
  rcases mul_eq_zero.1 h01 with h | h
  · rw [h] at h00; simp at h00
  · rw [h] at h11; simp at h11

theorem small_sum {q t : ℕ → 𝕜} {B : ℕ} (h : ∀ b < B, ∀ b' < B, q b * (starRingEnd 𝕜) (q b') = if b = b' then 1 else 0)
    (h' : ∀ b < B, ∀ b' < B, t b * (starRingEnd 𝕜) (t b') = if b = b' then 1 else 0) : ‖∑ b ∈ Finset.range B, q b * t b‖ ≤ 1 := by
  have hn : ∀ z : 𝕜, z * (starRingEnd 𝕜) z = 1 → ‖z‖ = 1 := fun z hz => by
    rw [RCLike.mul_conj] at hz
    have : (‖z‖ ^ 2 : ℝ) = 1 := by exact_mod_cast hz
    nlinarith [norm_nonneg z]
  have hB := small_iso h
  interval_cases B
  · simp
  · have h1 := h 0 (by omega) 0 (by omega)
    have h2 := h' 0 (by omega) 0 (by omega)
    rw [if_pos rfl] at h1 h2
    simp [hn _ h1, hn _ h2]

/-- two tensors with legs of dimension one and the elements two and one -/
def two (𝕜 : Type*) [RCLike 𝕜] : Obj 𝕜 := unmarked [⟨[1, 1, 1], fun _ => 2⟩, ⟨[1, 1, 1], fun _ => 1⟩]

theorem two_shp : Shp (two 𝕜).tens 1 [1, 1] := ⟨1, 1, [1], rfl, rfl, 1, 1, [], rfl, rfl, rfl, rfl⟩

theorem two_val : mv (two 𝕜).tens [0, 0] 0 = 2 := by simp [two, unmarked, mv]

/-- an isometric tensor on both sides of a bond leaves no room for the amplitude -/
theorem two_not {a b : Tn 𝕜} (hs : Shp [a, b] 1 [1, 1]) (hv : ‖mv [a, b] [0, 0] 0‖ = 2) : ¬(LeftIso a ∧ RightIso b) := by
  rintro ⟨⟨A, X, B, h1, h2⟩, ⟨A', X', B', h3, h4⟩⟩
  obtain ⟨d, c, _, e1, e2, d', c', _, e3, e4, e5, e6⟩ := hs
  obtain ⟨rfl, rfl⟩ := List.cons.inj e1
  obtain ⟨rfl, rfl⟩ := List.cons.inj e3
  subst e5
  obtain ⟨rfl, rfl, rfl⟩ : 1 = A ∧ 1 = X ∧ c = B := by simpa using e2.symm.trans h1
  obtain ⟨rfl, rfl, rfl⟩ : c = A' ∧ 1 = X' ∧ 1 = B' := by simpa using e4.symm.trans h3
  simp only [Finset.range_one, Finset.sum_singleton] at h2 h4
  have := small_sum (q := fun b => a.elem [0, 0, b]) (t := fun x => b.elem [x, 0, 0]) (B := c)
    (fun x hx y hy => by rw [mul_comm, h2 y hy x hx]; simp only [eq_comm]) (fun x hx y hy => h4 x hx y hy)
  simp only [mv, e2, e4, List.getD_cons_succ, List.getD_cons_zero, Finset.range_one, Finset.sum_singleton, mul_one] at hv
  rw [hv] at this
  norm_num at this

/-! ## flat spectra -/

theorem flat_svd {lib : Lib 𝕜} (hf : Factorizations lib) {t : Tn 𝕜} (hk : Keeps lib t 1) {D Y R : ℕ} {g : ℝ} (hg : g ≠ 0) (ht : t.shape = [D, Y, R])
    (h : ∀ a < D, ∀ a' < D, ∑ y ∈ box [Y, R], t.elem (a :: y) * (starRingEnd 𝕜) (t.elem (a' :: y)) = if a = a' then (g : 𝕜) else 0) :
    (lib.svd t 1).s.dim = D ∧ ∀ m < D, (lib.svd t 1).s.val m * (lib.svd t 1).s.val m = g := by
  have huu := hf.uu t 1
  have hvv := hf.vv t 1
  have hut := hf.ut t 1
  rw [Keeps] at hk
  simp only [ht, List.take_succ_cons, List.take_zero, List.drop_succ_cons, List.drop_zero, sumCoors_box, sum_box_cons (d := D), sum_box_nil,
    List.cons_append, List.nil_append] at huu hvv hut hk
  generalize lib.svd t 1 = d at *
  have hut' : ∀ m < d.s.dim, ∀ y ∈ box [Y, R], ∑ a ∈ Finset.range D, (starRingEnd 𝕜) (d.u.elem [a, m]) * t.elem (a :: y) =
      (d.s.val m : 𝕜) * d.vt.elem (m :: y) := fun m hm y hy => hut m hm y (mem_box.1 hy)
  have hval : ∀ m < d.s.dim, d.s.val m * d.s.val m = g := by
    intro m hm
    apply RCLike.ofReal_injective (K := 𝕜)
    push_cast
    calc (d.s.val m : 𝕜) * d.s.val m = ∑ y ∈ box [Y, R], ((d.s.val m : 𝕜) * d.vt.elem (m :: y)) * (starRingEnd 𝕜) ((d.s.val m : 𝕜) * d.vt.elem (m :: y)) := by
          have := hvv m hm m hm
          rw [if_pos rfl] at this
          rw [← mul_one ((d.s.val m : 𝕜) * d.s.val m), ← this, Finset.mul_sum]
          refine Finset.sum_congr rfl fun y _ => ?_
          rw [map_mul, RCLike.conj_ofReal]; ring
      _ = ∑ y ∈ box [Y, R], (∑ a ∈ Finset.range D, (starRingEnd 𝕜) (d.u.elem [a, m]) * t.elem (a :: y)) *
            (starRingEnd 𝕜) (∑ a ∈ Finset.range D, (starRingEnd 𝕜) (d.u.elem [a, m]) * t.elem (a :: y)) :=
          Finset.sum_congr rfl fun y hy => by rw [hut' m hm y hy]
      _ = ∑ a ∈ Finset.range D, ∑ a' ∈ Finset.range D, (starRingEnd 𝕜) (d.u.elem [a, m]) * d.u.elem [a', m] *
            ∑ y ∈ box [Y, R], t.elem (a :: y) * (starRingEnd 𝕜) (t.elem (a' :: y)) := by
          simp only [map_sum, map_mul, RCLike.conj_conj, Finset.sum_mul_sum]
          rw [Finset.sum_comm]
          refine Finset.sum_congr rfl fun a _ => ?_
          rw [Finset.sum_comm]
          refine Finset.sum_congr rfl fun a' _ => ?_
          rw [Finset.mul_sum]
          exact Finset.sum_congr rfl fun y _ => by ring
      _ = ∑ a ∈ Finset.range D, (starRingEnd 𝕜) (d.u.elem [a, m]) * d.u.elem [a, m] * g := by
          refine Finset.sum_congr rfl fun a ha => ?_
          rw [Finset.sum_eq_single a]
          · rw [h a (Finset.mem_range.1 ha) a (Finset.mem_range.1 ha), if_pos rfl]
          · intro a' ha' hne
            rw [h a (Finset.mem_range.1 ha) a' (Finset.mem_range.1 ha'), if_neg (Ne.symm hne), mul_zero]
          · intro hn; exact absurd ha hn
      _ = g := by
          have := huu m hm m hm
          rw [if_pos rfl] at this
          rw [← Finset.sum_mul, this, one_mul]
  have hdim : (d.s.dim : 𝕜) * g = (D : 𝕜) * g := by
    calc (d.s.dim : 𝕜) * g = ∑ m ∈ Finset.range d.s.dim, (g : 𝕜) := by rw [Finset.sum_const, Finset.card_range, nsmul_eq_mul]
      _ = ∑ m ∈ Finset.range d.s.dim, ∑ y ∈ box [Y, R], (d.s.val m : 𝕜) * d.vt.elem (m :: y) *
            (starRingEnd 𝕜) (∑ a ∈ Finset.range D, (starRingEnd 𝕜) (d.u.elem [a, m]) * t.elem (a :: y)) := by
          refine Finset.sum_congr rfl fun m hm => ?_
          have hm := Finset.mem_range.1 hm
          have := hvv m hm m hm
          rw [if_pos rfl] at this
          rw [← hval m hm]
          push_cast
          rw [← mul_one ((d.s.val m : 𝕜) * d.s.val m), ← this, Finset.mul_sum]
          refine Finset.sum_congr rfl fun y hy => ?_
          rw [hut' m hm y hy, map_mul, RCLike.conj_ofReal]; ring
      _ = ∑ a ∈ Finset.range D, ∑ y ∈ box [Y, R], (∑ m ∈ Finset.range d.s.dim, d.u.elem [a, m] * (d.s.val m : 𝕜) * d.vt.elem (m :: y)) *
            (starRingEnd 𝕜) (t.elem (a :: y)) := by
          simp only [map_sum, map_mul, RCLike.conj_conj, Finset.mul_sum, Finset.sum_mul]
          rw [Finset.sum_comm, Finset.sum_comm (s := Finset.range D)]
          refine Finset.sum_congr rfl fun y _ => ?_
          rw [Finset.sum_comm]
          exact Finset.sum_congr rfl fun a _ => Finset.sum_congr rfl fun m _ => by ring
      _ = ∑ a ∈ Finset.range D, (g : 𝕜) := by
          refine Finset.sum_congr rfl fun a ha => ?_
          have ha := Finset.mem_range.1 ha
          have := h a ha a ha
          rw [if_pos rfl] at this
          rw [← this]
          refine Finset.sum_congr rfl fun y hy => ?_
          have := hk [a] y (.cons ha .nil) (mem_box.1 hy)
          simp only [List.cons_append, List.nil_append] at this
          rw [this]
      _ = (D : 𝕜) * g := by rw [Finset.sum_const, Finset.card_range, nsmul_eq_mul]
  have hd : d.s.dim = D := by
    have := mul_right_cancel₀ (RCLike.ofReal_ne_zero.2 hg) hdim
    exact_mod_cast this
  exact ⟨hd, fun m hm => hval m (by omega)⟩

/-- the entropy of a flat spectrum -/
theorem flat_entropy {s : Peps.Diag} {D n : ℕ} (hD : 0 < D) (hn : 2 ≤ n) (hd : s.dim = D) (hs : ∀ m < D, s.val m * s.val m = 1 / D) :
    entropyOf n s = some (Real.log D) := by
  have hD' : (D : ℝ) ≠ 0 := by positivity
  have hn' : (n : ℝ) - 1 ≠ 0 := by
    have : (2 : ℝ) ≤ n := by exact_mod_cast hn
    linarith
  rw [entropyOf, if_neg (by omega), if_neg (by omega)]
  congr 1
  rw [hd]
  have : ∑ k ∈ Finset.range D, s.val k * s.val k * ∏ _j ∈ Finset.range (n - 1), s.val k * s.val k = (1 / (D : ℝ)) ^ (n - 1) := by
    rw [Finset.sum_congr rfl fun k hk => show _ = 1 / (D : ℝ) * (1 / (D : ℝ)) ^ (n - 1) by
      rw [hs k (Finset.mem_range.1 hk), Finset.prod_const, Finset.card_range]]
    rw [Finset.sum_const, Finset.card_range, nsmul_eq_mul]
    field_simp
  dsimp only
  rw [this, Real.log_pow, Real.log_div one_ne_zero hD', Real.log_one, Nat.cast_sub (by omega)]
  push_cast
  field_simp
  ring

theorem entropies_def (hg : Good fac) (n k : ℕ) : ∀ o : Obj 𝕜, Shp o.tens 1 ds → o.cano.length = o.tens.length →
    k < o.tens.length → ∃ o' r, entropies fac n k o = some (o', r) ∧ r.length = k := by
  induction k with
  | zero => exact fun o _ _ _ => ⟨o, [], rfl, rfl⟩
  | succ k ih =>
    intro o hs hc hk
    obtain ⟨o1, a1, a2, -⟩ := svdTen_spec hg hs hc hk
    obtain ⟨o2, r, b1, b2⟩ := ih o1 a2.shp (a2.clen.trans a2.len.symm) (by have := a2.len; omega)
    exact ⟨o2, _, by rw [entropies, a1, Option.bind_some, b1, Option.map_some], by simp [b2]⟩

/-- the entropy of the last bond, if the marks say that all tensors but the last one are isometric from the left and the
last one is isometric from the right -/
theorem stale_entropy (hg : Good fac) {n : ℕ} (hn : 2 ≤ n) {o : Obj 𝕜} (hs : Shp o.tens 1 ds) (hc : o.cano.length = o.tens.length)
    {N : ℕ} (hN : o.tens.length = N + 2) (hm : ∀ j ≤ N, o.cano.getD j .none = .left) (hi : RightIso (o.tens.getD (N + 1) nil))
    (h0 : ∃ xs ∈ box ds, mv o.tens xs 0 ≠ 0) :
    ∃ o' r, ∃ D : ℕ, entropy fac n o = some (o', r) ∧ r.length = N + 1 ∧ r.getD N none = some (Real.log D) := by
  obtain ⟨b1, b2⟩ := split_at (es := o.tens) (i := N + 1) (by omega)
  rw [List.drop_of_length_le (by omega)] at b1
  have hcen : centralize fac (N + 1) o = some { o with center := ((N + 1 : ℕ) : ℤ) } := by
    rw [centralize, if_pos (by omega), show N + 1 - 1 = N by omega, leftCano_done hm, Option.bind_some, if_neg (by omega)]
    rfl
  generalize hpre : o.tens.take (N + 1) = pre at *
  generalize ht : o.tens.getD (N + 1) nil = t at *
  obtain ⟨D, Y, R, t1, t2⟩ := hi
  have hs' : Shp (pre ++ [t]) 1 ds := b1 ▸ hs
  obtain ⟨L, p1, Y', R', ds2, e0, e1, e2⟩ := shp_split _ pre 1 ds hs'
  obtain ⟨rfl, rfl, rfl⟩ : D = L ∧ Y = Y' ∧ R = R' := by simpa using t1.symm.trans e1
  have hD : 0 < D := by
    by_contra hD
    obtain rfl : D = 0 := by omega
    obtain ⟨xs, x1, x2⟩ := h0
    refine x2 ?_
    have hx1 : xs.take pre.length ∈ box (ds.take pre.length) := mem_box.2 (List.forall₂_take _ (mem_box.1 x1))
    rw [b1, ← List.take_append_drop pre.length xs, mv_split pre 1 _ p1 _ hx1 _ 0 (by omega)]
    simp
  have hsum : sumCoors t.shape (fun x => ‖t.elem x‖ ^ 2) = D := by
    rw [t1, sumCoors_box, sum_box_cons]
    rw [Finset.sum_congr rfl fun a ha => show _ = (1 : ℝ) from ?_]
    · simp
    · apply RCLike.ofReal_injective (K := 𝕜)
      push_cast
      have := t2 a (Finset.mem_range.1 ha) a (Finset.mem_range.1 ha)
      rw [if_pos rfl] at this
      rw [← this]
      simp only [sum_box_cons, sum_box_nil]
      exact Finset.sum_congr rfl fun _ _ => Finset.sum_congr rfl fun _ _ => by rw [RCLike.mul_conj]
  have hD0 : (0 : ℝ) < D := by exact_mod_cast hD
  have hnorm : norm2 t = Real.sqrt D := by rw [norm2, hsum]
  have hne : norm2 t ≠ 0 := by rw [hnorm]; positivity
  obtain ⟨m1, m2⟩ := mv_scale_last t ⟨t.shape, fun x => t.elem x / ((norm2 t : ℝ) : 𝕜)⟩ ((norm2 t : ℝ) : 𝕜) rfl (fun _ => rfl)
    pre 1 ds hs'
  set o1 : Obj 𝕜 := { o with center := ((N + 1 : ℕ) : ℤ) } with ho1
  have hlen : (normalizeLast o1).tens = pre ++ [⟨t.shape, fun x => t.elem x / ((norm2 t : ℝ) : 𝕜)⟩] := by
    simp only [normalizeLast, ho1, hN]
    rw [show N + 2 - 1 = N + 1 by omega, b1, ← b2, modify_last]
  set t' : Tn 𝕜 := ⟨t.shape, fun x => t.elem x / ((norm2 t : ℝ) : 𝕜)⟩ with ht'
  have hget : (normalizeLast o1).tens.getD (N + 1) nil = t' := by
    rw [hlen, List.getD_append_right _ _ _ _ (by omega), b2]; simp
  have hl2 : (normalizeLast o1).tens.length = N + 2 := by rw [hlen]; simp [b2]
  have hflat := flat_svd (lib := fac.full) (t := t') hg.full (hg.keeps t') (g := 1 / D) (by positivity) t1 (fun a ha a' ha' => by
    have h := t2 a ha a' ha'
    calc _ = (∑ x ∈ Finset.range Y, ∑ b ∈ Finset.range R, t.elem [a, x, b] * (starRingEnd 𝕜) (t.elem [a', x, b])) / ((norm2 t * norm2 t : ℝ) : 𝕜) := by
          simp only [ht', sum_box_cons, sum_box_nil, Finset.sum_div]
          refine Finset.sum_congr rfl fun x _ => Finset.sum_congr rfl fun b _ => ?_
          rw [map_div₀, RCLike.conj_ofReal]
          push_cast
          rw [div_mul_div_comm]
      _ = _ := by
          rw [h, hnorm, Real.mul_self_sqrt hD0.le]
          split_ifs
          · push_cast; rfl
          · simp)
  obtain ⟨o2, a1, a2, -⟩ := svdTen_spec hg (o := normalizeLast o1) (ds := ds) (by rw [hlen]; exact m1) (by rw [hl2, ← hN]; exact hc) (i := N) (by omega)
  obtain ⟨o3, r, c1, c2⟩ := entropies_def hg n N o2 a2.shp (a2.clen.trans a2.len.symm) (by have := a2.len; omega)
  refine ⟨o3, r ++ [entropyOf n (fac.full.svd t' 1).s], D, ?_, by simp [c2], ?_⟩
  · rw [entropy, if_neg (by intro h; rw [h] at hN; simp at hN), hN, show N + 2 - 1 = N + 1 by omega, hcen, Option.bind_some]
    have hno : ¬ norm2 (o1.tens.getD (o1.tens.length - 1) nil) = 0 := by
      have : o1.tens.getD (o1.tens.length - 1) nil = t := by
        rw [← ht]
        change o.tens.getD (o.tens.length - 1) nil = _
        rw [hN]
        rfl
      rw [this]; exact hne
    rw [if_neg hno]
    have : o1.tens.length - 1 = N + 1 := by change o.tens.length - 1 = _; omega
    rw [this, entropies, a1, Option.bind_some, c1, Option.map_some, hget]
  · rw [List.getD_append_right _ _ _ _ (by omega), c2]
    simp only [Nat.sub_self, List.getD_cons_zero]
    exact flat_entropy hD hn hflat.1 hflat.2

end

end QLPeps.BmpsCano
