import Verif.Lemmas.BmpsCanoAfter
import Verif.Lemmas.EckartYoung
import Verif.Spec.BmpsSvdErr

/-! # Truncating a bond of a boundary MPS in canonical form -/

namespace QLPeps.BmpsCano

open QLPeps.Bmps QLPeps.Box QLPeps.BmpsCano.Spec
open QLPeps.BmpsVar (amp_eq isMps_iff sumCoors_box)
open QLPeps.Peps (Tn Lib contractN transpose norm2 sumCoors)
open QLPeps.BmpsVar.Spec (Factorizations Keeps amp normSq IsMps overlap AtMost Discards)

noncomputable section

variable {𝕜 : Type*} [RCLike 𝕜]

/-- orthonormal functions preserve inner products -/
theorem pars {α : Type*} {S : Finset α} {L : ℕ} {F : ℕ → α → 𝕜}
    (ho : ∀ l < L, ∀ l' < L, ∑ z ∈ S, (starRingEnd 𝕜) (F l z) * F l' z = if l = l' then 1 else 0) (c c' : ℕ → 𝕜) :
    ∑ z ∈ S, (starRingEnd 𝕜) (∑ l ∈ Finset.range L, F l z * c l) * ∑ l ∈ Finset.range L, F l z * c' l =
      ∑ l ∈ Finset.range L, (starRingEnd 𝕜) (c l) * c' l := by
  simp only [map_sum, map_mul, Finset.sum_mul_sum]
  rw [Finset.sum_comm]
  refine Finset.sum_congr rfl fun l hl => ?_
  rw [Finset.sum_comm, Finset.sum_eq_single l]
  · have := ho l (Finset.mem_range.1 hl) l (Finset.mem_range.1 hl)
    rw [if_pos rfl] at this
    rw [← one_mul ((starRingEnd 𝕜) (c l) * _), ← this, Finset.sum_mul]
    exact Finset.sum_congr rfl fun _ _ => by ring
  · intro l' hl' hne
    have := ho l (Finset.mem_range.1 hl) l' (Finset.mem_range.1 hl')
    rw [if_neg (Ne.symm hne)] at this
    rw [← zero_mul ((starRingEnd 𝕜) (c l) * c' l'), ← this, Finset.sum_mul]
    exact Finset.sum_congr rfl fun _ _ => by ring
  · intro h; exact absurd hl h

theorem pars_norm {α : Type*} {S : Finset α} {L : ℕ} {F : ℕ → α → 𝕜}
    (ho : ∀ l < L, ∀ l' < L, ∑ z ∈ S, (starRingEnd 𝕜) (F l z) * F l' z = if l = l' then 1 else 0) (c : ℕ → 𝕜) :
    ∑ z ∈ S, ‖∑ l ∈ Finset.range L, F l z * c l‖ ^ 2 = ∑ l ∈ Finset.range L, ‖c l‖ ^ 2 := by
  apply RCLike.ofReal_injective (K := 𝕜)
  push_cast
  simp only [← RCLike.conj_mul]
  exact pars ho c c

/-- the inequality of Bessel -/
theorem bessel {α : Type*} {S : Finset α} {R : ℕ} {G : ℕ → α → 𝕜}
    (ho : ∀ r < R, ∀ r' < R, ∑ y ∈ S, G r y * (starRingEnd 𝕜) (G r' y) = if r = r' then 1 else 0) (w : α → 𝕜) :
    ∑ r ∈ Finset.range R, ‖∑ y ∈ S, G r y * w y‖ ^ 2 ≤ ∑ y ∈ S, ‖w y‖ ^ 2 := by
  classical
  have he : Orthonormal 𝕜 fun r : Fin R => (WithLp.toLp 2 fun y : S => (starRingEnd 𝕜) (G r y) : EuclideanSpace 𝕜 S) :=
    orthonormal_iff_ite.2 fun r r' => by
      rw [EckartYoung.inner_def]
      simp only [RCLike.conj_conj]
      rw [Finset.sum_coe_sort S fun y => G r y * (starRingEnd 𝕜) (G r' y), ho r r.2 r' r'.2]
      simp [Fin.ext_iff]
  have := he.sum_inner_products_le (s := Finset.univ) (WithLp.toLp 2 fun y : S => w y)
  rw [EckartYoung.norm_def, Finset.sum_coe_sort S fun y => ‖w y‖ ^ 2] at this
  simp only [EckartYoung.inner_def, RCLike.conj_conj] at this
  rw [Finset.sum_range]
  refine le_trans (le_of_eq (Finset.sum_congr rfl fun r _ => ?_)) this
  rw [Finset.sum_coe_sort S fun y => G r y * w y]

/-- the truncated tensor -/
def cut (lib : Lib 𝕜) (b : Tn 𝕜) : Tn 𝕜 := ⟨b.shape, fun x => ∑ m ∈ Finset.range (lib.svd b 1).s.dim,
  (lib.svd b 1).u.elem (x.take 1 ++ [m]) * ((lib.svd b 1).s.val m : 𝕜) * (lib.svd b 1).vt.elem (m :: x.drop 1)⟩

theorem same_cut {lib : Lib 𝕜} (hf : Factorizations lib) (a b : Tn 𝕜) :
    SamePair a (cut lib b) (canoStep lib a b).1 (canoStep lib a b).2 := by
  intro L X M Y R h1 h3
  have h3 : b.shape = [M, Y, R] := h3
  obtain ⟨s1, s2⟩ := hf.shape b 1
  rw [h3] at s1 s2
  obtain ⟨u1, u2⟩ := cano_u s1
  obtain ⟨c1, c2⟩ := cano_prev h1 u1
  refine ⟨_, c1, s2, fun l _ x _ y hy r hr => ?_⟩
  rw [Finset.sum_congr rfl fun k hk => by rw [show (canoStep lib a b).1.elem [l, x, k] = _ from c2 l x k]]
  simp only [Finset.sum_mul]
  rw [Finset.sum_comm]
  refine Finset.sum_congr rfl fun m hm => ?_
  rw [cut, Finset.mul_sum]
  refine Finset.sum_congr rfl fun k hk => ?_
  rw [u2 m k (Finset.mem_range.1 hk), show (canoStep lib a b).2 = (lib.svd b 1).vt from rfl]
  simp only [List.take_succ_cons, List.take_zero, List.drop_succ_cons, List.drop_zero, List.cons_append, List.nil_append]
  ring

/-- the state of the canonical form as a matrix, and its decomposition -/
structure Split (ds : List ℕ) (i D : ℕ) (φ φ' : List ℕ → 𝕜) (w : ℝ) (u : ℕ → List ℕ → 𝕜) (s : ℕ → ℝ) (v : ℕ → List ℕ → 𝕜) : Prop where
  uu : ∀ m < D, ∀ m' < D, ∑ x ∈ box (ds.take i), (starRingEnd 𝕜) (u m x) * u m' x = if m = m' then 1 else 0
  vv : ∀ m < D, ∀ m' < D, ∑ y ∈ box (ds.drop i), (starRingEnd 𝕜) (v m y) * v m' y = if m = m' then 1 else 0
  ut : ∀ m < D, ∀ y ∈ box (ds.drop i), ∑ x ∈ box (ds.take i), (starRingEnd 𝕜) (u m x) * φ (x ++ y) = (s m : 𝕜) * v m y
  tv : ∀ m < D, ∀ x ∈ box (ds.take i), ∑ y ∈ box (ds.drop i), φ (x ++ y) * (starRingEnd 𝕜) (v m y) = u m x * (s m : 𝕜)
  eq : ∀ x ∈ box (ds.take i), ∀ y ∈ box (ds.drop i), φ' (x ++ y) = ∑ m ∈ Finset.range D, u m x * (s m : 𝕜) * v m y
  nm : normSq ds φ = w

theorem split_of {lib : Lib 𝕜} (hf : Factorizations lib) {pre post : List (Tn 𝕜)} {b : Tn 𝕜} {ds : List ℕ}
    (hs : Shp (pre ++ b :: post) 1 ds) (hl : ∀ e ∈ pre, LeftIso e) (hr : ∀ e ∈ post, RightIso e) :
    ∃ u v, Split ds pre.length (lib.svd b 1).s.dim (fun xs => mv (pre ++ b :: post) xs 0) (fun xs => mv (pre ++ cut lib b :: post) xs 0)
      (normSq b.shape b.elem) u (lib.svd b 1).s.val v ∧ b.shape.length = 3 ∧
      (Largest lib → ∀ w : List ℕ → 𝕜, (∀ m < (lib.svd b 1).s.dim, ∑ y ∈ box (ds.drop pre.length), v m y * w y = 0) →
        ∀ m < (lib.svd b 1).s.dim, ∑ x ∈ box (ds.take pre.length), ‖∑ y ∈ box (ds.drop pre.length), mv (pre ++ b :: post) (x ++ y) 0 * w y‖ ^ 2 ≤
          (lib.svd b 1).s.val m ^ 2 * ∑ y ∈ box (ds.drop pre.length), ‖w y‖ ^ 2) := by
  obtain ⟨L, p1, X, R, ds2, h0, h1, h2⟩ := shp_split _ pre 1 ds hs
  obtain ⟨s1, s2⟩ := hf.shape b 1
  have huu := hf.uu b 1
  have hut := hf.ut b 1
  have htv := hf.tv b 1
  rw [h1] at s1 s2 huu hut htv
  simp only [List.take_succ_cons, List.take_zero, List.drop_succ_cons, List.drop_zero, List.cons_append, List.nil_append] at s1 s2 huu hut htv
  have hlg := fun h : Largest lib => h b
  rw [h1] at hlg
  simp only [List.take_succ_cons, List.take_zero, List.drop_succ_cons, List.drop_zero, sumCoors_box, sum_box_cons, sum_box_nil,
    List.cons_append, List.nil_append] at hlg huu hut htv
  have hcut : (cut lib b).shape = [L, X, R] := h1
  have hce : ∀ l x r, (cut lib b).elem [l, x, r] = ∑ m ∈ Finset.range (lib.svd b 1).s.dim,
      (lib.svd b 1).u.elem [l, m] * ((lib.svd b 1).s.val m : 𝕜) * (lib.svd b 1).vt.elem [m, x, r] := fun l x r => by
    simp [cut]
  generalize cut lib b = b' at hcut hce ⊢
  set d := lib.svd b 1 with hd
  have ho := lv_orth pre 1 _ p1 hl
  simp only [Finset.range_one, Finset.sum_singleton] at ho
  have hpo := mv_orth post R _ h2 hr
  have hpo' : ∀ r < R, ∀ r' < R, ∑ y ∈ box ds2, (starRingEnd 𝕜) (mv post y r) * mv post y r' = if r = r' then 1 else 0 := by
    intro r hr r' hr'
    rw [show (if r = r' then (1 : 𝕜) else 0) = if r' = r then 1 else 0 by simp only [eq_comm], ← hpo r' hr' r hr]
    exact Finset.sum_congr rfl fun _ _ => mul_comm _ _
  have hv := mv_orth (d.vt :: post) d.s.dim _ ⟨X, R, ds2, rfl, s2, h2⟩
    (fun e he => (List.mem_cons.1 he).elim (fun h => h ▸ svd_rightIso hf h1) (hr e))
  have hmv : ∀ (t : Tn 𝕜) (A : ℕ), t.shape = [A, X, R] → ∀ x ys l, mv (t :: post) (x :: ys) l = ∑ r ∈ Finset.range R, mv post ys r * t.elem [l, x, r] := by
    intro t A ht x ys l
    simp only [mv, ht, List.getD_cons_succ, List.getD_cons_zero]
    exact Finset.sum_congr rfl fun _ _ => mul_comm _ _
  have hsp : ∀ t : Tn 𝕜, ∀ z ∈ box (ds.take pre.length), ∀ y, mv (pre ++ t :: post) (z ++ y) 0 =
      ∑ l ∈ Finset.range L, lv pre z 0 l * mv (t :: post) y l := fun t z hz y => mv_split pre 1 _ p1 z hz y 0 (by omega)
  refine ⟨fun m z => ∑ l ∈ Finset.range L, lv pre z 0 l * d.u.elem [l, m], fun m y => mv (d.vt :: post) y m, ⟨?_, ?_, ?_, ?_, ?_, ?_⟩, by rw [h1]; rfl, ?_⟩
  · intro m hm m' hm'
    rw [pars ho (fun l => d.u.elem [l, m]) fun l => d.u.elem [l, m']]
    exact huu m hm m' hm'
  · intro m hm m' hm'
    rw [h0, show (if m = m' then (1 : 𝕜) else 0) = if m' = m then 1 else 0 by simp only [eq_comm], ← hv m' hm' m hm]
    exact Finset.sum_congr rfl fun _ _ => mul_comm _ _
  · intro m hm y hy
    rw [h0] at hy
    obtain ⟨x, ys, rfl, hx, hys⟩ := mem_box_cons.1 hy
    rw [Finset.sum_congr rfl fun z hz => by rw [hsp b z hz], pars ho (fun l => d.u.elem [l, m]) fun l => mv (b :: post) (x :: ys) l]
    simp only [hmv b L h1, hmv d.vt _ s2, Finset.mul_sum]
    rw [Finset.sum_comm]
    refine Finset.sum_congr rfl fun r hr => ?_
    have := hut m hm [x, r] (.cons hx (.cons (Finset.mem_range.1 hr) .nil))
    rw [mul_left_comm, ← this, Finset.mul_sum]
    exact Finset.sum_congr rfl fun _ _ => by ring
  · intro m hm z hz
    rw [h0, Finset.sum_congr rfl fun y hy => by rw [hsp b z hz, Finset.sum_mul], Finset.sum_comm, Finset.sum_mul]
    refine Finset.sum_congr rfl fun l hl => ?_
    have ht := htv m hm [l] (.cons (Finset.mem_range.1 hl) .nil)
    simp only [List.cons_append, List.nil_append] at ht
    rw [mul_assoc, ← ht, sum_box_cons, Finset.mul_sum]
    refine Finset.sum_congr rfl fun x hx => ?_
    simp only [hmv b L h1, hmv d.vt _ s2, List.cons_append, List.nil_append]
    have := pars hpo' (fun r => d.vt.elem [m, x, r]) fun r => b.elem [l, x, r]
    rw [← Finset.sum_congr rfl fun r (_ : r ∈ Finset.range R) => mul_comm ((starRingEnd 𝕜) (d.vt.elem [m, x, r])) (b.elem [l, x, r]), ← this, Finset.mul_sum]
    exact Finset.sum_congr rfl fun _ _ => by ring
  · intro z hz y hy
    rw [h0] at hy
    obtain ⟨x, ys, rfl, hx, hys⟩ := mem_box_cons.1 hy
    have hb : ∀ l, mv (b' :: post) (x :: ys) l =
        ∑ m ∈ Finset.range d.s.dim, d.u.elem [l, m] * (d.s.val m : 𝕜) * mv (d.vt :: post) (x :: ys) m := by
      intro l
      simp only [hmv b' L hcut, hmv d.vt _ s2, hce, Finset.mul_sum]
      rw [Finset.sum_comm]
      exact Finset.sum_congr rfl fun _ _ => Finset.sum_congr rfl fun _ _ => by ring
    rw [hsp b' z hz]
    simp only [hb, Finset.mul_sum]
    rw [Finset.sum_comm]
    refine Finset.sum_congr rfl fun m _ => ?_
    rw [Finset.sum_mul, Finset.sum_mul]
    exact Finset.sum_congr rfl fun _ _ => by ring
  · rw [normSq, sumCoors_box, normSq, sumCoors_box, h1]
    conv_lhs => rw [← List.take_append_drop pre.length ds, sum_box_append, Finset.sum_comm]
    rw [h0]
    simp only [sum_box_cons, sum_box_nil]
    rw [Finset.sum_comm (s := Finset.range L)]
    refine Finset.sum_congr rfl fun x _ => ?_
    have e : ∀ ys, ∑ z ∈ box (ds.take pre.length), ‖mv (pre ++ b :: post) (z ++ x :: ys) 0‖ ^ 2 =
        ∑ l ∈ Finset.range L, ‖mv (b :: post) (x :: ys) l‖ ^ 2 := by
      intro ys
      rw [← pars_norm ho fun l => mv (b :: post) (x :: ys) l]
      exact Finset.sum_congr rfl fun z hz => by rw [hsp b z hz]
    rw [Finset.sum_congr rfl fun ys _ => e ys, Finset.sum_comm]
    refine Finset.sum_congr rfl fun l _ => ?_
    simp only [hmv b L h1]
    exact pars_norm hpo' fun r => b.elem [l, x, r]
  · intro hL w hw m hm
    set w' : List ℕ → 𝕜 := fun z => ∑ ys ∈ box ds2, mv post ys (z.getD 1 0) * w (z.getD 0 0 :: ys) with hw'
    have e1 : ∀ (t : Tn 𝕜) (A : ℕ), t.shape = [A, X, R] → ∀ l, ∑ y ∈ box (X :: ds2), mv (t :: post) y l * w y =
        ∑ x ∈ Finset.range X, ∑ r ∈ Finset.range R, t.elem [l, x, r] * w' [x, r] := by
      intro t A ht l
      rw [sum_box_cons]
      refine Finset.sum_congr rfl fun x _ => ?_
      simp only [hmv t A ht, hw', Finset.sum_mul, Finset.mul_sum, List.getD_cons_zero, List.getD_cons_succ]
      rw [Finset.sum_comm]
      exact Finset.sum_congr rfl fun _ _ => Finset.sum_congr rfl fun _ _ => by ring
    have e2 := hlg hL w' (fun m hm => by rw [← e1 d.vt _ s2, ← h0]; exact hw m hm) m hm
    have e3 : ∀ z ∈ box (ds.take pre.length), ∑ y ∈ box (ds.drop pre.length), mv (pre ++ b :: post) (z ++ y) 0 * w y =
        ∑ l ∈ Finset.range L, lv pre z 0 l * ∑ y ∈ box (X :: ds2), mv (b :: post) y l * w y := by
      intro z hz
      rw [h0]
      simp only [hsp b z hz, Finset.sum_mul, Finset.mul_sum]
      rw [Finset.sum_comm]
      exact Finset.sum_congr rfl fun _ _ => Finset.sum_congr rfl fun _ _ => by ring
    rw [Finset.sum_congr rfl fun z hz => by rw [e3 z hz], pars_norm ho]
    simp only [e1 b L h1]
    refine e2.trans (mul_le_mul_of_nonneg_left ?_ (sq_nonneg _))
    rw [h0, sum_box_cons]
    refine Finset.sum_le_sum fun x _ => ?_
    exact bessel hpo fun ys => w (x :: ys)

/-- the truncated state: its norm, its error, and that no state of as small a Schmidt rank is closer -/
theorem split_best {ds : List ℕ} {i D : ℕ} {φ φ' : List ℕ → 𝕜} {W : ℝ} {u : ℕ → List ℕ → 𝕜} {s : ℕ → ℝ} {v : ℕ → List ℕ → 𝕜}
    (h : Split ds i D φ φ' W u s v) :
    normSq ds φ' = ∑ m ∈ Finset.range D, s m ^ 2 ∧ normSq ds (fun xs => φ xs - φ' xs) = normSq ds φ - ∑ m ∈ Finset.range D, s m ^ 2 ∧
      Rank ds i D φ' ∧
      ((∀ w : List ℕ → 𝕜, (∀ m < D, ∑ y ∈ box (ds.drop i), v m y * w y = 0) →
        ∀ m < D, ∑ x ∈ box (ds.take i), ‖∑ y ∈ box (ds.drop i), φ (x ++ y) * w y‖ ^ 2 ≤ s m ^ 2 * ∑ y ∈ box (ds.drop i), ‖w y‖ ^ 2) →
        ∀ ψ, Rank ds i D ψ → normSq ds (fun xs => φ xs - φ' xs) ≤ normSq ds (fun xs => φ xs - ψ xs)) := by
  classical
  have hn : ∀ χ : List ℕ → 𝕜, normSq ds χ = ∑ x : box (ds.take i), ∑ y : box (ds.drop i), ‖χ (x ++ y)‖ ^ 2 := by
    intro χ
    rw [normSq, sumCoors_box]
    conv_lhs => rw [← List.take_append_drop i ds, sum_box_append]
    rw [← Finset.sum_coe_sort]
    exact Finset.sum_congr rfl fun x _ => (Finset.sum_coe_sort (box (ds.drop i)) fun y => ‖χ (x ++ y)‖ ^ 2).symm
  have uu : ∀ m m' : Fin D, ∑ x : box (ds.take i), (starRingEnd 𝕜) (u m x) * u m' x = if m = m' then 1 else 0 := fun m m' => by
    rw [Finset.sum_coe_sort (box (ds.take i)) fun x => (starRingEnd 𝕜) (u m x) * u m' x, h.uu m m.2 m' m'.2]
    simp [Fin.ext_iff]
  have vv : ∀ m m' : Fin D, ∑ y : box (ds.drop i), (starRingEnd 𝕜) (v m y) * v m' y = if m = m' then 1 else 0 := fun m m' => by
    rw [Finset.sum_coe_sort (box (ds.drop i)) fun y => (starRingEnd 𝕜) (v m y) * v m' y, h.vv m m.2 m' m'.2]
    simp [Fin.ext_iff]
  have ut : ∀ (m : Fin D) (y : box (ds.drop i)), ∑ x : box (ds.take i), (starRingEnd 𝕜) (u m x) * φ (x ++ y) = (s m : 𝕜) * v m y := fun m y => by
    rw [Finset.sum_coe_sort (box (ds.take i)) fun x => (starRingEnd 𝕜) (u m x) * φ (x ++ y), h.ut m m.2 y y.2]
  have tv : ∀ (m : Fin D) (x : box (ds.take i)), ∑ y : box (ds.drop i), φ (x ++ y) * (starRingEnd 𝕜) (v m y) = u m x * (s m : 𝕜) := fun m x => by
    rw [Finset.sum_coe_sort (box (ds.drop i)) fun y => φ (x ++ y) * (starRingEnd 𝕜) (v m y), h.tv m m.2 x x.2]
  have eq : ∀ (x : box (ds.take i)) (y : box (ds.drop i)), φ' (x ++ y) = ∑ m : Fin D, u m x * (s m : 𝕜) * v m y := fun x y => by
    rw [h.eq x x.2 y y.2, Finset.sum_range]
  have hd : normSq ds (fun xs => φ xs - φ' xs) = ∑ x : box (ds.take i), ∑ y : box (ds.drop i), ‖φ (x ++ y) - ∑ m : Fin D, u m x * (s m : 𝕜) * v m y‖ ^ 2 := by
    rw [hn]
    exact Finset.sum_congr rfl fun x _ => Finset.sum_congr rfl fun y _ => by rw [eq]
  refine ⟨?_, ?_, ⟨fun m x => u m x * (s m : 𝕜), v, fun x y hx hy => h.eq x (mem_box.2 hx) y (mem_box.2 hy)⟩, fun lg ψ hψ => ?_⟩
  · have e := EckartYoung.error (A := fun (x : box (ds.take i)) (y : box (ds.drop i)) => φ' (x ++ y)) uu vv (s := fun m : Fin D => s m) fun m x => by
      simp only [eq, Finset.sum_mul]
      rw [Finset.sum_comm, Finset.sum_eq_single m]
      · have := vv m m
        rw [if_pos rfl] at this
        calc _ = u m x * (s m : 𝕜) * ∑ y : box (ds.drop i), (starRingEnd 𝕜) (v m y) * v m y := by
              rw [Finset.mul_sum]
              exact Finset.sum_congr rfl fun _ _ => by ring
          _ = _ := by rw [this, mul_one]
      · intro m' _ hne
        have := vv m m'
        rw [if_neg (Ne.symm hne)] at this
        rw [← mul_zero (u m' x * (s m' : 𝕜)), ← this, Finset.mul_sum]
        exact Finset.sum_congr rfl fun _ _ => by ring
      · simp
    simp only [eq, sub_self, norm_zero] at e
    rw [hn, Finset.sum_range]
    simp only [eq]
    simp only [ne_eq, OfNat.ofNat_ne_zero, not_false_eq_true, zero_pow, Finset.sum_const_zero] at e
    linarith
  · rw [hd, hn, EckartYoung.error uu vv tv, Finset.sum_range]
  · obtain ⟨f, g, hfg⟩ := hψ
    rw [hd, hn]
    have := EckartYoung.best (A := fun (x : box (ds.take i)) (y : box (ds.drop i)) => φ (x ++ y)) uu vv ut tv (fun w hw m => by
      have := lg (fun y => if hy : y ∈ box (ds.drop i) then w ⟨y, hy⟩ else 0) (fun m hm => by
        rw [← Finset.sum_coe_sort]
        rw [← hw ⟨m, hm⟩]
        exact Finset.sum_congr rfl fun y _ => by simp) m m.2
      rw [← Finset.sum_coe_sort (box (ds.drop i)) fun y => ‖(if hy : y ∈ box (ds.drop i) then w ⟨y, hy⟩ else 0 : 𝕜)‖ ^ 2, ← Finset.sum_coe_sort (box (ds.take i))] at this
      have e : ∀ x : List ℕ, (∑ y ∈ box (ds.drop i), φ (x ++ y) * if hy : y ∈ box (ds.drop i) then w ⟨y, hy⟩ else 0) = ∑ y : box (ds.drop i), φ (x ++ y) * w y := fun x => by
        rw [← Finset.sum_coe_sort]
        exact Finset.sum_congr rfl fun y _ => by simp
      simpa only [e, Finset.coe_mem, dif_pos, Subtype.coe_eta] using this)
      (κ := Fin D) le_rfl (fun k x => f k x) fun k y => g k y
    refine this.trans (le_of_eq ?_)
    refine Finset.sum_congr rfl fun x _ => Finset.sum_congr rfl fun y _ => ?_
    rw [hfg x y (mem_box.1 x.2) (mem_box.1 y.2), Finset.sum_range]

end

end QLPeps.BmpsCano
