import Verif.Spec.BmpsCano
import Verif.Lemmas.BmpsVarBest
import Mathlib.Data.List.GetD

/-! # Canonical forms of a boundary MPS: single steps -/

namespace QLPeps.BmpsCano

open QLPeps.Bmps QLPeps.Box QLPeps.BmpsCano.Spec
open QLPeps.BmpsVar (amp_eq isMps_iff sumCoors_box)
open QLPeps.Peps (Tn Lib contractN transpose norm2 sumCoors)
open QLPeps.BmpsVar.Spec (Factorizations Keeps amp normSq IsMps overlap)

noncomputable section

variable {𝕜 : Type*} [RCLike 𝕜]

/-! ## replacing two neighbouring tensors -/

theorem split_pair {es : List (Tn 𝕜)} {i : ℕ} (h : i + 1 < es.length) :
    ∃ pre a b post, es = pre ++ a :: b :: post ∧ pre.length = i ∧ es.getD i nil = a ∧ es.getD (i + 1) nil = b := by
  refine ⟨es.take i, es[i], es[i + 1], es.drop (i + 2), ?_, by simp; omega, ?_, ?_⟩
  · rw [← List.drop_eq_getElem_cons, ← List.drop_eq_getElem_cons, List.take_append_drop]
  · rw [List.getD_eq_getElem _ _ (by omega)]
  · rw [List.getD_eq_getElem _ _ h]

theorem set_pair (pre post : List (Tn 𝕜)) (a b a' b' : Tn 𝕜) :
    ((pre ++ a :: b :: post).set pre.length a').set (pre.length + 1) b' = pre ++ a' :: b' :: post := by
  rw [List.set_append_right _ _ le_rfl, List.set_append_right _ _ (by omega)]
  simp

/-- the product of two neighbouring tensors is the same -/
def SamePair (a b a' b' : Tn 𝕜) : Prop :=
  ∀ L X M Y R, a.shape = [L, X, M] → b.shape = [M, Y, R] → ∃ K, a'.shape = [L, X, K] ∧ b'.shape = [K, Y, R] ∧
    ∀ l < L, ∀ x < X, ∀ y < Y, ∀ r < R, ∑ k ∈ Finset.range K, a'.elem [l, x, k] * b'.elem [k, y, r] =
      ∑ m ∈ Finset.range M, a.elem [l, x, m] * b.elem [m, y, r]

theorem pair_replace {a b a' b' : Tn 𝕜} (hp : SamePair a b a' b') (post : List (Tn 𝕜)) (pre : List (Tn 𝕜)) :
    ∀ (A : ℕ) (ds : List ℕ), Shp (pre ++ a :: b :: post) A ds → Shp (pre ++ a' :: b' :: post) A ds ∧
      ∀ xs ∈ box ds, ∀ i < A, mv (pre ++ a' :: b' :: post) xs i = mv (pre ++ a :: b :: post) xs i := by
  induction pre with
  | nil =>
    rintro A ds ⟨X, M, ds', rfl, h1, Y, R, ds'', rfl, h2, h3⟩
    obtain ⟨K, k1, k2, k3⟩ := hp _ _ _ _ _ h1 h2
    refine ⟨⟨X, K, _, rfl, k1, Y, R, ds'', rfl, k2, h3⟩, fun xs hxs i hi => ?_⟩
    obtain ⟨x, xs, rfl, hx, hxs⟩ := mem_box_cons.1 hxs
    obtain ⟨y, ys, rfl, hy, hys⟩ := mem_box_cons.1 hxs
    simp only [List.nil_append, mv, h1, h2, k1, k2, List.getD_cons_succ, List.getD_cons_zero, Finset.mul_sum]
    rw [Finset.sum_comm, Finset.sum_comm (s := Finset.range M)]
    refine Finset.sum_congr rfl fun r hr => ?_
    have := k3 i hi x hx y hy r (Finset.mem_range.1 hr)
    simp only [← mul_assoc, ← Finset.sum_mul, this]
  | cons e pre ih =>
    rintro A ds ⟨X, M, ds', rfl, h1, h2⟩
    obtain ⟨i1, i2⟩ := ih M ds' h2
    refine ⟨⟨X, M, ds', rfl, h1, i1⟩, fun xs hxs i hi => ?_⟩
    obtain ⟨x, xs, rfl, hx, hxs⟩ := mem_box_cons.1 hxs
    simp only [List.cons_append, mv, h1, List.getD_cons_succ, List.getD_cons_zero]
    exact Finset.sum_congr rfl fun m hm => by rw [i2 xs hxs m (Finset.mem_range.1 hm)]

/-! ## the factorizations -/

theorem same_qr {fac : Facs 𝕜} (hg : Good fac) (a b : Tn 𝕜) :
    SamePair a b ((fac.lib 0 0 0).qr a 2).1 (contractN ((fac.lib 0 0 0).qr a 2).2 [1] b [0]) := by
  intro L X M Y R h1 h3
  obtain ⟨k, q1, q2, q3, q4, _⟩ := (hg.lib 0 0 0).qr a 2
  rw [h1] at q1 q2 q3 q4
  simp only [List.take_succ_cons, List.take_zero, List.drop_succ_cons, List.drop_zero, List.cons_append,
    List.nil_append] at q1 q2 q4
  have hc : (contractN ((fac.lib 0 0 0).qr a 2).2 [1] b [0]).shape = [k, Y, R] ∧ ∀ m y r,
      (contractN ((fac.lib 0 0 0).qr a 2).2 [1] b [0]).elem [m, y, r] =
        ∑ l ∈ Finset.range M, ((fac.lib 0 0 0).qr a 2).2.elem [m, l] * b.elem [l, y, r] := by
    generalize ((fac.lib 0 0 0).qr a 2).2 = t at q2
    obtain ⟨sh, g⟩ := t
    obtain rfl : sh = _ := q2
    obtain ⟨sh, g'⟩ := b
    obtain rfl : sh = _ := h3
    exact ⟨rfl, fun _ _ _ => rfl⟩
  obtain ⟨c1, c2⟩ := hc
  refine ⟨k, q1, c1, fun l hl x hx y _ r _ => ?_⟩
  simp only [c2, Finset.mul_sum]
  rw [Finset.sum_comm]
  refine Finset.sum_congr rfl fun m hm => ?_
  have := q4 [l, x] [m] (.cons hl (.cons hx .nil)) (.cons (Finset.mem_range.1 hm) .nil)
  simp only [List.cons_append, List.nil_append] at this
  rw [← this, Finset.sum_mul]
  exact Finset.sum_congr rfl fun _ _ => by ring

theorem same_lq {fac : Facs 𝕜} (hg : Good fac) (a b : Tn 𝕜) :
    SamePair a b (contractN a [2] (fac.lq b).1 [0]) (fac.lq b).2 := by
  intro L X M Y R h1 h3
  obtain ⟨k, q1, q2, q3, _⟩ := hg.lq b
  rw [h3] at q1 q2 q3
  simp only [List.take_succ_cons, List.take_zero, List.drop_succ_cons, List.drop_zero, List.cons_append,
    List.nil_append] at q1 q2 q3
  obtain ⟨c1, c2⟩ := cano_prev h1 q1
  refine ⟨k, c1, q2, fun l _ x _ y hy r hr => ?_⟩
  simp only [c2, Finset.sum_mul]
  rw [Finset.sum_comm]
  refine Finset.sum_congr rfl fun m hm => ?_
  have := q3 [m] [y, r] (.cons (Finset.mem_range.1 hm) .nil) (.cons hy (.cons hr .nil))
  simp only [List.cons_append, List.nil_append] at this
  rw [← this, Finset.mul_sum]
  exact Finset.sum_congr rfl fun _ _ => by ring

theorem same_svd {lib : Lib 𝕜} (hf : Factorizations lib) (a b : Tn 𝕜) (hk : Keeps lib b 1) :
    SamePair a b (canoStep lib a b).1 (canoStep lib a b).2 := by
  intro L X M Y R h1 h3
  obtain ⟨s1, s2⟩ := hf.shape b 1
  rw [h3] at s1 s2
  rw [Keeps, h3] at hk
  obtain ⟨u1, u2⟩ := cano_u s1
  obtain ⟨c1, c2⟩ := cano_prev h1 u1
  refine ⟨_, c1, s2, fun l _ x _ y hy r hr => ?_⟩
  rw [Finset.sum_congr rfl fun k hk => by rw [show (canoStep lib a b).1.elem [l, x, k] = _ from c2 l x k]]
  simp only [Finset.sum_mul]
  rw [Finset.sum_comm]
  refine Finset.sum_congr rfl fun m hm => ?_
  have := hk [m] [y, r] (.cons (Finset.mem_range.1 hm) .nil) (.cons hy (.cons hr .nil))
  simp only [List.cons_append, List.nil_append] at this
  rw [← this, Finset.mul_sum]
  refine Finset.sum_congr rfl fun k hk => ?_
  rw [u2 m k (Finset.mem_range.1 hk), show (canoStep lib a b).2 = (lib.svd b 1).vt from rfl]
  ring

theorem qr_leftIso {fac : Facs 𝕜} (hg : Good fac) {a : Tn 𝕜} {L X M : ℕ} (h : a.shape = [L, X, M]) :
    LeftIso ((fac.lib 0 0 0).qr a 2).1 := by
  obtain ⟨k, q1, _, _, _, q5⟩ := (hg.lib 0 0 0).qr a 2
  rw [h] at q1 q5
  refine ⟨L, X, k, q1, fun b hb b' hb' => ?_⟩
  have := q5 b hb b' hb'
  rw [sumCoors_box] at this
  simp only [List.take_succ_cons, List.take_zero, sum_box_cons, sum_box_nil, List.cons_append, List.nil_append] at this
  exact this

theorem lq_rightIso {fac : Facs 𝕜} (hg : Good fac) {b : Tn 𝕜} {M Y R : ℕ} (h : b.shape = [M, Y, R]) :
    RightIso (fac.lq b).2 := by
  obtain ⟨k, _, q2, _, q5⟩ := hg.lq b
  rw [h] at q2 q5
  refine ⟨k, Y, R, q2, fun a ha a' ha' => ?_⟩
  have := q5 a ha a' ha'
  rw [sumCoors_box] at this
  simp only [List.drop_succ_cons, List.drop_zero, sum_box_cons, sum_box_nil] at this
  exact this

theorem svd_rightIso {lib : Lib 𝕜} (hf : Factorizations lib) {b : Tn 𝕜} {M Y R : ℕ} (h : b.shape = [M, Y, R]) :
    RightIso (lib.svd b 1).vt := by
  obtain ⟨_, s2⟩ := hf.shape b 1
  have q5 := hf.vv b 1
  rw [h] at s2 q5
  refine ⟨_, Y, R, s2, fun a ha a' ha' => ?_⟩
  have := q5 a ha a' ha'
  rw [sumCoors_box] at this
  simp only [List.drop_succ_cons, List.drop_zero, sum_box_cons, sum_box_nil] at this
  exact this

/-! ## single steps -/

/-- the same state of the outer legs -/
structure Eqv (ds : List ℕ) (o o' : Obj 𝕜) : Prop where
  shp : Shp o'.tens 1 ds
  len : o'.tens.length = o.tens.length
  clen : o'.cano.length = o.tens.length
  center : o'.center = o.center
  val : ∀ xs ∈ box ds, mv o'.tens xs 0 = mv o.tens xs 0

theorem Eqv.trans {ds : List ℕ} {o o' o'' : Obj 𝕜} (h : Eqv ds o o') (h' : Eqv ds o' o'') : Eqv ds o o'' :=
  ⟨h'.shp, h'.len.trans h.len, h'.clen.trans h.len, h'.center.trans h.center, fun xs hxs => (h'.val xs hxs).trans (h.val xs hxs)⟩

theorem shape_at {es : List (Tn 𝕜)} {ds : List ℕ} (h : Shp es 1 ds) {i : ℕ} (hi : i < es.length) :
    ∃ L X M, (es.getD i nil).shape = [L, X, M] := by
  obtain ⟨md, _, _, _, h4⟩ := BmpsVar.shp_dims es 1 ds h
  exact ⟨_, _, _, h4 i hi⟩

theorem getD_set_pair {α : Type*} (l : List α) (i j : ℕ) (x y d : α) (hi : i + 1 < l.length) :
    ((l.set i x).set (i + 1) y).getD j d = if j = i then x else if j = i + 1 then y else l.getD j d := by
  have h0 : i < l.length := by omega
  simp only [List.getD_eq_getElem?_getD, List.getElem?_set]
  by_cases h1 : j = i + 1
  · subst h1; simp [hi]
  · by_cases h2 : j = i
    · subst h2; simp [h0]
    · simp [h1, h2, Ne.symm h1, Ne.symm h2]

/-- what a step on the tensors `i`, `i + 1` does -/
structure Step (ds : List ℕ) (i : ℕ) (m m' : Mark) (o o' : Obj 𝕜) : Prop extends Eqv ds o o' where
  tens : ∀ j, j ≠ i → j ≠ i + 1 → o'.tens.getD j nil = o.tens.getD j nil
  marks : ∀ j, o'.cano.getD j .none = if j = i then m else if j = i + 1 then m' else o.cano.getD j .none

theorem step_of {ds : List ℕ} {o : Obj 𝕜} (hs : Shp o.tens 1 ds) (hc : o.cano.length = o.tens.length) {i : ℕ}
    (hi : i + 1 < o.tens.length) {a' b' : Tn 𝕜} (m m' : Mark)
    (hp : SamePair (o.tens.getD i nil) (o.tens.getD (i + 1) nil) a' b') :
    Step ds i m m' o ⟨(o.tens.set i a').set (i + 1) b', (o.cano.set i m).set (i + 1) m', o.center⟩ := by
  obtain ⟨pre, a, b, post, h1, h2, h3, h4⟩ := split_pair hi
  rw [h3, h4] at hp
  have e : (o.tens.set i a').set (i + 1) b' = pre ++ a' :: b' :: post := by rw [h1, ← h2, set_pair]
  obtain ⟨s1, s2⟩ := pair_replace hp post pre 1 ds (h1 ▸ hs)
  refine ⟨⟨by rw [e]; exact s1, by simp, by simpa using hc, rfl, fun xs hxs => ?_⟩, fun j h5 h6 => ?_, fun j => ?_⟩
  · change mv ((o.tens.set i a').set (i + 1) b') xs 0 = _
    rw [e, h1]
    exact s2 xs hxs 0 (by omega)
  · rw [getD_set_pair _ _ _ _ _ _ hi, if_neg h5, if_neg h6]
  · rw [getD_set_pair _ _ _ _ _ _ (by omega)]

theorem get_of {es : List (Tn 𝕜)} {i : ℕ} (h : i < es.length) : es[i]? = some (es.getD i nil) := by
  rw [List.getElem?_eq_getElem h, List.getD_eq_getElem _ _ h]

variable {fac : Facs 𝕜} {ds : List ℕ} {o : Obj 𝕜}

theorem leftTen_spec (hg : Good fac) (hs : Shp o.tens 1 ds) (hc : o.cano.length = o.tens.length) {i : ℕ}
    (hi : i + 1 < o.tens.length) :
    ∃ o', leftTen fac i o = some o' ∧ Step ds i .left .none o o' ∧ LeftIso (o'.tens.getD i nil) := by
  obtain ⟨L, X, M, h⟩ := shape_at hs (i := i) (by omega)
  refine ⟨_, by rw [leftTen, get_of (by omega), get_of hi], step_of hs hc hi _ _ (same_qr hg _ _), ?_⟩
  rw [getD_set_pair _ _ _ _ _ _ hi, if_pos rfl]
  exact qr_leftIso hg h

theorem rightTen_spec (hg : Good fac) (hs : Shp o.tens 1 ds) (hc : o.cano.length = o.tens.length) {i : ℕ}
    (hi : i + 1 < o.tens.length) :
    ∃ o', rightTen fac (i + 1) o = some o' ∧ Step ds i .none .right o o' ∧ RightIso (o'.tens.getD (i + 1) nil) := by
  obtain ⟨L, X, M, h⟩ := shape_at hs hi
  refine ⟨_, by rw [rightTen]; simp only [get_of (show i < o.tens.length by omega), get_of hi],
    step_of hs hc hi _ _ (same_lq hg _ _), ?_⟩
  rw [getD_set_pair _ _ _ _ _ _ hi, if_neg (by omega), if_pos rfl]
  exact lq_rightIso hg h

theorem svdTen_spec (hg : Good fac) (hs : Shp o.tens 1 ds) (hc : o.cano.length = o.tens.length) {i : ℕ}
    (hi : i + 1 < o.tens.length) :
    ∃ o', svdTen fac (i + 1) o = some (o', (fac.full.svd (o.tens.getD (i + 1) nil) 1).s) ∧
      Step ds i .none .right o o' ∧ RightIso (o'.tens.getD (i + 1) nil) := by
  obtain ⟨L, X, M, h⟩ := shape_at hs hi
  refine ⟨_, by rw [svdTen]; simp only [get_of (show i < o.tens.length by omega), get_of hi],
    step_of hs hc hi _ _ (same_svd hg.full _ _ (hg.keeps _)), ?_⟩
  rw [getD_set_pair _ _ _ _ _ _ hi, if_neg (by omega), if_pos rfl]
  exact svd_rightIso hg.full h

end

end QLPeps.BmpsCano
