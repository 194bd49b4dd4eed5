import Verif.Model.TrgTensor
import Verif.Spec.Peps

/-!
# Elements of the tensor operations of the TRG contractor
-/

namespace QLPeps.Trg

open QLPeps.Peps (Tn Diag Lib Svd contractN transpose)
open QLPeps.Peps.Spec (Exact SvdNonNeg Valid)

noncomputable section

variable {𝕜 : Type} [RCLike 𝕜]

theorem left_elem {d : Svd 𝕜} {a b k : ℕ} (hu : d.u.shape = [a, b, k]) (hs : d.s.dim = k) :
    (leftPiece d).shape = [a, b, k] ∧ ∀ x y z, z < k →
      (leftPiece d).elem [x, y, z] = d.u.elem [x, y, z] * (Real.sqrt (d.s.val z) : 𝕜) := by
  obtain ⟨⟨sh, g⟩, s, vt, err, dim⟩ := d
  obtain rfl : sh = _ := hu
  obtain rfl : s.dim = _ := hs
  refine ⟨rfl, fun x y z hz => ?_⟩
  change ∑ j ∈ Finset.range s.dim, g [x, y, j] * (if j = z then (Real.sqrt (s.val j) : 𝕜) else 0) = _
  rw [Finset.sum_eq_single z (fun j _ hj => by rw [if_neg hj, mul_zero])
    (fun h => absurd (Finset.mem_range.2 hz) h), if_pos rfl]

theorem right_elem {d : Svd 𝕜} {a b k : ℕ} (hv : d.vt.shape = [k, a, b]) (hs : d.s.dim = k) :
    (rightPiece d).shape = [k, a, b] ∧ ∀ z x y, z < k →
      (rightPiece d).elem [z, x, y] = (Real.sqrt (d.s.val z) : 𝕜) * d.vt.elem [z, x, y] := by
  obtain ⟨u, s, ⟨sh, g⟩, err, dim⟩ := d
  obtain rfl : sh = _ := hv
  obtain rfl : s.dim = _ := hs
  refine ⟨rfl, fun z x y hz => ?_⟩
  change ∑ j ∈ Finset.range s.dim, (if z = j then (Real.sqrt (s.val z) : 𝕜) else 0) * g [j, x, y] = _
  rw [Finset.sum_eq_single z (fun j _ hj => by rw [if_neg (Ne.symm hj), zero_mul])
    (fun h => absurd (Finset.mem_range.2 hz) h), if_pos rfl]

theorem pieces_sum {lib : Lib 𝕜} (he : Exact lib) (hn : SvdNonNeg lib) {t : Tn 𝕜} {a b c e : ℕ}
    (ht : t.shape = [a, b, c, e]) (h0 : (lib.svd t 2).err = 0) {x y z w : ℕ} (hx : x < a) (hy : y < b) (hz : z < c)
    (hw : w < e) :
    t.elem [x, y, z, w] = ∑ k ∈ Finset.range (lib.svd t 2).s.dim,
      (leftPiece (lib.svd t 2)).elem [x, y, k] * (rightPiece (lib.svd t 2)).elem [k, z, w] := by
  obtain ⟨h1, h2⟩ := he.svd_shape t 2
  rw [ht] at h1 h2
  obtain ⟨-, l⟩ := left_elem (d := lib.svd t 2) h1 rfl
  obtain ⟨-, r⟩ := right_elem (d := lib.svd t 2) h2 rfl
  have := he.svd t 2 h0 [x, y] [z, w] (by
    rw [ht]; exact .cons hx (.cons hy .nil)) (by rw [ht]; exact .cons hz (.cons hw .nil))
  simp only [List.cons_append, List.nil_append] at this
  rw [← this]
  refine Finset.sum_congr rfl fun k hk => ?_
  rw [Finset.mem_range] at hk
  rw [l _ _ _ hk, r _ _ _ hk]
  have hs : (Real.sqrt ((lib.svd t 2).s.val k) : 𝕜) * (Real.sqrt ((lib.svd t 2).s.val k) : 𝕜) =
      ((lib.svd t 2).s.val k : 𝕜) := by
    rw [← RCLike.ofReal_mul, Real.mul_self_sqrt (hn t 2 k hk)]
  rw [← hs]
  ring

/-- the dimension of the new bond -/
def newDim (lib : Lib 𝕜) (type1 : Bool) (t : Tn 𝕜) : ℕ := (factors lib type1 t).s.dim

theorem oriented0 {t : Tn 𝕜} {l d r u : ℕ} (ht : t.shape = [l, d, r, u]) :
    (oriented false t).shape = [l, u, d, r] ∧ ∀ x y z w, (oriented false t).elem [x, w, y, z] = t.elem [x, y, z, w] := by
  obtain ⟨sh, g⟩ := t
  obtain rfl : sh = _ := ht
  exact ⟨rfl, fun _ _ _ _ => rfl⟩

/-- a node of the first type -/
theorem split0 {lib : Lib 𝕜} (he : Exact lib) {t : Tn 𝕜} {l d r u : ℕ} (ht : t.shape = [l, d, r, u]) :
    (splitPieces lib false t).1.shape = [l, u, newDim lib false t] ∧
    (splitPieces lib false t).2.shape = [newDim lib false t, d, r] := by
  obtain ⟨h1, h2⟩ := he.svd_shape (oriented false t) 2
  rw [(oriented0 ht).1] at h1 h2
  exact ⟨(left_elem (d := factors lib false t) h1 rfl).1, (right_elem (d := factors lib false t) h2 rfl).1⟩

theorem split0_sum {lib : Lib 𝕜} (he : Exact lib) (hn : SvdNonNeg lib) {t : Tn 𝕜} {l d r u : ℕ}
    (ht : t.shape = [l, d, r, u]) (h0 : (factors lib false t).err = 0) {x y z w : ℕ} (hx : x < l) (hy : y < d)
    (hz : z < r) (hw : w < u) :
    t.elem [x, y, z, w] = ∑ k ∈ Finset.range (newDim lib false t),
      (splitPieces lib false t).1.elem [x, w, k] * (splitPieces lib false t).2.elem [k, y, z] := by
  rw [← (oriented0 ht).2]
  exact pieces_sum he hn (oriented0 ht).1 h0 hx hw hy hz

/-- a node of the second type -/
theorem split1 {lib : Lib 𝕜} (he : Exact lib) {t : Tn 𝕜} {l d r u : ℕ} (ht : t.shape = [l, d, r, u]) :
    (splitPieces lib true t).2.shape = [l, d, newDim lib true t] ∧
    (splitPieces lib true t).1.shape = [newDim lib true t, r, u] := by
  obtain ⟨h1, h2⟩ := he.svd_shape t 2
  rw [ht] at h1 h2
  exact ⟨(left_elem (d := factors lib true t) h1 rfl).1, (right_elem (d := factors lib true t) h2 rfl).1⟩

theorem split1_sum {lib : Lib 𝕜} (he : Exact lib) (hn : SvdNonNeg lib) {t : Tn 𝕜} {l d r u : ℕ}
    (ht : t.shape = [l, d, r, u]) (h0 : (factors lib true t).err = 0) {x y z w : ℕ} (hx : x < l) (hy : y < d)
    (hz : z < r) (hw : w < u) :
    t.elem [x, y, z, w] = ∑ k ∈ Finset.range (newDim lib true t),
      (splitPieces lib true t).1.elem [k, z, w] * (splitPieces lib true t).2.elem [x, y, k] := by
  rw [pieces_sum he hn ht h0 hx hy hz hw]
  exact Finset.sum_congr rfl fun k _ => mul_comm _ _

theorem plaq_elem {q0 q1 p1 p0 : Tn 𝕜} {A B C D x0 x1 x2 x3 : ℕ} (h0 : q0.shape = [A, x1, x0])
    (h1 : q1.shape = [x0, x2, B]) (h2 : p1.shape = [D, x3, x1]) (h3 : p0.shape = [x3, x2, C]) :
    (plaqCore q0 q1 p1 p0).shape = [A, B, C, D] ∧ ∀ a b c d, (plaqCore q0 q1 p1 p0).elem [a, b, c, d] =
      ∑ i ∈ Finset.range x1, ∑ j ∈ Finset.range x2, ∑ k ∈ Finset.range x3, ∑ l ∈ Finset.range x0,
        p1.elem [d, k, i] * p0.elem [k, j, c] * (q1.elem [l, j, b] * q0.elem [a, i, l]) := by
  obtain ⟨s0, g0⟩ := q0
  obtain rfl : s0 = _ := h0
  obtain ⟨s1, g1⟩ := q1
  obtain rfl : s1 = _ := h1
  obtain ⟨s2, g2⟩ := p1
  obtain rfl : s2 = _ := h2
  obtain ⟨s3, g3⟩ := p0
  obtain rfl : s3 = _ := h3
  refine ⟨rfl, fun a b c d => ?_⟩
  simp only [← Finset.sum_mul_sum]
  rfl

theorem diam_elem {np ep sq wq : Tn 𝕜} {N E S W y0 y1 y2 y3 : ℕ} (h0 : np.shape = [N, y3, y1])
    (h1 : ep.shape = [y3, y0, E]) (h2 : sq.shape = [y2, y0, S]) (h3 : wq.shape = [W, y1, y2]) :
    (diamCore np ep sq wq).shape = [W, S, E, N] ∧ ∀ w s e n, (diamCore np ep sq wq).elem [w, s, e, n] =
      ∑ i ∈ Finset.range y0, ∑ j ∈ Finset.range y1, ∑ k ∈ Finset.range y2, ∑ l ∈ Finset.range y3,
        sq.elem [k, i, s] * wq.elem [w, j, k] * (np.elem [n, l, j] * ep.elem [l, i, e]) := by
  obtain ⟨s0, g0⟩ := np
  obtain rfl : s0 = _ := h0
  obtain ⟨s1, g1⟩ := ep
  obtain rfl : s1 = _ := h1
  obtain ⟨s2, g2⟩ := sq
  obtain rfl : s2 = _ := h2
  obtain ⟨s3, g3⟩ := wq
  obtain rfl : s3 = _ := h3
  refine ⟨rfl, fun a b c d => ?_⟩
  simp only [← Finset.sum_mul_sum]
  rfl

theorem final1_elem {t : Tn 𝕜} {a b : ℕ} (h : t.shape = [a, b, a, b]) :
    final1 t = ∑ j ∈ Finset.range b, ∑ i ∈ Finset.range a, t.elem [i, j, i, j] := by
  obtain ⟨sh, g⟩ := t
  obtain rfl : sh = _ := h
  change ∑ j ∈ Finset.range b, ∑ j' ∈ Finset.range b, (∑ i ∈ Finset.range a, ∑ i' ∈ Finset.range a,
    g [i, j, i', j'] * (if i = i' then 1 else 0)) * (if j' = j then 1 else 0) = _
  refine Finset.sum_congr rfl fun j hj => ?_
  rw [Finset.sum_eq_single j (fun j' _ h => by rw [if_neg h, mul_zero]) (fun h => absurd hj h), if_pos rfl, mul_one]
  refine Finset.sum_congr rfl fun i hi => ?_
  rw [Finset.sum_eq_single i (fun j' _ h => by rw [if_neg (Ne.symm h), mul_zero]) (fun h => absurd hi h), if_pos rfl,
    mul_one]

theorem final2_elem {t0 t1 t2 t3 : Tn 𝕜} {a b c d e f g h : ℕ} (h0 : t0.shape = [a, b, c, d])
    (h1 : t1.shape = [c, e, a, f]) (h2 : t2.shape = [g, d, h, b]) (h3 : t3.shape = [h, f, g, e]) :
    final2 t0 t1 t2 t3 = ∑ i ∈ Finset.range b, ∑ j ∈ Finset.range d, ∑ k ∈ Finset.range e, ∑ l ∈ Finset.range f,
      (∑ x ∈ Finset.range a, ∑ y ∈ Finset.range c, t0.elem [x, i, y, j] * t1.elem [y, k, x, l]) *
      (∑ x ∈ Finset.range g, ∑ y ∈ Finset.range h, t2.elem [x, j, y, i] * t3.elem [y, l, x, k]) := by
  obtain ⟨s0, g0⟩ := t0
  obtain rfl : s0 = _ := h0
  obtain ⟨s1, g1⟩ := t1
  obtain rfl : s1 = _ := h1
  obtain ⟨s2, g2⟩ := t2
  obtain rfl : s2 = _ := h2
  obtain ⟨s3, g3⟩ := t3
  obtain rfl : s3 = _ := h3
  rfl

theorem rowRing_elem {a0 a1 a2 : Tn 𝕜} {x0 x1 x2 d0 u0 d1 u1 d2 u2 : ℕ} (h0 : a0.shape = [x0, d0, x1, u0])
    (h1 : a1.shape = [x1, d1, x2, u1]) (h2 : a2.shape = [x2, d2, x0, u2]) :
    (rowRing a0 a1 a2).shape = [d0, u0, d1, u1, d2, u2] ∧ ∀ i j k l m n, (rowRing a0 a1 a2).elem [i, j, k, l, m, n] =
      ∑ a ∈ Finset.range x0, ∑ c ∈ Finset.range x2,
        (∑ b ∈ Finset.range x1, a0.elem [a, i, b, j] * a1.elem [b, k, c, l]) * a2.elem [c, m, a, n] := by
  obtain ⟨s0, g0⟩ := a0
  obtain rfl : s0 = _ := h0
  obtain ⟨s1, g1⟩ := a1
  obtain rfl : s1 = _ := h1
  obtain ⟨s2, g2⟩ := a2
  obtain rfl : s2 = _ := h2
  exact ⟨rfl, fun _ _ _ _ _ _ => rfl⟩

theorem rows_elem {r0 r1 r2 : Tn 𝕜} {a b c d e f g h i : ℕ} (h0 : r0.shape = [a, b, c, d, e, f])
    (h1 : r1.shape = [g, a, h, c, i, e]) (h2 : r2.shape = [b, g, d, h, f, i]) :
    (contractN (contractN r0 [0, 2, 4] r1 [1, 3, 5]) [0, 1, 2, 3, 4, 5] r2 [0, 2, 4, 1, 3, 5]).elem [] =
      ∑ u0 ∈ Finset.range b, ∑ u1 ∈ Finset.range d, ∑ u2 ∈ Finset.range f,
      ∑ v0 ∈ Finset.range g, ∑ v1 ∈ Finset.range h, ∑ v2 ∈ Finset.range i,
        (∑ x0 ∈ Finset.range a, ∑ x1 ∈ Finset.range c, ∑ x2 ∈ Finset.range e,
          r0.elem [x0, u0, x1, u1, x2, u2] * r1.elem [v0, x0, v1, x1, v2, x2]) *
        r2.elem [u0, v0, u1, v1, u2, v2] := by
  obtain ⟨s0, g0⟩ := r0
  obtain rfl : s0 = _ := h0
  obtain ⟨s1, g1⟩ := r1
  obtain rfl : s1 = _ := h1
  obtain ⟨s2, g2⟩ := r2
  obtain rfl : s2 = _ := h2
  rfl

end

end QLPeps.Trg
