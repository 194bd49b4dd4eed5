import Verif.Lemmas.PepsDiag
import Mathlib.Tactic

/-!
# Elements of the tensors dressed with, or stripped of, the surrounding weights
-/

namespace QLPeps.Peps

open QLPeps.Peps.Spec

variable {𝕜 : Type*} [RCLike 𝕜]

theorem diagInv_dim (tol : ℝ) (d : Diag) : (diagInv tol d).dim = d.dim := rfl

theorem diagInv_mul {tol : ℝ} {d : Diag} (h : Above tol d) (htol : 0 ≤ tol) {i : ℕ} (hi : i < d.dim) :
    ((diagInv tol d).val i : 𝕜) * (d.val i : 𝕜) = 1 := by
  have h1 := h i hi
  have h2 : d.val i ≠ 0 := fun h0 => by rw [h0, abs_zero] at h1; exact absurd h1 (not_lt.2 htol)
  rw [← RCLike.ofReal_mul]
  simp only [diagInv, if_pos h1, one_div, inv_mul_cancel₀ h2, RCLike.ofReal_one]

section
variable (p : Peps 𝕜) (r c : ℕ) {a b d e f : ℕ} (hg : (p.gamma r c).shape = [a, b, d, e, f])
  {s m n x w : ℕ}
include hg

theorem eat3_right_shape : (eat3 p r c .right).shape =
    [(p.north r c).dim, (p.west r c).dim, (p.south r c).dim, f, d] := by
  simp only [eat3, transpose]
  rw [s50_0 (s51_1 (s53_1 hg _) _) _]
  rfl

theorem eat3_left_shape : (eat3 p r c .left).shape =
    [(p.south r c).dim, (p.east r c).dim, (p.north r c).dim, f, a] := by
  simp only [eat3]
  rw [s0_53 (s53_0 (s53_1 hg _) _) _]

theorem eat3_down_shape : (eat3 p r c .down).shape =
    [(p.east r c).dim, (p.north r c).dim, (p.west r c).dim, f, b] := by
  simp only [eat3, transpose]
  rw [s0_54 (s1_53 (s1_50 hg _) _) _]
  rfl

theorem eat3_up_shape : (eat3 p r c .up).shape =
    [(p.east r c).dim, (p.south r c).dim, (p.west r c).dim, f, e] := by
  simp only [eat3, transpose]
  rw [s0_51 (s0_51 (s1_50 hg _) _) _]
  rfl

theorem eat_shape : (eat p r c).shape =
    [f, (p.west r c).dim, (p.south r c).dim, (p.east r c).dim, (p.north r c).dim] := by
  simp only [eat]
  rw [s50_1 (s50_0 (s50_0 (s50_1 hg _) _) _) _]

theorem eat3_right (hn : n < e) (hw : w < a) (hs : s < b) :
    (eat3 p r c .right).elem [n, w, s, x, m] = (p.gamma r c).elem [w, s, m, n, x] *
      ((p.north r c).val n : 𝕜) * ((p.west r c).val w : 𝕜) * ((p.south r c).val s : 𝕜) := by
  change (contract (contract (contract _ 3 _ 1) 1 _ 1) 0 _ 0).elem [m, n, x, w, s] = _
  rw [c50_0 (s51_1 (s53_1 hg _) _) _ hs, c51_1 (s53_1 hg _) _ hw, c53_1 hg _ hn]

theorem eat3_left (hs : s < (p.south r c).dim) (hm : m < d) (hn : n < e) :
    (eat3 p r c .left).elem [s, m, n, x, w] = (p.gamma r c).elem [w, s, m, n, x] *
      ((p.north r c).val n : 𝕜) * ((p.east r c).val m : 𝕜) * ((p.south r c).val s : 𝕜) := by
  change (contract _ 0 (contract (contract _ 3 _ 1) 3 _ 0) 3).elem [s, m, n, x, w] = _
  rw [c0_53 (s53_0 (s53_1 hg _) _) _ hs, c53_0 (s53_1 hg _) _ hm, c53_1 hg _ hn]

theorem eat3_down (hm : m < (p.east r c).dim) (hn : n < (p.north r c).dim)
    (hw : w < (p.west r c).dim) :
    (eat3 p r c .down).elem [m, n, w, x, s] = (p.gamma r c).elem [w, s, m, n, x] *
      ((p.west r c).val w : 𝕜) * ((p.north r c).val n : 𝕜) * ((p.east r c).val m : 𝕜) := by
  change (contract _ 0 (contract _ 1 (contract _ 1 _ 0) 3) 4).elem [m, n, x, w, s] = _
  rw [c0_54 (s1_53 (s1_50 hg _) _) _ hm, c1_53 (s1_50 hg _) _ hn, c1_50 hg _ hw]

theorem eat3_up (hm : m < (p.east r c).dim) (hs : s < (p.south r c).dim)
    (hw : w < (p.west r c).dim) :
    (eat3 p r c .up).elem [m, s, w, x, n] = (p.gamma r c).elem [w, s, m, n, x] *
      ((p.west r c).val w : 𝕜) * ((p.south r c).val s : 𝕜) * ((p.east r c).val m : 𝕜) := by
  change (contract _ 0 (contract _ 0 (contract _ 1 _ 0) 1) 1).elem [m, n, x, w, s] = _
  rw [c0_51 (s0_51 (s1_50 hg _) _) _ hm, c0_51 (s1_50 hg _) _ hs, c1_50 hg _ hw]

theorem eat_elem (hw : w < a) (hs : s < b) (hm : m < d) (hn : n < e) :
    (eat p r c).elem [x, w, s, m, n] = (p.gamma r c).elem [w, s, m, n, x] *
      ((p.west r c).val w : 𝕜) * ((p.south r c).val s : 𝕜) * ((p.east r c).val m : 𝕜) *
      ((p.north r c).val n : 𝕜) := by
  unfold eat
  rw [c50_1 (s50_0 (s50_0 (s50_1 hg _) _) _) _ hn, c50_0 (s50_0 (s50_1 hg _) _) _ hm,
    c50_0 (s50_1 hg _) _ hs, c50_1 hg _ hw]

end

section
variable (tol : ℝ) (p : Peps 𝕜) (q : Tn 𝕜) (r c : ℕ) {a b d e : ℕ} (hq : q.shape = [a, b, d, e])
  {s m n w k : ℕ}
include hq

theorem split_right_shape : (split tol p q r c .right).shape =
    [e, (p.north r c).dim, (p.west r c).dim, (p.south r c).dim] := by
  simp only [split]
  rw [s40_0 (s40_1 (s40_1 hq _) _) _]
  rfl

theorem split_left_shape : (split tol p q r c .left).shape =
    [e, (p.south r c).dim, (p.east r c).dim, (p.north r c).dim] := by
  simp only [split]
  rw [s40_1 (s40_0 (s40_0 hq _) _) _]
  rfl

theorem split_down_shape : (split tol p q r c .down).shape =
    [(p.east r c).dim, (p.north r c).dim, (p.west r c).dim, e] := by
  simp only [split]
  rw [s0_42 (s1_41 (s1_41 hq _) _) _]
  rfl

theorem split_up_shape : (split tol p q r c .up).shape =
    [(p.west r c).dim, e, (p.east r c).dim, (p.south r c).dim] := by
  simp only [split]
  rw [s1_41 (s0_41 (s0_40 hq _) _) _]
  rfl

theorem split_right (hn : n < a) (hw : w < b) (hs : s < d) :
    (split tol p q r c .right).elem [k, n, w, s] = q.elem [n, w, s, k] *
      ((diagInv tol (p.north r c)).val n : 𝕜) * ((diagInv tol (p.west r c)).val w : 𝕜) *
      ((diagInv tol (p.south r c)).val s : 𝕜) := by
  unfold split
  rw [c40_0 (s40_1 (s40_1 hq _) _) _ hs, c40_1 (s40_1 hq _) _ hw, c40_1 hq _ hn]

theorem split_left (hs : s < a) (hm : m < b) (hn : n < d) :
    (split tol p q r c .left).elem [k, s, m, n] = q.elem [s, m, n, k] *
      ((diagInv tol (p.south r c)).val s : 𝕜) * ((diagInv tol (p.east r c)).val m : 𝕜) *
      ((diagInv tol (p.north r c)).val n : 𝕜) := by
  unfold split
  rw [c40_1 (s40_0 (s40_0 hq _) _) _ hn, c40_0 (s40_0 hq _) _ hm, c40_0 hq _ hs]

theorem split_down (hm : m < (p.east r c).dim) (hn : n < (p.north r c).dim)
    (hw : w < (p.west r c).dim) :
    (split tol p q r c .down).elem [m, n, w, k] = q.elem [m, n, w, k] *
      ((diagInv tol (p.north r c)).val n : 𝕜) * ((diagInv tol (p.west r c)).val w : 𝕜) *
      ((diagInv tol (p.east r c)).val m : 𝕜) := by
  unfold split
  rw [c0_42 (s1_41 (s1_41 hq _) _) (diagInv tol (p.east r c)) hm,
    c1_41 (s1_41 hq _) (diagInv tol (p.west r c)) hw,
    c1_41 hq (diagInv tol (p.north r c)) hn]

theorem split_up (hm : m < (p.east r c).dim) (hs : s < (p.south r c).dim)
    (hw : w < (p.west r c).dim) :
    (split tol p q r c .up).elem [w, k, m, s] = q.elem [m, s, w, k] *
      ((diagInv tol (p.east r c)).val m : 𝕜) * ((diagInv tol (p.south r c)).val s : 𝕜) *
      ((diagInv tol (p.west r c)).val w : 𝕜) := by
  unfold split
  rw [c1_41 (s0_41 (s0_40 hq _) _) (diagInv tol (p.west r c)) hw,
    c0_41 (s0_40 hq _) (diagInv tol (p.south r c)) hs,
    c0_40 hq (diagInv tol (p.east r c)) hm]

end

end QLPeps.Peps
