import Verif.Model.BmpsTraversal
import Verif.Spec.BmpsTraversal
import Verif.Lemmas.BmpsPlaq

/-! # Traces over plaquettes and 2×3 blocks -/

namespace QLPeps.Bmps

universe u

open QLPeps.Contractor QLPeps.Sweep
open QLPeps.Peps (Tn Lib)
open QLPeps.Bmps.Spec
open QLPeps.Tps.Spec (Bond)

noncomputable section

section
variable {𝕜 : Type u} [RCLike 𝕜]

theorem dot4_comm {c d : Tn 𝕜} {a w1 w2 b : ℕ} (hc : c.shape = [a, w1, w2, b])
    (hd : d.shape = [b, w2, w1, a]) : dot4 c d = dot4 d c := by
  rw [dot4_eq hc hd, dot4_eq hd hc]
  calc _ = ∑ v ∈ Finset.range w1 ×ˢ Finset.range w2, ∑ k ∈ Finset.range b, ∑ i ∈ Finset.range a,
        c.elem [i, v.1, v.2, k] * d.elem [k, v.2, v.1, i] := by
        rw [Finset.sum_comm]
        exact Finset.sum_congr rfl fun v _ => Finset.sum_comm
    _ = _ := by
        rw [Finset.sum_comm]
        refine Finset.sum_congr rfl fun k _ => ?_
        rw [sum_swap (Finset.range w2)]
        exact Finset.sum_congr rfl fun v _ => Finset.sum_congr rfl fun i _ => mul_comm _ _

theorem nnn_horizontal (l u1 u2 d1 d2 lu ld ru rd r : Tn 𝕜) :
    nnnOp .horizontal l u1 u2 d1 d2 lu ld ru rd r =
      dot4 (growBTen2 .left l u1 lu ld d1) (growBTen2 .right r d2 rd ru u2) := rfl

theorem nnn_vertical (u l1 l2 r1 r2 lu ld ru rd d : Tn 𝕜) :
    nnnOp .vertical u l1 l2 r1 r2 lu ld ru rd d =
      dot4 (growBTen2 .down d l2 ld rd r2) (growBTen2 .up u r1 ru lu l1) := rfl

theorem sq5_horizontal (l r : Tn 𝕜) (a b c : Tn 𝕜 × Tn 𝕜 × Tn 𝕜 × Tn 𝕜) :
    sq5Op .horizontal l a b c r =
      dot4 (growBTen2 .left (growBTen2 .left l a.1 a.2.2.1 a.2.2.2 a.2.1) b.1 b.2.2.1 b.2.2.2 b.2.1)
        (growBTen2 .right r c.2.1 c.2.2.2 c.2.2.1 c.1) := rfl

theorem sq5_vertical (u d : Tn 𝕜) (a b c : Tn 𝕜 × Tn 𝕜 × Tn 𝕜 × Tn 𝕜) :
    sq5Op .vertical u a b c d =
      dot4 (growBTen2 .down (growBTen2 .down d c.1 c.2.2.1 c.2.2.2 c.2.1) b.1 b.2.2.1 b.2.2.2 b.2.1)
        (growBTen2 .up u a.2.1 a.2.2.2 a.2.2.1 a.1) := rfl

end

variable {𝕜 : Type u} [RCLike 𝕜] {rows cols : ℕ} {lib : Lib 𝕜} {t : QLPeps.Site → Tn 𝕜}
  {dim : Bond .obc rows cols → ℕ}

theorem left2_succ (s k : ℕ) :
    growBTen2 .left (benv2 (tensorOps lib rows cols) rows cols t .left s k)
      (facing (tensorOps lib rows cols) rows cols .up (beyond (tensorOps lib rows cols) rows cols t .up s) k)
      (t (s, k)) (t (s + 1, k))
      (facing (tensorOps lib rows cols) rows cols .down
        (beyond (tensorOps lib rows cols) rows cols t .down (s + 1)) k) =
      benv2 (tensorOps lib rows cols) rows cols t .left s (k + 1) :=
  (benv2_succ (tensorOps lib rows cols) rows cols t .left s k).symm

theorem up2_succ (s k : ℕ) :
    growBTen2 .up (benv2 (tensorOps lib rows cols) rows cols t .up s k)
      (facing (tensorOps lib rows cols) rows cols .right
        (beyond (tensorOps lib rows cols) rows cols t .right (s + 1)) k)
      (t (k, s + 1)) (t (k, s))
      (facing (tensorOps lib rows cols) rows cols .left
        (beyond (tensorOps lib rows cols) rows cols t .left s) k) =
      benv2 (tensorOps lib rows cols) rows cols t .up s (k + 1) :=
  (benv2_succ (tensorOps lib rows cols) rows cols t .up s k).symm

theorem right2_succ (s k : ℕ) (hk : k < cols) :
    growBTen2 .right (benv2 (tensorOps lib rows cols) rows cols t .right s (cols - (k + 1)))
      (facing (tensorOps lib rows cols) rows cols .down
        (beyond (tensorOps lib rows cols) rows cols t .down (s + 1)) k)
      (t (s + 1, k)) (t (s, k))
      (facing (tensorOps lib rows cols) rows cols .up (beyond (tensorOps lib rows cols) rows cols t .up s) k)
       =
      benv2 (tensorOps lib rows cols) rows cols t .right s (cols - k) :=
  (benv2_opposite_succ (lib := lib) (t := t) .left s k hk).symm

theorem down2_succ (s k : ℕ) (hk : k < rows) :
    growBTen2 .down (benv2 (tensorOps lib rows cols) rows cols t .down s (rows - (k + 1)))
      (facing (tensorOps lib rows cols) rows cols .left
        (beyond (tensorOps lib rows cols) rows cols t .left s) k)
      (t (k, s)) (t (k, s + 1))
      (facing (tensorOps lib rows cols) rows cols .right
        (beyond (tensorOps lib rows cols) rows cols t .right (s + 1)) k) =
      benv2 (tensorOps lib rows cols) rows cols t .down s (rows - k) :=
  (benv2_opposite_succ (lib := lib) (t := t) .up s k hk).symm

theorem ops_nnn : (tensorOps lib rows cols).nnn = nnnOp := rfl
theorem ops5_sq5 : (tensorOps5 lib rows cols).sq5 = sq5Op := rfl
theorem ops5_toOps : (tensorOps5 lib rows cols).toOps = tensorOps lib rows cols := rfl

/-- the two boundary tensors contracted the other way round -/
theorem cut2_comm (hl : Lossless lib) (hf : Fits t dim) (s k : ℕ) (hs : s + 1 < cols) (hk : k ≤ rows)
    (hr : 0 < rows) :
    dot4 (benv2 (tensorOps lib rows cols) rows cols t .down s (rows - k))
      (benv2 (tensorOps lib rows cols) rows cols t .up s k) = cut2 lib rows cols t .up s k :=
  (dot4_comm (benv2_shape hl (net_of_fits hf) .up s hs hr k hk)
    (benv2_opposite_shape hl (net_of_fits hf) .up s hs hr k hk)).symm

theorem plaquette_horizontal (r c : ℕ) (hc : c + 1 < cols) :
    plaquetteAmp (tensorOps lib rows cols) rows cols t (r, c) = cut2 lib rows cols t .left r (c + 1) := by
  simp only [plaquetteAmp, ops_nnn, nnn_horizontal]
  rw [left2_succ, show cols - 1 - (c + 1) = cols - (c + 1 + 1) by omega, right2_succ _ _ hc]
  rfl

theorem plaquette_vertical (hl : Lossless lib) (hf : Fits t dim) (r c : ℕ) (hr : r + 1 < rows)
    (hc : c + 1 < cols) :
    plaquetteV (tensorOps lib rows cols) rows cols t (r, c) = cut2 lib rows cols t .up c (r + 1) := by
  simp only [plaquetteV, ops_nnn, nnn_vertical]
  rw [up2_succ, show rows - 1 - (r + 1) = rows - (r + 1 + 1) by omega, down2_succ _ _ hr]
  exact cut2_comm hl hf c (r + 1) hc hr.le (by omega)

theorem block_horizontal (r c : ℕ) (hc : c + 2 < cols) :
    blockAmp (tensorOps5 lib rows cols) rows cols t .horizontal (r, c) =
      cut2 lib rows cols t .left r (c + 2) := by
  simp only [blockAmp, ops5_sq5, ops5_toOps, sq5_horizontal, column2]
  rw [left2_succ, left2_succ, show cols - 1 - (c + 2) = cols - (c + 2 + 1) by omega, right2_succ _ _ hc]
  rfl

theorem block_vertical (hl : Lossless lib) (hf : Fits t dim) (r c : ℕ) (hr : r + 2 < rows)
    (hc : c + 1 < cols) :
    blockAmp (tensorOps5 lib rows cols) rows cols t .vertical (r, c) =
      cut2 lib rows cols t .up c (r + 1) := by
  simp only [blockAmp, ops5_sq5, ops5_toOps, sq5_vertical, column2]
  rw [up2_succ, show rows - 1 - (r + 2) = rows - (r + 2 + 1) by omega, down2_succ _ _ hr,
    down2_succ _ _ (by omega)]
  exact cut2_comm hl hf c (r + 1) hc (by omega) (by omega)

end

end QLPeps.Bmps
