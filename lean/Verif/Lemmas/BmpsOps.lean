import Verif.Model.Bmps
import Verif.Lemmas.Box
import Verif.Spec.Peps

/-! # Elements of the contractions of the contractor -/

namespace QLPeps.Bmps

open QLPeps.Contractor QLPeps.Sweep QLPeps.Box
open QLPeps.Peps (Tn Lib rot contract contractN transpose)

noncomputable section

variable {𝕜 : Type*} [RCLike 𝕜]

/-- the shape of a site tensor seen from side `p`: leg towards the preceding side, towards `p`,
towards the following side, away from `p` -/
def FShape (p : Pos) (t : Tn 𝕜) (a x b y : ℕ) : Prop :=
  match p with
  | .down => t.shape = [a, x, b, y]
  | .left => t.shape = [x, b, y, a]
  | .right => t.shape = [y, a, x, b]
  | .up => t.shape = [b, y, a, x]

/-- the elements of a site tensor seen from side `p` -/
def fe (p : Pos) (t : Tn 𝕜) (a x b y : ℕ) : 𝕜 :=
  match p with
  | .down => t.elem [a, x, b, y]
  | .left => t.elem [x, b, y, a]
  | .right => t.elem [y, a, x, b]
  | .up => t.elem [b, y, a, x]

theorem fe_opposite (p : Pos) (t : Tn 𝕜) (a x b y : ℕ) :
    fe (opposite p) t b y a x = fe p t a x b y := by cases p <;> rfl

theorem fe_next (p : Pos) (t : Tn 𝕜) (a x b y : ℕ) :
    fe (next p) t x b y a = fe p t a x b y := by cases p <;> rfl

theorem FShape_opposite {p : Pos} {t : Tn 𝕜} {a x b y : ℕ} :
    FShape (opposite p) t b y a x ↔ FShape p t a x b y := by cases p <;> rfl

theorem FShape_next {p : Pos} {t : Tn 𝕜} {a x b y : ℕ} :
    FShape (next p) t x b y a ↔ FShape p t a x b y := by cases p <;> rfl

/-- first contraction of a multiplication step -/
theorem mul_tmp1 {e r : Tn 𝕜} {D X D' M A : ℕ} (he : e.shape = [D, X, D']) (hr : r.shape = [M, A, D]) :
    (contract e 0 r 2).shape = [X, D', M, A] ∧
    ∀ x b m a, (contract e 0 r 2).elem [x, b, m, a] =
      ∑ k ∈ Finset.range D, e.elem [k, x, b] * r.elem [m, a, k] := by
  obtain ⟨sh, g⟩ := e
  obtain rfl : sh = _ := he
  obtain ⟨sh, h⟩ := r
  obtain rfl : sh = _ := hr
  exact ⟨rfl, fun _ _ _ _ => rfl⟩

theorem c2_3 {t s : Tn 𝕜} {X D' M A a x b y : ℕ} (ht : t.shape = [X, D', M, A]) (p : Pos)
    (hs : FShape p s a x b y) :
    (contract2 t 3 s (prePost p)).shape = [D', M, b, y] ∧
    ∀ i j k l, (contract2 t 3 s (prePost p)).elem [i, j, k, l] =
      ∑ u ∈ Finset.range A, ∑ v ∈ Finset.range X, t.elem [v, i, j, u] * fe p s u v k l := by
  obtain ⟨sh, g⟩ := t
  obtain rfl : sh = _ := ht
  obtain ⟨sh, h⟩ := s
  cases p <;> obtain rfl : sh = _ := hs <;> exact ⟨rfl, fun _ _ _ _ => rfl⟩

theorem c2_1 {t s : Tn 𝕜} {X D' M A a x b y : ℕ} (ht : t.shape = [X, D', M, A]) (p : Pos)
    (hs : FShape p s a x b y) :
    (contract2 t 1 s (prePost p)).shape = [A, X, b, y] ∧
    ∀ i j k l, (contract2 t 1 s (prePost p)).elem [i, j, k, l] =
      ∑ u ∈ Finset.range D', ∑ v ∈ Finset.range M, t.elem [j, u, v, i] * fe p s u v k l := by
  obtain ⟨sh, g⟩ := t
  obtain rfl : sh = _ := ht
  obtain ⟨sh, h⟩ := s
  cases p <;> obtain rfl : sh = _ := hs <;> exact ⟨rfl, fun _ _ _ _ => rfl⟩

/-- the tensor of a multiplication step before the factorization -/
theorem mul_tmp2 {e r s : Tn 𝕜} {D X D' M A b y : ℕ} (he : e.shape = [D, X, D'])
    (hr : r.shape = [M, A, D]) (p : Pos) (hs : FShape p s A X b y) :
    (contract2 (contract e 0 r 2) 3 s (prePost p)).shape = [D', M, b, y] ∧
    ∀ i m k l, (contract2 (contract e 0 r 2) 3 s (prePost p)).elem [i, m, k, l] =
      ∑ u ∈ Finset.range A, ∑ v ∈ Finset.range X,
        (∑ z ∈ Finset.range D, e.elem [z, v, i] * r.elem [m, u, z]) * fe p s u v k l := by
  obtain ⟨h1, h2⟩ := mul_tmp1 he hr
  obtain ⟨h3, h4⟩ := c2_3 h1 p hs
  refine ⟨h3, fun i m k l => ?_⟩
  rw [h4]
  simp only [h2]

theorem transpose_1320 {t : Tn 𝕜} {a b c d : ℕ} (ht : t.shape = [a, b, c, d]) :
    (transpose [1, 3, 2, 0] t).shape = [b, d, c, a] ∧
    ∀ i j k l, (transpose [1, 3, 2, 0] t).elem [i, j, k, l] = t.elem [l, i, k, j] := by
  obtain ⟨sh, g⟩ := t
  obtain rfl : sh = _ := ht
  exact ⟨rfl, fun _ _ _ _ => rfl⟩

/-- the last tensor of a multiplication -/
theorem mul_last {t : Tn 𝕜} {M y : ℕ} (ht : t.shape = [1, M, 1, y]) :
    (contractN t [0, 2] (indexCombine (t.shape.getD 0 0) (t.shape.getD 2 0)) [0, 1]).shape = [M, y, 1] ∧
    ∀ i j, (contractN t [0, 2] (indexCombine (t.shape.getD 0 0) (t.shape.getD 2 0)) [0, 1]).elem
      [i, j, 0] = t.elem [0, i, 0, j] := by
  obtain ⟨sh, g⟩ := t
  obtain rfl : sh = _ := ht
  refine ⟨rfl, fun i j => ?_⟩
  change ∑ k ∈ Finset.range 1, ∑ l ∈ Finset.range 1, g [k, i, l, j] *
    (if 0 = k * 1 + l then (1 : 𝕜) else 0) = _
  simp

theorem combine_r (A D : ℕ) (hA : A = 1) (hD : D = 1) :
    (transpose [2, 0, 1] (indexCombine (𝕜 := 𝕜) A D)).shape = [1, A, D] ∧
    (transpose [2, 0, 1] (indexCombine (𝕜 := 𝕜) A D)).elem [0, 0, 0] = 1 := by
  subst hA hD
  refine ⟨rfl, ?_⟩
  change (if 0 = 0 * 1 + 0 then (1 : 𝕜) else 0) = 1
  simp

/-- a canonicalization step -/
theorem cano_u {d : Peps.Diag} {u : Tn 𝕜} {L : ℕ} (hu : u.shape = [L, d.dim]) :
    (contractN u [1] d.ten [0]).shape = [L, d.dim] ∧
    ∀ i j, j < d.dim → (contractN u [1] d.ten [0]).elem [i, j] = u.elem [i, j] * (d.val j : 𝕜) := by
  obtain ⟨sh, g⟩ := u
  obtain rfl : sh = _ := hu
  refine ⟨rfl, fun i j hj => ?_⟩
  change ∑ k ∈ Finset.range d.dim, g [i, k] * (if k = j then (d.val k : 𝕜) else 0) = _
  rw [Finset.sum_eq_single j]
  · simp
  · intro k _ hk; simp [hk]
  · intro h; exact absurd (Finset.mem_range.2 hj) h

theorem cano_prev {e s : Tn 𝕜} {a x L K : ℕ} (he : e.shape = [a, x, L]) (hs : s.shape = [L, K]) :
    (contractN e [2] s [0]).shape = [a, x, K] ∧
    ∀ i j k, (contractN e [2] s [0]).elem [i, j, k] =
      ∑ l ∈ Finset.range L, e.elem [i, j, l] * s.elem [l, k] := by
  obtain ⟨sh, g⟩ := e
  obtain rfl : sh = _ := he
  obtain ⟨sh, h⟩ := s
  obtain rfl : sh = _ := hs
  exact ⟨rfl, fun _ _ _ => rfl⟩

/-- a growth step of a boundary tensor -/
theorem growBTen_eq {c e1 s e2 : Tn 𝕜} {a' X a w b Y b' w' : ℕ} (p : Pos)
    (h1 : e1.shape = [a', X, a]) (hc : c.shape = [a, w, b]) (hs : FShape p s X w Y w')
    (h2 : e2.shape = [b, Y, b']) :
    (growBTen p c e1 s e2).shape = [a', w', b'] ∧
    ∀ i j k, (growBTen p c e1 s e2).elem [i, j, k] =
      ∑ z ∈ Finset.range b, ∑ y ∈ Finset.range Y,
        (∑ x ∈ Finset.range X, ∑ v ∈ Finset.range w,
          (∑ q ∈ Finset.range a, e1.elem [i, x, q] * c.elem [q, v, z]) * fe p s x v y j) *
        e2.elem [z, y, k] := by
  have t1 : (contract e1 2 c 0).shape = [a', X, w, b] ∧
      ∀ i x v z, (contract e1 2 c 0).elem [i, x, v, z] =
        ∑ q ∈ Finset.range a, e1.elem [i, x, q] * c.elem [q, v, z] := by
    obtain ⟨sh, g⟩ := e1
    obtain rfl : sh = _ := h1
    obtain ⟨sh, h⟩ := c
    obtain rfl : sh = _ := hc
    exact ⟨rfl, fun _ _ _ _ => rfl⟩
  have t2 := c2_1 t1.1 p hs
  have t3 : (contractN (contract2 (contract e1 2 c 0) 1 s (prePost p)) [0, 2] e2 [0, 1]).shape
        = [a', w', b'] ∧
      ∀ i j k, (contractN (contract2 (contract e1 2 c 0) 1 s (prePost p)) [0, 2] e2 [0, 1]).elem
        [i, j, k] = ∑ z ∈ Finset.range b, ∑ y ∈ Finset.range Y,
          (contract2 (contract e1 2 c 0) 1 s (prePost p)).elem [z, i, y, j] * e2.elem [z, y, k] := by
    generalize contract2 (contract e1 2 c 0) 1 s (prePost p) = t at *
    obtain ⟨sh, g⟩ := t
    obtain rfl : sh = _ := t2.1
    obtain ⟨sh, h⟩ := e2
    obtain rfl : sh = _ := h2
    exact ⟨rfl, fun _ _ _ => rfl⟩
  refine ⟨t3.1, fun i j k => ?_⟩
  refine (t3.2 i j k).trans ?_
  simp only [t2.2, t1.2]

theorem dot3 {c d : Tn 𝕜} {a w b : ℕ} (hc : c.shape = [a, w, b]) (hd : d.shape = [b, w, a]) :
    (contractN c [0, 1, 2] d [2, 1, 0]).elem [] =
      ∑ i ∈ Finset.range a, ∑ j ∈ Finset.range w, ∑ k ∈ Finset.range b,
        c.elem [i, j, k] * d.elem [k, j, i] := by
  obtain ⟨sh, g⟩ := c
  obtain rfl : sh = _ := hc
  obtain ⟨sh, h⟩ := d
  obtain rfl : sh = _ := hd
  rfl

/-! The traces are growth steps followed by a full contraction. -/

/-- the full contraction of two boundary tensors -/
def dot (c d : Tn 𝕜) : 𝕜 := (contractN c [0, 1, 2] d [2, 1, 0]).elem []

theorem nn_horizontal (l ua da ta ub db tb r : Tn 𝕜) :
    nnOp .horizontal l ua da ta ub db tb r =
      dot (growBTen .left l ua ta da) (growBTen .right r db tb ub) := rfl

theorem nn_vertical (u la ra ta lb rb tb d : Tn 𝕜) :
    nnOp .vertical u la ra ta lb rb tb d =
      dot (growBTen .up u ra ta la) (growBTen .down d lb tb rb) := rfl

theorem tnn_horizontal (l u0 d0 t0 u1 d1 t1 u2 d2 t2 r : Tn 𝕜) :
    tnnOp .horizontal l u0 d0 t0 u1 d1 t1 u2 d2 t2 r =
      dot (growBTen .left (growBTen .left (growBTen .left l u0 t0 d0) u1 t1 d1) u2 t2 d2) r := rfl

theorem tnn_vertical (u l0 r0 t0 l1 r1 t1 l2 r2 t2 d : Tn 𝕜) :
    tnnOp .vertical u l0 r0 t0 l1 r1 t1 l2 r2 t2 d =
      dot (growBTen .up (growBTen .up (growBTen .up u r0 t0 l0) r1 t1 l1) r2 t2 l2) d := rfl

theorem one_horizontal (l u d t r : Tn 𝕜) :
    oneOp .horizontal l u d t r = dot (growBTen .left l u t d) r := rfl

end

end QLPeps.Bmps
