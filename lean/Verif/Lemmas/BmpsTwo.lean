import Verif.Lemmas.BmpsAmp
import Verif.Lemmas.Traversal

/-! # Two-layer boundary tensors: growing and moving sites -/

namespace QLPeps.Bmps

open QLPeps.Contractor QLPeps.Sweep QLPeps.Box
open QLPeps.Peps (Tn Lib rot contract contractN transpose)
open QLPeps.Bmps.Spec (Lossless)

noncomputable section

variable {𝕜 : Type*} [RCLike 𝕜]

/-- two stacked site tensors, the bond between them contracted -/
def fe2 (p : Pos) (s1 s2 : Tn 𝕜) (M : ℕ) (x : ℕ) (v : ℕ × ℕ) (y : ℕ) (j : ℕ × ℕ) : 𝕜 :=
  ∑ m ∈ Finset.range M, fe p s1 x v.1 m j.1 * fe p s2 m v.2 y j.2

theorem fe2_opposite (p : Pos) (s1 s2 : Tn 𝕜) (M x : ℕ) (v : ℕ × ℕ) (y : ℕ) (j : ℕ × ℕ) :
    fe2 (opposite p) s2 s1 M y j.swap x v.swap = fe2 p s1 s2 M x v y j := by
  refine Finset.sum_congr rfl fun m _ => ?_
  rw [fe_opposite, fe_opposite]
  exact mul_comm _ _

theorem transpose_site (p : Pos) {s : Tn 𝕜} {a x b y : ℕ} (hs : FShape p s a x b y) :
    (transpose [(num p + 3) % 4, num p, (num p + 2) % 4, (num p + 1) % 4] s).shape = [a, x, y, b] ∧
    ∀ i j k l, (transpose [(num p + 3) % 4, num p, (num p + 2) % 4, (num p + 1) % 4] s).elem
      [i, j, k, l] = fe p s i j l k := by
  obtain ⟨sh, h⟩ := s
  cases p <;> obtain rfl : sh = _ := hs <;> exact ⟨rfl, fun _ _ _ _ => rfl⟩

theorem two_tmp1 {e c : Tn 𝕜} {a' X a w1 w2 b : ℕ} (he : e.shape = [a', X, a])
    (hc : c.shape = [a, w1, w2, b]) :
    (contract e 2 c 0).shape = [a', X, w1, w2, b] ∧
    ∀ i x v u z, (contract e 2 c 0).elem [i, x, v, u, z] =
      ∑ q ∈ Finset.range a, e.elem [i, x, q] * c.elem [q, v, u, z] := by
  obtain ⟨sh, g⟩ := e
  obtain rfl : sh = _ := he
  obtain ⟨sh, h⟩ := c
  obtain rfl : sh = _ := hc
  exact ⟨rfl, fun _ _ _ _ _ => rfl⟩

theorem two_tmp2 {t s : Tn 𝕜} {a' X w1 w2 b y m : ℕ} (ht : t.shape = [a', X, w1, w2, b])
    (hs : s.shape = [X, w1, y, m]) :
    (contract2 t 1 s 0).shape = [w2, b, a', y, m] ∧
    ∀ u z i j l, (contract2 t 1 s 0).elem [u, z, i, j, l] =
      ∑ x ∈ Finset.range X, ∑ v ∈ Finset.range w1, t.elem [i, x, v, u, z] * s.elem [x, v, j, l] := by
  obtain ⟨sh, g⟩ := t
  obtain rfl : sh = _ := ht
  obtain ⟨sh, h⟩ := s
  obtain rfl : sh = _ := hs
  exact ⟨rfl, fun _ _ _ _ _ => rfl⟩

theorem two_tmp3 (p : Pos) {t s : Tn 𝕜} {w2 b a' y m Y y' : ℕ} (ht : t.shape = [w2, b, a', y, m])
    (hs : FShape p s m w2 Y y') :
    (contract2 t 4 s (prePost p)).shape = [b, a', y, Y, y'] ∧
    ∀ z i j l k, (contract2 t 4 s (prePost p)).elem [z, i, j, l, k] =
      ∑ n ∈ Finset.range m, ∑ u ∈ Finset.range w2, t.elem [u, z, i, j, n] * fe p s n u l k := by
  obtain ⟨sh, g⟩ := t
  obtain rfl : sh = _ := ht
  obtain ⟨sh, h⟩ := s
  cases p <;> obtain rfl : sh = _ := hs <;> exact ⟨rfl, fun _ _ _ _ _ => rfl⟩

theorem two_tmp4 {t e : Tn 𝕜} {b a' y Y y' b' : ℕ} (ht : t.shape = [b, a', y, Y, y'])
    (he : e.shape = [b, Y, b']) :
    (contractN t [0, 3] e [0, 1]).shape = [a', y, y', b'] ∧
    ∀ i j l k, (contractN t [0, 3] e [0, 1]).elem [i, j, l, k] =
      ∑ z ∈ Finset.range b, ∑ u ∈ Finset.range Y, t.elem [z, i, j, u, l] * e.elem [z, u, k] := by
  obtain ⟨sh, g⟩ := t
  obtain rfl : sh = _ := ht
  obtain ⟨sh, h⟩ := e
  obtain rfl : sh = _ := he
  exact ⟨rfl, fun _ _ _ _ => rfl⟩

/-- a growth step of a two-layer boundary tensor -/
theorem growBTen2_eq {c e1 s1 s2 e2 : Tn 𝕜} {a' X a w1 w2 b M Y b' y1 y2 : ℕ} (p : Pos)
    (h1 : e1.shape = [a', X, a]) (hc : c.shape = [a, w1, w2, b]) (hs1 : FShape p s1 X w1 M y1)
    (hs2 : FShape p s2 M w2 Y y2) (h2 : e2.shape = [b, Y, b']) :
    (growBTen2 p c e1 s1 s2 e2).shape = [a', y1, y2, b'] ∧
    ∀ i j l k, (growBTen2 p c e1 s1 s2 e2).elem [i, j, l, k] =
      ∑ z ∈ Finset.range b, ∑ y ∈ Finset.range Y, ∑ x ∈ Finset.range X,
        ∑ v ∈ Finset.range w1 ×ˢ Finset.range w2, ∑ q ∈ Finset.range a,
          e1.elem [i, x, q] * c.elem [q, v.1, v.2, z] * fe2 p s1 s2 M x v y (j, l) *
            e2.elem [z, y, k] := by
  obtain ⟨q1, q2⟩ := transpose_site p hs1
  obtain ⟨r1, r2⟩ := two_tmp1 h1 hc
  obtain ⟨t1, t2⟩ := two_tmp2 r1 q1
  obtain ⟨u1, u2⟩ := two_tmp3 p t1 hs2
  obtain ⟨v1, v2⟩ := two_tmp4 u1 h2
  refine ⟨v1, fun i j l k => ?_⟩
  refine (v2 i j l k).trans ?_
  refine Finset.sum_congr rfl fun z _ => Finset.sum_congr rfl fun y _ => ?_
  simp only [u2, t2, r2, q2, fe2, Finset.sum_product, Finset.sum_mul, Finset.mul_sum]
  calc ∑ m ∈ Finset.range M, ∑ u ∈ Finset.range w2, ∑ x ∈ Finset.range X, ∑ v ∈ Finset.range w1,
        ∑ q ∈ Finset.range a, e1.elem [i, x, q] * c.elem [q, v, u, z] * fe p s1 x v m j *
          fe p s2 m u y l * e2.elem [z, y, k]
      = ∑ w ∈ (((Finset.range M ×ˢ Finset.range w2) ×ˢ Finset.range X) ×ˢ Finset.range w1) ×ˢ
          Finset.range a, e1.elem [i, w.1.1.2, w.2] * c.elem [w.2, w.1.2, w.1.1.1.2, z] *
          fe p s1 w.1.1.2 w.1.2 w.1.1.1.1 j * fe p s2 w.1.1.1.1 w.1.1.1.2 y l * e2.elem [z, y, k] := by
        simp only [Finset.sum_product]
    _ = ∑ w ∈ (((Finset.range X ×ˢ Finset.range w1) ×ˢ Finset.range w2) ×ˢ Finset.range a) ×ˢ
          Finset.range M, e1.elem [i, w.1.1.1.1, w.1.2] * c.elem [w.1.2, w.1.1.1.2, w.1.1.2, z] *
          (fe p s1 w.1.1.1.1 w.1.1.1.2 w.2 j * fe p s2 w.2 w.1.1.2 y l) * e2.elem [z, y, k] := by
        refine Finset.sum_nbij'
          (fun w => ((((w.1.1.2, w.1.2), w.1.1.1.2), w.2), w.1.1.1.1))
          (fun w => ((((w.2, w.1.1.2), w.1.1.1.1), w.1.1.1.2), w.1.2)) ?_ ?_ ?_ ?_ ?_
        · intro w hw
          simp only [Finset.mem_product] at hw ⊢
          tauto
        · intro w hw
          simp only [Finset.mem_product] at hw ⊢
          tauto
        · intro w _; rfl
        · intro w _; rfl
        · intro w _
          dsimp only
          ring
    _ = _ := by
        simp only [Finset.sum_product]

/-- growing from one side is adjoint to growing from the other -/
theorem grow_adj {ι : Type*} (A' A B B' X Y : Finset ℕ) (V V' : Finset ι) (e1 e2 : ℕ → ℕ → ℕ → 𝕜)
    (c : ℕ → ι → ℕ → 𝕜) (d : ℕ → ι → ℕ → 𝕜) (S : ℕ → ι → ℕ → ι → 𝕜) :
    ∑ i ∈ A', ∑ j ∈ V', ∑ k ∈ B', (∑ z ∈ B, ∑ y ∈ Y, ∑ x ∈ X, ∑ v ∈ V, ∑ q ∈ A,
      e1 i x q * c q v z * S x v y j * e2 z y k) * d k j i =
    ∑ q ∈ A, ∑ v ∈ V, ∑ z ∈ B, c q v z * (∑ i ∈ A', ∑ x ∈ X, ∑ y ∈ Y, ∑ j ∈ V', ∑ k ∈ B',
      e2 z y k * d k j i * S x v y j * e1 i x q) := by
  simp only [Finset.sum_mul, Finset.mul_sum]
  calc ∑ i ∈ A', ∑ j ∈ V', ∑ k ∈ B', ∑ z ∈ B, ∑ y ∈ Y, ∑ x ∈ X, ∑ v ∈ V, ∑ q ∈ A,
        e1 i x q * c q v z * S x v y j * e2 z y k * d k j i
      = ∑ w ∈ ((((((A' ×ˢ V') ×ˢ B') ×ˢ B) ×ˢ Y) ×ˢ X) ×ˢ V) ×ˢ A,
          e1 w.1.1.1.1.1.1.1 w.1.1.2 w.2 * c w.2 w.1.2 w.1.1.1.1.2 *
          S w.1.1.2 w.1.2 w.1.1.1.2 w.1.1.1.1.1.1.2 * e2 w.1.1.1.1.2 w.1.1.1.2 w.1.1.1.1.1.2 *
          d w.1.1.1.1.1.2 w.1.1.1.1.1.1.2 w.1.1.1.1.1.1.1 := by
        simp only [Finset.sum_product]
    _ = ∑ w ∈ ((((((A ×ˢ V) ×ˢ B) ×ˢ A') ×ˢ X) ×ˢ Y) ×ˢ V') ×ˢ B',
          c w.1.1.1.1.1.1.1 w.1.1.1.1.1.1.2 w.1.1.1.1.1.2 * (e2 w.1.1.1.1.1.2 w.1.1.2 w.2 *
          d w.2 w.1.2 w.1.1.1.1.2 * S w.1.1.1.2 w.1.1.1.1.1.1.2 w.1.1.2 w.1.2 *
          e1 w.1.1.1.1.2 w.1.1.1.2 w.1.1.1.1.1.1.1) := by
        refine Finset.sum_nbij'
          (fun x => (((((((x.2, x.1.2), x.1.1.1.1.2), x.1.1.1.1.1.1.1), x.1.1.2), x.1.1.1.2),
            x.1.1.1.1.1.1.2), x.1.1.1.1.1.2))
          (fun x => (((((((x.1.1.1.1.2, x.1.2), x.2), x.1.1.1.1.1.2), x.1.1.2), x.1.1.1.2),
            x.1.1.1.1.1.1.2), x.1.1.1.1.1.1.1)) ?_ ?_ ?_ ?_ ?_
        · intro x hx
          simp only [Finset.mem_product] at hx ⊢
          tauto
        · intro x hx
          simp only [Finset.mem_product] at hx ⊢
          tauto
        · intro x _; rfl
        · intro x _; rfl
        · intro x _
          dsimp only
          ring
    _ = _ := by
        simp only [Finset.sum_product]

/-- the full contraction of two two-layer boundary tensors -/
def dot4 (c d : Tn 𝕜) : 𝕜 := (contractN c [0, 1, 2, 3] d [3, 2, 1, 0]).elem []

theorem dot4_eq {c d : Tn 𝕜} {a w1 w2 b : ℕ} (hc : c.shape = [a, w1, w2, b])
    (hd : d.shape = [b, w2, w1, a]) :
    dot4 c d = ∑ i ∈ Finset.range a, ∑ v ∈ Finset.range w1 ×ˢ Finset.range w2,
      ∑ k ∈ Finset.range b, c.elem [i, v.1, v.2, k] * d.elem [k, v.2, v.1, i] := by
  simp only [Finset.sum_product]
  obtain ⟨sh, g⟩ := c
  obtain rfl : sh = _ := hc
  obtain ⟨sh, h⟩ := d
  obtain rfl : sh = _ := hd
  rfl

theorem sum_swap {M : Type*} [AddCommMonoid M] (A B : Finset ℕ) (f : ℕ × ℕ → M) :
    ∑ v ∈ A ×ˢ B, f v = ∑ v ∈ B ×ˢ A, f v.swap := by
  rw [Finset.sum_product, Finset.sum_product, Finset.sum_comm]
  rfl

theorem dot4_grow {c e1 s1 s2 e2 d : Tn 𝕜} {a' X a w1 w2 b M Y b' y1 y2 : ℕ} (p : Pos)
    (h1 : e1.shape = [a', X, a]) (hc : c.shape = [a, w1, w2, b]) (hs1 : FShape p s1 X w1 M y1)
    (hs2 : FShape p s2 M w2 Y y2) (h2 : e2.shape = [b, Y, b']) (hd : d.shape = [b', y2, y1, a']) :
    dot4 (growBTen2 p c e1 s1 s2 e2) d = dot4 c (growBTen2 (opposite p) d e2 s2 s1 e1) := by
  obtain ⟨g1, g2⟩ := growBTen2_eq p h1 hc hs1 hs2 h2
  obtain ⟨g3, g4⟩ := growBTen2_eq (opposite p) h2 hd (FShape_opposite.2 hs2) (FShape_opposite.2 hs1) h1
  rw [dot4_eq g1 hd, dot4_eq hc g3]
  simp only [g2, g4]
  have key := (grow_adj (Finset.range a') (Finset.range a) (Finset.range b) (Finset.range b')
    (Finset.range X) (Finset.range Y) (Finset.range w1 ×ˢ Finset.range w2)
    (Finset.range y1 ×ˢ Finset.range y2) (fun i x q => e1.elem [i, x, q]) (fun z y k => e2.elem [z, y, k])
    (fun q v z => c.elem [q, v.1, v.2, z]) (fun k j i => d.elem [k, j.2, j.1, i])
    (fun x v y j => fe2 p s1 s2 M x v y j))
  beta_reduce at key
  rw [key]
  refine Finset.sum_congr rfl fun q _ => Finset.sum_congr rfl fun v _ =>
    Finset.sum_congr rfl fun z _ => ?_
  congr 1
  refine Finset.sum_congr rfl fun i _ => Finset.sum_congr rfl fun x _ =>
    Finset.sum_congr rfl fun y _ => ?_
  rw [sum_swap]
  refine Finset.sum_congr rfl fun j _ => Finset.sum_congr rfl fun k _ => ?_
  rw [← fe2_opposite]
  rfl

/-! ## the value of a two-layer boundary tensor -/

theorem fold_step {ι : Type*} (A X Y B : Finset ℕ) (V : Finset ι) (D F : Finset (List ℕ))
    (e1 e2 : ℕ → ℕ → 𝕜) (m n : List ℕ → ℕ → 𝕜) (R : List ℕ → List ℕ → ι → 𝕜) (S : ℕ → ι → ℕ → 𝕜) :
    ∑ z ∈ A, ∑ x ∈ X, ∑ y ∈ Y, ∑ v ∈ V, ∑ q ∈ B, e2 y q *
        (∑ ys ∈ D, ∑ xs ∈ F, m ys q * R ys xs v * n xs z) * S y v x * e1 z x =
      ∑ y ∈ Y, ∑ ys ∈ D, ∑ x ∈ X, ∑ xs ∈ F,
        (∑ q ∈ B, e2 y q * m ys q) * (∑ v ∈ V, S y v x * R ys xs v) * (∑ z ∈ A, e1 z x * n xs z) := by
  calc _ = ∑ w ∈ (((((A ×ˢ X) ×ˢ Y) ×ˢ V) ×ˢ B) ×ˢ D) ×ˢ F,
        e2 w.1.1.1.1.2 w.1.1.2 * (m w.1.2 w.1.1.2 * R w.1.2 w.2 w.1.1.1.2 * n w.2 w.1.1.1.1.1.1) *
          S w.1.1.1.1.2 w.1.1.1.2 w.1.1.1.1.1.2 * e1 w.1.1.1.1.1.1 w.1.1.1.1.1.2 := by
        simp only [Finset.sum_product, Finset.sum_mul, Finset.mul_sum]
    _ = ∑ w ∈ (((((Y ×ˢ D) ×ˢ X) ×ˢ F) ×ˢ A) ×ˢ V) ×ˢ B,
        (e2 w.1.1.1.1.1.1 w.2 * m w.1.1.1.1.1.2 w.2) *
        (S w.1.1.1.1.1.1 w.1.2 w.1.1.1.1.2 * R w.1.1.1.1.1.2 w.1.1.1.2 w.1.2) *
        (e1 w.1.1.2 w.1.1.1.1.2 * n w.1.1.1.2 w.1.1.2) := by
        refine Finset.sum_nbij'
          (fun x => ((((((x.1.1.1.1.2, x.1.2), x.1.1.1.1.1.2), x.2), x.1.1.1.1.1.1), x.1.1.1.2),
            x.1.1.2))
          (fun x => ((((((x.1.1.2, x.1.1.1.1.2), x.1.1.1.1.1.1), x.1.2), x.2), x.1.1.1.1.1.2),
            x.1.1.1.2)) ?_ ?_ ?_ ?_ ?_
        · intro x hx
          simp only [Finset.mem_product] at hx ⊢
          tauto
        · intro x hx
          simp only [Finset.mem_product] at hx ⊢
          tauto
        · intro x _; rfl
        · intro x _; rfl
        · intro x _
          dsimp only
          ring
    _ = _ := by
        simp only [Finset.sum_product]
        refine Finset.sum_congr rfl fun y _ => Finset.sum_congr rfl fun ys _ =>
          Finset.sum_congr rfl fun x _ => Finset.sum_congr rfl fun xs _ => ?_
        simp only [← Finset.sum_mul, ← Finset.mul_sum]

theorem mid_step (V1 V2 N : Finset ℕ) (F : Finset (List ℕ)) (f g : ℕ → ℕ → 𝕜) (r s : List ℕ → ℕ → 𝕜) :
    ∑ v ∈ V1 ×ˢ V2, (∑ m ∈ N, f v.1 m * g m v.2) * (∑ zs ∈ F, r zs v.1 * s zs v.2) =
      ∑ m ∈ N, ∑ zs ∈ F, (∑ v ∈ V1, f v m * r zs v) * (∑ v ∈ V2, g m v * s zs v) := by
  simp only [Finset.sum_mul_sum, Finset.sum_product]
  calc _ = ∑ w ∈ ((V1 ×ˢ V2) ×ˢ N) ×ˢ F, f w.1.1.1 w.1.2 * g w.1.2 w.1.1.2 *
          (r w.2 w.1.1.1 * s w.2 w.1.1.2) := by simp only [Finset.sum_product]
    _ = ∑ w ∈ ((N ×ˢ F) ×ˢ V1) ×ˢ V2, f w.1.2 w.1.1.1 * r w.1.1.2 w.1.2 *
          (g w.1.1.1 w.2 * s w.1.1.2 w.2) := by
        refine Finset.sum_nbij' (fun w => (((w.1.2, w.2), w.1.1.1), w.1.1.2))
          (fun w => (((w.1.2, w.2), w.1.1.1), w.1.1.2)) ?_ ?_ ?_ ?_ ?_
        · intro x hx
          simp only [Finset.mem_product] at hx ⊢
          tauto
        · intro x hx
          simp only [Finset.mem_product] at hx ⊢
          tauto
        · intro x _; rfl
        · intro x _; rfl
        · intro x _
          dsimp only
          ring
    _ = _ := by simp only [Finset.sum_product]

/-- the two-layer boundary tensor of side `opposite p` for the columns in the lists (boundary MPS of
side `next p`, its layer, the other layer, boundary MPS of side `pre p`), first column last -/
def bfold2 (p : Pos) : List (Tn 𝕜) → List (Tn 𝕜) → List (Tn 𝕜) → List (Tn 𝕜) → Tn 𝕜
  | e2 :: es2, t2 :: ts2, t1 :: ts1, e1 :: es1 =>
    growBTen2 (opposite p) (bfold2 p es2 ts2 ts1 es1) e2 t2 t1 e1
  | _, _, _, _ => corner [1, 1, 1, 1]

theorem bfold2_spec (p : Pos) (ts2 : List (Tn 𝕜)) : ∀ (ts1 es2 es1 : List (Tn 𝕜)) (B W2 W1 A : ℕ)
    (ds ms fs : List ℕ), Shp es2 B ds → RShp (next p) ts2 W2 ds ms → RShp (next p) ts1 W1 ms fs →
    ShpR es1 A fs →
    (bfold2 p es2 ts2 ts1 es1).shape = [B, W2, W1, A] ∧
    ∀ b < B, ∀ w2 < W2, ∀ w1 < W1, ∀ a < A, (bfold2 p es2 ts2 ts1 es1).elem [b, w2, w1, a] =
      ∑ ys ∈ box ds, ∑ xs ∈ box fs, mv es2 ys b *
        (∑ zs ∈ box ms, rv (next p) ts2 ys zs w2 * rv (next p) ts1 zs xs w1) * mvr es1 xs a := by
  induction ts2 with
  | nil =>
    rintro ts1 es2 es1 B W2 W1 A ds ms fs h2 ⟨rfl, rfl, rfl⟩ hs1 h1
    cases ts1 with
    | cons _ _ => obtain ⟨_, _, _, _, _, h, _⟩ := hs1; exact absurd h (by simp)
    | nil =>
    obtain ⟨rfl, _, rfl⟩ := hs1
    cases es2 with
    | cons _ _ => obtain ⟨_, _, _, h, _⟩ := h2; exact absurd h (by simp)
    | nil =>
    cases es1 with
    | cons _ _ => obtain ⟨_, _, _, h, _⟩ := h1; exact absurd h (by simp)
    | nil =>
    obtain ⟨rfl, _⟩ := h2
    obtain ⟨rfl, _⟩ := h1
    refine ⟨rfl, ?_⟩
    intro b hb w2 hw2 w1 hw1 a ha
    obtain rfl : b = 0 := by omega
    obtain rfl : w2 = 0 := by omega
    obtain rfl : w1 = 0 := by omega
    obtain rfl : a = 0 := by omega
    rw [sum_box_nil, sum_box_nil, sum_box_nil]
    simp [mv, rv, mvr, bfold2, corner]
  | cons t2 ts2 ih =>
    rintro ts1 es2 es1 B W2 W1 A ds ms fs h2 ⟨Y, W2', N, ds', ms', rfl, rfl, ht2, hts2⟩ hs1 h1
    cases ts1 with
    | nil => obtain ⟨_, h, _⟩ := hs1; exact absurd h (by simp)
    | cons t1 ts1 =>
    obtain ⟨N', W1', X, ms'', fs', h, rfl, ht1, hts1⟩ := hs1
    obtain ⟨rfl, rfl⟩ : N' = N ∧ ms'' = ms' := by simpa using h.symm
    cases es2 with
    | nil => obtain ⟨_, h⟩ := h2; exact absurd h (by simp)
    | cons e2 es2 =>
    cases es1 with
    | nil => obtain ⟨_, h⟩ := h1; exact absurd h (by simp)
    | cons e1 es1 =>
    obtain ⟨Y', B', ds'', h, he2, hes2⟩ := h2
    obtain ⟨rfl, rfl⟩ : Y' = Y ∧ ds'' = ds' := by simpa using h.symm
    obtain ⟨X', A', fs'', h, he1, hes1⟩ := h1
    obtain ⟨rfl, rfl⟩ : X' = X ∧ fs'' = fs' := by simpa using h.symm
    obtain ⟨i1, i2⟩ := ih ts1 es2 es1 B' W2' W1' A' ds'' ms'' fs'' hes2 hts2 hts1 hes1
    obtain ⟨g1, g2⟩ := growBTen2_eq (opposite p) he2 i1 (FShape_opposite.2 (FShape_next.1 ht2))
      (FShape_opposite.2 (FShape_next.1 ht1)) he1
    refine ⟨g1, ?_⟩
    intro b hb w2 hw2 w1 hw1 a ha
    rw [bfold2, g2]
    have step : ∀ z ∈ Finset.range A', ∀ x ∈ Finset.range X', ∀ y ∈ Finset.range Y',
        ∀ v ∈ Finset.range W2' ×ˢ Finset.range W1', ∀ q ∈ Finset.range B',
        e2.elem [b, y, q] * (bfold2 p es2 ts2 ts1 es1).elem [q, v.1, v.2, z] *
          fe2 (opposite p) t2 t1 N' y v x (w2, w1) * e1.elem [z, x, a] =
        e2.elem [b, y, q] * (∑ ys ∈ box ds'', ∑ xs ∈ box fs'', mv es2 ys q *
            (∑ zs ∈ box ms'', rv (next p) ts2 ys zs v.1 * rv (next p) ts1 zs xs v.2) * mvr es1 xs z) *
          (∑ m ∈ Finset.range N', fe (next p) t2 w2 y v.1 m * fe (next p) t1 w1 m v.2 x) *
          e1.elem [z, x, a] := by
      intro z hz x _ y _ v hv q hq
      rw [Finset.mem_product] at hv
      rw [i2 q (Finset.mem_range.1 hq) v.1 (Finset.mem_range.1 hv.1) v.2 (Finset.mem_range.1 hv.2) z
        (Finset.mem_range.1 hz), fe2]
      simp only [fe_opposite, fe_next]
    refine (Finset.sum_congr rfl fun z hz => Finset.sum_congr rfl fun x hx =>
      Finset.sum_congr rfl fun y hy => Finset.sum_congr rfl fun v hv =>
      Finset.sum_congr rfl fun q hq => step z hz x hx y hy v hv q hq).trans ?_
    have key := fold_step (Finset.range A') (Finset.range X') (Finset.range Y') (Finset.range B')
      (Finset.range W2' ×ˢ Finset.range W1') (box ds'') (box fs'') (fun z x => e1.elem [z, x, a])
      (fun y q => e2.elem [b, y, q]) (mv es2) (mvr es1)
      (fun ys xs v => ∑ zs ∈ box ms'', rv (next p) ts2 ys zs v.1 * rv (next p) ts1 zs xs v.2)
      (fun y v x => ∑ m ∈ Finset.range N', fe (next p) t2 w2 y v.1 m * fe (next p) t1 w1 m v.2 x)
    beta_reduce at key
    rw [key, sum_box_cons]
    refine Finset.sum_congr rfl fun y _ => Finset.sum_congr rfl fun ys _ => ?_
    rw [sum_box_cons]
    refine Finset.sum_congr rfl fun x _ => Finset.sum_congr rfl fun xs _ => ?_
    have mid := mid_step (Finset.range W2') (Finset.range W1') (Finset.range N') (box ms'')
      (fun v m => fe (next p) t2 w2 y v m) (fun m v => fe (next p) t1 w1 m v x)
      (fun zs v => rv (next p) ts2 ys zs v) (fun zs v => rv (next p) ts1 zs xs v)
    beta_reduce at mid
    rw [mid, mv, mvr, he2, he1, sum_box_cons]
    simp only [rv, ht2.nextDim, ht1.nextDim, List.getD_cons_succ, List.getD_cons_zero]

end

end QLPeps.Bmps
