import Verif.Lemmas.TrgHoleElem
import Verif.Lemmas.TrgFinal

/-!
# Holes of the last scale
-/

namespace QLPeps.Trg

open QLPeps.Peps (Tn Diag Lib Svd contractN transpose dag diagInv)

noncomputable section

theorem two_adj_0 {R ι1 ι2 ι3 ι4 ι5 ι6 ι7 ι8 : Type*} [CommSemiring R] {I : Finset ι1} {J : Finset ι2} {K : Finset ι3} {L : Finset ι4} {P : Finset ι5} {Q : Finset ι6} {X : Finset ι7} {Y : Finset ι8}
    (f : ι7 → ι1 → ι8 → ι2 → R) (g : ι8 → ι3 → ι7 → ι4 → R) (r : ι5 → ι2 → ι6 → ι1 → R) (s : ι6 → ι4 → ι5 → ι3 → R) :
    ∑ x ∈ X, ∑ i ∈ I, ∑ y ∈ Y, ∑ j ∈ J, (∑ q ∈ Q, ∑ p ∈ P, (∑ k ∈ K, ∑ l ∈ L, g y k x l * s q l p k) * r p j q i) * f x i y j =
      ∑ i ∈ I, ∑ j ∈ J, ∑ k ∈ K, ∑ l ∈ L, (∑ x ∈ X, ∑ y ∈ Y, f x i y j * g y k x l) * (∑ p ∈ P, ∑ q ∈ Q, r p j q i * s q l p k) := by
  simp only [Finset.sum_mul, Finset.mul_sum]
  simp only [← Finset.sum_product']
  refine Finset.sum_nbij' (fun x => (x.2.1, x.2.2.2.1, x.2.2.2.2.2.2.1, x.2.2.2.2.2.2.2, x.2.2.2.2.2.1, x.2.2.2.2.1, x.1, x.2.2.1))
    (fun x => (x.2.2.2.2.2.2.1, x.1, x.2.2.2.2.2.2.2, x.2.1, x.2.2.2.2.2.1, x.2.2.2.2.1, x.2.2.1, x.2.2.2.1)) ?_ ?_ ?_ ?_ ?_
  · simp only [Finset.mem_product]; tauto
  · simp only [Finset.mem_product]; tauto
  · exact fun _ _ => rfl
  · exact fun _ _ => rfl
  · exact fun _ _ => by ring

theorem two_adj_1 {R ι1 ι2 ι3 ι4 ι5 ι6 ι7 ι8 : Type*} [CommSemiring R] {I : Finset ι1} {J : Finset ι2} {K : Finset ι3} {L : Finset ι4} {P : Finset ι5} {Q : Finset ι6} {X : Finset ι7} {Y : Finset ι8}
    (f : ι7 → ι1 → ι8 → ι2 → R) (g : ι8 → ι3 → ι7 → ι4 → R) (r : ι5 → ι2 → ι6 → ι1 → R) (s : ι6 → ι4 → ι5 → ι3 → R) :
    ∑ y ∈ Y, ∑ k ∈ K, ∑ x ∈ X, ∑ l ∈ L, (∑ p ∈ P, ∑ q ∈ Q, (∑ i ∈ I, ∑ j ∈ J, f x i y j * r p j q i) * s q l p k) * g y k x l =
      ∑ i ∈ I, ∑ j ∈ J, ∑ k ∈ K, ∑ l ∈ L, (∑ x ∈ X, ∑ y ∈ Y, f x i y j * g y k x l) * (∑ p ∈ P, ∑ q ∈ Q, r p j q i * s q l p k) := by
  simp only [Finset.sum_mul, Finset.mul_sum]
  simp only [← Finset.sum_product']
  refine Finset.sum_nbij' (fun x => (x.2.2.2.2.2.2.1, x.2.2.2.2.2.2.2, x.2.1, x.2.2.2.1, x.2.2.2.2.1, x.2.2.2.2.2.1, x.2.2.1, x.1))
    (fun x => (x.2.2.2.2.2.2.2, x.2.2.1, x.2.2.2.2.2.2.1, x.2.2.2.1, x.2.2.2.2.1, x.2.2.2.2.2.1, x.1, x.2.1)) ?_ ?_ ?_ ?_ ?_
  · simp only [Finset.mem_product]; tauto
  · simp only [Finset.mem_product]; tauto
  · exact fun _ _ => rfl
  · exact fun _ _ => rfl
  · exact fun _ _ => by ring

theorem two_adj_2 {R ι1 ι2 ι3 ι4 ι5 ι6 ι7 ι8 : Type*} [CommSemiring R] {I : Finset ι1} {J : Finset ι2} {K : Finset ι3} {L : Finset ι4} {P : Finset ι5} {Q : Finset ι6} {X : Finset ι7} {Y : Finset ι8}
    (f : ι7 → ι1 → ι8 → ι2 → R) (g : ι8 → ι3 → ι7 → ι4 → R) (r : ι5 → ι2 → ι6 → ι1 → R) (s : ι6 → ι4 → ι5 → ι3 → R) :
    ∑ p ∈ P, ∑ j ∈ J, ∑ q ∈ Q, ∑ i ∈ I, (∑ k ∈ K, ∑ l ∈ L, (∑ x ∈ X, ∑ y ∈ Y, f x i y j * g y k x l) * s q l p k) * r p j q i =
      ∑ i ∈ I, ∑ j ∈ J, ∑ k ∈ K, ∑ l ∈ L, (∑ x ∈ X, ∑ y ∈ Y, f x i y j * g y k x l) * (∑ p ∈ P, ∑ q ∈ Q, r p j q i * s q l p k) := by
  simp only [Finset.sum_mul, Finset.mul_sum]
  simp only [← Finset.sum_product']
  refine Finset.sum_nbij' (fun x => (x.2.2.2.1, x.2.1, x.2.2.2.2.1, x.2.2.2.2.2.1, x.1, x.2.2.1, x.2.2.2.2.2.2.1, x.2.2.2.2.2.2.2))
    (fun x => (x.2.2.2.2.1, x.2.1, x.2.2.2.2.2.1, x.1, x.2.2.1, x.2.2.2.1, x.2.2.2.2.2.2.1, x.2.2.2.2.2.2.2)) ?_ ?_ ?_ ?_ ?_
  · simp only [Finset.mem_product]; tauto
  · simp only [Finset.mem_product]; tauto
  · exact fun _ _ => rfl
  · exact fun _ _ => rfl
  · exact fun _ _ => by ring

theorem two_adj_3 {R ι1 ι2 ι3 ι4 ι5 ι6 ι7 ι8 : Type*} [CommSemiring R] {I : Finset ι1} {J : Finset ι2} {K : Finset ι3} {L : Finset ι4} {P : Finset ι5} {Q : Finset ι6} {X : Finset ι7} {Y : Finset ι8}
    (f : ι7 → ι1 → ι8 → ι2 → R) (g : ι8 → ι3 → ι7 → ι4 → R) (r : ι5 → ι2 → ι6 → ι1 → R) (s : ι6 → ι4 → ι5 → ι3 → R) :
    ∑ q ∈ Q, ∑ l ∈ L, ∑ p ∈ P, ∑ k ∈ K, (∑ i ∈ I, ∑ j ∈ J, (∑ x ∈ X, ∑ y ∈ Y, f x i y j * g y k x l) * r p j q i) * s q l p k =
      ∑ i ∈ I, ∑ j ∈ J, ∑ k ∈ K, ∑ l ∈ L, (∑ x ∈ X, ∑ y ∈ Y, f x i y j * g y k x l) * (∑ p ∈ P, ∑ q ∈ Q, r p j q i * s q l p k) := by
  simp only [Finset.sum_mul, Finset.mul_sum]
  simp only [← Finset.sum_product']
  refine Finset.sum_nbij' (fun x => (x.2.2.2.2.1, x.2.2.2.2.2.1, x.2.2.2.1, x.2.1, x.2.2.1, x.1, x.2.2.2.2.2.2.1, x.2.2.2.2.2.2.2))
    (fun x => (x.2.2.2.2.2.1, x.2.2.2.1, x.2.2.2.2.1, x.2.2.1, x.1, x.2.1, x.2.2.2.2.2.2.1, x.2.2.2.2.2.2.2)) ?_ ?_ ?_ ?_ ?_
  · simp only [Finset.mem_product]; tauto
  · simp only [Finset.mem_product]; tauto
  · exact fun _ _ => rfl
  · exact fun _ _ => rfl
  · exact fun _ _ => by ring

section
variable {𝕜 : Type} [RCLike 𝕜] {t : ℕ → Tn 𝕜} {a b c d e f g h : ℕ} (h0 : (t 0).shape = [a, b, c, d])
  (h1 : (t 1).shape = [c, e, a, f])
  (h2 : (t 2).shape = [g, d, h, b])
  (h3 : (t 3).shape = [h, f, g, e])
  
include h1 h2 h3 in
theorem holes2_elem0 : (holes2 t 0).shape = [a, b, c, d] ∧ ∀ x i y j, (holes2 t 0).elem [x, i, y, j] =
      ∑ q ∈ Finset.range h, ∑ p ∈ Finset.range g, (∑ k ∈ Finset.range e, ∑ l ∈ Finset.range f, (t 1).elem [y, k, x, l] * (t 3).elem [q, l, p, k]) * (t 2).elem [p, j, q, i] := by
  have c1 : (contractN (t 1) [1, 3] (t 3) [3, 1]).shape = [c, a, h, g] ∧ ∀ y x q p, (contractN (t 1) [1, 3] (t 3) [3, 1]).elem [y, x, q, p] = ∑ k ∈ Finset.range e, ∑ l ∈ Finset.range f, (t 1).elem [y, k, x, l] * (t 3).elem [q, l, p, k] := by
    generalize t 1 = y1 at *
    generalize t 3 = y3 at *
    obtain ⟨s1, g1⟩ := y1
    obtain rfl : s1 = _ := h1
    obtain ⟨s3, g3⟩ := y3
    obtain rfl : s3 = _ := h3
    exact ⟨rfl, fun _ _ _ _ => rfl⟩
  have c2 : ∀ C : Tn 𝕜, C.shape = [c, a, h, g] → (transpose [1, 3, 0, 2] (contractN (C) [2, 3] (t 2) [2, 0])).shape = [a, b, c, d] ∧ ∀ x i y j, (transpose [1, 3, 0, 2] (contractN (C) [2, 3] (t 2) [2, 0])).elem [x, i, y, j] = ∑ q ∈ Finset.range h, ∑ p ∈ Finset.range g, C.elem [y, x, q, p] * (t 2).elem [p, j, q, i] := by
    rintro ⟨sC, gC⟩ hC
    obtain rfl : sC = _ := hC
    generalize t 2 = y at *
    obtain ⟨s, g'⟩ := y
    obtain rfl : s = _ := h2
    exact ⟨rfl, fun _ _ _ _ => rfl⟩
  refine ⟨(c2 _ c1.1).1, fun x i y j => ((c2 _ c1.1).2 x i y j).trans ?_⟩
  simp only [c1.2]

include h0 h2 h3 in
theorem holes2_elem1 : (holes2 t 1).shape = [c, e, a, f] ∧ ∀ y k x l, (holes2 t 1).elem [y, k, x, l] =
      ∑ p ∈ Finset.range g, ∑ q ∈ Finset.range h, (∑ i ∈ Finset.range b, ∑ j ∈ Finset.range d, (t 0).elem [x, i, y, j] * (t 2).elem [p, j, q, i]) * (t 3).elem [q, l, p, k] := by
  have c1 : (contractN (t 0) [1, 3] (t 2) [3, 1]).shape = [a, c, g, h] ∧ ∀ x y p q, (contractN (t 0) [1, 3] (t 2) [3, 1]).elem [x, y, p, q] = ∑ i ∈ Finset.range b, ∑ j ∈ Finset.range d, (t 0).elem [x, i, y, j] * (t 2).elem [p, j, q, i] := by
    generalize t 0 = y0 at *
    generalize t 2 = y2 at *
    obtain ⟨s0, g0⟩ := y0
    obtain rfl : s0 = _ := h0
    obtain ⟨s2, g2⟩ := y2
    obtain rfl : s2 = _ := h2
    exact ⟨rfl, fun _ _ _ _ => rfl⟩
  have c2 : ∀ C : Tn 𝕜, C.shape = [a, c, g, h] → (transpose [1, 3, 0, 2] (contractN (C) [2, 3] (t 3) [2, 0])).shape = [c, e, a, f] ∧ ∀ y k x l, (transpose [1, 3, 0, 2] (contractN (C) [2, 3] (t 3) [2, 0])).elem [y, k, x, l] = ∑ p ∈ Finset.range g, ∑ q ∈ Finset.range h, C.elem [x, y, p, q] * (t 3).elem [q, l, p, k] := by
    rintro ⟨sC, gC⟩ hC
    obtain rfl : sC = _ := hC
    generalize t 3 = y at *
    obtain ⟨s, g'⟩ := y
    obtain rfl : s = _ := h3
    exact ⟨rfl, fun _ _ _ _ => rfl⟩
  refine ⟨(c2 _ c1.1).1, fun y k x l => ((c2 _ c1.1).2 y k x l).trans ?_⟩
  simp only [c1.2]

include h0 h1 h3 in
theorem holes2_elem2 : (holes2 t 2).shape = [g, d, h, b] ∧ ∀ p j q i, (holes2 t 2).elem [p, j, q, i] =
      ∑ k ∈ Finset.range e, ∑ l ∈ Finset.range f, (∑ x ∈ Finset.range a, ∑ y ∈ Finset.range c, (t 0).elem [x, i, y, j] * (t 1).elem [y, k, x, l]) * (t 3).elem [q, l, p, k] := by
  have c1 : (contractN (t 0) [0, 2] (t 1) [2, 0]).shape = [b, d, e, f] ∧ ∀ i j k l, (contractN (t 0) [0, 2] (t 1) [2, 0]).elem [i, j, k, l] = ∑ x ∈ Finset.range a, ∑ y ∈ Finset.range c, (t 0).elem [x, i, y, j] * (t 1).elem [y, k, x, l] := by
    generalize t 0 = y0 at *
    generalize t 1 = y1 at *
    obtain ⟨s0, g0⟩ := y0
    obtain rfl : s0 = _ := h0
    obtain ⟨s1, g1⟩ := y1
    obtain rfl : s1 = _ := h1
    exact ⟨rfl, fun _ _ _ _ => rfl⟩
  have c2 : ∀ C : Tn 𝕜, C.shape = [b, d, e, f] → (transpose [3, 1, 2, 0] (contractN (C) [2, 3] (t 3) [3, 1])).shape = [g, d, h, b] ∧ ∀ p j q i, (transpose [3, 1, 2, 0] (contractN (C) [2, 3] (t 3) [3, 1])).elem [p, j, q, i] = ∑ k ∈ Finset.range e, ∑ l ∈ Finset.range f, C.elem [i, j, k, l] * (t 3).elem [q, l, p, k] := by
    rintro ⟨sC, gC⟩ hC
    obtain rfl : sC = _ := hC
    generalize t 3 = y at *
    obtain ⟨s, g'⟩ := y
    obtain rfl : s = _ := h3
    exact ⟨rfl, fun _ _ _ _ => rfl⟩
  refine ⟨(c2 _ c1.1).1, fun p j q i => ((c2 _ c1.1).2 p j q i).trans ?_⟩
  simp only [c1.2]

include h0 h1 h2 in
theorem holes2_elem3 : (holes2 t 3).shape = [h, f, g, e] ∧ ∀ q l p k, (holes2 t 3).elem [q, l, p, k] =
      ∑ i ∈ Finset.range b, ∑ j ∈ Finset.range d, (∑ x ∈ Finset.range a, ∑ y ∈ Finset.range c, (t 0).elem [x, i, y, j] * (t 1).elem [y, k, x, l]) * (t 2).elem [p, j, q, i] := by
  have c1 : (contractN (t 0) [0, 2] (t 1) [2, 0]).shape = [b, d, e, f] ∧ ∀ i j k l, (contractN (t 0) [0, 2] (t 1) [2, 0]).elem [i, j, k, l] = ∑ x ∈ Finset.range a, ∑ y ∈ Finset.range c, (t 0).elem [x, i, y, j] * (t 1).elem [y, k, x, l] := by
    generalize t 0 = y0 at *
    generalize t 1 = y1 at *
    obtain ⟨s0, g0⟩ := y0
    obtain rfl : s0 = _ := h0
    obtain ⟨s1, g1⟩ := y1
    obtain rfl : s1 = _ := h1
    exact ⟨rfl, fun _ _ _ _ => rfl⟩
  have c2 : ∀ C : Tn 𝕜, C.shape = [b, d, e, f] → (transpose [3, 1, 2, 0] (contractN (C) [0, 1] (t 2) [3, 1])).shape = [h, f, g, e] ∧ ∀ q l p k, (transpose [3, 1, 2, 0] (contractN (C) [0, 1] (t 2) [3, 1])).elem [q, l, p, k] = ∑ i ∈ Finset.range b, ∑ j ∈ Finset.range d, C.elem [i, j, k, l] * (t 2).elem [p, j, q, i] := by
    rintro ⟨sC, gC⟩ hC
    obtain rfl : sC = _ := hC
    generalize t 2 = y at *
    obtain ⟨s, g'⟩ := y
    obtain rfl : s = _ := h2
    exact ⟨rfl, fun _ _ _ _ => rfl⟩
  refine ⟨(c2 _ c1.1).1, fun q l p k => ((c2 _ c1.1).2 q l p k).trans ?_⟩
  simp only [c1.2]

include h1 h2 h3 in
theorem holes2_pair0 {X : Tn 𝕜} (hX : X.shape = [a, b, c, d]) :
    P4 a b c d (holes2 t 0) X = final2 X (t 1) (t 2) (t 3) := by
  rw [final2_elem hX h1 h2 h3]
  unfold P4
  simp only [(holes2_elem0 h1 h2 h3).2]
  exact two_adj_0 (fun x i y j => X.elem [x, i, y, j]) (fun y k x l => (t 1).elem [y, k, x, l]) (fun p j q i => (t 2).elem [p, j, q, i]) (fun q l p k => (t 3).elem [q, l, p, k])

include h0 h2 h3 in
theorem holes2_pair1 {X : Tn 𝕜} (hX : X.shape = [c, e, a, f]) :
    P4 c e a f (holes2 t 1) X = final2 (t 0) X (t 2) (t 3) := by
  rw [final2_elem h0 hX h2 h3]
  unfold P4
  simp only [(holes2_elem1 h0 h2 h3).2]
  exact two_adj_1 (fun x i y j => (t 0).elem [x, i, y, j]) (fun y k x l => X.elem [y, k, x, l]) (fun p j q i => (t 2).elem [p, j, q, i]) (fun q l p k => (t 3).elem [q, l, p, k])

include h0 h1 h3 in
theorem holes2_pair2 {X : Tn 𝕜} (hX : X.shape = [g, d, h, b]) :
    P4 g d h b (holes2 t 2) X = final2 (t 0) (t 1) X (t 3) := by
  rw [final2_elem h0 h1 hX h3]
  unfold P4
  simp only [(holes2_elem2 h0 h1 h3).2]
  exact two_adj_2 (fun x i y j => (t 0).elem [x, i, y, j]) (fun y k x l => (t 1).elem [y, k, x, l]) (fun p j q i => X.elem [p, j, q, i]) (fun q l p k => (t 3).elem [q, l, p, k])

include h0 h1 h2 in
theorem holes2_pair3 {X : Tn 𝕜} (hX : X.shape = [h, f, g, e]) :
    P4 h f g e (holes2 t 3) X = final2 (t 0) (t 1) (t 2) X := by
  rw [final2_elem h0 h1 h2 hX]
  unfold P4
  simp only [(holes2_elem3 h0 h1 h2).2]
  exact two_adj_3 (fun x i y j => (t 0).elem [x, i, y, j]) (fun y k x l => (t 1).elem [y, k, x, l]) (fun p j q i => (t 2).elem [p, j, q, i]) (fun q l p k => X.elem [q, l, p, k])

end

theorem three_adj {R ι1 ι2 ι3 ι4 ι5 ι6 ι7 ι8 ι9 ι10 ι11 : Type*} [CommSemiring R] {A : Finset ι1} {B : Finset ι2} {C : Finset ι3} {D : Finset ι4} {I : Finset ι5} {J : Finset ι6} {K : Finset ι7} {M : Finset ι8} {N : Finset ι9} {O : Finset ι10} {W : Finset ι11}
    (f : ι8 → ι9 → ι10 → ι11 → R) (q : ι10 → ι1 → ι3 → ι2 → ι8 → ι4 → R) (r : ι5 → ι9 → ι6 → ι1 → ι7 → ι2 → R) (s : ι11 → ι5 → ι3 → ι6 → ι4 → ι7 → R) :
    ∑ m ∈ M, ∑ n ∈ N, ∑ o ∈ O, ∑ w ∈ W, (∑ a ∈ A, ∑ b ∈ B, ∑ c ∈ C, ∑ d ∈ D, q o a c b m d * ∑ i ∈ I, ∑ j ∈ J, ∑ k ∈ K, r i n j a k b * s w i c j d k) * f m n o w =
      ∑ w ∈ W, ∑ c ∈ C, ∑ d ∈ D, ∑ i ∈ I, ∑ j ∈ J, ∑ k ∈ K, (∑ n ∈ N, ∑ a ∈ A, ∑ b ∈ B, (∑ m ∈ M, ∑ o ∈ O, f m n o w * q o a c b m d) * r i n j a k b) * s w i c j d k := by
  simp only [Finset.sum_mul, Finset.mul_sum]
  simp only [← Finset.sum_product']
  refine Finset.sum_nbij' (fun x => (x.2.2.2.1, x.2.2.2.2.2.2.1, x.2.2.2.2.2.2.2.1, x.2.2.2.2.2.2.2.2.1, x.2.2.2.2.2.2.2.2.2.1, x.2.2.2.2.2.2.2.2.2.2, x.2.1, x.2.2.2.2.1, x.2.2.2.2.2.1, x.1, x.2.2.1))
    (fun x => (x.2.2.2.2.2.2.2.2.2.1, x.2.2.2.2.2.2.1, x.2.2.2.2.2.2.2.2.2.2, x.1, x.2.2.2.2.2.2.2.1, x.2.2.2.2.2.2.2.2.1, x.2.1, x.2.2.1, x.2.2.2.1, x.2.2.2.2.1, x.2.2.2.2.2.1)) ?_ ?_ ?_ ?_ ?_
  · simp only [Finset.mem_product]; tauto
  · simp only [Finset.mem_product]; tauto
  · exact fun _ _ => rfl
  · exact fun _ _ => rfl
  · exact fun _ _ => by ring

end

end QLPeps.Trg
