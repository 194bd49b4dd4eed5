import Verif.Lemmas.TrgHoleElem

/-!
# Holes of the pieces of a plaquette and of a diamond
-/

namespace QLPeps.Trg

open QLPeps.Peps (Tn Diag Lib Svd contractN transpose dag diagInv)

noncomputable section

theorem plaq_adj_g {R ι1 ι2 ι3 ι4 ι5 ι6 : Type*} [CommSemiring R] {A : Finset ι1} {B : Finset ι2} {C : Finset ι3} {D : Finset ι4} {I : Finset ι5} {J : Finset ι6}
    (h : ι1 → ι2 → ι3 → ι4 → R) (f : ι4 → ι5 → ι6 → ι3 → R) (g : ι6 → ι2 → ι1 → ι5 → R) :
    ∑ a ∈ A, ∑ b ∈ B, ∑ c ∈ C, ∑ d ∈ D, h a b c d * ∑ i ∈ I, ∑ j ∈ J, f d i j c * g j b a i =
      ∑ j ∈ J, ∑ b ∈ B, ∑ a ∈ A, ∑ i ∈ I, (∑ d ∈ D, ∑ c ∈ C, h a b c d * f d i j c) * g j b a i := by
  simp only [Finset.sum_mul, Finset.mul_sum, ← Finset.sum_product']
  refine Finset.sum_nbij' (fun x => (x.2.2.2.2.2, x.2.1, x.1, x.2.2.2.2.1, x.2.2.2.1, x.2.2.1))
    (fun x => (x.2.2.1, x.2.1, x.2.2.2.2.2, x.2.2.2.2.1, x.2.2.2.1, x.1)) ?_ ?_ ?_ ?_ ?_
  · simp only [Finset.mem_product]; tauto
  · simp only [Finset.mem_product]; tauto
  · exact fun _ _ => rfl
  · exact fun _ _ => rfl
  · exact fun _ _ => by ring

theorem plaq_adj_f {R ι1 ι2 ι3 ι4 ι5 ι6 : Type*} [CommSemiring R] {A : Finset ι1} {B : Finset ι2} {C : Finset ι3} {D : Finset ι4} {I : Finset ι5} {J : Finset ι6}
    (h : ι1 → ι2 → ι3 → ι4 → R) (f : ι4 → ι5 → ι6 → ι3 → R) (g : ι6 → ι2 → ι1 → ι5 → R) :
    ∑ a ∈ A, ∑ b ∈ B, ∑ c ∈ C, ∑ d ∈ D, h a b c d * ∑ i ∈ I, ∑ j ∈ J, f d i j c * g j b a i =
      ∑ d ∈ D, ∑ i ∈ I, ∑ j ∈ J, ∑ c ∈ C, (∑ b ∈ B, ∑ a ∈ A, h a b c d * g j b a i) * f d i j c := by
  simp only [Finset.sum_mul, Finset.mul_sum, ← Finset.sum_product']
  refine Finset.sum_nbij' (fun x => (x.2.2.2.1, x.2.2.2.2.1, x.2.2.2.2.2, x.2.2.1, x.2.1, x.1))
    (fun x => (x.2.2.2.2.2, x.2.2.2.2.1, x.2.2.2.1, x.1, x.2.1, x.2.2.1)) ?_ ?_ ?_ ?_ ?_
  · simp only [Finset.mem_product]; tauto
  · simp only [Finset.mem_product]; tauto
  · exact fun _ _ => rfl
  · exact fun _ _ => rfl
  · exact fun _ _ => by ring

theorem plaq_adj_0 {R ι1 ι2 ι3 ι4 ι5 : Type*} [CommSemiring R] {A : Finset ι1} {B : Finset ι2} {I : Finset ι3} {J : Finset ι4} {L : Finset ι5}
    (h : ι4 → ι2 → ι1 → ι3 → R) (p : ι5 → ι4 → ι2 → R) (q : ι1 → ι3 → ι5 → R) :
    ∑ j ∈ J, ∑ b ∈ B, ∑ a ∈ A, ∑ i ∈ I, h j b a i * ∑ l ∈ L, p l j b * q a i l =
      ∑ a ∈ A, ∑ i ∈ I, ∑ l ∈ L, (∑ j ∈ J, ∑ b ∈ B, h j b a i * p l j b) * q a i l := by
  simp only [Finset.sum_mul, Finset.mul_sum, ← Finset.sum_product']
  refine Finset.sum_nbij' (fun x => (x.2.2.1, x.2.2.2.1, x.2.2.2.2, x.1, x.2.1))
    (fun x => (x.2.2.2.1, x.2.2.2.2, x.1, x.2.1, x.2.2.1)) ?_ ?_ ?_ ?_ ?_
  · simp only [Finset.mem_product]; tauto
  · simp only [Finset.mem_product]; tauto
  · exact fun _ _ => rfl
  · exact fun _ _ => rfl
  · exact fun _ _ => by ring

theorem plaq_adj_1 {R ι1 ι2 ι3 ι4 ι5 : Type*} [CommSemiring R] {A : Finset ι1} {B : Finset ι2} {I : Finset ι3} {J : Finset ι4} {L : Finset ι5}
    (h : ι4 → ι2 → ι1 → ι3 → R) (p : ι5 → ι4 → ι2 → R) (q : ι1 → ι3 → ι5 → R) :
    ∑ j ∈ J, ∑ b ∈ B, ∑ a ∈ A, ∑ i ∈ I, h j b a i * ∑ l ∈ L, p l j b * q a i l =
      ∑ l ∈ L, ∑ j ∈ J, ∑ b ∈ B, (∑ a ∈ A, ∑ i ∈ I, h j b a i * q a i l) * p l j b := by
  simp only [Finset.sum_mul, Finset.mul_sum, ← Finset.sum_product']
  refine Finset.sum_nbij' (fun x => (x.2.2.2.2, x.1, x.2.1, x.2.2.1, x.2.2.2.1))
    (fun x => (x.2.1, x.2.2.1, x.2.2.2.1, x.2.2.2.2, x.1)) ?_ ?_ ?_ ?_ ?_
  · simp only [Finset.mem_product]; tauto
  · simp only [Finset.mem_product]; tauto
  · exact fun _ _ => rfl
  · exact fun _ _ => rfl
  · exact fun _ _ => by ring

theorem plaq_adj_2 {R ι1 ι2 ι3 ι4 ι5 : Type*} [CommSemiring R] {C : Finset ι1} {D : Finset ι2} {I : Finset ι3} {J : Finset ι4} {K : Finset ι5}
    (h : ι2 → ι3 → ι4 → ι1 → R) (p : ι2 → ι5 → ι3 → R) (q : ι5 → ι4 → ι1 → R) :
    ∑ d ∈ D, ∑ i ∈ I, ∑ j ∈ J, ∑ c ∈ C, h d i j c * ∑ k ∈ K, p d k i * q k j c =
      ∑ d ∈ D, ∑ k ∈ K, ∑ i ∈ I, (∑ j ∈ J, ∑ c ∈ C, h d i j c * q k j c) * p d k i := by
  simp only [Finset.sum_mul, Finset.mul_sum, ← Finset.sum_product']
  refine Finset.sum_nbij' (fun x => (x.1, x.2.2.2.2, x.2.1, x.2.2.1, x.2.2.2.1))
    (fun x => (x.1, x.2.2.1, x.2.2.2.1, x.2.2.2.2, x.2.1)) ?_ ?_ ?_ ?_ ?_
  · simp only [Finset.mem_product]; tauto
  · simp only [Finset.mem_product]; tauto
  · exact fun _ _ => rfl
  · exact fun _ _ => rfl
  · exact fun _ _ => by ring

theorem plaq_adj_3 {R ι1 ι2 ι3 ι4 ι5 : Type*} [CommSemiring R] {C : Finset ι1} {D : Finset ι2} {I : Finset ι3} {J : Finset ι4} {K : Finset ι5}
    (h : ι2 → ι3 → ι4 → ι1 → R) (p : ι2 → ι5 → ι3 → R) (q : ι5 → ι4 → ι1 → R) :
    ∑ d ∈ D, ∑ i ∈ I, ∑ j ∈ J, ∑ c ∈ C, h d i j c * ∑ k ∈ K, p d k i * q k j c =
      ∑ k ∈ K, ∑ j ∈ J, ∑ c ∈ C, (∑ d ∈ D, ∑ i ∈ I, h d i j c * p d k i) * q k j c := by
  simp only [Finset.sum_mul, Finset.mul_sum, ← Finset.sum_product']
  refine Finset.sum_nbij' (fun x => (x.2.2.2.2, x.2.2.1, x.2.2.2.1, x.1, x.2.1))
    (fun x => (x.2.2.2.1, x.2.2.2.2, x.2.1, x.2.2.1, x.1)) ?_ ?_ ?_ ?_ ?_
  · simp only [Finset.mem_product]; tauto
  · simp only [Finset.mem_product]; tauto
  · exact fun _ _ => rfl
  · exact fun _ _ => rfl
  · exact fun _ _ => by ring

section
variable {𝕜 : Type} [RCLike 𝕜]

theorem plaq_f {p q : Tn 𝕜} {C D x1 x2 x3 : ℕ} (hp : p.shape = [D, x3, x1]) (hq : q.shape = [x3, x2, C]) :
    (contractN p [1] q [0]).shape = [D, x1, x2, C] ∧ ∀ d i j c, (contractN p [1] q [0]).elem [d, i, j, c] =
      ∑ k ∈ Finset.range x3, p.elem [d, k, i] * q.elem [k, j, c] := by
  obtain ⟨sp, gp⟩ := p
  obtain rfl : sp = _ := hp
  obtain ⟨sq, gq⟩ := q
  obtain rfl : sq = _ := hq
  exact ⟨rfl, fun _ _ _ _ => rfl⟩

theorem plaq_g {p q : Tn 𝕜} {A B x0 x1 x2 : ℕ} (hp : p.shape = [x0, x2, B]) (hq : q.shape = [A, x1, x0]) :
    (contractN p [0] q [2]).shape = [x2, B, A, x1] ∧ ∀ j b a i, (contractN p [0] q [2]).elem [j, b, a, i] =
      ∑ l ∈ Finset.range x0, p.elem [l, j, b] * q.elem [a, i, l] := by
  obtain ⟨sp, gp⟩ := p
  obtain rfl : sp = _ := hp
  obtain ⟨sq, gq⟩ := q
  obtain rfl : sq = _ := hq
  exact ⟨rfl, fun _ _ _ _ => rfl⟩

theorem plaq_T {f g : Tn 𝕜} {A B C D x1 x2 : ℕ} (hf : f.shape = [D, x1, x2, C]) (hg : g.shape = [x2, B, A, x1]) :
    (transpose [3, 2, 1, 0] (contractN f [1, 2] g [3, 0])).shape = [A, B, C, D] ∧ ∀ a b c d, (transpose [3, 2, 1, 0] (contractN f [1, 2] g [3, 0])).elem [a, b, c, d] =
      ∑ i ∈ Finset.range x1, ∑ j ∈ Finset.range x2, f.elem [d, i, j, c] * g.elem [j, b, a, i] := by
  obtain ⟨sf, gf⟩ := f
  obtain rfl : sf = _ := hf
  obtain ⟨sg, gg⟩ := g
  obtain rfl : sg = _ := hg
  exact ⟨rfl, fun _ _ _ _ => rfl⟩

theorem plaq_Hf {h g : Tn 𝕜} {A B C D x1 x2 : ℕ} (hh : h.shape = [A, B, C, D]) (hg : g.shape = [x2, B, A, x1]) :
    (transpose [0, 3, 2, 1] (contractN (transpose [3, 2, 1, 0] h) [2, 3] g [1, 2])).shape = [D, x1, x2, C] ∧ ∀ d i j c, (transpose [0, 3, 2, 1] (contractN (transpose [3, 2, 1, 0] h) [2, 3] g [1, 2])).elem [d, i, j, c] =
      ∑ b ∈ Finset.range B, ∑ a ∈ Finset.range A, h.elem [a, b, c, d] * g.elem [j, b, a, i] := by
  obtain ⟨sh, gh⟩ := h
  obtain rfl : sh = _ := hh
  obtain ⟨sg, gg⟩ := g
  obtain rfl : sg = _ := hg
  exact ⟨rfl, fun _ _ _ _ => rfl⟩

theorem plaq_Hg {h f : Tn 𝕜} {A B C D x1 x2 : ℕ} (hh : h.shape = [A, B, C, D]) (hf : f.shape = [D, x1, x2, C]) :
    (transpose [3, 0, 1, 2] (contractN (transpose [3, 2, 1, 0] h) [0, 1] f [0, 3])).shape = [x2, B, A, x1] ∧ ∀ j b a i, (transpose [3, 0, 1, 2] (contractN (transpose [3, 2, 1, 0] h) [0, 1] f [0, 3])).elem [j, b, a, i] =
      ∑ d ∈ Finset.range D, ∑ c ∈ Finset.range C, h.elem [a, b, c, d] * f.elem [d, i, j, c] := by
  obtain ⟨sh, gh⟩ := h
  obtain rfl : sh = _ := hh
  obtain ⟨sf, gf⟩ := f
  obtain rfl : sf = _ := hf
  exact ⟨rfl, fun _ _ _ _ => rfl⟩

theorem plaq_b0 {h p : Tn 𝕜} {A B x0 x1 x2 : ℕ} (hh : h.shape = [x2, B, A, x1]) (hp : p.shape = [x0, x2, B]) :
    (contractN h [0, 1] p [1, 2]).shape = [A, x1, x0] ∧ ∀ a i l, (contractN h [0, 1] p [1, 2]).elem [a, i, l] =
      ∑ j ∈ Finset.range x2, ∑ b ∈ Finset.range B, h.elem [j, b, a, i] * p.elem [l, j, b] := by
  obtain ⟨sh, gh⟩ := h
  obtain rfl : sh = _ := hh
  obtain ⟨sp, gp⟩ := p
  obtain rfl : sp = _ := hp
  exact ⟨rfl, fun _ _ _ => rfl⟩

theorem plaq_b1 {h p : Tn 𝕜} {A B x0 x1 x2 : ℕ} (hh : h.shape = [x2, B, A, x1]) (hp : p.shape = [A, x1, x0]) :
    (transpose [2, 0, 1] (contractN h [2, 3] p [0, 1])).shape = [x0, x2, B] ∧ ∀ l j b, (transpose [2, 0, 1] (contractN h [2, 3] p [0, 1])).elem [l, j, b] =
      ∑ a ∈ Finset.range A, ∑ i ∈ Finset.range x1, h.elem [j, b, a, i] * p.elem [a, i, l] := by
  obtain ⟨sh, gh⟩ := h
  obtain rfl : sh = _ := hh
  obtain ⟨sp, gp⟩ := p
  obtain rfl : sp = _ := hp
  exact ⟨rfl, fun _ _ _ => rfl⟩

theorem plaq_b2 {h p : Tn 𝕜} {C D x1 x2 x3 : ℕ} (hh : h.shape = [D, x1, x2, C]) (hp : p.shape = [x3, x2, C]) :
    (transpose [0, 2, 1] (contractN h [2, 3] p [1, 2])).shape = [D, x3, x1] ∧ ∀ d k i, (transpose [0, 2, 1] (contractN h [2, 3] p [1, 2])).elem [d, k, i] =
      ∑ j ∈ Finset.range x2, ∑ c ∈ Finset.range C, h.elem [d, i, j, c] * p.elem [k, j, c] := by
  obtain ⟨sh, gh⟩ := h
  obtain rfl : sh = _ := hh
  obtain ⟨sp, gp⟩ := p
  obtain rfl : sp = _ := hp
  exact ⟨rfl, fun _ _ _ => rfl⟩

theorem plaq_b3 {h p : Tn 𝕜} {C D x1 x2 x3 : ℕ} (hh : h.shape = [D, x1, x2, C]) (hp : p.shape = [D, x3, x1]) :
    (transpose [2, 0, 1] (contractN h [0, 1] p [0, 2])).shape = [x3, x2, C] ∧ ∀ k j c, (transpose [2, 0, 1] (contractN h [0, 1] p [0, 2])).elem [k, j, c] =
      ∑ d ∈ Finset.range D, ∑ i ∈ Finset.range x1, h.elem [d, i, j, c] * p.elem [d, k, i] := by
  obtain ⟨sh, gh⟩ := h
  obtain rfl : sh = _ := hh
  obtain ⟨sp, gp⟩ := p
  obtain rfl : sp = _ := hp
  exact ⟨rfl, fun _ _ _ => rfl⟩

end

section
variable {𝕜 : Type} [RCLike 𝕜] {h p1 p0 q1 q0 : Tn 𝕜} {A B C D x0 x1 x2 x3 : ℕ}
  (hh : h.shape = [A, B, C, D]) (hp1 : p1.shape = [D, x3, x1]) (hp0 : p0.shape = [x3, x2, C]) (hq1 : q1.shape = [x0, x2, B]) (hq0 : q0.shape = [A, x1, x0])
include hh hp1 hp0 hq1 hq0

theorem plaqBack_0 : (plaqBack h q0 q1 p1 p0 0).shape = [A, x1, x0] ∧
    P3 A x1 x0 (plaqBack h q0 q1 p1 p0 0) q0 = P4 A B C D h (plaqCore q0 q1 p1 p0) := by
  have ef := plaq_f hp1 hp0
  have eg := plaq_g hq1 hq0
  have eT := plaq_T ef.1 eg.1
  have eH := plaq_Hg hh ef.1
  have eb := plaq_b0 eH.1 hq1
  refine ⟨eb.1, ?_⟩
  change P3 A x1 x0 (contractN (transpose [3, 0, 1, 2] (contractN (transpose [3, 2, 1, 0] h) [0, 1] (contractN p1 [1] p0 [0]) [0, 3])) [0, 1] q1 [1, 2]) q0 = P4 A B C D h (transpose [3, 2, 1, 0] (contractN (contractN p1 [1] p0 [0]) [1, 2] (contractN q1 [0] q0 [2]) [3, 0]))
  unfold P3 P4
  simp only [eb.2, eT.2]
  rw [plaq_adj_g (fun a b c d => h.elem [a, b, c, d]) (fun d i j c => (contractN p1 [1] p0 [0]).elem [d, i, j, c]) (fun j b a i => (contractN q1 [0] q0 [2]).elem [j, b, a, i])]
  simp only [eg.2, ← eH.2]
  exact (plaq_adj_0 (fun j b a i => Tn.elem _ [j, b, a, i]) (fun l j b => q1.elem [l, j, b]) (fun a i l => q0.elem [a, i, l])).symm

theorem plaqBack_1 : (plaqBack h q0 q1 p1 p0 1).shape = [x0, x2, B] ∧
    P3 x0 x2 B (plaqBack h q0 q1 p1 p0 1) q1 = P4 A B C D h (plaqCore q0 q1 p1 p0) := by
  have ef := plaq_f hp1 hp0
  have eg := plaq_g hq1 hq0
  have eT := plaq_T ef.1 eg.1
  have eH := plaq_Hg hh ef.1
  have eb := plaq_b1 eH.1 hq0
  refine ⟨eb.1, ?_⟩
  change P3 x0 x2 B (transpose [2, 0, 1] (contractN (transpose [3, 0, 1, 2] (contractN (transpose [3, 2, 1, 0] h) [0, 1] (contractN p1 [1] p0 [0]) [0, 3])) [2, 3] q0 [0, 1])) q1 = P4 A B C D h (transpose [3, 2, 1, 0] (contractN (contractN p1 [1] p0 [0]) [1, 2] (contractN q1 [0] q0 [2]) [3, 0]))
  unfold P3 P4
  simp only [eb.2, eT.2]
  rw [plaq_adj_g (fun a b c d => h.elem [a, b, c, d]) (fun d i j c => (contractN p1 [1] p0 [0]).elem [d, i, j, c]) (fun j b a i => (contractN q1 [0] q0 [2]).elem [j, b, a, i])]
  simp only [eg.2, ← eH.2]
  exact (plaq_adj_1 (fun j b a i => Tn.elem _ [j, b, a, i]) (fun l j b => q1.elem [l, j, b]) (fun a i l => q0.elem [a, i, l])).symm

theorem plaqBack_2 : (plaqBack h q0 q1 p1 p0 2).shape = [D, x3, x1] ∧
    P3 D x3 x1 (plaqBack h q0 q1 p1 p0 2) p1 = P4 A B C D h (plaqCore q0 q1 p1 p0) := by
  have ef := plaq_f hp1 hp0
  have eg := plaq_g hq1 hq0
  have eT := plaq_T ef.1 eg.1
  have eH := plaq_Hf hh eg.1
  have eb := plaq_b2 eH.1 hp0
  refine ⟨eb.1, ?_⟩
  change P3 D x3 x1 (transpose [0, 2, 1] (contractN (transpose [0, 3, 2, 1] (contractN (transpose [3, 2, 1, 0] h) [2, 3] (contractN q1 [0] q0 [2]) [1, 2])) [2, 3] p0 [1, 2])) p1 = P4 A B C D h (transpose [3, 2, 1, 0] (contractN (contractN p1 [1] p0 [0]) [1, 2] (contractN q1 [0] q0 [2]) [3, 0]))
  unfold P3 P4
  simp only [eb.2, eT.2]
  rw [plaq_adj_f (fun a b c d => h.elem [a, b, c, d]) (fun d i j c => (contractN p1 [1] p0 [0]).elem [d, i, j, c]) (fun j b a i => (contractN q1 [0] q0 [2]).elem [j, b, a, i])]
  simp only [ef.2, ← eH.2]
  exact (plaq_adj_2 (fun d i j c => Tn.elem _ [d, i, j, c]) (fun d k i => p1.elem [d, k, i]) (fun k j c => p0.elem [k, j, c])).symm

theorem plaqBack_3 : (plaqBack h q0 q1 p1 p0 3).shape = [x3, x2, C] ∧
    P3 x3 x2 C (plaqBack h q0 q1 p1 p0 3) p0 = P4 A B C D h (plaqCore q0 q1 p1 p0) := by
  have ef := plaq_f hp1 hp0
  have eg := plaq_g hq1 hq0
  have eT := plaq_T ef.1 eg.1
  have eH := plaq_Hf hh eg.1
  have eb := plaq_b3 eH.1 hp1
  refine ⟨eb.1, ?_⟩
  change P3 x3 x2 C (transpose [2, 0, 1] (contractN (transpose [0, 3, 2, 1] (contractN (transpose [3, 2, 1, 0] h) [2, 3] (contractN q1 [0] q0 [2]) [1, 2])) [0, 1] p1 [0, 2])) p0 = P4 A B C D h (transpose [3, 2, 1, 0] (contractN (contractN p1 [1] p0 [0]) [1, 2] (contractN q1 [0] q0 [2]) [3, 0]))
  unfold P3 P4
  simp only [eb.2, eT.2]
  rw [plaq_adj_f (fun a b c d => h.elem [a, b, c, d]) (fun d i j c => (contractN p1 [1] p0 [0]).elem [d, i, j, c]) (fun j b a i => (contractN q1 [0] q0 [2]).elem [j, b, a, i])]
  simp only [ef.2, ← eH.2]
  exact (plaq_adj_3 (fun d i j c => Tn.elem _ [d, i, j, c]) (fun d k i => p1.elem [d, k, i]) (fun k j c => p0.elem [k, j, c])).symm

end

theorem diam_adj_g {R ι1 ι2 ι3 ι4 ι5 ι6 : Type*} [CommSemiring R] {E : Finset ι1} {I : Finset ι2} {J : Finset ι3} {N : Finset ι4} {S : Finset ι5} {W : Finset ι6}
    (h : ι6 → ι5 → ι1 → ι4 → R) (f : ι2 → ι5 → ι6 → ι3 → R) (g : ι4 → ι3 → ι2 → ι1 → R) :
    ∑ w ∈ W, ∑ s ∈ S, ∑ e ∈ E, ∑ n ∈ N, h w s e n * ∑ i ∈ I, ∑ j ∈ J, f i s w j * g n j i e =
      ∑ n ∈ N, ∑ j ∈ J, ∑ i ∈ I, ∑ e ∈ E, (∑ s ∈ S, ∑ w ∈ W, h w s e n * f i s w j) * g n j i e := by
  simp only [Finset.sum_mul, Finset.mul_sum, ← Finset.sum_product']
  refine Finset.sum_nbij' (fun x => (x.2.2.2.1, x.2.2.2.2.2, x.2.2.2.2.1, x.2.2.1, x.2.1, x.1))
    (fun x => (x.2.2.2.2.2, x.2.2.2.2.1, x.2.2.2.1, x.1, x.2.2.1, x.2.1)) ?_ ?_ ?_ ?_ ?_
  · simp only [Finset.mem_product]; tauto
  · simp only [Finset.mem_product]; tauto
  · exact fun _ _ => rfl
  · exact fun _ _ => rfl
  · exact fun _ _ => by ring

theorem diam_adj_f {R ι1 ι2 ι3 ι4 ι5 ι6 : Type*} [CommSemiring R] {E : Finset ι1} {I : Finset ι2} {J : Finset ι3} {N : Finset ι4} {S : Finset ι5} {W : Finset ι6}
    (h : ι6 → ι5 → ι1 → ι4 → R) (f : ι2 → ι5 → ι6 → ι3 → R) (g : ι4 → ι3 → ι2 → ι1 → R) :
    ∑ w ∈ W, ∑ s ∈ S, ∑ e ∈ E, ∑ n ∈ N, h w s e n * ∑ i ∈ I, ∑ j ∈ J, f i s w j * g n j i e =
      ∑ i ∈ I, ∑ s ∈ S, ∑ w ∈ W, ∑ j ∈ J, (∑ n ∈ N, ∑ e ∈ E, h w s e n * g n j i e) * f i s w j := by
  simp only [Finset.sum_mul, Finset.mul_sum, ← Finset.sum_product']
  refine Finset.sum_nbij' (fun x => (x.2.2.2.2.1, x.2.1, x.1, x.2.2.2.2.2, x.2.2.2.1, x.2.2.1))
    (fun x => (x.2.2.1, x.2.1, x.2.2.2.2.2, x.2.2.2.2.1, x.1, x.2.2.2.1)) ?_ ?_ ?_ ?_ ?_
  · simp only [Finset.mem_product]; tauto
  · simp only [Finset.mem_product]; tauto
  · exact fun _ _ => rfl
  · exact fun _ _ => rfl
  · exact fun _ _ => by ring

theorem diam_adj_0 {R ι1 ι2 ι3 ι4 ι5 : Type*} [CommSemiring R] {E : Finset ι1} {I : Finset ι2} {J : Finset ι3} {L : Finset ι4} {N : Finset ι5}
    (h : ι5 → ι3 → ι2 → ι1 → R) (p : ι5 → ι4 → ι3 → R) (q : ι4 → ι2 → ι1 → R) :
    ∑ n ∈ N, ∑ j ∈ J, ∑ i ∈ I, ∑ e ∈ E, h n j i e * ∑ l ∈ L, p n l j * q l i e =
      ∑ n ∈ N, ∑ l ∈ L, ∑ j ∈ J, (∑ i ∈ I, ∑ e ∈ E, h n j i e * q l i e) * p n l j := by
  simp only [Finset.sum_mul, Finset.mul_sum, ← Finset.sum_product']
  refine Finset.sum_nbij' (fun x => (x.1, x.2.2.2.2, x.2.1, x.2.2.1, x.2.2.2.1))
    (fun x => (x.1, x.2.2.1, x.2.2.2.1, x.2.2.2.2, x.2.1)) ?_ ?_ ?_ ?_ ?_
  · simp only [Finset.mem_product]; tauto
  · simp only [Finset.mem_product]; tauto
  · exact fun _ _ => rfl
  · exact fun _ _ => rfl
  · exact fun _ _ => by ring

theorem diam_adj_1 {R ι1 ι2 ι3 ι4 ι5 : Type*} [CommSemiring R] {E : Finset ι1} {I : Finset ι2} {J : Finset ι3} {L : Finset ι4} {N : Finset ι5}
    (h : ι5 → ι3 → ι2 → ι1 → R) (p : ι5 → ι4 → ι3 → R) (q : ι4 → ι2 → ι1 → R) :
    ∑ n ∈ N, ∑ j ∈ J, ∑ i ∈ I, ∑ e ∈ E, h n j i e * ∑ l ∈ L, p n l j * q l i e =
      ∑ l ∈ L, ∑ i ∈ I, ∑ e ∈ E, (∑ n ∈ N, ∑ j ∈ J, h n j i e * p n l j) * q l i e := by
  simp only [Finset.sum_mul, Finset.mul_sum, ← Finset.sum_product']
  refine Finset.sum_nbij' (fun x => (x.2.2.2.2, x.2.2.1, x.2.2.2.1, x.1, x.2.1))
    (fun x => (x.2.2.2.1, x.2.2.2.2, x.2.1, x.2.2.1, x.1)) ?_ ?_ ?_ ?_ ?_
  · simp only [Finset.mem_product]; tauto
  · simp only [Finset.mem_product]; tauto
  · exact fun _ _ => rfl
  · exact fun _ _ => rfl
  · exact fun _ _ => by ring

theorem diam_adj_2 {R ι1 ι2 ι3 ι4 ι5 : Type*} [CommSemiring R] {I : Finset ι1} {J : Finset ι2} {K : Finset ι3} {S : Finset ι4} {W : Finset ι5}
    (h : ι1 → ι4 → ι5 → ι2 → R) (p : ι3 → ι1 → ι4 → R) (q : ι5 → ι2 → ι3 → R) :
    ∑ i ∈ I, ∑ s ∈ S, ∑ w ∈ W, ∑ j ∈ J, h i s w j * ∑ k ∈ K, p k i s * q w j k =
      ∑ k ∈ K, ∑ i ∈ I, ∑ s ∈ S, (∑ w ∈ W, ∑ j ∈ J, h i s w j * q w j k) * p k i s := by
  simp only [Finset.sum_mul, Finset.mul_sum, ← Finset.sum_product']
  refine Finset.sum_nbij' (fun x => (x.2.2.2.2, x.1, x.2.1, x.2.2.1, x.2.2.2.1))
    (fun x => (x.2.1, x.2.2.1, x.2.2.2.1, x.2.2.2.2, x.1)) ?_ ?_ ?_ ?_ ?_
  · simp only [Finset.mem_product]; tauto
  · simp only [Finset.mem_product]; tauto
  · exact fun _ _ => rfl
  · exact fun _ _ => rfl
  · exact fun _ _ => by ring

theorem diam_adj_3 {R ι1 ι2 ι3 ι4 ι5 : Type*} [CommSemiring R] {I : Finset ι1} {J : Finset ι2} {K : Finset ι3} {S : Finset ι4} {W : Finset ι5}
    (h : ι1 → ι4 → ι5 → ι2 → R) (p : ι3 → ι1 → ι4 → R) (q : ι5 → ι2 → ι3 → R) :
    ∑ i ∈ I, ∑ s ∈ S, ∑ w ∈ W, ∑ j ∈ J, h i s w j * ∑ k ∈ K, p k i s * q w j k =
      ∑ w ∈ W, ∑ j ∈ J, ∑ k ∈ K, (∑ i ∈ I, ∑ s ∈ S, h i s w j * p k i s) * q w j k := by
  simp only [Finset.sum_mul, Finset.mul_sum, ← Finset.sum_product']
  refine Finset.sum_nbij' (fun x => (x.2.2.1, x.2.2.2.1, x.2.2.2.2, x.1, x.2.1))
    (fun x => (x.2.2.2.1, x.2.2.2.2, x.1, x.2.1, x.2.2.1)) ?_ ?_ ?_ ?_ ?_
  · simp only [Finset.mem_product]; tauto
  · simp only [Finset.mem_product]; tauto
  · exact fun _ _ => rfl
  · exact fun _ _ => rfl
  · exact fun _ _ => by ring

section
variable {𝕜 : Type} [RCLike 𝕜]

theorem diam_f {p q : Tn 𝕜} {S W y0 y1 y2 : ℕ} (hp : p.shape = [y2, y0, S]) (hq : q.shape = [W, y1, y2]) :
    (contractN p [0] q [2]).shape = [y0, S, W, y1] ∧ ∀ i s w j, (contractN p [0] q [2]).elem [i, s, w, j] =
      ∑ k ∈ Finset.range y2, p.elem [k, i, s] * q.elem [w, j, k] := by
  obtain ⟨sp, gp⟩ := p
  obtain rfl : sp = _ := hp
  obtain ⟨sq, gq⟩ := q
  obtain rfl : sq = _ := hq
  exact ⟨rfl, fun _ _ _ _ => rfl⟩

theorem diam_g {p q : Tn 𝕜} {E N y0 y1 y3 : ℕ} (hp : p.shape = [N, y3, y1]) (hq : q.shape = [y3, y0, E]) :
    (contractN p [1] q [0]).shape = [N, y1, y0, E] ∧ ∀ n j i e, (contractN p [1] q [0]).elem [n, j, i, e] =
      ∑ l ∈ Finset.range y3, p.elem [n, l, j] * q.elem [l, i, e] := by
  obtain ⟨sp, gp⟩ := p
  obtain rfl : sp = _ := hp
  obtain ⟨sq, gq⟩ := q
  obtain rfl : sq = _ := hq
  exact ⟨rfl, fun _ _ _ _ => rfl⟩

theorem diam_T {f g : Tn 𝕜} {E N S W y0 y1 : ℕ} (hf : f.shape = [y0, S, W, y1]) (hg : g.shape = [N, y1, y0, E]) :
    (transpose [1, 0, 3, 2] (contractN f [0, 3] g [2, 1])).shape = [W, S, E, N] ∧ ∀ w s e n, (transpose [1, 0, 3, 2] (contractN f [0, 3] g [2, 1])).elem [w, s, e, n] =
      ∑ i ∈ Finset.range y0, ∑ j ∈ Finset.range y1, f.elem [i, s, w, j] * g.elem [n, j, i, e] := by
  obtain ⟨sf, gf⟩ := f
  obtain rfl : sf = _ := hf
  obtain ⟨sg, gg⟩ := g
  obtain rfl : sg = _ := hg
  exact ⟨rfl, fun _ _ _ _ => rfl⟩

theorem diam_Hf {h g : Tn 𝕜} {E N S W y0 y1 : ℕ} (hh : h.shape = [W, S, E, N]) (hg : g.shape = [N, y1, y0, E]) :
    (transpose [3, 0, 1, 2] (contractN (transpose [1, 0, 3, 2] h) [2, 3] g [0, 3])).shape = [y0, S, W, y1] ∧ ∀ i s w j, (transpose [3, 0, 1, 2] (contractN (transpose [1, 0, 3, 2] h) [2, 3] g [0, 3])).elem [i, s, w, j] =
      ∑ n ∈ Finset.range N, ∑ e ∈ Finset.range E, h.elem [w, s, e, n] * g.elem [n, j, i, e] := by
  obtain ⟨sh, gh⟩ := h
  obtain rfl : sh = _ := hh
  obtain ⟨sg, gg⟩ := g
  obtain rfl : sg = _ := hg
  exact ⟨rfl, fun _ _ _ _ => rfl⟩

theorem diam_Hg {h f : Tn 𝕜} {E N S W y0 y1 : ℕ} (hh : h.shape = [W, S, E, N]) (hf : f.shape = [y0, S, W, y1]) :
    (transpose [0, 3, 2, 1] (contractN (transpose [1, 0, 3, 2] h) [0, 1] f [1, 2])).shape = [N, y1, y0, E] ∧ ∀ n j i e, (transpose [0, 3, 2, 1] (contractN (transpose [1, 0, 3, 2] h) [0, 1] f [1, 2])).elem [n, j, i, e] =
      ∑ s ∈ Finset.range S, ∑ w ∈ Finset.range W, h.elem [w, s, e, n] * f.elem [i, s, w, j] := by
  obtain ⟨sh, gh⟩ := h
  obtain rfl : sh = _ := hh
  obtain ⟨sf, gf⟩ := f
  obtain rfl : sf = _ := hf
  exact ⟨rfl, fun _ _ _ _ => rfl⟩

theorem diam_b0 {h p : Tn 𝕜} {E N y0 y1 y3 : ℕ} (hh : h.shape = [N, y1, y0, E]) (hp : p.shape = [y3, y0, E]) :
    (transpose [0, 2, 1] (contractN h [2, 3] p [1, 2])).shape = [N, y3, y1] ∧ ∀ n l j, (transpose [0, 2, 1] (contractN h [2, 3] p [1, 2])).elem [n, l, j] =
      ∑ i ∈ Finset.range y0, ∑ e ∈ Finset.range E, h.elem [n, j, i, e] * p.elem [l, i, e] := by
  obtain ⟨sh, gh⟩ := h
  obtain rfl : sh = _ := hh
  obtain ⟨sp, gp⟩ := p
  obtain rfl : sp = _ := hp
  exact ⟨rfl, fun _ _ _ => rfl⟩

theorem diam_b1 {h p : Tn 𝕜} {E N y0 y1 y3 : ℕ} (hh : h.shape = [N, y1, y0, E]) (hp : p.shape = [N, y3, y1]) :
    (transpose [2, 0, 1] (contractN h [0, 1] p [0, 2])).shape = [y3, y0, E] ∧ ∀ l i e, (transpose [2, 0, 1] (contractN h [0, 1] p [0, 2])).elem [l, i, e] =
      ∑ n ∈ Finset.range N, ∑ j ∈ Finset.range y1, h.elem [n, j, i, e] * p.elem [n, l, j] := by
  obtain ⟨sh, gh⟩ := h
  obtain rfl : sh = _ := hh
  obtain ⟨sp, gp⟩ := p
  obtain rfl : sp = _ := hp
  exact ⟨rfl, fun _ _ _ => rfl⟩

theorem diam_b2 {h p : Tn 𝕜} {S W y0 y1 y2 : ℕ} (hh : h.shape = [y0, S, W, y1]) (hp : p.shape = [W, y1, y2]) :
    (transpose [2, 0, 1] (contractN h [2, 3] p [0, 1])).shape = [y2, y0, S] ∧ ∀ k i s, (transpose [2, 0, 1] (contractN h [2, 3] p [0, 1])).elem [k, i, s] =
      ∑ w ∈ Finset.range W, ∑ j ∈ Finset.range y1, h.elem [i, s, w, j] * p.elem [w, j, k] := by
  obtain ⟨sh, gh⟩ := h
  obtain rfl : sh = _ := hh
  obtain ⟨sp, gp⟩ := p
  obtain rfl : sp = _ := hp
  exact ⟨rfl, fun _ _ _ => rfl⟩

theorem diam_b3 {h p : Tn 𝕜} {S W y0 y1 y2 : ℕ} (hh : h.shape = [y0, S, W, y1]) (hp : p.shape = [y2, y0, S]) :
    (contractN h [0, 1] p [1, 2]).shape = [W, y1, y2] ∧ ∀ w j k, (contractN h [0, 1] p [1, 2]).elem [w, j, k] =
      ∑ i ∈ Finset.range y0, ∑ s ∈ Finset.range S, h.elem [i, s, w, j] * p.elem [k, i, s] := by
  obtain ⟨sh, gh⟩ := h
  obtain rfl : sh = _ := hh
  obtain ⟨sp, gp⟩ := p
  obtain rfl : sp = _ := hp
  exact ⟨rfl, fun _ _ _ => rfl⟩

end

section
variable {𝕜 : Type} [RCLike 𝕜] {h sq wq np ep : Tn 𝕜} {E N S W y0 y1 y2 y3 : ℕ}
  (hh : h.shape = [W, S, E, N]) (hsq : sq.shape = [y2, y0, S]) (hwq : wq.shape = [W, y1, y2]) (hnp : np.shape = [N, y3, y1]) (hep : ep.shape = [y3, y0, E])
include hh hsq hwq hnp hep

theorem diamBack_0 : (diamBack h np ep sq wq 0).shape = [N, y3, y1] ∧
    P3 N y3 y1 (diamBack h np ep sq wq 0) np = P4 W S E N h (diamCore np ep sq wq) := by
  have ef := diam_f hsq hwq
  have eg := diam_g hnp hep
  have eT := diam_T ef.1 eg.1
  have eH := diam_Hg hh ef.1
  have eb := diam_b0 eH.1 hep
  refine ⟨eb.1, ?_⟩
  change P3 N y3 y1 (transpose [0, 2, 1] (contractN (transpose [0, 3, 2, 1] (contractN (transpose [1, 0, 3, 2] h) [0, 1] (contractN sq [0] wq [2]) [1, 2])) [2, 3] ep [1, 2])) np = P4 W S E N h (transpose [1, 0, 3, 2] (contractN (contractN sq [0] wq [2]) [0, 3] (contractN np [1] ep [0]) [2, 1]))
  unfold P3 P4
  simp only [eb.2, eT.2]
  rw [diam_adj_g (fun w s e n => h.elem [w, s, e, n]) (fun i s w j => (contractN sq [0] wq [2]).elem [i, s, w, j]) (fun n j i e => (contractN np [1] ep [0]).elem [n, j, i, e])]
  simp only [eg.2, ← eH.2]
  exact (diam_adj_0 (fun n j i e => Tn.elem _ [n, j, i, e]) (fun n l j => np.elem [n, l, j]) (fun l i e => ep.elem [l, i, e])).symm

theorem diamBack_1 : (diamBack h np ep sq wq 1).shape = [y3, y0, E] ∧
    P3 y3 y0 E (diamBack h np ep sq wq 1) ep = P4 W S E N h (diamCore np ep sq wq) := by
  have ef := diam_f hsq hwq
  have eg := diam_g hnp hep
  have eT := diam_T ef.1 eg.1
  have eH := diam_Hg hh ef.1
  have eb := diam_b1 eH.1 hnp
  refine ⟨eb.1, ?_⟩
  change P3 y3 y0 E (transpose [2, 0, 1] (contractN (transpose [0, 3, 2, 1] (contractN (transpose [1, 0, 3, 2] h) [0, 1] (contractN sq [0] wq [2]) [1, 2])) [0, 1] np [0, 2])) ep = P4 W S E N h (transpose [1, 0, 3, 2] (contractN (contractN sq [0] wq [2]) [0, 3] (contractN np [1] ep [0]) [2, 1]))
  unfold P3 P4
  simp only [eb.2, eT.2]
  rw [diam_adj_g (fun w s e n => h.elem [w, s, e, n]) (fun i s w j => (contractN sq [0] wq [2]).elem [i, s, w, j]) (fun n j i e => (contractN np [1] ep [0]).elem [n, j, i, e])]
  simp only [eg.2, ← eH.2]
  exact (diam_adj_1 (fun n j i e => Tn.elem _ [n, j, i, e]) (fun n l j => np.elem [n, l, j]) (fun l i e => ep.elem [l, i, e])).symm

theorem diamBack_2 : (diamBack h np ep sq wq 2).shape = [y2, y0, S] ∧
    P3 y2 y0 S (diamBack h np ep sq wq 2) sq = P4 W S E N h (diamCore np ep sq wq) := by
  have ef := diam_f hsq hwq
  have eg := diam_g hnp hep
  have eT := diam_T ef.1 eg.1
  have eH := diam_Hf hh eg.1
  have eb := diam_b2 eH.1 hwq
  refine ⟨eb.1, ?_⟩
  change P3 y2 y0 S (transpose [2, 0, 1] (contractN (transpose [3, 0, 1, 2] (contractN (transpose [1, 0, 3, 2] h) [2, 3] (contractN np [1] ep [0]) [0, 3])) [2, 3] wq [0, 1])) sq = P4 W S E N h (transpose [1, 0, 3, 2] (contractN (contractN sq [0] wq [2]) [0, 3] (contractN np [1] ep [0]) [2, 1]))
  unfold P3 P4
  simp only [eb.2, eT.2]
  rw [diam_adj_f (fun w s e n => h.elem [w, s, e, n]) (fun i s w j => (contractN sq [0] wq [2]).elem [i, s, w, j]) (fun n j i e => (contractN np [1] ep [0]).elem [n, j, i, e])]
  simp only [ef.2, ← eH.2]
  exact (diam_adj_2 (fun i s w j => Tn.elem _ [i, s, w, j]) (fun k i s => sq.elem [k, i, s]) (fun w j k => wq.elem [w, j, k])).symm

theorem diamBack_3 : (diamBack h np ep sq wq 3).shape = [W, y1, y2] ∧
    P3 W y1 y2 (diamBack h np ep sq wq 3) wq = P4 W S E N h (diamCore np ep sq wq) := by
  have ef := diam_f hsq hwq
  have eg := diam_g hnp hep
  have eT := diam_T ef.1 eg.1
  have eH := diam_Hf hh eg.1
  have eb := diam_b3 eH.1 hsq
  refine ⟨eb.1, ?_⟩
  change P3 W y1 y2 (contractN (transpose [3, 0, 1, 2] (contractN (transpose [1, 0, 3, 2] h) [2, 3] (contractN np [1] ep [0]) [0, 3])) [0, 1] sq [1, 2]) wq = P4 W S E N h (transpose [1, 0, 3, 2] (contractN (contractN sq [0] wq [2]) [0, 3] (contractN np [1] ep [0]) [2, 1]))
  unfold P3 P4
  simp only [eb.2, eT.2]
  rw [diam_adj_f (fun w s e n => h.elem [w, s, e, n]) (fun i s w j => (contractN sq [0] wq [2]).elem [i, s, w, j]) (fun n j i e => (contractN np [1] ep [0]).elem [n, j, i, e])]
  simp only [ef.2, ← eH.2]
  exact (diam_adj_3 (fun i s w j => Tn.elem _ [i, s, w, j]) (fun k i s => sq.elem [k, i, s]) (fun w j k => wq.elem [w, j, k])).symm

end

end

end QLPeps.Trg
