import Verif.Lemmas.PepsLoopPut

/-!
# Overlap and norm of loops
-/

namespace QLPeps.Peps

open scoped Kronecker
open QLPeps.Peps.Spec

variable {𝕜 : Type*} [RCLike 𝕜]

/-- values of the physical leg and of the two outer legs of a corner -/
def legs (d : Fin 4 → ℕ) (E : Fin 4 → ℕ × ℕ) (i : Fin 4) : Finset (ℕ × ℕ × ℕ) :=
  Finset.range (d i) ×ˢ Finset.range (E i).1 ×ˢ Finset.range (E i).2

/-- the trace around the loop as a function of one triple for each corner -/
noncomputable def ringT (l : Loop 𝕜) (t0 t1 t2 t3 : ℕ × ℕ × ℕ) : 𝕜 :=
  ringAt l ![t0.1, t1.1, t2.1, t3.1] ![t0.2, t1.2, t2.2, t3.2]

/-- the weighted matrix of a corner -/
noncomputable def corner (l : Loop 𝕜) (i : Fin 4) (t : ℕ × ℕ × ℕ) (a b : ℕ) : 𝕜 :=
  (l.g i).elem [a, t.1, t.2.1, t.2.2, b] * ((l.lam i).val b : 𝕜)

theorem ringT_trace {l : Loop 𝕜} {D : Fin 4 → ℕ} (hD : ∀ i, (l.lam i).dim = D i)
    (t0 t1 t2 t3 : ℕ × ℕ × ℕ) : ringT l t0 t1 t2 t3 =
    (toM (D 3) (D 0) (corner l 0 t0) * (toM (D 0) (D 1) (corner l 1 t1) *
      (toM (D 1) (D 2) (corner l 2 t2) * toM (D 2) (D 3) (corner l 3 t3)))).trace := by
  unfold ringT ringAt
  rw [hD 0, hD 1, hD 2, hD 3, ring4_trace]
  rfl

theorem conj_trace {l : Loop 𝕜} {D : Fin 4 → ℕ} (hD : ∀ i, (l.lam i).dim = D i)
    (t0 t1 t2 t3 : ℕ × ℕ × ℕ) : (starRingEnd 𝕜) (ringT l t0 t1 t2 t3) =
    (toM (D 3) (D 0) (fun a b => (starRingEnd 𝕜) (corner l 0 t0 a b)) *
      (toM (D 0) (D 1) (fun a b => (starRingEnd 𝕜) (corner l 1 t1 a b)) *
      (toM (D 1) (D 2) (fun a b => (starRingEnd 𝕜) (corner l 2 t2 a b)) *
        toM (D 2) (D 3) (fun a b => (starRingEnd 𝕜) (corner l 3 t3 a b))))).trace := by
  rw [ringT_trace hD, trace4, trace4]
  simp only [map_sum, map_mul]

/-- a transfer tensor is a sum of products -/
theorem kron_sum {m n m' n' : ℕ} {S : Finset (ℕ × ℕ × ℕ)} {A B : ℕ × ℕ × ℕ → ℕ → ℕ → 𝕜}
    {F : ℕ → ℕ → ℕ → ℕ → 𝕜}
    (h : ∀ a < m, ∀ a' < m', ∀ b < n, ∀ b' < n', F a a' b b' = ∑ t ∈ S, A t a b * B t a' b') :
    toM2 m m' n n' F = ∑ t ∈ S, toM m n (A t) ⊗ₖ toM m' n' (B t) := by
  ext i j
  rw [Matrix.sum_apply]
  simp only [toM2, toM, Matrix.of_apply, Matrix.kroneckerMap_apply]
  exact h _ i.1.2 _ i.2.2 _ j.1.2 _ j.2.2

theorem toM2_mul {m m' n n' k k' : ℕ} {F G H : ℕ → ℕ → ℕ → ℕ → 𝕜}
    (h : ∀ a < m, ∀ a' < m', ∀ b < k, ∀ b' < k', F a a' b b' =
      ∑ x ∈ Finset.range n, ∑ y ∈ Finset.range n', G a a' x y * H x y b b') :
    toM2 m m' k k' F = toM2 m m' n n' G * toM2 n n' k k' H := by
  ext i j
  rw [Matrix.mul_apply, Fintype.sum_prod_type]
  simp only [toM2, Matrix.of_apply]
  rw [h _ i.1.2 _ i.2.2 _ j.1.2 _ j.2.2]
  simp only [Finset.sum_range]

theorem trace_toM2 (m m' : ℕ) (F : ℕ → ℕ → ℕ → ℕ → 𝕜) : (toM2 m m' m m' F).trace =
    ∑ a ∈ Finset.range m, ∑ a' ∈ Finset.range m', F a a' a a' := by
  simp only [Matrix.trace, Matrix.diag, Fintype.sum_prod_type, toM2, Matrix.of_apply,
    Finset.sum_range]

theorem sum_legs (d : Fin 4 → ℕ) (E : Fin 4 → ℕ × ℕ) (i : Fin 4) (f : ℕ × ℕ × ℕ → 𝕜) :
    ∑ t ∈ legs d E i, f t = ∑ m ∈ Finset.range (d i), ∑ n ∈ Finset.range (E i).1,
      ∑ k ∈ Finset.range (E i).2, f (m, n, k) := by
  unfold legs
  rw [Finset.sum_product]
  refine Finset.sum_congr rfl fun m _ => ?_
  rw [Finset.sum_product]

/-! ## Overlap -/

theorem n5 {g : Tn 𝕜} {a x y z b : ℕ} (hg : g.shape = [a, x, y, z, b]) (d : Diag) :
    (contractN g [4] d.ten [0]).shape = [a, x, y, z, d.dim] ∧ ∀ i m n k j, j < b →
      (contractN g [4] d.ten [0]).elem [i, m, n, k, j] = g.elem [i, m, n, k, j] * (d.val j : 𝕜) := by
  obtain ⟨sh, g⟩ := g
  obtain rfl : sh = _ := hg
  refine ⟨rfl, fun i m n k j hj => ?_⟩
  change ∑ p ∈ Finset.range b, g [i, m, n, k, p] * (if p = j then (d.val p : 𝕜) else 0) = _
  rw [Finset.sum_eq_single j (fun m _ h => by rw [if_neg h, mul_zero])
    (fun h => absurd (Finset.mem_range.2 hj) h), if_pos rfl]

theorem overlap_core {g h : Tn 𝕜} {a x y z b a' b' : ℕ} (hg : g.shape = [a, x, y, z, b])
    (hh : h.shape = [a', x, y, z, b']) :
    (transpose [0, 2, 1, 3] (contractN g [1, 2, 3] (dag h) [1, 2, 3])).shape = [a, a', b, b'] ∧
    ∀ i i' j j', (transpose [0, 2, 1, 3] (contractN g [1, 2, 3] (dag h) [1, 2, 3])).elem
      [i, i', j, j'] = ∑ m ∈ Finset.range x, ∑ n ∈ Finset.range y, ∑ k ∈ Finset.range z,
        g.elem [i, m, n, k, j] * (starRingEnd 𝕜) (h.elem [i', m, n, k, j']) := by
  obtain ⟨sh, g⟩ := g
  obtain rfl : sh = _ := hg
  obtain ⟨sh, h⟩ := h
  obtain rfl : sh = _ := hh
  exact ⟨rfl, fun _ _ _ _ => rfl⟩

section
variable {a b : Loop 𝕜} {D D' d : Fin 4 → ℕ} {E : Fin 4 → ℕ × ℕ} (ha : LoopFits a D d E)
  (hb : LoopFits b D' d E)
include ha hb

theorem overlapSite_eq (i : Fin 4) :
    (overlapSite a b i).shape = [D (i + 3), D' (i + 3), D i, D' i] ∧
    toM2 (D (i + 3)) (D' (i + 3)) (D i) (D' i)
      (fun m m' n n' => (overlapSite a b i).elem [m, m', n, n']) =
      ∑ t ∈ legs d E i, toM (D (i + 3)) (D i) (corner a i t) ⊗ₖ
        toM (D' (i + 3)) (D' i) (fun m n => (starRingEnd 𝕜) (corner b i t m n)) := by
  obtain ⟨a1, a2⟩ := n5 (ha.shape i) (a.lam i)
  obtain ⟨b1, b2⟩ := n5 (hb.shape i) (b.lam i)
  rw [ha.dim] at a1
  rw [hb.dim] at b1
  obtain ⟨c1, c2⟩ := overlap_core a1 b1
  refine ⟨c1, kron_sum fun m _ m' _ n hn n' hn' => ?_⟩
  refine (c2 m m' n n').trans ?_
  rw [sum_legs]
  refine Finset.sum_congr rfl fun x _ => Finset.sum_congr rfl fun y _ =>
    Finset.sum_congr rfl fun z _ => ?_
  rw [a2 _ _ _ _ _ hn, b2 _ _ _ _ _ hn']
  rfl

theorem overlap_last {t u : Tn 𝕜} {m m' n n' : ℕ} (ht : t.shape = [m, m', n, n'])
    (hu : u.shape = [n, n', m, m']) : (contractN t [2, 3, 0, 1] u [0, 1, 2, 3]).elem [] =
    (toM2 m m' n n' (fun i i' j j' => t.elem [i, i', j, j']) *
      toM2 n n' m m' (fun i i' j j' => u.elem [i, i', j, j'])).trace := by
  obtain ⟨sh, t⟩ := t
  obtain rfl : sh = _ := ht
  obtain ⟨sh, u⟩ := u
  obtain rfl : sh = _ := hu
  rw [← toM2_mul (F := fun i i' j j' => ∑ x ∈ Finset.range n, ∑ y ∈ Finset.range n',
    t [i, i', x, y] * u [x, y, j, j']) fun _ _ _ _ _ _ _ _ => rfl, trace_toM2]
  change ∑ x ∈ Finset.range n, ∑ y ∈ Finset.range n', ∑ i ∈ Finset.range m, ∑ j ∈ Finset.range m',
    t [i, j, x, y] * u [x, y, i, j] = _
  rw [Finset.sum_congr rfl fun x _ => Finset.sum_comm, Finset.sum_comm]
  refine Finset.sum_congr rfl fun i _ => ?_
  rw [Finset.sum_congr rfl fun x _ => Finset.sum_comm, Finset.sum_comm]

/-- the overlap of two loops -/
theorem loopOverlap_eq : loopOverlap a b = ∑ t0 ∈ legs d E 0, ∑ t1 ∈ legs d E 1,
    ∑ t2 ∈ legs d E 2, ∑ t3 ∈ legs d E 3, ringT a t0 t1 t2 t3 *
      (starRingEnd 𝕜) (ringT b t0 t1 t2 t3) := by
  have s0 : (overlapSite a b 0).shape = [D 3, D' 3, D 0, D' 0] := (overlapSite_eq ha hb 0).1
  have s1 : (overlapSite a b 1).shape = [D 0, D' 0, D 1, D' 1] := (overlapSite_eq ha hb 1).1
  have s2 : (overlapSite a b 2).shape = [D 1, D' 1, D 2, D' 2] := (overlapSite_eq ha hb 2).1
  have s3 : (overlapSite a b 3).shape = [D 2, D' 2, D 3, D' 3] := (overlapSite_eq ha hb 3).1
  have e0 : toM2 (D 3) (D' 3) (D 0) (D' 0) (fun m m' n n' => (overlapSite a b 0).elem [m, m', n, n'])
    = _ := (overlapSite_eq ha hb 0).2
  have e1 : toM2 (D 0) (D' 0) (D 1) (D' 1) (fun m m' n n' => (overlapSite a b 1).elem [m, m', n, n'])
    = _ := (overlapSite_eq ha hb 1).2
  have e2 : toM2 (D 1) (D' 1) (D 2) (D' 2) (fun m m' n n' => (overlapSite a b 2).elem [m, m', n, n'])
    = _ := (overlapSite_eq ha hb 2).2
  have e3 : toM2 (D 2) (D' 2) (D 3) (D' 3) (fun m m' n n' => (overlapSite a b 3).elem [m, m', n, n'])
    = _ := (overlapSite_eq ha hb 3).2
  obtain ⟨p1, q1⟩ := pair_mul s0 s1
  obtain ⟨p2, q2⟩ := pair_mul p1 s2
  change (contractN (contractN (contractN (overlapSite a b 0) [2, 3] (overlapSite a b 1) [0, 1])
    [2, 3] (overlapSite a b 2) [0, 1]) [2, 3, 0, 1] (overlapSite a b 3) [0, 1, 2, 3]).elem [] = _
  rw [overlap_last ha hb p2 s3,
    toM2_mul (m := D 3) (m' := D' 3) (n := D 1) (n' := D' 1) (k := D 2) (k' := D' 2)
      (fun i _ i' _ j _ j' _ => q2 i i' j j'),
    toM2_mul (m := D 3) (m' := D' 3) (n := D 0) (n' := D' 0) (k := D 1) (k' := D' 1)
      (fun i _ i' _ j _ j' _ => q1 i i' j j'),
    Matrix.mul_assoc, Matrix.mul_assoc, e0, e1, e2, e3]
  refine (trace_kron _ _ _ _ _ _ _ _ _ _ _ _).trans ?_
  refine Finset.sum_congr rfl fun t0 _ => Finset.sum_congr rfl fun t1 _ =>
    Finset.sum_congr rfl fun t2 _ => Finset.sum_congr rfl fun t3 _ => ?_
  rw [ringT_trace ha.dim, conj_trace hb.dim]
  rfl

end

/-! ## Norm -/

section
variable {l : Loop 𝕜} {D d : Fin 4 → ℕ} {E : Fin 4 → ℕ × ℕ} (hf : LoopFits l D d E)
include hf

/-- a tensor of four legs with weights on the last two -/
noncomputable def weighted (t : Tn 𝕜) (w : Diag) (a a' b b' : ℕ) : 𝕜 :=
  t.elem [a, a', b, b'] * (w.val b : 𝕜) * (w.val b' : 𝕜)

theorem weighted_transfer (i : Fin 4) :
    toM2 (D (i + 3)) (D (i + 3)) (D i) (D i) (weighted (transferOf (l.g i)) (l.lam i)) =
      ∑ t ∈ legs d E i, toM (D (i + 3)) (D i) (corner l i t) ⊗ₖ
        toM (D (i + 3)) (D i) (fun m n => (starRingEnd 𝕜) (corner l i t m n)) := by
  obtain ⟨_, e⟩ := transferOf_eq (hf.shape i)
  refine kron_sum fun m _ m' _ n _ n' _ => ?_
  rw [weighted, e, sum_legs, Finset.sum_mul, Finset.sum_mul]
  refine Finset.sum_congr rfl fun x _ => ?_
  rw [Finset.sum_mul, Finset.sum_mul]
  refine Finset.sum_congr rfl fun y _ => ?_
  rw [Finset.sum_mul, Finset.sum_mul]
  refine Finset.sum_congr rfl fun z _ => ?_
  simp only [corner, map_mul, RCLike.conj_ofReal]
  ring

theorem weighted_step {t : Tn 𝕜} {A b : ℕ} (ht : t.shape = [A, A, b, b]) (j : Fin 4)
    (hb : D (j - 1) = b) : toM2 A A (D j) (D j) (weighted (upsilonStep l 0 t j) (l.lam j)) =
      toM2 A A b b (weighted t (l.lam (j - 1))) *
        toM2 b b (D j) (D j) (weighted (transferOf (l.g j)) (l.lam j)) := by
  obtain ⟨s1, e1⟩ := two_diag ht (l.lam (0 + j - 1))
  obtain ⟨s2, e2⟩ := transferOf_eq (hf.shape (0 + j))
  rw [hf.dim, zero_add, hb] at s1
  obtain ⟨s3, e3⟩ := pair_mul s1 s2
  refine toM2_mul fun i _ i' _ k _ k' _ => ?_
  unfold weighted upsilonStep
  simp only [zero_add] at e1 e3 ⊢
  rw [e3, Finset.sum_mul, Finset.sum_mul]
  refine Finset.sum_congr rfl fun x hx => ?_
  rw [Finset.sum_mul, Finset.sum_mul]
  refine Finset.sum_congr rfl fun y hy => ?_
  rw [e1 _ _ _ _ (Finset.mem_range.1 hx) (Finset.mem_range.1 hy)]
  ring

theorem loopTrace_trace {t : Tn 𝕜} {n : ℕ} (ht : t.shape = [n, n, n, n]) (w : Diag) :
    loopTrace t w = (toM2 n n n n (weighted t w)).trace := by
  rw [trace_toM2]
  obtain ⟨sh, t⟩ := t
  obtain rfl : sh = _ := ht
  change ∑ y ∈ Finset.range n, ∑ x ∈ Finset.range n, (∑ c ∈ Finset.range n, ∑ a ∈ Finset.range n,
    t [a, x, c, y] * (if c = a then (w.val c : 𝕜) else 0)) *
      (starRingEnd 𝕜) (if y = x then (w.val y : 𝕜) else 0) = _
  conv_rhs => rw [Finset.sum_comm]
  refine Finset.sum_congr rfl fun y hy => ?_
  rw [Finset.sum_eq_single y (fun x _ h => by rw [if_neg h.symm, map_zero, mul_zero])
    (fun h => absurd hy h), if_pos rfl, RCLike.conj_ofReal, Finset.sum_mul]
  refine Finset.sum_congr rfl fun c hc => ?_
  rw [Finset.sum_eq_single c (fun x _ h => by rw [if_neg h.symm, mul_zero])
    (fun h => absurd hc h), if_pos rfl]
  rfl

/-- the norm of a loop -/
theorem loopTrace_eq : loopTrace (upsilons l 0) (l.lam 3) = ∑ t0 ∈ legs d E 0, ∑ t1 ∈ legs d E 1,
    ∑ t2 ∈ legs d E 2, ∑ t3 ∈ legs d E 3, ringT l t0 t1 t2 t3 *
      (starRingEnd 𝕜) (ringT l t0 t1 t2 t3) := by
  have s0 : (transferOf (l.g 0)).shape = [D 3, D 3, D 0, D 0] := (transferOf_eq (hf.shape 0)).1
  have s1 : (upsilonStep l 0 (transferOf (l.g 0)) 1).shape = [D 3, D 3, D 1, D 1] :=
    upsilonStep_shape hf 0 1 s0
  have s2 : (upsilonStep l 0 (upsilonStep l 0 (transferOf (l.g 0)) 1) 2).shape =
    [D 3, D 3, D 2, D 2] := upsilonStep_shape hf 0 2 s1
  have s3 := upsilons_shape hf 0
  have e0 : toM2 (D 3) (D 3) (D 0) (D 0) (weighted (transferOf (l.g 0)) (l.lam 0)) = _ :=
    weighted_transfer hf 0
  have e1 : toM2 (D 0) (D 0) (D 1) (D 1) (weighted (transferOf (l.g 1)) (l.lam 1)) = _ :=
    weighted_transfer hf 1
  have e2 : toM2 (D 1) (D 1) (D 2) (D 2) (weighted (transferOf (l.g 2)) (l.lam 2)) = _ :=
    weighted_transfer hf 2
  have e3 : toM2 (D 2) (D 2) (D 3) (D 3) (weighted (transferOf (l.g 3)) (l.lam 3)) = _ :=
    weighted_transfer hf 3
  rw [loopTrace_trace hf (n := D 3) s3]
  have w3 : toM2 (D 3) (D 3) (D 3) (D 3) (weighted (upsilonStep l 0 (upsilonStep l 0 (upsilonStep l 0
      (transferOf (l.g 0)) 1) 2) 3) (l.lam 3)) = toM2 (D 3) (D 3) (D 2) (D 2) (weighted (upsilonStep l 0
      (upsilonStep l 0 (transferOf (l.g 0)) 1) 2) (l.lam 2)) * _ := weighted_step hf s2 3 rfl
  have w2 : toM2 (D 3) (D 3) (D 2) (D 2) (weighted (upsilonStep l 0
      (upsilonStep l 0 (transferOf (l.g 0)) 1) 2) (l.lam 2)) = toM2 (D 3) (D 3) (D 1) (D 1)
      (weighted (upsilonStep l 0 (transferOf (l.g 0)) 1) (l.lam 1)) * _ := weighted_step hf s1 2 rfl
  have w1 : toM2 (D 3) (D 3) (D 1) (D 1) (weighted (upsilonStep l 0 (transferOf (l.g 0)) 1) (l.lam 1)) =
      toM2 (D 3) (D 3) (D 0) (D 0) (weighted (transferOf (l.g 0)) (l.lam 0)) * _ :=
    weighted_step hf s0 1 rfl
  unfold upsilons
  rw [w3, w2, w1, Matrix.mul_assoc, Matrix.mul_assoc, e0, e1, e2, e3]
  refine (trace_kron _ _ _ _ _ _ _ _ _ _ _ _).trans ?_
  refine Finset.sum_congr rfl fun t0 _ => Finset.sum_congr rfl fun t1 _ =>
    Finset.sum_congr rfl fun t2 _ => Finset.sum_congr rfl fun t3 _ => ?_
  rw [conj_trace hf.dim, ringT_trace hf.dim]
  rfl

end

end QLPeps.Peps
