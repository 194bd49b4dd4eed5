import Verif.Lemmas.PepsPatch

/-!
# The tensors of the patched ring
-/

namespace QLPeps.Peps

open QLPeps.Peps.Spec

variable {𝕜 : Type*} [RCLike 𝕜]

theorem valid4 {a b c d i j k l : ℕ} (h : i < a) (h2 : j < b) (h3 : k < c) (h4 : l < d) :
    Valid [a, b, c, d] [i, j, k, l] := .cons h (valid3 h2 h3 h4)
theorem valid5 {a b c d e i j k l m : ℕ} (h : i < a) (h2 : j < b) (h3 : k < c) (h4 : l < d)
    (h5 : m < e) : Valid [a, b, c, d, e] [i, j, k, l, m] := .cons h (valid4 h2 h3 h4 h5)

/-- middle leg of a three-leg tensor multiplied by weights, and moved to the end -/
theorem n31 {t : Tn 𝕜} {a0 a1 a2 : ℕ} (ht : t.shape = [a0, a1, a2]) (d : Diag) :
    (contractN t [1] d.ten [0]).shape = [a0, a2, d.dim] ∧ ∀ k i b, b < a1 →
      (contractN t [1] d.ten [0]).elem [k, i, b] = t.elem [k, b, i] * (d.val b : 𝕜) := by
  obtain ⟨sh, g⟩ := t
  obtain rfl : sh = _ := ht
  refine ⟨rfl, fun k i b hb => ?_⟩
  change ∑ m ∈ Finset.range a1, g [k, m, i] * (if m = b then (d.val m : 𝕜) else 0) = _
  rw [Finset.sum_eq_single b (fun m _ h => by rw [if_neg h, mul_zero])
    (fun h => absurd (Finset.mem_range.2 hb) h), if_pos rfl]

/-- factoring off the last two legs of a six-leg tensor and multiplying by the weights -/
theorem factor6 {lib : LoopLib 𝕜} (hlib : LoopExact lib) {t : Tn 𝕜} {a b c d B W : ℕ}
    (ht : t.shape = [a, b, c, d, B, W]) (l : Diag) (hl : l.dim = B) :
    let f := lib.qr t 4
    let s := lib.svd (contractN f.2 [1] l.ten [0]) 1
    (contractN f.1 [4] s.u [0]).shape = [a, b, c, d, s.s.dim] ∧ s.vt.shape = [s.s.dim, W, B] ∧
    ∀ i < a, ∀ j < b, ∀ k < c, ∀ m < d, ∀ y < B, ∀ w < W,
      ∑ n ∈ Finset.range s.s.dim, (contractN f.1 [4] s.u [0]).elem [i, j, k, m, n] *
        (s.s.val n : 𝕜) * s.vt.elem [n, w, y] = t.elem [i, j, k, m, y, w] * (l.val y : 𝕜) := by
  intro f s
  obtain ⟨K, q1, q2, q3⟩ := hlib.qr t 4
  change f.1.shape = _ at q1
  change f.2.shape = _ at q2
  rw [ht] at q1 q2 q3
  obtain ⟨e1, e2⟩ := n31 (a0 := K) (a1 := B) (a2 := W) q2 l
  have v1 := (hlib.svd_shape (contractN f.2 [1] l.ten [0]) 1).1
  have v2 := (hlib.svd_shape (contractN f.2 [1] l.ten [0]) 1).2
  have v3 := hlib.svd (contractN f.2 [1] l.ten [0]) 1
  change s.u.shape = _ ++ [s.s.dim] at v1
  change s.vt.shape = s.s.dim :: _ at v2
  rw [e1] at v1 v2 v3
  have u1 : (contractN f.1 [4] s.u [0]).shape = [a, b, c, d, s.s.dim] ∧ ∀ i j k m n,
      (contractN f.1 [4] s.u [0]).elem [i, j, k, m, n] =
        ∑ z ∈ Finset.range K, f.1.elem [i, j, k, m, z] * s.u.elem [z, n] := by
    generalize f.1 = q at q1
    generalize s.u = u at v1
    obtain ⟨sh, q⟩ := q
    obtain rfl : sh = _ := q1
    obtain ⟨sh, u⟩ := u
    obtain rfl : sh = _ := v1
    exact ⟨rfl, fun _ _ _ _ _ => rfl⟩
  refine ⟨u1.1, by rw [v2, hl]; rfl, fun i hi j hj k hk m hm y hy w hw => ?_⟩
  have key : ∀ z < K, ∑ n ∈ Finset.range s.s.dim, s.u.elem [z, n] * (s.s.val n : 𝕜) *
      s.vt.elem [n, w, y] = f.2.elem [z, y, w] * (l.val y : 𝕜) := fun z hz => by
    rw [← e2 z w y hy]
    exact v3 [z] [w, y] (valid1 hz) (valid2 hw (hl ▸ hy))
  have q4 := q3 [i, j, k, m] [y, w] (valid4 hi hj hk hm) (valid2 hy hw)
  change ∑ z ∈ Finset.range K, f.1.elem [i, j, k, m, z] * f.2.elem [z, y, w] =
    t.elem [i, j, k, m, y, w] at q4
  rw [← q4]
  simp only [u1.2, Finset.sum_mul]
  rw [Finset.sum_comm]
  refine Finset.sum_congr rfl fun z hz => ?_
  rw [mul_assoc, ← key z (Finset.mem_range.1 hz), Finset.mul_sum]
  exact Finset.sum_congr rfl fun _ _ => by ring

/-- the same for a seven-leg tensor -/
theorem factor7 {lib : LoopLib 𝕜} (hlib : LoopExact lib) {t : Tn 𝕜} {a b c d e B W : ℕ}
    (ht : t.shape = [a, b, c, d, e, B, W]) (l : Diag) (hl : l.dim = B) :
    let f := lib.qr t 5
    let s := lib.svd (contractN f.2 [1] l.ten [0]) 1
    (contractN f.1 [5] s.u [0]).shape = [a, b, c, d, e, s.s.dim] ∧ s.vt.shape = [s.s.dim, W, B] ∧
    ∀ i < a, ∀ j < b, ∀ k < c, ∀ m < d, ∀ o < e, ∀ y < B, ∀ w < W,
      ∑ n ∈ Finset.range s.s.dim, (contractN f.1 [5] s.u [0]).elem [i, j, k, m, o, n] *
        (s.s.val n : 𝕜) * s.vt.elem [n, w, y] = t.elem [i, j, k, m, o, y, w] * (l.val y : 𝕜) := by
  intro f s
  obtain ⟨K, q1, q2, q3⟩ := hlib.qr t 5
  change f.1.shape = _ at q1
  change f.2.shape = _ at q2
  rw [ht] at q1 q2 q3
  obtain ⟨e1, e2⟩ := n31 (a0 := K) (a1 := B) (a2 := W) q2 l
  have v1 := (hlib.svd_shape (contractN f.2 [1] l.ten [0]) 1).1
  have v2 := (hlib.svd_shape (contractN f.2 [1] l.ten [0]) 1).2
  have v3 := hlib.svd (contractN f.2 [1] l.ten [0]) 1
  change s.u.shape = _ ++ [s.s.dim] at v1
  change s.vt.shape = s.s.dim :: _ at v2
  rw [e1] at v1 v2 v3
  have u1 : (contractN f.1 [5] s.u [0]).shape = [a, b, c, d, e, s.s.dim] ∧ ∀ i j k m o n,
      (contractN f.1 [5] s.u [0]).elem [i, j, k, m, o, n] =
        ∑ z ∈ Finset.range K, f.1.elem [i, j, k, m, o, z] * s.u.elem [z, n] := by
    generalize f.1 = q at q1
    generalize s.u = u at v1
    obtain ⟨sh, q⟩ := q
    obtain rfl : sh = _ := q1
    obtain ⟨sh, u⟩ := u
    obtain rfl : sh = _ := v1
    exact ⟨rfl, fun _ _ _ _ _ _ => rfl⟩
  refine ⟨u1.1, by rw [v2, hl]; rfl, fun i hi j hj k hk m hm o ho y hy w hw => ?_⟩
  have key : ∀ z < K, ∑ n ∈ Finset.range s.s.dim, s.u.elem [z, n] * (s.s.val n : 𝕜) *
      s.vt.elem [n, w, y] = f.2.elem [z, y, w] * (l.val y : 𝕜) := fun z hz => by
    rw [← e2 z w y hy]
    exact v3 [z] [w, y] (valid1 hz) (valid2 hw (hl ▸ hy))
  have q4 := q3 [i, j, k, m, o] [y, w] (valid5 hi hj hk hm ho) (valid2 hy hw)
  change ∑ z ∈ Finset.range K, f.1.elem [i, j, k, m, o, z] * f.2.elem [z, y, w] =
    t.elem [i, j, k, m, o, y, w] at q4
  rw [← q4]
  simp only [u1.2, Finset.sum_mul]
  rw [Finset.sum_comm]
  refine Finset.sum_congr rfl fun z hz => ?_
  rw [mul_assoc, ← key z (Finset.mem_range.1 hz), Finset.mul_sum]
  exact Finset.sum_congr rfl fun _ _ => by ring

/-! ## The four sites -/

section
variable {g gate vt : Tn 𝕜} {a0 a1 a2 a3 d W W' d' N M : ℕ}

theorem site0 (hg : g.shape = [a0, a1, a2, a3, d]) (hgate : gate.shape = [W, d, d', W']) :
    (transpose [1, 4, 0, 3, 5, 2, 6] (contractN g [4] gate [1])).shape =
      [a1, W, a0, a3, d', a2, W'] ∧
    ∀ D w L U o R w', (transpose [1, 4, 0, 3, 5, 2, 6] (contractN g [4] gate [1])).elem
      [D, w, L, U, o, R, w'] =
        ∑ t ∈ Finset.range d, g.elem [L, D, R, U, t] * gate.elem [w, t, o, w'] := by
  obtain ⟨sh, g⟩ := g
  obtain rfl : sh = _ := hg
  obtain ⟨sh, gate⟩ := gate
  obtain rfl : sh = _ := hgate
  exact ⟨rfl, fun _ _ _ _ _ _ _ => rfl⟩

theorem attach (hg : g.shape = [a0, a1, a2, a3, d]) (hgate : gate.shape = [W, d, d', W']) :
    (contractN g [4] gate [1]).shape = [a0, a1, a2, a3, W, d', W'] ∧
    ∀ L D R U w o w', (contractN g [4] gate [1]).elem [L, D, R, U, w, o, w'] =
        ∑ t ∈ Finset.range d, g.elem [L, D, R, U, t] * gate.elem [w, t, o, w'] := by
  obtain ⟨sh, g⟩ := g
  obtain rfl : sh = _ := hg
  obtain ⟨sh, gate⟩ := gate
  obtain rfl : sh = _ := hgate
  exact ⟨rfl, fun _ _ _ _ _ _ _ => rfl⟩

theorem site1 (hg : g.shape = [a0, a1, a2, a3, d]) (hgate : gate.shape = [W, d, d', W'])
    (hv : vt.shape = [N, W, a0]) :
    (transpose [0, 2, 3, 4, 1, 5]
      (contractN vt [1, 2] (contractN g [4] gate [1]) [4, 0])).shape = [N, a2, a3, d', a1, W'] ∧
    ∀ n R U o D w', (transpose [0, 2, 3, 4, 1, 5]
      (contractN vt [1, 2] (contractN g [4] gate [1]) [4, 0])).elem [n, R, U, o, D, w'] =
        ∑ w ∈ Finset.range W, ∑ L ∈ Finset.range a0, vt.elem [n, w, L] *
          ∑ t ∈ Finset.range d, g.elem [L, D, R, U, t] * gate.elem [w, t, o, w'] := by
  obtain ⟨h1, h2⟩ := attach hg hgate
  simp only [← h2]
  generalize contractN g [4] gate [1] = t at h1
  obtain ⟨sh, t⟩ := t
  obtain rfl : sh = _ := h1
  obtain ⟨sh, vt⟩ := vt
  obtain rfl : sh = _ := hv
  exact ⟨rfl, fun _ _ _ _ _ _ => rfl⟩

theorem site2 (hg : g.shape = [a0, a1, a2, a3, d]) (hgate : gate.shape = [W, d, d', W'])
    (hv : vt.shape = [N, W, a3]) :
    (transpose [0, 2, 3, 4, 1, 5]
      (contractN vt [1, 2] (contractN g [4] gate [1]) [4, 3])).shape = [N, a1, a2, d', a0, W'] ∧
    ∀ n D R o L w', (transpose [0, 2, 3, 4, 1, 5]
      (contractN vt [1, 2] (contractN g [4] gate [1]) [4, 3])).elem [n, D, R, o, L, w'] =
        ∑ w ∈ Finset.range W, ∑ U ∈ Finset.range a3, vt.elem [n, w, U] *
          ∑ t ∈ Finset.range d, g.elem [L, D, R, U, t] * gate.elem [w, t, o, w'] := by
  obtain ⟨h1, h2⟩ := attach hg hgate
  simp only [← h2]
  generalize contractN g [4] gate [1] = t at h1
  obtain ⟨sh, t⟩ := t
  obtain rfl : sh = _ := h1
  obtain ⟨sh, vt⟩ := vt
  obtain rfl : sh = _ := hv
  exact ⟨rfl, fun _ _ _ _ _ _ => rfl⟩

theorem site3 (hg : g.shape = [a0, a1, a2, a3, d]) (hgate : gate.shape = [W, d, d', W'])
    (hv : vt.shape = [N, W, a2]) :
    (transpose [0, 1, 2, 4, 3, 5]
      (contractN vt [1, 2] (contractN g [4] gate [1]) [4, 2])).shape = [N, a0, a1, d', a3, W'] ∧
    ∀ n L D o U w', (transpose [0, 1, 2, 4, 3, 5]
      (contractN vt [1, 2] (contractN g [4] gate [1]) [4, 2])).elem [n, L, D, o, U, w'] =
        ∑ w ∈ Finset.range W, ∑ R ∈ Finset.range a2, vt.elem [n, w, R] *
          ∑ t ∈ Finset.range d, g.elem [L, D, R, U, t] * gate.elem [w, t, o, w'] := by
  obtain ⟨h1, h2⟩ := attach hg hgate
  simp only [← h2]
  generalize contractN g [4] gate [1] = t at h1
  obtain ⟨sh, t⟩ := t
  obtain rfl : sh = _ := h1
  obtain ⟨sh, vt⟩ := vt
  obtain rfl : sh = _ := hv
  exact ⟨rfl, fun _ _ _ _ _ _ => rfl⟩

theorem close0 {t : Tn 𝕜} {a b c e f : ℕ} (ht : t.shape = [a, b, c, e, f, M])
    (hv : vt.shape = [N, b, a]) :
    (transpose [1, 0, 4, 2, 3] (contractN vt [2, 1] t [0, 1])).shape = [c, N, M, e, f] ∧
    ∀ L n m U o, (transpose [1, 0, 4, 2, 3] (contractN vt [2, 1] t [0, 1])).elem [L, n, m, U, o] =
      ∑ D ∈ Finset.range a, ∑ w ∈ Finset.range b, vt.elem [n, w, D] * t.elem [D, w, L, U, o, m] := by
  obtain ⟨sh, t⟩ := t
  obtain rfl : sh = _ := ht
  obtain ⟨sh, vt⟩ := vt
  obtain rfl : sh = _ := hv
  exact ⟨rfl, fun _ _ _ _ _ => rfl⟩

theorem close1 {t : Tn 𝕜} {a b c e f : ℕ} (ht : t.shape = [a, b, c, e, f]) :
    (transpose [0, 4, 1, 2, 3] t).shape = [a, f, b, c, e] ∧
    ∀ n m R U o, (transpose [0, 4, 1, 2, 3] t).elem [n, m, R, U, o] = t.elem [n, R, U, o, m] := by
  obtain ⟨sh, t⟩ := t
  obtain rfl : sh = _ := ht
  exact ⟨rfl, fun _ _ _ _ _ => rfl⟩

theorem close2 {t : Tn 𝕜} {a b c e f : ℕ} (ht : t.shape = [a, b, c, e, f]) :
    (transpose [4, 1, 2, 0, 3] t).shape = [f, b, c, a, e] ∧
    ∀ n m D R o, (transpose [4, 1, 2, 0, 3] t).elem [m, D, R, n, o] = t.elem [n, D, R, o, m] := by
  obtain ⟨sh, t⟩ := t
  obtain rfl : sh = _ := ht
  exact ⟨rfl, fun _ _ _ _ _ => rfl⟩

theorem close3 {t : Tn 𝕜} {a b c e f : ℕ} (ht : t.shape = [a, b, c, e, f]) :
    (transpose [1, 2, 0, 4, 3] t).shape = [b, c, a, f, e] ∧
    ∀ n m L D o, (transpose [1, 2, 0, 4, 3] t).elem [L, D, n, m, o] = t.elem [n, L, D, o, m] := by
  obtain ⟨sh, t⟩ := t
  obtain rfl : sh = _ := ht
  exact ⟨rfl, fun _ _ _ _ _ => rfl⟩

end

/-! ## The ring of a loop -/

/-- shapes of a loop in MPS order -/
structure LoopFits (l : Loop 𝕜) (D d : Fin 4 → ℕ) (E : Fin 4 → ℕ × ℕ) : Prop where
  shape : ∀ i, (l.g i).shape = [D (i + 3), d i, (E i).1, (E i).2, D i]
  dim : ∀ i, (l.lam i).dim = D i

/-- a loop with its tensors brought to MPS order -/
noncomputable def mps (l : Loop 𝕜) : Loop 𝕜 := ⟨fun i => toMps i (l.g i), l.lam⟩

/-- the trace around the loop for given physical states and outer legs -/
noncomputable def ringAt (l : Loop 𝕜) (x : Fin 4 → ℕ) (e : Fin 4 → ℕ × ℕ) : 𝕜 :=
  ring4 (l.lam 0).dim (l.lam 1).dim (l.lam 2).dim (l.lam 3).dim
    (fun a b => (l.g 0).elem [a, x 0, (e 0).1, (e 0).2, b]) (fun k => ((l.lam 0).val k : 𝕜))
    (fun a b => (l.g 1).elem [a, x 1, (e 1).1, (e 1).2, b]) (fun k => ((l.lam 1).val k : 𝕜))
    (fun a b => (l.g 2).elem [a, x 2, (e 2).1, (e 2).2, b]) (fun k => ((l.lam 2).val k : 𝕜))
    (fun a b => (l.g 3).elem [a, x 3, (e 3).1, (e 3).2, b]) (fun k => ((l.lam 3).val k : 𝕜))

/-- coordinates of the physical states and of the outer legs in range -/
def LoopIn (d : Fin 4 → ℕ) (E : Fin 4 → ℕ × ℕ) (x : Fin 4 → ℕ) (e : Fin 4 → ℕ × ℕ) : Prop :=
  ∀ i, x i < d i ∧ (e i).1 < (E i).1 ∧ (e i).2 < (E i).2

theorem patch_ring {lib : LoopLib 𝕜} (hlib : LoopExact lib) {gate : Fin 4 → Tn 𝕜} {l : Loop 𝕜}
    {D d w : Fin 4 → ℕ} {E : Fin 4 → ℕ × ℕ} (hdim : ∀ i, (l.lam i).dim = D i)
    (g0 : (l.g 0).shape = [(E 0).1, D 3, D 0, (E 0).2, d 0])
    (g1 : (l.g 1).shape = [D 0, D 1, (E 1).1, (E 1).2, d 1])
    (g2 : (l.g 2).shape = [D 2, (E 2).1, (E 2).2, D 1, d 2])
    (g3 : (l.g 3).shape = [(E 3).1, (E 3).2, D 2, D 3, d 3])
    (hgate : ∀ i, (gate i).shape = [w (i + 3), d i, d i, w i]) :
    (∃ D', LoopFits (mps (patch lib gate l)) D' d E) ∧ ∀ x e, LoopIn d E x e →
      ringAt (mps (patch lib gate l)) x e =
        ∑ t0 ∈ Finset.range (d 0), ∑ t1 ∈ Finset.range (d 1), ∑ t2 ∈ Finset.range (d 2),
          ∑ t3 ∈ Finset.range (d 3), ringAt (mps l) ![t0, t1, t2, t3] e *
            loopGate gate w ![t0, t1, t2, t3] x := by
  have gt0 : (gate 0).shape = [w 3, d 0, d 0, w 0] := hgate 0
  have gt1 : (gate 1).shape = [w 0, d 1, d 1, w 1] := hgate 1
  have gt2 : (gate 2).shape = [w 1, d 2, d 2, w 2] := hgate 2
  have gt3 : (gate 3).shape = [w 2, d 3, d 3, w 3] := hgate 3
  obtain ⟨a1, a2⟩ := site0 g0 gt0
  obtain ⟨b1, b2, b3⟩ := factor7 hlib a1 (l.lam 0) (hdim 0)
  simp only [patch]
  set f0 := lib.qr (transpose [1, 4, 0, 3, 5, 2, 6] (contractN (l.g 0) [4] (gate 0) [1])) 5
  set s0 := lib.svd (contractN f0.2 [1] (l.lam 0).ten [0]) 1
  obtain ⟨c1, c2⟩ := site1 g1 gt1 b2
  obtain ⟨d1, d2, d3⟩ := factor6 hlib c1 (l.lam 1) (hdim 1)
  set f1 := lib.qr (transpose [0, 2, 3, 4, 1, 5]
    (contractN s0.vt [1, 2] (contractN (l.g 1) [4] (gate 1) [1]) [4, 0])) 4
  set s1 := lib.svd (contractN f1.2 [1] (l.lam 1).ten [0]) 1
  obtain ⟨e1, e2⟩ := site2 g2 gt2 d2
  obtain ⟨h1, h2, h3⟩ := factor6 hlib e1 (l.lam 2) (hdim 2)
  set f2 := lib.qr (transpose [0, 2, 3, 4, 1, 5]
    (contractN s1.vt [1, 2] (contractN (l.g 2) [4] (gate 2) [1]) [4, 3])) 4
  set s2 := lib.svd (contractN f2.2 [1] (l.lam 2).ten [0]) 1
  obtain ⟨i1, i2⟩ := site3 g3 gt3 h2
  obtain ⟨j1, j2, j3⟩ := factor6 hlib i1 (l.lam 3) (hdim 3)
  set f3 := lib.qr (transpose [0, 1, 2, 4, 3, 5]
    (contractN s2.vt [1, 2] (contractN (l.g 3) [4] (gate 3) [1]) [4, 2])) 4
  set s3 := lib.svd (contractN f3.2 [1] (l.lam 3).ten [0]) 1
  obtain ⟨k1, k2⟩ := close0 b1 j2
  obtain ⟨l1, l2⟩ := close1 d1
  obtain ⟨m1, m2⟩ := close2 h1
  obtain ⟨n1, n2⟩ := close3 j1
  generalize transpose [1, 0, 4, 2, 3] (contractN s3.vt [2, 1] (contractN f0.1 [5] s0.u [0]) [0, 1])
    = G0 at *
  generalize transpose [0, 4, 1, 2, 3] (contractN f1.1 [4] s1.u [0]) = G1 at *
  generalize transpose [4, 1, 2, 0, 3] (contractN f2.1 [4] s2.u [0]) = G2 at *
  generalize transpose [1, 2, 0, 4, 3] (contractN f3.1 [4] s3.u [0]) = G3 at *
  refine ⟨⟨![s0.s.dim, s1.s.dim, s2.s.dim, s3.s.dim], ⟨fun i => ?_, fun i => ?_⟩⟩, fun x e hin => ?_⟩
  · match i with
    | 0 => simp only [mps, toMps, transpose, Matrix.cons_val_zero, k1]; rfl
    | 1 => simp only [mps, toMps, transpose, Matrix.cons_val_one, Matrix.cons_val_zero, l1]; rfl
    | 2 => simp only [mps, toMps, transpose, Matrix.cons_val, m1]; rfl
    | 3 => simp only [mps, toMps, transpose, Matrix.cons_val, n1]; rfl
  · match i with
    | 0 => rfl
    | 1 => rfl
    | 2 => rfl
    | 3 => rfl
  · have hx := hin
    have key := patch_core (K := 𝕜) (D0 := D 0) (D1 := D 1) (D2 := D 2) (D3 := D 3) (W0 := w 0)
      (W1 := w 1) (W2 := w 2) (W3 := w 3) (d0 := d 0) (d1 := d 1) (d2 := d 2) (d3 := d 3)
      (G0 := fun a b t => (l.g 0).elem [(e 0).1, a, b, (e 0).2, t])
      (G1 := fun a b t => (l.g 1).elem [a, b, (e 1).1, (e 1).2, t])
      (G2 := fun a b t => (l.g 2).elem [b, (e 2).1, (e 2).2, a, t])
      (G3 := fun a b t => (l.g 3).elem [(e 3).1, (e 3).2, a, b, t])
      (l0 := fun k => ((l.lam 0).val k : 𝕜)) (l1 := fun k => ((l.lam 1).val k : 𝕜))
      (l2 := fun k => ((l.lam 2).val k : 𝕜)) (l3 := fun k => ((l.lam 3).val k : 𝕜))
      (g0 := fun m t m' => (gate 0).elem [m, t, x 0, m'])
      (g1 := fun m t m' => (gate 1).elem [m, t, x 1, m'])
      (g2 := fun m t m' => (gate 2).elem [m, t, x 2, m'])
      (g3 := fun m t m' => (gate 3).elem [m, t, x 3, m'])
      (fun a ha m hm b hb m' hm' => (b3 a ha m hm _ (hx 0).2.1 _ (hx 0).2.2 _ (hx 0).1 b hb m' hm').trans
        (by rw [a2]))
      (fun n hn b hb m' hm' => (d3 n hn _ (hx 1).2.1 _ (hx 1).2.2 _ (hx 1).1 b hb m' hm').trans
        (by rw [c2]))
      (fun n hn b hb m' hm' => (h3 n hn _ (hx 2).2.1 _ (hx 2).2.2 _ (hx 2).1 b hb m' hm').trans
        (by rw [e2]))
      (fun n hn b hb m' hm' => (j3 n hn _ (hx 3).2.1 _ (hx 3).2.2 _ (hx 3).1 b hb m' hm').trans
        (by rw [i2]))
    refine Eq.trans ?_ (key.trans ?_)
    · have r0 : ∀ a b, (toMps 0 G0).elem [a, x 0, (e 0).1, (e 0).2, b] =
          G0.elem [(e 0).1, a, b, (e 0).2, x 0] := fun _ _ => rfl
      have r1 : ∀ a b, (toMps 1 G1).elem [a, x 1, (e 1).1, (e 1).2, b] =
          G1.elem [a, b, (e 1).1, (e 1).2, x 1] := fun _ _ => rfl
      have r2 : ∀ a b, (toMps 2 G2).elem [a, x 2, (e 2).1, (e 2).2, b] =
          G2.elem [b, (e 2).1, (e 2).2, a, x 2] := fun _ _ => rfl
      have r3 : ∀ a b, (toMps 3 G3).elem [a, x 3, (e 3).1, (e 3).2, b] =
          G3.elem [(e 3).1, (e 3).2, a, b, x 3] := fun _ _ => rfl
      simp only [ringAt, mps, Matrix.cons_val, r0, r1, r2, r3, k2, l2, m2, n2]
    · refine Finset.sum_congr rfl fun t0 _ => Finset.sum_congr rfl fun t1 _ =>
        Finset.sum_congr rfl fun t2 _ => Finset.sum_congr rfl fun t3 _ => ?_
      congr 1
      simp only [ringAt, mps, hdim]
      rfl

end QLPeps.Peps
