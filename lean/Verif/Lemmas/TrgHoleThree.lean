import Verif.Lemmas.TrgHoleTop

/-!
# Holes of the last scale, three by three
-/

namespace QLPeps.Trg

open QLPeps.Peps (Tn Diag Lib Svd contractN transpose dag diagInv)

noncomputable section

variable {𝕜 : Type} [RCLike 𝕜]

theorem open_elem {p q : Tn 𝕜} {x1 x2 x0 d1 u1 d2 u2 : ℕ} (hp : p.shape = [x1, d1, x2, u1])
    (hq : q.shape = [x2, d2, x0, u2]) :
    (contractN p [2] q [0]).shape = [x1, d1, u1, d2, x0, u2] ∧ ∀ o a c b m d,
      (contractN p [2] q [0]).elem [o, a, c, b, m, d] =
        ∑ z ∈ Finset.range x2, p.elem [o, a, z, c] * q.elem [z, b, m, d] := by
  obtain ⟨sp, gp⟩ := p
  obtain rfl : sp = _ := hp
  obtain ⟨sq, gq⟩ := q
  obtain rfl : sq = _ := hq
  exact ⟨rfl, fun _ _ _ _ _ _ => rfl⟩

theorem below_elem {r1 r2 : Tn 𝕜} {g a h c i e b d f : ℕ} (h1 : r1.shape = [g, a, h, c, i, e])
    (h2 : r2.shape = [b, g, d, h, f, i]) :
    (contractN r1 [0, 2, 4] r2 [1, 3, 5]).shape = [a, c, e, b, d, f] ∧ ∀ x y z u v w,
      (contractN r1 [0, 2, 4] r2 [1, 3, 5]).elem [x, y, z, u, v, w] =
        ∑ l ∈ Finset.range g, ∑ j ∈ Finset.range h, ∑ k ∈ Finset.range i,
          r1.elem [l, x, j, y, k, z] * r2.elem [u, l, v, j, w, k] := by
  obtain ⟨sp, gp⟩ := r1
  obtain rfl : sp = _ := h1
  obtain ⟨sq, gq⟩ := r2
  obtain rfl : sq = _ := h2
  exact ⟨rfl, fun _ _ _ _ _ _ => rfl⟩

theorem around_elem {p q : Tn 𝕜} {x1 x0 d0 u0 d1 u1 d2 u2 : ℕ} (hp : p.shape = [x1, d1, u1, d2, x0, u2])
    (hq : q.shape = [d0, d1, d2, u0, u1, u2]) :
    (transpose [1, 2, 0, 3] (contractN p [1, 3, 2, 5] q [1, 2, 4, 5])).shape = [x0, d0, x1, u0] ∧ ∀ m n o w,
      (transpose [1, 2, 0, 3] (contractN p [1, 3, 2, 5] q [1, 2, 4, 5])).elem [m, n, o, w] =
        ∑ a ∈ Finset.range d1, ∑ b ∈ Finset.range d2, ∑ c ∈ Finset.range u1, ∑ d ∈ Finset.range u2,
          p.elem [o, a, c, b, m, d] * q.elem [n, a, b, w, c, d] := by
  obtain ⟨sp, gp⟩ := p
  obtain rfl : sp = _ := hp
  obtain ⟨sq, gq⟩ := q
  obtain rfl : sq = _ := hq
  exact ⟨rfl, fun _ _ _ _ => rfl⟩

theorem ring_sum {R ι0 ι1 ι2 : Type*} [CommSemiring R] (M : Finset ι0) (C : Finset ι2) (O : Finset ι1) (f : ι0 → ι1 → R)
    (g : ι1 → ι2 → R) (h : ι2 → ι0 → R) :
    ∑ m ∈ M, ∑ c ∈ C, (∑ o ∈ O, f m o * g o c) * h c m = ∑ m ∈ M, ∑ o ∈ O, f m o * ∑ c ∈ C, g o c * h c m := by
  refine Finset.sum_congr rfl fun m _ => ?_
  simp only [Finset.sum_mul, Finset.mul_sum]
  rw [Finset.sum_comm]
  exact Finset.sum_congr rfl fun o _ => Finset.sum_congr rfl fun c _ => by ring

section
variable {X t1 t2 t3 t4 t5 t6 t7 t8 : Tn 𝕜} {x0 x1 x2 y0 y1 y2 z0 z1 z2 a0 a1 a2 b0 b1 b2 c0 c1 c2 : ℕ}

set_option maxHeartbeats 1000000 in
theorem hole3_pair (hX : X.shape = [x0, b0, x1, a0]) (h1 : t1.shape = [x1, b1, x2, a1])
    (h2 : t2.shape = [x2, b2, x0, a2]) (h3 : t3.shape = [y0, c0, y1, b0]) (h4 : t4.shape = [y1, c1, y2, b1])
    (h5 : t5.shape = [y2, c2, y0, b2]) (h6 : t6.shape = [z0, a0, z1, c0]) (h7 : t7.shape = [z1, a1, z2, c1])
    (h8 : t8.shape = [z2, a2, z0, c2]) :
    (hole3 t1 t2 t3 t4 t5 t6 t7 t8).shape = [x0, b0, x1, a0] ∧
      P4 x0 b0 x1 a0 (hole3 t1 t2 t3 t4 t5 t6 t7 t8) X = final3 X t1 t2 t3 t4 t5 t6 t7 t8 := by
  have q := open_elem h1 h2
  have r0 := rowRing_elem hX h1 h2
  have r1 := rowRing_elem h3 h4 h5
  have r2 := rowRing_elem h6 h7 h8
  unfold hole3 final3
  dsimp only
  generalize rowRing t3 t4 t5 = R1 at *
  generalize rowRing t6 t7 t8 = R2 at *
  have e0 : ∀ n w a c b d, (rowRing X t1 t2).elem [n, w, a, c, b, d] =
      ∑ m ∈ Finset.range x0, ∑ o ∈ Finset.range x1, X.elem [m, n, o, w] * (contractN t1 [2] t2 [0]).elem [o, a, c, b, m, d] := by
    intro n w a c b d
    rw [r0.2]
    simp only [q.2]
    exact ring_sum _ _ _ (fun m o => X.elem [m, n, o, w]) (fun o z => t1.elem [o, a, z, c]) (fun z m => t2.elem [z, b, m, d])
  have s0 := r0.1
  generalize rowRing X t1 t2 = R0 at *
  have q1 := q.1
  generalize contractN t1 [2] t2 [0] = Q at *
  have u := below_elem r1.1 r2.1
  have v := around_elem q1 u.1
  refine ⟨v.1, ?_⟩
  refine Eq.trans ?_ (rows_elem s0 r1.1 r2.1).symm
  unfold P4
  have k1 : ∀ m n o w, (transpose [1, 2, 0, 3] (contractN Q [1, 3, 2, 5] (contractN R1 [0, 2, 4] R2 [1, 3, 5])
      [1, 2, 4, 5])).elem [m, n, o, w] = ∑ a ∈ Finset.range b1, ∑ b ∈ Finset.range b2, ∑ c ∈ Finset.range a1,
        ∑ d ∈ Finset.range a2, Q.elem [o, a, c, b, m, d] * ∑ i ∈ Finset.range c0, ∑ j ∈ Finset.range c1,
          ∑ k ∈ Finset.range c2, R1.elem [i, n, j, a, k, b] * R2.elem [w, i, c, j, d, k] := by
    intro m n o w
    rw [v.2]
    refine Finset.sum_congr rfl fun a _ => Finset.sum_congr rfl fun b _ => Finset.sum_congr rfl fun c _ =>
      Finset.sum_congr rfl fun d _ => ?_
    rw [u.2]
  generalize transpose [1, 2, 0, 3] (contractN Q [1, 3, 2, 5] (contractN R1 [0, 2, 4] R2 [1, 3, 5]) [1, 2, 4, 5]) = H
    at k1 ⊢
  have A := three_adj (M := Finset.range x0) (N := Finset.range b0) (O := Finset.range x1) (W := Finset.range a0)
    (A := Finset.range b1) (B := Finset.range b2) (C := Finset.range a1) (D := Finset.range a2) (I := Finset.range c0)
    (J := Finset.range c1) (K := Finset.range c2)
    (fun m n o w => X.elem [m, n, o, w]) (fun o a c b m d => Q.elem [o, a, c, b, m, d])
    (fun i n j a k b => R1.elem [i, n, j, a, k, b]) (fun w i c j d k => R2.elem [w, i, c, j, d, k])
  refine Eq.trans ?_ (A.trans ?_)
  · refine Finset.sum_congr rfl fun _ _ => Finset.sum_congr rfl fun _ _ => Finset.sum_congr rfl fun _ _ => Finset.sum_congr rfl fun _ _ => ?_
    rw [k1]
  · refine Finset.sum_congr rfl fun _ _ => Finset.sum_congr rfl fun _ _ => Finset.sum_congr rfl fun _ _ => Finset.sum_congr rfl fun _ _ => Finset.sum_congr rfl fun _ _ => Finset.sum_congr rfl fun _ _ => congrArg (· * _) (Finset.sum_congr rfl fun _ _ => Finset.sum_congr rfl fun _ _ => Finset.sum_congr rfl fun _ _ => ?_)
    rw [e0]

end

/-! ### Translations of the torus -/

section
variable {n : ℕ}

def sh (a : ℕ) (x : Fin n) : Fin n := ⟨(x + a) % n, Nat.mod_lt _ x.pos⟩

theorem sh_nx (a : ℕ) (x : Fin n) : sh a (nx x) = nx (sh a x) := by
  apply Fin.ext
  simp only [sh, nx, Nat.mod_add_mod]
  congr 1
  omega

theorem sh_bij (a : ℕ) : Function.Bijective (sh (n := n) a) := by
  rw [← Finite.injective_iff_bijective]
  intro x y h
  simp only [sh, Fin.mk.injEq] at h
  have := Nat.ModEq.add_right_cancel' a (show x + a ≡ y + a [MOD n] from h)
  apply Fin.ext
  rwa [Nat.ModEq, Nat.mod_eq_of_lt x.2, Nat.mod_eq_of_lt y.2] at this

def shN (a b : ℕ) (v : Fin n × Fin n) : Fin n × Fin n := (sh a v.1, sh b v.2)

def shB (a b : ℕ) : TB n → TB n
  | .inl v => .inl (shN a b v)
  | .inr v => .inr (shN a b v)

theorem shN_bij (a b : ℕ) : Function.Bijective (shN (n := n) a b) := (sh_bij a).prodMap (sh_bij b)

theorem shB_bij (a b : ℕ) : Function.Bijective (shB (n := n) a b) := by
  have h := shN_bij (n := n) a b
  constructor
  · rintro (x | x) (y | y) e <;> simp only [shB, Sum.inl.injEq, Sum.inr.injEq, reduceCtorEq] at e
    · rw [h.1 e]
    · rw [h.1 e]
  · rintro (x | x)
    · obtain ⟨y, rfl⟩ := h.2 x; exact ⟨.inl y, rfl⟩
    · obtain ⟨y, rfl⟩ := h.2 x; exact ⟨.inr y, rfl⟩

theorem lS_sh (a b : ℕ) (v : Fin n × Fin n) : lS (shN a b v) = shB a b (lS v) := by
  simp only [lS, shB, shN, sh_nx]
theorem lE_sh (a b : ℕ) (v : Fin n × Fin n) : lE (shN a b v) = shB a b (lE v) := by
  simp only [lE, shB, shN, sh_nx]

theorem tvalue_shift (a b : ℕ) (dim : TB n → ℕ) {t t' : ℕ → Tn 𝕜}
    (h : ∀ v : Fin n × Fin n, t' (nid v) = t (nid (shN a b v))) :
    tvalue n dim t = tvalue n (fun x => dim (shB a b x)) t' := by
  unfold tvalue
  let eB : TB n ≃ TB n := Equiv.ofBijective _ (shB_bij a b)
  let eN : Fin n × Fin n ≃ Fin n × Fin n := Equiv.ofBijective _ (shN_bij a b)
  refine Finset.sum_bij' (fun β _ x => β (eB x)) (fun γ _ x => γ (eB.symm x)) ?_ ?_ ?_ ?_ ?_
  · intro β hβ
    simp only [Fintype.mem_piFinset] at hβ ⊢
    exact fun x => hβ _
  · intro γ hγ
    simp only [Fintype.mem_piFinset] at hγ ⊢
    intro x
    have := hγ (eB.symm x)
    rwa [show shB a b (eB.symm x) = x from eB.apply_symm_apply x] at this
  · intro β _; funext x; simp
  · intro γ _; funext x; simp
  · intro β _
    refine (Equiv.prod_comp eN fun v => (t (v.1 * n + v.2)).elem [β (lW v), β (lS v), β (lE v), β (lN v)]).symm.trans ?_
    refine Finset.prod_congr rfl fun v _ => ?_
    have := h v
    unfold nid at this
    rw [this]
    change (t (nid (shN a b v))).elem [β (lW (shN a b v)), β (lS (shN a b v)), β (lE (shN a b v)), β (lN (shN a b v))] = _
    rw [lS_sh, lE_sh]
    rfl

end

end

end QLPeps.Trg
