import Verif.Lemmas.PepsPatchSite

/-!
# Rounds of the gauge fixing and of the full environment truncation
-/

namespace QLPeps.Peps

open QLPeps.Peps.Spec

variable {𝕜 : Type*} [RCLike 𝕜]

/-- multiplying both sides of a bond -/
noncomputable def through (l : Loop 𝕜) (i : Fin 4) (X Y : Tn 𝕜) (s : Diag) : Loop 𝕜 :=
  ⟨Function.update (Function.update l.g (i + 3) (contractN (l.g (i + 3)) [4] X [0])) i
    (contractN Y [1] (l.g i) [0]), Function.update l.lam (i + 3) s⟩

/-- the two matrices and the new weights multiply to the old weights -/
structure Splits (X Y : Tn 𝕜) (s old : Diag) : Prop where
  left : X.shape = [old.dim, s.dim]
  right : Y.shape = [s.dim, old.dim]
  eq : ∀ a < old.dim, ∀ b < old.dim, ∑ n ∈ Finset.range s.dim,
    X.elem [a, n] * (s.val n : 𝕜) * Y.elem [n, b] = if a = b then (old.val a : 𝕜) else 0

theorem tail_eq {g X : Tn 𝕜} {a b c d e f : ℕ} (hg : g.shape = [a, b, c, d, e])
    (hX : X.shape = [e, f]) : (contractN g [4] X [0]).shape = [a, b, c, d, f] ∧ ∀ i j k m n,
      (contractN g [4] X [0]).elem [i, j, k, m, n] =
        ∑ z ∈ Finset.range e, g.elem [i, j, k, m, z] * X.elem [z, n] := by
  obtain ⟨sh, g⟩ := g
  obtain rfl : sh = _ := hg
  obtain ⟨sh, X⟩ := X
  obtain rfl : sh = _ := hX
  exact ⟨rfl, fun _ _ _ _ _ => rfl⟩

theorem head_eq {g Y : Tn 𝕜} {a b c d e f : ℕ} (hg : g.shape = [a, b, c, d, e])
    (hY : Y.shape = [f, a]) : (contractN Y [1] g [0]).shape = [f, b, c, d, e] ∧ ∀ i j k m n,
      (contractN Y [1] g [0]).elem [n, i, j, k, m] =
        ∑ z ∈ Finset.range a, Y.elem [n, z] * g.elem [z, i, j, k, m] := by
  obtain ⟨sh, g⟩ := g
  obtain rfl : sh = _ := hg
  obtain ⟨sh, Y⟩ := Y
  obtain rfl : sh = _ := hY
  exact ⟨rfl, fun _ _ _ _ _ => rfl⟩

theorem bond_sum {n D : ℕ} {T H : ℕ → 𝕜} {X Y : ℕ → ℕ → 𝕜} {s o : ℕ → 𝕜}
    (h : ∀ a < D, ∀ b < D, ∑ k ∈ Finset.range n, X a k * s k * Y k b = if a = b then o a else 0) :
    ∑ k ∈ Finset.range n, (∑ z ∈ Finset.range D, T z * X z k) * s k *
      (∑ z ∈ Finset.range D, Y k z * H z) = ∑ z ∈ Finset.range D, T z * o z * H z := by
  have : ∀ k ∈ Finset.range n, (∑ z ∈ Finset.range D, T z * X z k) * s k *
      (∑ z ∈ Finset.range D, Y k z * H z) = ∑ a ∈ Finset.range D, ∑ b ∈ Finset.range D,
        T a * H b * (X a k * s k * Y k b) := fun k _ => by
    rw [Finset.sum_mul, Finset.sum_mul]
    refine Finset.sum_congr rfl fun a _ => ?_
    rw [Finset.mul_sum]
    exact Finset.sum_congr rfl fun b _ => by ring
  rw [Finset.sum_congr rfl this, Finset.sum_comm]
  refine Finset.sum_congr rfl fun a ha => ?_
  rw [Finset.sum_comm, Finset.sum_congr rfl fun b hb => by
    rw [← Finset.mul_sum, h a (Finset.mem_range.1 ha) b (Finset.mem_range.1 hb)]]
  simp only [mul_ite, mul_zero, Finset.sum_ite_eq, if_pos ha]
  ring

theorem through_ring {l : Loop 𝕜} {D d : Fin 4 → ℕ} {E : Fin 4 → ℕ × ℕ} (hf : LoopFits l D d E)
    (i : Fin 4) {X Y : Tn 𝕜} {s : Diag} (hs : Splits X Y s (l.lam (i + 3))) :
    LoopFits (through l i X Y s) (Function.update D (i + 3) s.dim) d E ∧
    ∀ x e, ringAt (through l i X Y s) x e = ringAt l x e := by
  have hX := hs.left
  have hY := hs.right
  rw [hf.dim] at hX hY
  have hk := hs.eq
  rw [hf.dim] at hk
  obtain ⟨t1, t2⟩ := tail_eq (hf.shape (i + 3)) hX
  obtain ⟨h1, h2⟩ := head_eq (hf.shape i) hY
  refine ⟨⟨fun j => ?_, fun j => ?_⟩, fun x e => ?_⟩
  · simp only [through]
    fin_cases i <;> fin_cases j <;> first | exact t1 | exact h1 | exact hf.shape _
  · simp only [through]
    fin_cases i <;> fin_cases j <;> first | rfl | exact hf.dim _
  · unfold ringAt
    simp only [hf.dim]
    have key := fun (T H : ℕ → 𝕜) => bond_sum (T := T) (H := H)
      (X := fun a b => X.elem [a, b]) (Y := fun a b => Y.elem [a, b])
      (s := fun k => (s.val k : 𝕜)) (o := fun k => ((l.lam (i + 3)).val k : 𝕜)) hk
    match i with
    | 0 =>
      change ring4 ((l.lam 0).dim) ((l.lam 1).dim) ((l.lam 2).dim) s.dim
        (fun a b => (contractN Y [1] (l.g 0) [0]).elem [a, x 0, (e 0).1, (e 0).2, b]) _ _ _ _ _
        (fun a b => (contractN (l.g 3) [4] X [0]).elem [a, x 3, (e 3).1, (e 3).2, b])
        (fun k => (s.val k : 𝕜)) = _
      rw [hf.dim, hf.dim, hf.dim]
      refine ring4_bond fun a _ b _ => ?_
      refine Eq.trans (Finset.sum_congr rfl fun k _ => ?_) (key _ _)
      exact congrArg₂ (· * ·) (congrArg (· * (s.val k : 𝕜)) (t2 _ _ _ _ _)) (h2 _ _ _ _ _)
    | 1 =>
      change ring4 s.dim ((l.lam 1).dim) ((l.lam 2).dim) ((l.lam 3).dim)
        (fun a b => (contractN (l.g 0) [4] X [0]).elem [a, x 0, (e 0).1, (e 0).2, b])
        (fun k => (s.val k : 𝕜))
        (fun a b => (contractN Y [1] (l.g 1) [0]).elem [a, x 1, (e 1).1, (e 1).2, b]) _ _ _ _ _ = _
      rw [hf.dim, hf.dim, hf.dim, ring4_rotate, ring4_rotate (D 0)]
      refine ring4_bond fun a _ b _ => ?_
      refine Eq.trans (Finset.sum_congr rfl fun k _ => ?_) (key _ _)
      exact congrArg₂ (· * ·) (congrArg (· * (s.val k : 𝕜)) (t2 _ _ _ _ _)) (h2 _ _ _ _ _)
    | 2 =>
      change ring4 ((l.lam 0).dim) s.dim ((l.lam 2).dim) ((l.lam 3).dim) _ _
        (fun a b => (contractN (l.g 1) [4] X [0]).elem [a, x 1, (e 1).1, (e 1).2, b])
        (fun k => (s.val k : 𝕜))
        (fun a b => (contractN Y [1] (l.g 2) [0]).elem [a, x 2, (e 2).1, (e 2).2, b]) _ _ _ = _
      rw [hf.dim, hf.dim, hf.dim, ring4_rotate, ring4_rotate (D 0), ring4_rotate s.dim,
        ring4_rotate (D 1)]
      refine ring4_bond fun a _ b _ => ?_
      refine Eq.trans (Finset.sum_congr rfl fun k _ => ?_) (key _ _)
      exact congrArg₂ (· * ·) (congrArg (· * (s.val k : 𝕜)) (t2 _ _ _ _ _)) (h2 _ _ _ _ _)
    | 3 =>
      change ring4 ((l.lam 0).dim) ((l.lam 1).dim) s.dim ((l.lam 3).dim) _ _ _ _
        (fun a b => (contractN (l.g 2) [4] X [0]).elem [a, x 2, (e 2).1, (e 2).2, b])
        (fun k => (s.val k : 𝕜))
        (fun a b => (contractN Y [1] (l.g 3) [0]).elem [a, x 3, (e 3).1, (e 3).2, b]) _ = _
      rw [hf.dim, hf.dim, hf.dim, ring4_rotate, ring4_rotate (D 0), ring4_rotate (D 1),
        ring4_rotate (D 1), ring4_rotate s.dim, ring4_rotate (D 2)]
      refine ring4_bond fun a _ b _ => ?_
      refine Eq.trans (Finset.sum_congr rfl fun k _ => ?_) (key _ _)
      exact congrArg₂ (· * ·) (congrArg (· * (s.val k : 𝕜)) (t2 _ _ _ _ _)) (h2 _ _ _ _ _)

end QLPeps.Peps
