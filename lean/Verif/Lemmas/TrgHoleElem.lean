import Verif.Model.TrgHoles
import Verif.Lemmas.TrgElem

/-!
# Pairings of holes with tensors
-/

namespace QLPeps.Trg

open QLPeps.Peps (Tn Diag Lib Svd contractN transpose dag diagInv)
open QLPeps.Peps.Spec (Exact SvdNonNeg Valid)

noncomputable section

/-! ### Moving a sum outwards -/

section
variable {M ι0 ι1 ι2 ι3 ι4 : Type*} [AddCommMonoid M]

theorem pull2 (s0 : Finset ι0) (s1 : Finset ι1) (x : Finset ι4) (f : ι0 → ι1 → ι4 → M) :
    ∑ a ∈ s0, ∑ b ∈ s1, ∑ z ∈ x, f a b z = ∑ z ∈ x, ∑ a ∈ s0, ∑ b ∈ s1, f a b z := by
  rw [Finset.sum_congr rfl fun a _ => Finset.sum_comm (s := s1) (t := x) (f := f a), Finset.sum_comm]

theorem pull3 (s0 : Finset ι0) (s1 : Finset ι1) (s2 : Finset ι2) (x : Finset ι4) (f : ι0 → ι1 → ι2 → ι4 → M) :
    ∑ a ∈ s0, ∑ b ∈ s1, ∑ c ∈ s2, ∑ z ∈ x, f a b c z = ∑ z ∈ x, ∑ a ∈ s0, ∑ b ∈ s1, ∑ c ∈ s2, f a b c z := by
  rw [Finset.sum_congr rfl fun a _ => pull2 s1 s2 x (f a), Finset.sum_comm]

theorem pull4 (s0 : Finset ι0) (s1 : Finset ι1) (s2 : Finset ι2) (s3 : Finset ι3) (x : Finset ι4)
    (f : ι0 → ι1 → ι2 → ι3 → ι4 → M) :
    ∑ a ∈ s0, ∑ b ∈ s1, ∑ c ∈ s2, ∑ d ∈ s3, ∑ z ∈ x, f a b c d z =
      ∑ z ∈ x, ∑ a ∈ s0, ∑ b ∈ s1, ∑ c ∈ s2, ∑ d ∈ s3, f a b c d z := by
  rw [Finset.sum_congr rfl fun a _ => pull3 s1 s2 s3 x (f a), Finset.sum_comm]

end

variable {𝕜 : Type} [RCLike 𝕜]

/-- pairing of tensors with three and four legs -/
def P3 (a b c : ℕ) (h p : Tn 𝕜) : 𝕜 :=
  ∑ i ∈ Finset.range a, ∑ j ∈ Finset.range b, ∑ k ∈ Finset.range c, h.elem [i, j, k] * p.elem [i, j, k]

def P4 (a b c d : ℕ) (h t : Tn 𝕜) : 𝕜 :=
  ∑ i ∈ Finset.range a, ∑ j ∈ Finset.range b, ∑ k ∈ Finset.range c, ∑ l ∈ Finset.range d,
    h.elem [i, j, k, l] * t.elem [i, j, k, l]

/-- what singular vectors satisfy, also those left after a truncation -/
structure Rel (a b c e : ℕ) (t : Tn 𝕜) (d : Svd 𝕜) : Prop where
  left : ∀ m < d.s.dim, ∀ z < c, ∀ w < e, ∑ x ∈ Finset.range a, ∑ y ∈ Finset.range b,
    (starRingEnd 𝕜) (d.u.elem [x, y, m]) * t.elem [x, y, z, w] = (d.s.val m : 𝕜) * d.vt.elem [m, z, w]
  right : ∀ m < d.s.dim, ∀ x < a, ∀ y < b, ∑ z ∈ Finset.range c, ∑ w ∈ Finset.range e,
    t.elem [x, y, z, w] * (starRingEnd 𝕜) (d.vt.elem [m, z, w]) = d.u.elem [x, y, m] * (d.s.val m : 𝕜)

section
variable {d : Svd 𝕜} {inv : Diag} {a b c e k : ℕ}

theorem pullRight_elem (hu : d.u.shape = [a, b, k]) (hi : inv.dim = k) {h : Tn 𝕜} (hh : h.shape = [k, c, e]) :
    (contractN (dag d.u) [2] (contractN (dag inv.ten) [1] h [0]) [0]).shape = [a, b, c, e] ∧ ∀ x y z w,
      (contractN (dag d.u) [2] (contractN (dag inv.ten) [1] h [0]) [0]).elem [x, y, z, w] =
        ∑ m ∈ Finset.range k, (starRingEnd 𝕜) (d.u.elem [x, y, m]) * ((inv.val m : 𝕜) * h.elem [m, z, w]) := by
  obtain ⟨⟨sh, g⟩, s, vt, err, dim⟩ := d
  obtain rfl : sh = _ := hu
  obtain rfl : inv.dim = _ := hi
  obtain ⟨sh, q⟩ := h
  obtain rfl : sh = _ := hh
  refine ⟨rfl, fun x y z w => ?_⟩
  change ∑ m ∈ Finset.range inv.dim, (starRingEnd 𝕜) (g [x, y, m]) * (∑ j ∈ Finset.range inv.dim,
    (starRingEnd 𝕜) (if m = j then (inv.val m : 𝕜) else 0) * q [j, z, w]) = _
  refine Finset.sum_congr rfl fun m hm => ?_
  rw [Finset.sum_eq_single m (fun j _ hj => by rw [if_neg (Ne.symm hj), map_zero, zero_mul])
    (fun h => absurd hm h), if_pos rfl, RCLike.conj_ofReal]

theorem pullLeft_elem (hv : d.vt.shape = [k, c, e]) (hi : inv.dim = k) {h : Tn 𝕜} (hh : h.shape = [a, b, k]) :
    (contractN (contractN h [2] (dag inv.ten) [0]) [2] (dag d.vt) [0]).shape = [a, b, c, e] ∧ ∀ x y z w,
      (contractN (contractN h [2] (dag inv.ten) [0]) [2] (dag d.vt) [0]).elem [x, y, z, w] =
        ∑ m ∈ Finset.range k, h.elem [x, y, m] * (inv.val m : 𝕜) * (starRingEnd 𝕜) (d.vt.elem [m, z, w]) := by
  obtain ⟨u, s, ⟨sh, g⟩, err, dim⟩ := d
  obtain rfl : sh = _ := hv
  obtain rfl : inv.dim = _ := hi
  obtain ⟨sh, q⟩ := h
  obtain rfl : sh = _ := hh
  refine ⟨rfl, fun x y z w => ?_⟩
  change ∑ m ∈ Finset.range inv.dim, (∑ j ∈ Finset.range inv.dim, q [x, y, j] *
    (starRingEnd 𝕜) (if j = m then (inv.val j : 𝕜) else 0)) * (starRingEnd 𝕜) (g [m, z, w]) = _
  refine Finset.sum_congr rfl fun m hm => ?_
  rw [Finset.sum_eq_single m (fun j _ hj => by rw [if_neg hj, map_zero, mul_zero])
    (fun h => absurd hm h), if_pos rfl, RCLike.conj_ofReal]

/-- the inverse roots undo the roots of the singular values -/
def InvOk (s inv : Diag) : Prop := inv.dim = s.dim ∧ ∀ m < s.dim, inv.val m * s.val m = Real.sqrt (s.val m)

theorem pullRight_pair {t : Tn 𝕜} (hu : d.u.shape = [a, b, d.s.dim]) (hv : d.vt.shape = [d.s.dim, c, e])
    (hr : Rel a b c e t d) (hi : InvOk d.s inv) {h : Tn 𝕜} (hh : h.shape = [d.s.dim, c, e]) :
    P4 a b c e (contractN (dag d.u) [2] (contractN (dag inv.ten) [1] h [0]) [0]) t =
      P3 d.s.dim c e h (rightPiece d) := by
  unfold P4 P3
  simp only [(pullRight_elem hu hi.1 hh).2, Finset.sum_mul]
  rw [pull4]
  refine Finset.sum_congr rfl fun m hm => ?_
  have hm' := Finset.mem_range.1 hm
  rw [pull3, Finset.sum_comm (s := Finset.range c)]
  refine Finset.sum_congr rfl fun w hw => ?_
  rw [pull2]
  refine Finset.sum_congr rfl fun z hz => ?_
  rw [(right_elem hv rfl).2 m z w hm', ← hi.2 m hm', RCLike.ofReal_mul, mul_assoc (inv.val m : 𝕜),
    ← hr.left m hm' z (Finset.mem_range.1 hz) w (Finset.mem_range.1 hw)]
  simp only [Finset.mul_sum]
  refine Finset.sum_congr rfl fun x _ => Finset.sum_congr rfl fun y _ => ?_
  ring

theorem pullLeft_pair {t : Tn 𝕜} (hu : d.u.shape = [a, b, d.s.dim]) (hv : d.vt.shape = [d.s.dim, c, e])
    (hr : Rel a b c e t d) (hi : InvOk d.s inv) {h : Tn 𝕜} (hh : h.shape = [a, b, d.s.dim]) :
    P4 a b c e (contractN (contractN h [2] (dag inv.ten) [0]) [2] (dag d.vt) [0]) t =
      P3 a b d.s.dim h (leftPiece d) := by
  unfold P4 P3
  simp only [(pullLeft_elem hv hi.1 hh).2, Finset.sum_mul]
  refine Finset.sum_congr rfl fun x hx => Finset.sum_congr rfl fun y hy => ?_
  rw [pull2]
  refine Finset.sum_congr rfl fun m hm => ?_
  have hm' := Finset.mem_range.1 hm
  rw [(left_elem hu rfl).2 x y m hm', ← hi.2 m hm', RCLike.ofReal_mul, mul_comm (inv.val m : 𝕜), ← mul_assoc,
    ← mul_assoc, mul_assoc (h.elem [x, y, m]), ← hr.right m hm' x (Finset.mem_range.1 hx) y (Finset.mem_range.1 hy)]
  simp only [Finset.mul_sum, Finset.sum_mul]
  refine Finset.sum_congr rfl fun x _ => Finset.sum_congr rfl fun y _ => ?_
  ring

end

theorem unorient {x t : Tn 𝕜} {l d r u : ℕ} (hx : x.shape = [l, u, d, r]) (ht : t.shape = [l, d, r, u]) :
    (transpose [0, 2, 3, 1] x).shape = [l, d, r, u] ∧
      P4 l d r u (transpose [0, 2, 3, 1] x) t = P4 l u d r x (oriented false t) := by
  obtain ⟨sh, g⟩ := x
  obtain rfl : sh = _ := hx
  refine ⟨rfl, ?_⟩
  unfold P4
  simp only [(oriented0 ht).2]
  refine Finset.sum_congr rfl fun i _ => ?_
  rw [pull2]
  rfl

/-- **Pulling a hole back through a splitting.** -/
theorem pull_pair {lib : Lib 𝕜} (he : Exact lib) {t : Tn 𝕜} {l d r u : ℕ} (ht : t.shape = [l, d, r, u]) (type1 isP : Bool)
    (hr : if type1 then Rel l d r u t (factors lib type1 t) else Rel l u d r (oriented false t) (factors lib type1 t))
    {iso : Iso 𝕜} (h1 : iso.u = (factors lib type1 t).u) (h2 : iso.vt = (factors lib type1 t).vt)
    (h3 : InvOk (factors lib type1 t).s iso.inv) {h : Tn 𝕜} {A B C : ℕ}
    (hp : (if isP then (splitPieces lib type1 t).1 else (splitPieces lib type1 t).2).shape = [A, B, C])
    (hh : h.shape = [A, B, C]) :
    (pull type1 iso isP h).shape = [l, d, r, u] ∧ P4 l d r u (pull type1 iso isP h) t =
      P3 A B C h (if isP then (splitPieces lib type1 t).1 else (splitPieces lib type1 t).2) := by
  have hinj : ∀ {a b c a' b' c' : ℕ}, [a, b, c] = [a', b', c'] → a = a' ∧ b = b' ∧ c = c' := by
    intro a b c a' b' c' h; simpa using h
  cases type1
  · simp only [Bool.false_eq_true, if_false] at hr
    obtain ⟨s1, s2⟩ := he.svd_shape (oriented false t) 2
    rw [(oriented0 ht).1] at s1 s2
    have s1 : (factors lib false t).u.shape = [l, u, (factors lib false t).s.dim] := s1
    have s2 : (factors lib false t).vt.shape = [(factors lib false t).s.dim, d, r] := s2
    cases isP
    · simp only [Bool.false_eq_true, if_false] at hp ⊢
      rw [(split0 he ht).2] at hp
      obtain ⟨rfl, rfl, rfl⟩ := hinj hp
      unfold pull
      rw [if_pos rfl, if_neg (by simp), h1]
      have := unorient (pullRight_elem s1 h3.1 hh).1 ht
      exact ⟨this.1, this.2.trans (pullRight_pair s1 s2 hr h3 hh)⟩
    · simp only [if_true] at hp ⊢
      rw [(split0 he ht).1] at hp
      obtain ⟨rfl, rfl, rfl⟩ := hinj hp
      unfold pull
      rw [if_neg (by simp), if_neg (by simp), h2]
      have := unorient (pullLeft_elem s2 h3.1 hh).1 ht
      exact ⟨this.1, this.2.trans (pullLeft_pair s1 s2 hr h3 hh)⟩
  · simp only [if_true] at hr
    obtain ⟨s1, s2⟩ := he.svd_shape t 2
    rw [ht] at s1 s2
    have s1 : (factors lib true t).u.shape = [l, d, (factors lib true t).s.dim] := s1
    have s2 : (factors lib true t).vt.shape = [(factors lib true t).s.dim, r, u] := s2
    cases isP
    · simp only [Bool.false_eq_true, if_false] at hp ⊢
      rw [(split1 he ht).1] at hp
      obtain ⟨rfl, rfl, rfl⟩ := hinj hp
      unfold pull
      simp only [if_true, Bool.true_eq_false, Bool.false_eq_true, if_false, h2]
      exact ⟨(pullLeft_elem s2 h3.1 hh).1, pullLeft_pair s1 s2 hr h3 hh⟩
    · simp only [if_true] at hp ⊢
      rw [(split1 he ht).2] at hp
      obtain ⟨rfl, rfl, rfl⟩ := hinj hp
      unfold pull
      simp only [if_true, h1]
      exact ⟨(pullRight_elem s1 h3.1 hh).1, pullRight_pair s1 s2 hr h3 hh⟩

end

end QLPeps.Trg
