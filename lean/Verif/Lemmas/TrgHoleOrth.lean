import Verif.Lemmas.TrgHoleStep

/-!
# Directions the holes do not see
-/

namespace QLPeps.Trg

open QLPeps.Peps (Tn Diag Lib Svd contractN transpose dag diagInv)
open QLPeps.Peps.Spec (Exact SvdNonNeg)
open Spec

noncomputable section

variable {𝕜 : Type} [RCLike 𝕜]

/-- `t† x = 0` and `x t† = 0` -/
structure Orth (a b c e : ℕ) (t x : Tn 𝕜) : Prop where
  left : ∀ z < c, ∀ w < e, ∀ z' < c, ∀ w' < e, ∑ i ∈ Finset.range a, ∑ j ∈ Finset.range b,
    (starRingEnd 𝕜) (t.elem [i, j, z, w]) * x.elem [i, j, z', w'] = 0
  right : ∀ i < a, ∀ j < b, ∀ i' < a, ∀ j' < b, ∑ z ∈ Finset.range c, ∑ w ∈ Finset.range e,
    x.elem [i, j, z, w] * (starRingEnd 𝕜) (t.elem [i', j', z, w]) = 0

section
variable {d : Svd 𝕜} {inv : Diag} {a b c e : ℕ}

theorem pullRight_zero {t x : Tn 𝕜} (hu : d.u.shape = [a, b, d.s.dim]) (hr : Rel a b c e t d) (ho : Orth a b c e t x)
    (hi : inv.dim = d.s.dim) (hz : ∀ m < d.s.dim, d.s.val m = 0 → inv.val m = 0) {h : Tn 𝕜}
    (hh : h.shape = [d.s.dim, c, e]) :
    P4 a b c e (contractN (dag d.u) [2] (contractN (dag inv.ten) [1] h [0]) [0]) x = 0 := by
  unfold P4
  simp only [(pullRight_elem hu hi hh).2, Finset.sum_mul]
  rw [pull4]
  refine Finset.sum_eq_zero fun m hm => ?_
  have hm' := Finset.mem_range.1 hm
  by_cases h0 : d.s.val m = 0
  · simp [hz m hm' h0]
  have hs : (d.s.val m : 𝕜) ≠ 0 := by exact_mod_cast h0
  rw [pull3]
  refine Finset.sum_eq_zero fun w hw => ?_
  rw [pull2]
  refine Finset.sum_eq_zero fun z hz => ?_
  have key : ∑ i ∈ Finset.range a, ∑ j ∈ Finset.range b, (starRingEnd 𝕜) (d.u.elem [i, j, m]) * x.elem [i, j, z, w] = 0 := by
    have : (d.s.val m : 𝕜) * (∑ i ∈ Finset.range a, ∑ j ∈ Finset.range b,
        (starRingEnd 𝕜) (d.u.elem [i, j, m]) * x.elem [i, j, z, w]) = 0 := by
      have hconj : ∀ i < a, ∀ j < b, (starRingEnd 𝕜) (d.u.elem [i, j, m]) * (d.s.val m : 𝕜) =
          ∑ p ∈ Finset.range c, ∑ q ∈ Finset.range e, (starRingEnd 𝕜) (t.elem [i, j, p, q]) * d.vt.elem [m, p, q] := by
        intro i hi j hj
        have := congrArg (starRingEnd 𝕜) (hr.right m hm' i hi j hj)
        simp only [map_sum, map_mul, RCLike.conj_conj, RCLike.conj_ofReal] at this
        exact this.symm
      calc _ = ∑ i ∈ Finset.range a, ∑ j ∈ Finset.range b, ((starRingEnd 𝕜) (d.u.elem [i, j, m]) * (d.s.val m : 𝕜)) *
            x.elem [i, j, z, w] := by
              simp only [Finset.mul_sum]
              refine Finset.sum_congr rfl fun i _ => Finset.sum_congr rfl fun j _ => by ring
        _ = ∑ i ∈ Finset.range a, ∑ j ∈ Finset.range b, (∑ p ∈ Finset.range c, ∑ q ∈ Finset.range e,
            (starRingEnd 𝕜) (t.elem [i, j, p, q]) * d.vt.elem [m, p, q]) * x.elem [i, j, z, w] :=
              Finset.sum_congr rfl fun i hi => Finset.sum_congr rfl fun j hj => by
                rw [hconj i (Finset.mem_range.1 hi) j (Finset.mem_range.1 hj)]
        _ = ∑ p ∈ Finset.range c, ∑ q ∈ Finset.range e, d.vt.elem [m, p, q] * ∑ i ∈ Finset.range a, ∑ j ∈ Finset.range b,
            (starRingEnd 𝕜) (t.elem [i, j, p, q]) * x.elem [i, j, z, w] := by
              simp only [Finset.sum_mul, Finset.mul_sum]
              rw [pull3]
              rw [Finset.sum_congr rfl fun q _ => pull2 (Finset.range a) (Finset.range b) (Finset.range c) _]
              rw [Finset.sum_comm]
              refine Finset.sum_congr rfl fun p _ => Finset.sum_congr rfl fun q _ => Finset.sum_congr rfl fun i _ =>
                Finset.sum_congr rfl fun j _ => by ring
        _ = 0 := Finset.sum_eq_zero fun p hp => Finset.sum_eq_zero fun q hq => by
              rw [ho.left p (Finset.mem_range.1 hp) q (Finset.mem_range.1 hq) z (Finset.mem_range.1 hz) w
                (Finset.mem_range.1 hw), mul_zero]
    exact (mul_eq_zero.1 this).resolve_left hs
  calc _ = (∑ i ∈ Finset.range a, ∑ j ∈ Finset.range b, (starRingEnd 𝕜) (d.u.elem [i, j, m]) * x.elem [i, j, z, w]) *
        ((inv.val m : 𝕜) * h.elem [m, z, w]) := by
          simp only [Finset.sum_mul]
          refine Finset.sum_congr rfl fun i _ => Finset.sum_congr rfl fun j _ => by ring
    _ = 0 := by rw [key, zero_mul]

theorem pullLeft_zero {t x : Tn 𝕜} (hv : d.vt.shape = [d.s.dim, c, e]) (hr : Rel a b c e t d) (ho : Orth a b c e t x)
    (hi : inv.dim = d.s.dim) (hz : ∀ m < d.s.dim, d.s.val m = 0 → inv.val m = 0) {h : Tn 𝕜}
    (hh : h.shape = [a, b, d.s.dim]) :
    P4 a b c e (contractN (contractN h [2] (dag inv.ten) [0]) [2] (dag d.vt) [0]) x = 0 := by
  unfold P4
  simp only [(pullLeft_elem hv hi hh).2, Finset.sum_mul]
  refine Finset.sum_eq_zero fun i hi' => Finset.sum_eq_zero fun j hj' => ?_
  rw [pull2]
  refine Finset.sum_eq_zero fun m hm => ?_
  have hm' := Finset.mem_range.1 hm
  by_cases h0 : d.s.val m = 0
  · simp [hz m hm' h0]
  have hs : (d.s.val m : 𝕜) ≠ 0 := by exact_mod_cast h0
  have key : ∑ z ∈ Finset.range c, ∑ w ∈ Finset.range e, x.elem [i, j, z, w] * (starRingEnd 𝕜) (d.vt.elem [m, z, w]) = 0 := by
    have : (d.s.val m : 𝕜) * (∑ z ∈ Finset.range c, ∑ w ∈ Finset.range e,
        x.elem [i, j, z, w] * (starRingEnd 𝕜) (d.vt.elem [m, z, w])) = 0 := by
      have hconj : ∀ z < c, ∀ w < e, (d.s.val m : 𝕜) * (starRingEnd 𝕜) (d.vt.elem [m, z, w]) =
          ∑ p ∈ Finset.range a, ∑ q ∈ Finset.range b, d.u.elem [p, q, m] * (starRingEnd 𝕜) (t.elem [p, q, z, w]) := by
        intro z hz w hw
        have := congrArg (starRingEnd 𝕜) (hr.left m hm' z hz w hw)
        simp only [map_sum, map_mul, RCLike.conj_conj, RCLike.conj_ofReal] at this
        exact this.symm
      calc _ = ∑ z ∈ Finset.range c, ∑ w ∈ Finset.range e, x.elem [i, j, z, w] *
            ((d.s.val m : 𝕜) * (starRingEnd 𝕜) (d.vt.elem [m, z, w])) := by
              simp only [Finset.mul_sum]
              refine Finset.sum_congr rfl fun i _ => Finset.sum_congr rfl fun j _ => by ring
        _ = ∑ z ∈ Finset.range c, ∑ w ∈ Finset.range e, x.elem [i, j, z, w] * (∑ p ∈ Finset.range a, ∑ q ∈ Finset.range b,
            d.u.elem [p, q, m] * (starRingEnd 𝕜) (t.elem [p, q, z, w])) :=
              Finset.sum_congr rfl fun i hi => Finset.sum_congr rfl fun j hj => by
                rw [hconj i (Finset.mem_range.1 hi) j (Finset.mem_range.1 hj)]
        _ = ∑ p ∈ Finset.range a, ∑ q ∈ Finset.range b, d.u.elem [p, q, m] * ∑ z ∈ Finset.range c, ∑ w ∈ Finset.range e,
            x.elem [i, j, z, w] * (starRingEnd 𝕜) (t.elem [p, q, z, w]) := by
              simp only [Finset.mul_sum]
              rw [pull3]
              rw [Finset.sum_congr rfl fun q _ => pull2 (Finset.range c) (Finset.range e) (Finset.range a) _]
              rw [Finset.sum_comm]
              refine Finset.sum_congr rfl fun p _ => Finset.sum_congr rfl fun q _ => Finset.sum_congr rfl fun i _ =>
                Finset.sum_congr rfl fun j _ => by ring
        _ = 0 := Finset.sum_eq_zero fun p hp => Finset.sum_eq_zero fun q hq => by
              rw [ho.right i (Finset.mem_range.1 hi') j (Finset.mem_range.1 hj') p (Finset.mem_range.1 hp) q
                (Finset.mem_range.1 hq), mul_zero]
    exact (mul_eq_zero.1 this).resolve_left hs
  calc _ = (h.elem [i, j, m] * (inv.val m : 𝕜)) * (∑ z ∈ Finset.range c, ∑ w ∈ Finset.range e,
        x.elem [i, j, z, w] * (starRingEnd 𝕜) (d.vt.elem [m, z, w])) := by
          simp only [Finset.mul_sum]
          refine Finset.sum_congr rfl fun i _ => Finset.sum_congr rfl fun j _ => by ring
    _ = 0 := by rw [key, mul_zero]

end

/-- what a hole of a piece gives has the shape of the node, and does not see what is orthogonal to it -/
theorem pull_zero' {lib : Lib 𝕜} (he : Exact lib) {t : Tn 𝕜} {l d r u : ℕ} (ht : t.shape = [l, d, r, u])
    (type1 isP : Bool) {iso : Iso 𝕜} (h1 : iso.u = (factors lib type1 t).u) (h2 : iso.vt = (factors lib type1 t).vt)
    (h3 : iso.inv.dim = (factors lib type1 t).s.dim)
    (hz : ∀ m < (factors lib type1 t).s.dim, (factors lib type1 t).s.val m = 0 → iso.inv.val m = 0)
    {h : Tn 𝕜} {A B C : ℕ}
    (hp : (if isP then (splitPieces lib type1 t).1 else (splitPieces lib type1 t).2).shape = [A, B, C])
    (hh : h.shape = [A, B, C]) :
    (pull type1 iso isP h).shape = t.shape ∧
    (SingularVectors lib → ∀ x : Tn 𝕜, x.shape = t.shape →
      (if type1 then Orth l d r u t x else Orth l u d r (oriented false t) (oriented false x)) →
      pair (pull type1 iso isP h) x = 0) := by
  have hinj : ∀ {a b c a' b' c' : ℕ}, [a, b, c] = [a', b', c'] → a = a' ∧ b = b' ∧ c = c' := by
    intro a b c a' b' c' h; simpa using h
  have hrel := fun hv => sv_rel (lib := lib) hv ht type1
  rw [ht]
  cases type1
  · simp only [Bool.false_eq_true, if_false] at hrel ⊢
    obtain ⟨s1, s2⟩ := he.svd_shape (oriented false t) 2
    rw [(oriented0 ht).1] at s1 s2
    have s1 : (factors lib false t).u.shape = [l, u, (factors lib false t).s.dim] := s1
    have s2 : (factors lib false t).vt.shape = [(factors lib false t).s.dim, d, r] := s2
    cases isP
    · simp only [Bool.false_eq_true, if_false] at hp
      rw [(split0 he ht).2] at hp
      obtain ⟨rfl, rfl, rfl⟩ := hinj hp
      have sh := (pullRight_elem (d := factors lib false t) (inv := iso.inv) s1 h3 hh).1
      unfold pull
      rw [if_pos rfl, if_neg (by simp), h1]
      refine ⟨(unorient sh ht).1, fun hv x hx ho => ?_⟩
      rw [pair_eq _ hx]
      exact (unorient sh hx).2.trans (pullRight_zero s1 (hrel hv) ho h3 hz hh)
    · simp only [if_true] at hp
      rw [(split0 he ht).1] at hp
      obtain ⟨rfl, rfl, rfl⟩ := hinj hp
      have sh := (pullLeft_elem (d := factors lib false t) (inv := iso.inv) s2 h3 hh).1
      unfold pull
      rw [if_neg (by simp), if_neg (by simp), h2]
      refine ⟨(unorient sh ht).1, fun hv x hx ho => ?_⟩
      rw [pair_eq _ hx]
      exact (unorient sh hx).2.trans (pullLeft_zero s2 (hrel hv) ho h3 hz hh)
  · simp only [if_true] at hrel ⊢
    obtain ⟨s1, s2⟩ := he.svd_shape t 2
    rw [ht] at s1 s2
    have s1 : (factors lib true t).u.shape = [l, d, (factors lib true t).s.dim] := s1
    have s2 : (factors lib true t).vt.shape = [(factors lib true t).s.dim, r, u] := s2
    cases isP
    · simp only [Bool.false_eq_true, if_false] at hp
      rw [(split1 he ht).1] at hp
      obtain ⟨rfl, rfl, rfl⟩ := hinj hp
      unfold pull
      simp only [if_true, Bool.true_eq_false, if_false, h2]
      refine ⟨(pullLeft_elem (d := factors lib true t) (inv := iso.inv) s2 h3 hh).1,
        fun hv x hx ho => ?_⟩
      rw [pair_eq _ hx]
      exact pullLeft_zero s2 (hrel hv) ho h3 hz hh
    · simp only [if_true] at hp
      rw [(split1 he ht).2] at hp
      obtain ⟨rfl, rfl, rfl⟩ := hinj hp
      unfold pull
      simp only [if_true, h1]
      refine ⟨(pullRight_elem (d := factors lib true t) (inv := iso.inv) s1 h3 hh).1,
        fun hv x hx ho => ?_⟩
      rw [pair_eq _ hx]
      exact pullRight_zero s1 (hrel hv) ho h3 hz hh

theorem pull_zero {lib : Lib 𝕜} (he : Exact lib) (e τ : ℝ) {t : Tn 𝕜} {l d r u : ℕ} (ht : t.shape = [l, d, r, u])
    (type1 isP : Bool) {h : Tn 𝕜} {A B C : ℕ}
    (hp : (if isP then (splitPieces lib type1 t).1 else (splitPieces lib type1 t).2).shape = [A, B, C])
    (hh : h.shape = [A, B, C]) :
    (pull type1 (isoPieces lib e τ type1 t) isP h).shape = t.shape ∧
    (SingularVectors lib → ∀ x : Tn 𝕜, x.shape = t.shape →
      (if type1 then Orth l d r u t x else Orth l u d r (oriented false t) (oriented false x)) →
      pair (pull type1 (isoPieces lib e τ type1 t) isP h) x = 0) := by
  refine pull_zero' he ht type1 isP (iso := isoPieces lib e τ type1 t) rfl rfl rfl ?_ hp hh
  intro m hm h0
  change (if _ < |Real.sqrt ((factors lib type1 t).s.val m)| then 1 / Real.sqrt ((factors lib type1 t).s.val m) else 0) = 0
  rw [h0, Real.sqrt_zero]
  simp

end

end QLPeps.Trg
