import Verif.Lemmas.PepsProject
import Mathlib.Algebra.BigOperators.Fin

/-!
# Conversion to a tensor product state: every weight goes half to each end of its bond
-/

namespace QLPeps.Peps

open QLPeps.State (BC)
open QLPeps.Tps.Spec (Bond Site leg external slots)
open QLPeps.Peps.Spec

/-! ## Products over the ends of the bonds -/

section Products

variable {M : Type*} [CommMonoid M]

theorem ac1 (a b c d : M) : a * b * (c * d) = a * d * (c * b) := by ac_rfl

theorem ac2 (a b c d e f : M) : a * b * c * d * (e * f) = a * c * e * (d * b * f) := by ac_rfl

/-- the two ends of a line of bonds -/
noncomputable def lineEnds (bc : BC) (n : ℕ) (hn : 0 < n) (g : Fin (slots bc n) → M) : M :=
  if h : bc = .obc then
    g ⟨0, by simp [slots, h]⟩ * g ⟨n, by simp [slots, h]⟩ else 1

theorem line_prod (bc : BC) (n : ℕ) (hn : 0 < n) (g : Fin (slots bc n) → M) :
    (∏ c : Fin n, g ⟨c, c.2.trans_le (Tps.Spec.le_slots bc n)⟩) *
      (∏ c : Fin n, g ⟨(c + 1) % slots bc n, Nat.mod_lt _ (Tps.Spec.slots_pos bc n hn)⟩) *
      lineEnds bc n hn g = (∏ i, g i) * ∏ i, g i := by
  cases bc with
  | obc =>
    have e : slots .obc n = n + 1 := rfl
    have h1 : ∏ i, g i = (∏ c : Fin n, g ⟨c, c.2.trans_le (Tps.Spec.le_slots .obc n)⟩) *
        g ⟨n, by simp [e]⟩ := Fin.prod_univ_castSucc (n := n) g
    have h2 : ∏ i, g i = g ⟨0, by simp [e]⟩ * ∏ c : Fin n, g ⟨c + 1, by simp [e]⟩ :=
      Fin.prod_univ_succ (n := n) g
    have h3 : ∀ c : Fin n, (⟨(c + 1) % slots .obc n, Nat.mod_lt _ (Tps.Spec.slots_pos .obc n hn)⟩ :
        Fin (slots .obc n)) = ⟨c + 1, by simp [e]⟩ := fun c => by
      apply Fin.ext
      exact Nat.mod_eq_of_lt (by simp [e])
    rw [lineEnds, dif_pos rfl]
    simp only [h3]
    conv_rhs => rw [h2]
    conv_rhs => rw [← h2]
    conv_rhs => enter [1]; rw [h1]
    conv_rhs => enter [2]; rw [h2]
    exact ac1 _ _ _ _
  | pbc =>
    rw [lineEnds, dif_neg (by decide), mul_one]
    congr 1
    have hinj : Function.Injective (fun c : Fin n =>
        (⟨(c + 1) % n, Nat.mod_lt _ hn⟩ : Fin n)) := fun a b h =>
      Fin.ext (mod_inj (bc := .pbc) a.2 b.2 (congrArg Fin.val h))
    exact (Function.Bijective.prod_comp (Finite.injective_iff_bijective.1 hinj) g)

open Classical in
theorem lineEnds_eq (bc : BC) (n : ℕ) (hn : 0 < n) (g : Fin (slots bc n) → M) :
    lineEnds bc n hn g =
      ∏ i : Fin (slots bc n), if bc = .obc ∧ ((i : ℕ) = 0 ∨ (i : ℕ) = n) then g i else 1 := by
  unfold lineEnds
  split
  · next h =>
    subst h
    rw [← Finset.prod_filter, show Finset.univ.filter (fun i : Fin (slots .obc n) =>
        BC.obc = .obc ∧ ((i : ℕ) = 0 ∨ (i : ℕ) = n)) =
        {⟨0, by simp [slots]⟩, ⟨n, by simp [slots]⟩} from ?_, Finset.prod_pair]
    · simp only [ne_eq, Fin.mk.injEq]; omega
    · ext i
      simp [Fin.ext_iff]
  · next h => simp [h]

variable {bc : BC} {rows cols : ℕ}

open Classical in
/-- internal bonds have two ends, external ones have one -/
theorem prod_legs (hr : 0 < rows) (hc : 0 < cols) (f : Bond bc rows cols → M) :
    (∏ s : Site rows cols, ∏ k, f (leg bc s k)) * (∏ b, if external bc b then f b else 1) =
      (∏ b, f b) * ∏ b, f b := by
  simp only [Fin.prod_univ_four, Finset.prod_mul_distrib, Fintype.prod_sum_type,
    Fintype.prod_prod_type]
  have h := fun r : Fin rows => line_prod bc cols hc fun i => f (.inl (r, i))
  have v := fun c : Fin cols => line_prod bc rows hr fun i => f (.inr (i, c))
  have h' := congrArg (fun g => ∏ r, g r) (funext h)
  have v' := congrArg (fun g => ∏ r, g r) (funext v)
  simp only [Finset.prod_mul_distrib, lineEnds_eq] at h' v'
  rw [Finset.prod_comm (s := Finset.univ (α := Fin cols)),
    Finset.prod_comm (s := Finset.univ (α := Fin cols)),
    Finset.prod_comm (s := Finset.univ (α := Fin cols)),
    Finset.prod_comm (s := Finset.univ (α := Fin cols))] at v'
  rw [mul_mul_mul_comm (∏ r, ∏ i, f (.inl (r, i))), ← h', ← v']
  refine Eq.trans ?_ (ac2 (M := M) _ _ _ _ _ _)
  refine congrArg₂ (· * ·) rfl (congrArg₂ (· * ·) ?_ ?_)
  · exact Finset.prod_congr rfl fun r _ => Finset.prod_congr rfl fun i _ => if_congr Iff.rfl rfl rfl
  · exact Finset.prod_congr rfl fun r _ => Finset.prod_congr rfl fun i _ => if_congr Iff.rfl rfl rfl

end Products

/-! ## The site tensors -/

section Sites

variable {𝕜 : Type*} [RCLike 𝕜] {bc : BC} {rows cols : ℕ}

/-- no negative weight -/
def NonNeg (d : Diag) : Prop := ∀ i < d.dim, 0 ≤ d.val i

theorem sqrtDiag_none {d : Diag} : sqrtDiag d = none ↔ ¬ NonNeg d := by
  unfold sqrtDiag NonNeg
  split
  · next h =>
    obtain ⟨i, hi, h⟩ := h
    simp only [true_iff]
    exact fun hh => absurd (hh i hi) (not_le.2 h)
  · next h =>
    push Not at h
    simpa using h

theorem sqrtDiag_some {d : Diag} (h : NonNeg d) : ∃ e, sqrtDiag d = some e ∧ e.dim = d.dim ∧
    ∀ i < d.dim, e.val i = Real.sqrt (d.val i) := by
  have hn : ¬ ∃ i < d.dim, d.val i < 0 := by
    push Not
    exact h
  refine ⟨⟨d.dim, fun i => if 0 < d.val i then Real.sqrt (d.val i) else d.val i⟩,
    by rw [sqrtDiag, if_neg hn], rfl, fun i hi => ?_⟩
  dsimp only
  split
  · rfl
  · next h' =>
    rw [le_antisymm (not_lt.1 h') (h i hi), Real.sqrt_zero]

theorem toTpsSite_none {p : Peps 𝕜} {r c : ℕ} : toTpsSite p r c = none ↔
    ¬ (NonNeg (p.west r c) ∧ NonNeg (p.east r c) ∧ NonNeg (p.north r c) ∧
      NonNeg (p.south r c)) := by
  have key : ∀ d : Diag, NonNeg d ∨ ¬ NonNeg d := fun d => em _
  unfold toTpsSite
  rcases key (p.west r c) with h1 | h1
  swap
  · simp [sqrtDiag_none.2 h1, h1]
  rcases key (p.east r c) with h2 | h2
  swap
  · obtain ⟨a, e1, -⟩ := sqrtDiag_some h1
    simp [e1, sqrtDiag_none.2 h2, h2]
  rcases key (p.north r c) with h3 | h3
  swap
  · obtain ⟨a, e1, -⟩ := sqrtDiag_some h1
    obtain ⟨b, e2, -⟩ := sqrtDiag_some h2
    simp [e1, e2, sqrtDiag_none.2 h3, h3]
  obtain ⟨a, e1, -⟩ := sqrtDiag_some h1
  obtain ⟨b, e2, -⟩ := sqrtDiag_some h2
  obtain ⟨d, e3, -⟩ := sqrtDiag_some h3
  rcases key (p.south r c) with h4 | h4
  swap
  · simp [e1, e2, e3, sqrtDiag_none.2 h4, h4]
  obtain ⟨e, e4, -⟩ := sqrtDiag_some h4
  simp [e1, e2, e3, e4, h1, h2, h3, h4]

theorem toTpsSite_some {p : Peps 𝕜} {phys : Site rows cols → ℕ} {dim : Bond bc rows cols → ℕ}
    (hf : Fits p phys dim) (hw : ∀ b : Bond bc rows cols, NonNeg (weight p b))
    (s : Site rows cols) : ∃ T, toTpsSite p s.1 s.2 = some T ∧
      T.shape = [dim (leg bc s 0), dim (leg bc s 1), dim (leg bc s 2), dim (leg bc s 3), phys s] ∧
      ∀ (β : Bond bc rows cols → ℕ) (x : ℕ), (∀ b, β b < dim b) →
        T.elem (coords β s x) = (p.gamma s.1 s.2).elem (coords β s x) *
          ∏ k, ((Real.sqrt ((weight p (leg bc s k)).val (β (leg bc s k))) : ℝ) : 𝕜) := by
  obtain ⟨a, e1, a1, a2⟩ := sqrtDiag_some (hw (leg bc s 0))
  obtain ⟨b, e2, b1, b2⟩ := sqrtDiag_some (hw (leg bc s 2))
  obtain ⟨d, e3, d1, d2⟩ := sqrtDiag_some (hw (leg bc s 3))
  obtain ⟨e, e4, f1, f2⟩ := sqrtDiag_some (hw (leg bc s 1))
  rw [hf.weight] at a1 b1 d1 f1 a2 b2 d2 f2
  have hg := hf.shape s
  unfold toTpsSite
  rw [west_eq (bc := bc), north_eq (bc := bc), south_eq (bc := bc) hf.rows_eq hf.bc_eq,
    east_eq (bc := bc) hf.cols_eq hf.bc_eq, e1, e2, e3, e4]
  refine ⟨_, rfl, ?_, fun β x hβ => ?_⟩
  · rw [s1_54 (s0_54 (s0_54 (s1_53 hg _) _) _), a1, b1, d1, f1]
  · have h0 := hβ (leg bc s 0)
    have h1 := hβ (leg bc s 1)
    have h2 := hβ (leg bc s 2)
    have h3 := hβ (leg bc s 3)
    unfold coords
    rw [c1_54 (s0_54 (s0_54 (s1_53 hg _) _) _) _ (a1 ▸ h0), c0_54 (s0_54 (s1_53 hg _) _) _ (f1 ▸ h1),
      c0_54 (s1_53 hg _) _ (b1 ▸ h2), c1_53 hg _ (d1 ▸ h3), a2 _ h0, f2 _ h1, b2 _ h2, d2 _ h3,
      Fin.prod_univ_four]
    ring

end Sites

end QLPeps.Peps
