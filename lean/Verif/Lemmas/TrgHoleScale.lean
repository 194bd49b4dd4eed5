import Verif.Lemmas.TrgHoleLast
import Verif.Lemmas.TrgRun

/-!
# One scale of the backward pass
-/

namespace QLPeps.Trg

open QLPeps.Peps (Tn Diag Lib Svd contractN transpose dag diagInv)
open Spec (pair)

noncomputable section

variable {𝕜 : Type} [RCLike 𝕜]

theorem pair_add (a b t : Tn 𝕜) : pair (addTen a b) t = pair a t + pair b t := by
  unfold pair addTen
  dsimp only
  simp only [add_mul, Finset.sum_add_distrib]

theorem pair_scale (a t : Tn 𝕜) (k : 𝕜) : pair (scaleTen a k) t = pair a t * k := by
  unfold pair scaleTen
  dsimp only
  simp only [Finset.sum_mul]
  refine Finset.sum_congr rfl fun _ _ => Finset.sum_congr rfl fun _ _ => Finset.sum_congr rfl fun _ _ =>
    Finset.sum_congr rfl fun _ _ => by ring

/-- an accumulator of holes of `t` that each pair to `Z` -/
def Good (t : Tn 𝕜) (Z : 𝕜) (a : Acc 𝕜) : Prop :=
  (a.1 = none ∧ a.2 = 0) ∨ ∃ x, a.1 = some x ∧ a.2 ≠ 0 ∧ x.shape = t.shape ∧ pair x t = a.2 * Z

theorem Good.add {t : Tn 𝕜} {Z : 𝕜} {a : Acc 𝕜} (ha : Good t Z a) {y : Tn 𝕜} (hy : y.shape = t.shape)
    (hp : pair y t = Z) : Good t Z (addHole a y) ∧ (addHole a y).2 = a.2 + 1 := by
  obtain ⟨x, n⟩ := a
  rcases ha with ⟨h1, h2⟩ | ⟨x', h1, h2, h3, h4⟩
  · dsimp only at h1 h2
    subst h1 h2
    exact ⟨Or.inr ⟨y, rfl, by simp [addHole], hy, by simp [addHole, hp]⟩, rfl⟩
  · dsimp only at h1 h2 h3 h4
    subst h1
    refine ⟨Or.inr ⟨addTen x' y, rfl, by simp [addHole], h3, ?_⟩, rfl⟩
    rw [pair_add, h4, hp]
    simp only [addHole]
    push_cast
    ring

theorem Good.average {t : Tn 𝕜} {Z : 𝕜} {a : Acc 𝕜} (ha : Good t Z a) (h0 : a.2 ≠ 0) :
    (average a).shape = t.shape ∧ pair (average a) t = Z := by
  obtain ⟨x, n⟩ := a
  rcases ha with ⟨-, h2⟩ | ⟨x', h1, h2, h3, h4⟩
  · exact absurd h2 h0
  · dsimp only at h1 h2 h3 h4
    subst h1
    unfold Trg.average
    dsimp only
    by_cases h : 1 < n
    · rw [if_pos h]
      refine ⟨h3, ?_⟩
      rw [pair_scale, h4]
      have : (n : 𝕜) ≠ 0 := by exact_mod_cast h2
      field_simp
    · rw [if_neg h]
      obtain rfl : n = 1 := by omega
      exact ⟨h3, by rw [h4]; simp⟩

/-- which piece of a child goes into its parent -/
def roleP (s k : ℕ) : Bool := if s % 2 = 0 then k == 2 || k == 3 else k == 0 || k == 1

/-- the holes of the pieces of the children of `w` -/
def piecesOf (lib : Lib 𝕜) (cols s : ℕ) (fine coarse : Scale (Tn 𝕜) (Tn 𝕜) (Iso 𝕜)) (t : ℕ → Tn 𝕜) (h : Tn 𝕜) (w : ℕ) :
    ℕ → Tn 𝕜 :=
  let d := fun k => let f := (coarse.c2f w).getD k 0; splitPieces lib (ty cols s fine coarse f) (t f)
  if s % 2 = 0 then plaqBack h (d 0).2 (d 1).2 (d 2).1 (d 3).1 else diamBack h (d 0).1 (d 1).1 (d 2).2 (d 3).2

/-- the contribution of `w` to its child number `k` -/
def contrib (lib : Lib 𝕜) (e τ : ℝ) (cols s : ℕ) (fine coarse : Scale (Tn 𝕜) (Tn 𝕜) (Iso 𝕜)) (t : ℕ → Tn 𝕜) (h : Tn 𝕜)
    (w k : ℕ) : Tn 𝕜 :=
  let f := (coarse.c2f w).getD k 0
  pull (ty cols s fine coarse f) (isoPieces lib e τ (ty cols s fine coarse f) (t f)) (roleP s k)
    (piecesOf lib cols s fine coarse t h w k)

section
variable {lib : Lib 𝕜} {e τ : ℝ} {cols s : ℕ} {fine coarse : Scale (Tn 𝕜) (Tn 𝕜) (Iso 𝕜)} (hl : Link cols s fine coarse)
  {t : ℕ → Tn 𝕜} (hs : ∀ i < fine.size, fine.split i = some (mk (tensorOps lib e τ) true (ty cols s fine coarse i) (t i)))
include hl hs

theorem backPieces_ok {w : ℕ} (hw : w < coarse.size) (h : Tn 𝕜) :
    backPieces fine s h (coarse.c2f w) = .ok (piecesOf lib cols s fine coarse t h w) := by
  unfold backPieces piecesOf
  rw [hs _ (hl.child_lt hw (k := 0) (by omega)), hs _ (hl.child_lt hw (k := 1) (by omega)),
    hs _ (hl.child_lt hw (k := 2) (by omega)), hs _ (hl.child_lt hw (k := 3) (by omega))]
  dsimp only
  by_cases h : s % 2 = 0
  · rw [if_pos h, if_pos h]; rfl
  · rw [if_neg h, if_neg h]; rfl

theorem backChild_ok {w : ℕ} (hw : w < coarse.size) (h : Tn 𝕜) {k : ℕ} (hk : k < 4) (acc : ℕ → Acc 𝕜) :
    backChild fine s (piecesOf lib cols s fine coarse t h w) (coarse.c2f w) acc k =
      .ok (Function.update acc ((coarse.c2f w).getD k 0) (addHole (acc ((coarse.c2f w).getD k 0))
        (contrib lib e τ cols s fine coarse t h w k))) := by
  unfold backChild
  rw [hs _ (hl.child_lt hw hk)]
  rfl

variable {holes x : ℕ → Tn 𝕜} {Z : 𝕜}
  (hk : ∀ w < coarse.size, ∀ k < 4,
    (contrib lib e τ cols s fine coarse t (holes w) w k).shape = (x ((coarse.c2f w).getD k 0)).shape ∧
    pair (contrib lib e τ cols s fine coarse t (holes w) w k) (x ((coarse.c2f w).getD k 0)) = Z)
include hk

theorem backNode_ok {w : ℕ} (hw : w < coarse.size) {acc : ℕ → Acc 𝕜} (ha : ∀ i, Good (x i) Z (acc i)) :
    ∃ acc', backNode fine coarse s holes acc w = .ok acc' ∧ (∀ i, Good (x i) Z (acc' i)) ∧
      (∀ i, (acc i).2 ≤ (acc' i).2) ∧ ∀ k < 4, (acc' ((coarse.c2f w).getD k 0)).2 ≠ 0 := by
  unfold backNode
  rw [backPieces_ok hl hs hw]
  dsimp only
  have : ∀ l : List ℕ, (∀ k ∈ l, k < 4) → ∀ acc : ℕ → Acc 𝕜, (∀ i, Good (x i) Z (acc i)) →
      ∃ acc', l.foldlM (backChild fine s (piecesOf lib cols s fine coarse t (holes w) w) (coarse.c2f w)) acc = .ok acc' ∧
        (∀ i, Good (x i) Z (acc' i)) ∧ (∀ i, (acc i).2 ≤ (acc' i).2) ∧
        ∀ k ∈ l, (acc' ((coarse.c2f w).getD k 0)).2 ≠ 0 := by
    intro l
    induction l with
    | nil => intro _ acc ha; exact ⟨acc, rfl, ha, fun _ => le_rfl, by simp⟩
    | cons k l ih =>
      intro hl4 acc ha
      have hk4 := hl4 k (by simp)
      rw [List.foldlM_cons, backChild_ok hl hs hw (holes w) hk4]
      obtain ⟨c1, c2⟩ := hk w hw k hk4
      generalize hf : (coarse.c2f w).getD k 0 = f at *
      obtain ⟨a1, a2⟩ := (ha f).add c1 c2
      obtain ⟨acc', e1, e2, e3, e4⟩ := ih (fun j hj => hl4 j (by simp [hj]))
        (Function.update acc f (addHole (acc f) (contrib lib e τ cols s fine coarse t (holes w) w k))) (fun i => by
          by_cases h : i = f
          · subst h; rw [Function.update_self]; exact a1
          · rw [Function.update_of_ne h]; exact ha i)
      refine ⟨acc', e1, e2, fun i => ?_, ?_⟩
      · have := e3 i
        by_cases h : i = f
        · subst h; rw [Function.update_self, a2] at this; omega
        · rwa [Function.update_of_ne h] at this
      · intro j hj
        rcases List.mem_cons.1 hj with rfl | hj
        · have := e3 f
          rw [Function.update_self, a2] at this
          rw [hf]; omega
        · exact e4 j hj
  obtain ⟨acc', e1, e2, e3, e4⟩ := this (List.range 4) (fun k hk => List.mem_range.1 hk) acc ha
  exact ⟨acc', e1, e2, e3, fun k hk => e4 k (List.mem_range.2 hk)⟩

theorem backScale_ok : ∃ H, backScale fine coarse s holes = .ok H ∧
    ∀ i < fine.size, (H i).shape = (x i).shape ∧ pair (H i) (x i) = Z := by
  have : ∀ l : List ℕ, (∀ w ∈ l, w < coarse.size) → ∀ acc : ℕ → Acc 𝕜, (∀ i, Good (x i) Z (acc i)) →
      ∃ acc', l.foldlM (backNode fine coarse s holes) acc = .ok acc' ∧
        (∀ i, Good (x i) Z (acc' i)) ∧ (∀ i, (acc i).2 ≤ (acc' i).2) ∧
        ∀ w ∈ l, ∀ k < 4, (acc' ((coarse.c2f w).getD k 0)).2 ≠ 0 := by
    intro l
    induction l with
    | nil => intro _ acc ha; exact ⟨acc, rfl, ha, fun _ => le_rfl, by simp⟩
    | cons w l ih =>
      intro hlw acc ha
      obtain ⟨a1, e1, g1, m1, d1⟩ := backNode_ok hl hs hk (hlw w (by simp)) ha
      obtain ⟨a2, e2, g2, m2, d2⟩ := ih (fun j hj => hlw j (by simp [hj])) a1 g1
      rw [List.foldlM_cons, e1]
      refine ⟨a2, e2, g2, fun i => (m1 i).trans (m2 i), ?_⟩
      intro j hj k hk4
      rcases List.mem_cons.1 hj with rfl | hj
      · have := m2 ((coarse.c2f j).getD k 0)
        have := d1 k hk4
        omega
      · exact d2 j hj k hk4
  obtain ⟨acc, e1, g1, -, d1⟩ := this (List.range coarse.size) (fun w hw => List.mem_range.1 hw) (fun _ => (none, 0))
    (fun _ => Or.inl ⟨rfl, rfl⟩)
  have hne : ∀ i < fine.size, (acc i).2 ≠ 0 := fun i hi => by
    obtain ⟨p1, p2, h1, h2, hp, hmem⟩ := hl.parents i hi
    obtain ⟨k, hk4, hf⟩ := mem_getD ((hmem p1 h1).2 (Or.inl rfl))
    rw [hl.len p1 h1] at hk4
    have := d1 p1 (List.mem_range.2 h1) k hk4
    rwa [hf] at this
  unfold backScale
  rw [e1]
  dsimp only
  rw [if_neg (by
    rw [List.any_eq_true]
    rintro ⟨i, hi, h⟩
    exact hne i (List.mem_range.1 hi) (by simpa using h))]
  exact ⟨_, rfl, fun i hi => (g1 i).average (hne i hi)⟩

end

end

end QLPeps.Trg
