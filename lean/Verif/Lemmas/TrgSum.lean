import Mathlib.Algebra.BigOperators.Ring.Finset
import Mathlib.Algebra.BigOperators.Fin
import Mathlib.Data.Fintype.BigOperators
import Mathlib.Data.Fintype.Pi
import Mathlib.Tactic.FinCases

/-!
# One step of the renormalization: splitting nodes and regrouping the halves
-/

namespace QLPeps.Trg

variable {R : Type*} [CommSemiring R]

/-- sums over labels may be relabelled -/
theorem sum_relabel {B C : Type*} [Fintype B] [DecidableEq B] [Fintype C] [DecidableEq C] (e : C ≃ B) (d : B → ℕ)
    (g : (B → ℕ) → R) :
    ∑ β ∈ Fintype.piFinset (fun b => Finset.range (d b)), g β =
      ∑ γ ∈ Fintype.piFinset (fun c => Finset.range (d (e c))), g fun b => γ (e.symm b) := by
  refine Finset.sum_bij' (fun β _ c => β (e c)) (fun γ _ b => γ (e.symm b)) ?_ ?_ ?_ ?_ ?_
  · intro β hβ
    rw [Fintype.mem_piFinset] at hβ ⊢
    exact fun c => hβ (e c)
  · intro γ hγ
    rw [Fintype.mem_piFinset] at hγ ⊢
    intro b
    have := hγ (e.symm b)
    rwa [e.apply_symm_apply] at this
  · intro β _; funext b; simp
  · intro γ _; funext c; simp
  · intro β _
    congr 1
    funext b; simp

/-- sums over labels of pairs -/
theorem sum_pairs {W : Type*} [Fintype W] [DecidableEq W] {k : ℕ} (d : W × Fin k → ℕ) (g : W → (Fin k → ℕ) → R) :
    ∑ γ ∈ Fintype.piFinset (fun c => Finset.range (d c)), ∏ w, g w (fun i => γ (w, i)) =
      ∏ w, ∑ x ∈ Fintype.piFinset (fun i => Finset.range (d (w, i))), g w x := by
  rw [Finset.prod_univ_sum]
  refine Finset.sum_bij' (fun γ _ w i => γ (w, i)) (fun x _ c => x c.1 c.2) ?_ ?_ ?_ ?_ ?_
  · intro γ hγ
    simp only [Fintype.mem_piFinset] at hγ ⊢
    exact fun w i => hγ (w, i)
  · intro x hx
    simp only [Fintype.mem_piFinset] at hx ⊢
    exact fun c => hx c.1 c.2
  · intro γ _; rfl
  · intro x _; rfl
  · intro γ _; rfl

/-- a sum over the labels of four bonds -/
theorem sum_fin4 (d : Fin 4 → ℕ) (g : (Fin 4 → ℕ) → R) :
    ∑ x ∈ Fintype.piFinset (fun i => Finset.range (d i)), g x =
      ∑ a ∈ Finset.range (d 0), ∑ b ∈ Finset.range (d 1), ∑ c ∈ Finset.range (d 2), ∑ e ∈ Finset.range (d 3),
        g ![a, b, c, e] := by
  simp only [Finset.sum_sigma']
  refine Finset.sum_bij' (fun x _ => ⟨x 0, x 1, x 2, x 3⟩) (fun y _ => ![y.1, y.2.1, y.2.2.1, y.2.2.2]) ?_ ?_ ?_ ?_ ?_
  · intro x hx
    simp only [Fintype.mem_piFinset, Finset.mem_sigma] at hx ⊢
    exact ⟨hx 0, hx 1, hx 2, hx 3⟩
  · rintro ⟨a, b, c, e⟩ hy
    simp only [Fintype.mem_piFinset, Finset.mem_sigma] at hy ⊢
    intro i
    fin_cases i
    · exact hy.1
    · exact hy.2.1
    · exact hy.2.2.1
    · exact hy.2.2.2
  · intro x _
    funext i
    fin_cases i <;> rfl
  · intro y _; rfl
  · intro x _
    congr 1
    funext i
    fin_cases i <;> rfl

/-- **One step.** Every node `v` is the sum of products of its halves over a new label. The bonds are divided among
the coarse nodes `w`, four to each; so are the halves, two of each kind, and the halves of `w` depend on the
bonds of `w` only. Then the sum over the bonds may be done within the coarse nodes. -/
theorem regroup {V B W : Type*} [Fintype V] [DecidableEq V] [Fintype B] [DecidableEq B] [Fintype W] [DecidableEq W]
    (d : B → ℕ) (D : V → ℕ) (f : V → (B → ℕ) → R) (P Q : V → (B → ℕ) → ℕ → R)
    (hf : ∀ β ∈ Fintype.piFinset (fun b => Finset.range (d b)), ∀ v, f v β = ∑ a ∈ Finset.range (D v), P v β a * Q v β a)
    (e : W × Fin 4 → B) (he : Function.Bijective e)
    (p q : W × Fin 2 → V) (hp : Function.Bijective p) (hq : Function.Bijective q)
    (T : W → (V → ℕ) → R)
    (H : W → (V → ℕ) → (Fin 4 → ℕ) → R)
    (hH : ∀ w α (β : B → ℕ), H w α (fun k => β (e (w, k))) =
      P (p (w, 0)) β (α (p (w, 0))) * P (p (w, 1)) β (α (p (w, 1))) *
        (Q (q (w, 0)) β (α (q (w, 0))) * Q (q (w, 1)) β (α (q (w, 1)))))
    (hT : ∀ w, ∀ α ∈ Fintype.piFinset (fun v => Finset.range (D v)),
      T w α = ∑ a ∈ Finset.range (d (e (w, 0))), ∑ b ∈ Finset.range (d (e (w, 1))),
        ∑ c ∈ Finset.range (d (e (w, 2))), ∑ x ∈ Finset.range (d (e (w, 3))), H w α ![a, b, c, x]) :
    ∑ β ∈ Fintype.piFinset (fun b => Finset.range (d b)), ∏ v, f v β =
      ∑ α ∈ Fintype.piFinset (fun v => Finset.range (D v)), ∏ w, T w α := by
  have h1 : ∀ β ∈ Fintype.piFinset (fun b => Finset.range (d b)), ∏ v, f v β =
      ∑ α ∈ Fintype.piFinset (fun v => Finset.range (D v)), ∏ v, (P v β (α v) * Q v β (α v)) := by
    intro β hβ
    rw [Finset.prod_congr rfl fun v _ => hf β hβ v, Finset.prod_univ_sum]
  rw [Finset.sum_congr rfl h1, Finset.sum_comm]
  refine Finset.sum_congr rfl fun α hα => ?_
  have h2 : ∀ β : B → ℕ, ∏ v, (P v β (α v) * Q v β (α v)) = ∏ w, H w α (fun k => β (e (w, k))) := by
    intro β
    rw [Finset.prod_mul_distrib, ← hp.prod_comp (fun v => P v β (α v)), ← hq.prod_comp (fun v => Q v β (α v)),
      Fintype.prod_prod_type, Fintype.prod_prod_type, ← Finset.prod_mul_distrib]
    refine Finset.prod_congr rfl fun w _ => ?_
    rw [Fin.prod_univ_two, Fin.prod_univ_two, hH]
  simp only [h2]
  rw [sum_relabel (Equiv.ofBijective e he)]
  have h3 : ∀ γ : W × Fin 4 → ℕ, ∏ w, H w α (fun k => γ ((Equiv.ofBijective e he).symm (e (w, k)))) =
      ∏ w, H w α (fun k => γ (w, k)) := by
    intro γ
    refine Finset.prod_congr rfl fun w _ => ?_
    congr 1
    funext k
    congr 1
    exact (Equiv.ofBijective e he).symm_apply_apply (w, k)
  simp only [h3]
  rw [sum_pairs (fun c => d (Equiv.ofBijective e he c)) fun w => H w α]
  refine Finset.prod_congr rfl fun w _ => ?_
  rw [sum_fin4, hT w α hα]
  rfl

end QLPeps.Trg
