import Verif.Model.Tps
import Mathlib.Algebra.BigOperators.Group.Finset.Basic
import Mathlib.Data.Fintype.Pi
import Mathlib.Data.Fintype.BigOperators

/-!
# Specification: the wave function of a tensor product state

The amplitude of a configuration is the sum, over all values of all bonds, of the product of the
site tensors. Bonds are labelled by their position: the horizontal bond `(r, c)` is west of site
`(r, c)`, the vertical bond `(r, c)` is north of it. On an open lattice the bonds leaving the
lattice are labelled too; on a torus the last wraps to the first.
-/

namespace QLPeps.Tps.Spec

open QLPeps.State (BC)
open QLPeps.Tps (Tps)

/-- number of bond positions along a line of `n` sites -/
def slots (bc : BC) (n : ℕ) : ℕ := if bc = .obc then n + 1 else n

theorem slots_pos (bc : BC) (n : ℕ) (h : 0 < n) : 0 < slots bc n := by
  unfold slots; split <;> omega

theorem le_slots (bc : BC) (n : ℕ) : n ≤ slots bc n := by
  unfold slots; split <;> omega

/-- the bonds: horizontal ones, vertical ones -/
abbrev Bond (bc : BC) (rows cols : ℕ) :=
  (Fin rows × Fin (slots bc cols)) ⊕ (Fin (slots bc rows) × Fin cols)

abbrev Site (rows cols : ℕ) := Fin rows × Fin cols

/-- the four bonds of a site: west, south, east, north -/
def leg (bc : BC) {rows cols : ℕ} (s : Site rows cols) : Fin 4 → Bond bc rows cols
  | 0 => .inl (s.1, ⟨s.2, s.2.2.trans_le (le_slots bc cols)⟩)
  | 1 => .inr (⟨(s.1 + 1) % slots bc rows, Nat.mod_lt _ (slots_pos bc rows s.1.pos)⟩, s.2)
  | 2 => .inl (s.1, ⟨(s.2 + 1) % slots bc cols, Nat.mod_lt _ (slots_pos bc cols s.2.pos)⟩)
  | 3 => .inr (⟨s.1, s.1.2.trans_le (le_slots bc rows)⟩, s.2)

/-- a bond that leaves the open lattice -/
def external (bc : BC) {rows cols : ℕ} : Bond bc rows cols → Prop
  | .inl b => bc = .obc ∧ ((b.2 : ℕ) = 0 ∨ (b.2 : ℕ) = cols)
  | .inr b => bc = .obc ∧ ((b.1 : ℕ) = 0 ∨ (b.1 : ℕ) = rows)

/-- the tensors fit together: there are bond dimensions `dim` with which all shapes agree, and
external bonds have dimension one -/
def Fits {𝕜 : Type*} {bc : BC} {rows cols : ℕ} (ten : ℕ → ℕ → QLPeps.Tps.Ten 𝕜)
    (dim : Bond bc rows cols → ℕ) : Prop :=
  (∀ (s : Site rows cols) (k : Fin 4), (ten s.1 s.2).shape k.castSucc = dim (leg bc s k)) ∧
  ∀ b, external bc b → dim b = 1

/-- coordinates of a site tensor: the values of its bonds and the physical state -/
def coords {bc : BC} {rows cols : ℕ} (β : Bond bc rows cols → ℕ) (s : Site rows cols) (p : ℕ) :
    Fin 5 → ℕ := Fin.snoc (α := fun _ => ℕ) (fun k => β (leg bc s k)) p

/-- amplitude of a configuration -/
def amplitude {𝕜 : Type*} [CommSemiring 𝕜] {bc : BC} {rows cols : ℕ}
    (dim : Bond bc rows cols → ℕ) (ten : ℕ → ℕ → QLPeps.Tps.Ten 𝕜) (σ : Site rows cols → ℕ) : 𝕜 :=
  ∑ β ∈ Fintype.piFinset fun b => Finset.range (dim b),
    ∏ s : Site rows cols, (ten s.1 s.2).elem (coords β s (σ s))

/-- `ψ` is the wave function of the tensor product state `t` -/
def IsWave {𝕜 : Type*} [CommSemiring 𝕜] (t : Tps 𝕜) (ψ : (Site t.rows t.cols → ℕ) → 𝕜) : Prop :=
  ∃ dim : Bond t.bc t.rows t.cols → ℕ, Fits t.ten dim ∧ ∀ σ, ψ σ = amplitude dim t.ten σ

end QLPeps.Tps.Spec
