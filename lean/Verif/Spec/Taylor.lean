import Verif.Model.Taylor
import Mathlib.Analysis.Normed.Algebra.MatrixExponential
import Mathlib.Analysis.Matrix.Normed

/-!
# Specification: the evolution gate is an exponential

Tensors of an operator on several sites come in two layouts: the Hamiltonian has the legs
`(in 0, out 0, in 1, out 1, …)`, the gate has `(in 0, in 1, …, out 0, out 1, …)`.
-/

namespace QLPeps.Taylor.Spec

open QLPeps.Taylor (Ten)

variable {𝕜 : Type*} [RCLike 𝕜]

/-- a basis state: one coordinate below the dimension of each site -/
abbrev State (dims : List ℕ) := {x : List ℕ // List.Forall₂ (· < ·) x dims}

theorem mem_allCoors (dims x : List ℕ) :
    x ∈ QLPeps.Taylor.allCoors dims ↔ List.Forall₂ (· < ·) x dims := by
  induction dims generalizing x with
  | nil => simp [QLPeps.Taylor.allCoors]
  | cons d ds ih =>
    cases x with
    | nil => simp [QLPeps.Taylor.allCoors]
    | cons a x => simp [QLPeps.Taylor.allCoors, ih]

/-- there are finitely many basis states -/
instance (dims : List ℕ) : Fintype (State dims) :=
  Fintype.subtype (QLPeps.Taylor.allCoors dims).toFinset
    (by intro x; rw [List.mem_toFinset, mem_allCoors])

/-- `(x₀, y₀, x₁, y₁, …)` -/
def interleave (x y : List ℕ) : List ℕ := (x.zip y).flatMap fun p => [p.1, p.2]

/-- the operator of a Hamiltonian tensor -/
def hamOp (dims : List ℕ) (ham : Ten 𝕜) : Matrix (State dims) (State dims) 𝕜 :=
  fun x y => ham (interleave x.1 y.1)

/-- the operator of a gate tensor -/
def gateOp (dims : List ℕ) (g : Ten 𝕜) : Matrix (State dims) (State dims) 𝕜 :=
  fun x y => g (x.1 ++ y.1)

end QLPeps.Taylor.Spec
