import Verif.Model.State

/-!
# Specification for the split-index tensor-product state

A state as the table of all its site tensors, a default-constructed component counting as zero.
-/

namespace QLPeps.State

variable {Ten : Type*}

/-- a non-empty lattice with `d` components at every site -/
def Uniform (d : ℕ) (a : Sitps Ten) : Prop :=
  0 < a.rows ∧ 0 < a.cols ∧ ∀ r < a.rows, ∀ c < a.cols, (a.comps r c).length = d

/-- the tensor of component `i` at a site, zero if it is default-constructed -/
def Sitps.vec [Zero Ten] (a : Sitps Ten) (r c i : ℕ) : Ten := (a.comp r c i).getD 0

/-- `x` is a state on the lattice of `a` with `d` components everywhere whose tensors are `f` -/
def Has (x : Option (Sitps Ten)) [Zero Ten] (a : Sitps Ten) (d : ℕ) (f : ℕ → ℕ → ℕ → Ten) : Prop :=
  ∃ s, x = some s ∧ s.rows = a.rows ∧ s.cols = a.cols ∧ Uniform d s ∧
    ∀ r < a.rows, ∀ c < a.cols, ∀ i < d, s.vec r c i = f r c i

/-- two states agree in everything a user can observe -/
def Same (a b : Sitps Ten) : Prop :=
  a.rows = b.rows ∧ a.cols = b.cols ∧ a.bc = b.bc ∧
    ∀ r < a.rows, ∀ c < a.cols, a.comps r c = b.comps r c

section
variable {𝕜 : Type*} [RCLike 𝕜] [NormedAddCommGroup Ten] [InnerProductSpace 𝕜 Ten]

/-- an amplitude (as a function of the projected network) that is homogeneous in the tensor of
every site of the lattice: what an exact contraction is -/
def Homogeneous (rows cols : ℕ) (Ψ : (ℕ × ℕ → Ten) → 𝕜) : Prop :=
  (∀ t t' : ℕ × ℕ → Ten, (∀ r < rows, ∀ c < cols, t (r, c) = t' (r, c)) → Ψ t = Ψ t') ∧
  ∀ (t : ℕ × ℕ → Ten) (r c : ℕ), r < rows → c < cols → ∀ k : 𝕜,
    Ψ (Function.update t (r, c) (k • t (r, c))) = k * Ψ t

/-- amplitude of configuration `S` in the state `a` -/
def ampOf (Ψ : (ℕ × ℕ → Ten) → 𝕜) (a : Sitps Ten) (S : ℕ × ℕ → ℕ) : 𝕜 :=
  Ψ fun s => a.vec s.1 s.2 (S s)

/-- sum of the squared norms of the components of a site -/
noncomputable def siteNormSq (a : Sitps Ten) (r c d : ℕ) : ℝ :=
  ∑ i ∈ Finset.range d, ‖a.vec r c i‖ ^ 2

end

end QLPeps.State
