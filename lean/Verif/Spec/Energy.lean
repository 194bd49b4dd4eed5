import Verif.Model.Energy
import Verif.Spec.Lattice
import Mathlib.Algebra.BigOperators.Group.Finset.Basic
import Mathlib.Algebra.BigOperators.Pi
import Mathlib.Algebra.CharZero.Defs
import Mathlib.Data.Fintype.Pi

/-!
# Specification: lattice Hamiltonians of spins 1/2 and expectation values

Local states are `0` (down) and `1` (up), as everywhere in the code.  A wave function is a
function from spin configurations to scalars; operators act on wave functions.
-/

namespace QLPeps.Spec

open Finset

variable {K : Type*}

/-! ### Geometry -/

/-- `b` is the right neighbour of `a` -/
def RightOf (a b : Site) : Prop := b = (a.1, a.2 + 1)
/-- `b` is the site below `a` -/
def Below (a b : Site) : Prop := b = (a.1 + 1, a.2)
/-- `b` is diagonally below `a`, one column to the right -/
def DownRight (a b : Site) : Prop := b = (a.1 + 1, a.2 + 1)
/-- `b` is diagonally above `a`, one column to the right -/
def UpRight (a b : Site) : Prop := a.1 = b.1 + 1 ∧ b.2 = a.2 + 1
/-- `b` is one row above and two columns to the right of `a` -/
def UpRight2 (a b : Site) : Prop := a.1 = b.1 + 1 ∧ b.2 = a.2 + 2
/-- `b` is two rows above and one column to the right of `a` -/
def Up2Right (a b : Site) : Prop := a.1 = b.1 + 2 ∧ b.2 = a.2 + 1

/-- on the torus: `b` is the right neighbour of `a`, wrapping around -/
def TorusRight (_rows cols : ℕ) (a b : Site) : Prop := b = (a.1, (a.2 + 1) % cols)
/-- on the torus: `b` is below `a` -/
def TorusBelow (rows _cols : ℕ) (a b : Site) : Prop := b = ((a.1 + 1) % rows, a.2)
/-- on the torus: `b` is below and to the right of `a` -/
def TorusDownRight (rows cols : ℕ) (a b : Site) : Prop := b = ((a.1 + 1) % rows, (a.2 + 1) % cols)
/-- on the torus: `b` is below `a`, and `a` is in the column to the right of `b`'s -/
def TorusDownLeft (rows cols : ℕ) (a b : Site) : Prop :=
  b.1 = (a.1 + 1) % rows ∧ b.2 < cols ∧ a.2 = (b.2 + 1) % cols

instance (a b : Site) : Decidable (RightOf a b) := by unfold RightOf; infer_instance
instance (a b : Site) : Decidable (Below a b) := by unfold Below; infer_instance
instance (a b : Site) : Decidable (DownRight a b) := by unfold DownRight; infer_instance
instance (a b : Site) : Decidable (UpRight a b) := by unfold UpRight; infer_instance
instance (a b : Site) : Decidable (UpRight2 a b) := by unfold UpRight2; infer_instance
instance (a b : Site) : Decidable (Up2Right a b) := by unfold Up2Right; infer_instance
instance (m n : ℕ) (a b : Site) : Decidable (TorusRight m n a b) := by
  unfold TorusRight; infer_instance
instance (m n : ℕ) (a b : Site) : Decidable (TorusBelow m n a b) := by
  unfold TorusBelow; infer_instance
instance (m n : ℕ) (a b : Site) : Decidable (TorusDownRight m n a b) := by
  unfold TorusDownRight; infer_instance
instance (m n : ℕ) (a b : Site) : Decidable (TorusDownLeft m n a b) := by
  unfold TorusDownLeft; infer_instance

/-- `a` and `b` are diagonal neighbours on the open lattice: rows and columns differ by one -/
def Diagonal (rows cols : ℕ) (a b : Site) : Prop :=
  InLattice rows cols a ∧ InLattice rows cols b ∧
    (a.1 = b.1 + 1 ∨ b.1 = a.1 + 1) ∧ (a.2 = b.2 + 1 ∨ b.2 = a.2 + 1)

/-- cyclically adjacent numbers below `n` -/
def CycAdj (n x y : ℕ) : Prop := (x + 1) % n = y ∨ (y + 1) % n = x

/-- `a` and `b` are nearest neighbours on the torus -/
def TorusAdjacent (rows cols : ℕ) (a b : Site) : Prop :=
  InLattice rows cols a ∧ InLattice rows cols b ∧
    ((a.1 = b.1 ∧ CycAdj cols a.2 b.2) ∨ (a.2 = b.2 ∧ CycAdj rows a.1 b.1))

/-- `a` and `b` are diagonal neighbours on the torus -/
def TorusDiagonal (rows cols : ℕ) (a b : Site) : Prop :=
  InLattice rows cols a ∧ InLattice rows cols b ∧ CycAdj rows a.1 b.1 ∧ CycAdj cols a.2 b.2

/-- the bond `x` joins the two sites `a` and `b` (in either order) -/
def Joins (a b : Site) (x : Energy.Bond) : Prop := (x.a = a ∧ x.b = b) ∨ (x.a = b ∧ x.b = a)

instance (a b : Site) (x : Energy.Bond) : Decidable (Joins a b x) := by
  unfold Joins; infer_instance

/-! ### Spin operators -/

/-- spin configurations of the lattice -/
abbrev SpinCfg (rows cols : ℕ) := ↥(sites rows cols) → Fin 2

/-- the configuration as the code stores it -/
def toConfig {rows cols : ℕ} (s : SpinCfg rows cols) : Config :=
  fun p => if h : p ∈ sites rows cols then (s ⟨p, h⟩ : ℕ) else 0

section ops
variable [Field K] {ι : Type*} [DecidableEq ι]

/-- `S^z_a` -/
def Sz (a : ι) (f : (ι → Fin 2) → K) : (ι → Fin 2) → K :=
  fun s => (if s a = 1 then 1 / 2 else -(1 / 2)) * f s

/-- `S^+_a`: raises `0` to `1` -/
def Sp (a : ι) (f : (ι → Fin 2) → K) : (ι → Fin 2) → K :=
  fun s => if s a = 1 then f (Function.update s a 0) else 0

/-- `S^-_a`: lowers `1` to `0` -/
def Sm (a : ι) (f : (ι → Fin 2) → K) : (ι → Fin 2) → K :=
  fun s => if s a = 0 then f (Function.update s a 1) else 0

/-- `σ^z_a = 2 S^z_a` -/
def sigmaZ (a : ι) (f : (ι → Fin 2) → K) : (ι → Fin 2) → K :=
  fun s => (if s a = 1 then 1 else -1) * f s

/-- `σ^x_a`: flips the spin -/
def sigmaX (a : ι) (f : (ι → Fin 2) → K) : (ι → Fin 2) → K :=
  fun s => f (Function.update s a (1 - s a))

/-- `Jz S^z_a S^z_b + Jxy (S^x_a S^x_b + S^y_a S^y_b)`, with
`S^x S^x + S^y S^y = (S^+ S^- + S^- S^+) / 2` -/
def exchange (jz jxy : K) (a b : ι) (f : (ι → Fin 2) → K) : (ι → Fin 2) → K :=
  fun s => jz * Sz a (Sz b f) s + jxy * (1 / 2 * (Sp a (Sm b f) s + Sm a (Sp b f) s))

end ops

section ham
variable [Field K] {rows cols : ℕ}

/-- `Σ` over the ordered pairs of lattice sites in relation `R` of the exchange coupling -/
def coupling (R : Site → Site → Prop) [∀ a b, Decidable (R a b)] (jz jxy : K)
    (f : SpinCfg rows cols → K) (s : SpinCfg rows cols) : K :=
  ∑ a : ↥(sites rows cols), ∑ b : ↥(sites rows cols),
    if R a b then exchange jz jxy a b f s else 0

/-- `- h S^z` at the corner site `(0, 0)` -/
def pinning (h : K) (f : SpinCfg rows cols → K) (s : SpinCfg rows cols) : K :=
  ∑ a : ↥(sites rows cols), if (a : Site) = (0, 0) then -h * Sz a f s else 0

/-- XXZ model with nearest and next-nearest neighbour couplings on the open lattice -/
def xxzH (jz jxy jz2 jxy2 h : K) (f : SpinCfg rows cols → K) (s : SpinCfg rows cols) : K :=
  coupling RightOf jz jxy f s + coupling Below jz jxy f s +
    coupling DownRight jz2 jxy2 f s + coupling UpRight jz2 jxy2 f s + pinning h f s

/-- the same on the torus: every site is coupled to its right and lower neighbour and to its two
lower diagonal neighbours -/
def torusXXZH (jz jxy jz2 jxy2 h : K) (f : SpinCfg rows cols → K) (s : SpinCfg rows cols) : K :=
  coupling (TorusRight rows cols) jz jxy f s + coupling (TorusBelow rows cols) jz jxy f s +
    coupling (TorusDownRight rows cols) jz2 jxy2 f s +
    coupling (TorusDownLeft rows cols) jz2 jxy2 f s + pinning h f s

/-- Heisenberg model on the triangular lattice drawn on the square lattice with the diagonals
`a – (one up, one right)` -/
def triangularH (f : SpinCfg rows cols → K) (s : SpinCfg rows cols) : K :=
  coupling RightOf 1 1 f s + coupling Below 1 1 f s + coupling UpRight 1 1 f s

/-- J1-J2 Heisenberg model on that triangular lattice: its second neighbours are the other
diagonal and the two knight's moves across a bond -/
def triangularJ1J2H (j2 : K) (f : SpinCfg rows cols → K) (s : SpinCfg rows cols) : K :=
  triangularH f s +
    (coupling DownRight j2 j2 f s + coupling UpRight2 j2 j2 f s + coupling Up2Right j2 j2 f s)

/-- `Σ` over the ordered pairs in relation `R` of `- σ^z σ^z` -/
def ising (R : Site → Site → Prop) [∀ a b, Decidable (R a b)]
    (f : SpinCfg rows cols → K) (s : SpinCfg rows cols) : K :=
  ∑ a : ↥(sites rows cols), ∑ b : ↥(sites rows cols),
    if R a b then -sigmaZ a (sigmaZ b f) s else 0

/-- `- h Σ σ^x` -/
def transverse (h : K) (f : SpinCfg rows cols → K) (s : SpinCfg rows cols) : K :=
  ∑ a : ↥(sites rows cols), -h * sigmaX a f s

/-- transverse-field Ising model, open boundaries -/
def tfimH (h : K) (f : SpinCfg rows cols → K) (s : SpinCfg rows cols) : K :=
  ising RightOf f s + ising Below f s + transverse h f s

/-- transverse-field Ising model on the torus -/
def torusTfimH (h : K) (f : SpinCfg rows cols → K) (s : SpinCfg rows cols) : K :=
  ising (TorusRight rows cols) f s + ising (TorusBelow rows cols) f s + transverse h f s

/-- `⟨ψ| H |ψ⟩` -/
def braket [StarRing K] (H : (SpinCfg rows cols → K) → SpinCfg rows cols → K)
    (ψ : SpinCfg rows cols → K) : K :=
  ∑ s, star (ψ s) * H ψ s

/-- `|ψ(s)|²` -/
def weight [StarRing K] (ψ : SpinCfg rows cols → K) (s : SpinCfg rows cols) : K :=
  star (ψ s) * ψ s

end ham

/-- the contractor without truncation error for the wave function `ψ` and the sample `cfg`: every
trace is the amplitude of the configuration it stands for -/
def exact (ψ : Config → K) (cfg : Config) : Energy.Contr K where
  trRow _ := ψ cfg
  trCol _ := ψ cfg
  ex a b := ψ (Function.update (Function.update cfg a (cfg b)) b (cfg a))
  flip a := ψ (Function.update cfg a (1 - cfg a))

end QLPeps.Spec
