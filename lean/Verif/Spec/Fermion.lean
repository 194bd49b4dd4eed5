import Verif.Model.Fermion
import Verif.Spec.Energy
import Mathlib.Algebra.Module.LinearMap.End
import Mathlib.Algebra.Module.Pi
import Mathlib.Algebra.BigOperators.Ring.Finset
import Mathlib.Data.Fintype.Pi
import Mathlib.Data.Fintype.Prod

/-!
# Specification: fermions

Fock space over finitely many modes, creation and annihilation operators (Jordan–Wigner), the
textbook Hamiltonians of the Hubbard, t-J and spinless-fermion models, and the contractor without
truncation error.
-/

namespace QLPeps.Spec

open Finset
open Energy (Bond)

variable {K : Type*}

section fock
variable [Field K] {M : Type*} [DecidableEq M] [Fintype M]

/-- a state of the Fock space: one amplitude for every set of occupied modes -/
abbrev Fock (K M : Type*) := (M → Bool) → K

/-- `(-1)` to the number of occupied modes that come before `m` in the order given by `rk` -/
def jw (rk : M → ℕ) (m : M) (n : M → Bool) : K :=
  ∏ m' : M, if rk m' < rk m ∧ n m' = true then -1 else 1

/-- the creation operator `c†_m` -/
def cr (rk : M → ℕ) (m : M) : Module.End K (Fock K M) where
  toFun f n := if n m = true then jw rk m n * f (Function.update n m false) else 0
  map_add' f g := by funext n; by_cases h : n m = true <;> simp [h, mul_add]
  map_smul' a f := by funext n; by_cases h : n m = true <;> simp [h, mul_left_comm]

/-- the annihilation operator `c_m` -/
def an (rk : M → ℕ) (m : M) : Module.End K (Fock K M) where
  toFun f n := if n m = true then 0 else jw rk m n * f (Function.update n m true)
  map_add' f g := by funext n; by_cases h : n m = true <;> simp [h, mul_add]
  map_smul' a f := by funext n; by_cases h : n m = true <;> simp [h, mul_left_comm]

/-- the occupation number `n_m = c†_m c_m` -/
def num (rk : M → ℕ) (m : M) : Module.End K (Fock K M) := cr rk m * an rk m

/-- the vacuum -/
def vac : Fock K M := fun n => if n = (fun _ => false) then 1 else 0

/-- `c†_{m₁} c†_{m₂} ⋯ |0⟩` -/
def createAll (rk : M → ℕ) (l : List M) : Fock K M := l.foldr (fun m f => cr rk m f) vac

/-- `⟨f, g⟩` -/
def overlap [StarRing K] (f g : Fock K M) : K := ∑ n, star (f n) * g n

/-- `⟨Ψ| H |Ψ⟩` -/
def expval [StarRing K] (H : Module.End K (Fock K M)) (Ψ : Fock K M) : K := overlap Ψ (H Ψ)

/-! ### Product states -/

variable {ι : Type*}

/-- The product state of the local states `s`, the sites being filled in the order `L`; `occ x c`
lists the modes that are filled on site `x` in local state `c`, in the order in which their creation
operators are applied. -/
def ket (rk : M → ℕ) (occ : ι → ℕ → List M) (L : List ι) (s : ι → ℕ) : Fock K M :=
  createAll rk (L.flatMap (fun x => occ x (s x)))

/-- the amplitude of `Ψ` on that product state -/
def amp [StarRing K] (rk : M → ℕ) (occ : ι → ℕ → List M) (Ψ : Fock K M) (L : List ι)
    (s : ι → ℕ) : K := overlap (ket rk occ L s) Ψ

/-- a configuration with local states below `d` -/
abbrev Cfg (ι : Type*) (d : ℕ) := ι → Fin d

/-- the configuration as numbers -/
def nat {ι : Type*} {d : ℕ} (S : Cfg ι d) : ι → ℕ := fun x => (S x : ℕ)

/-- the set of modes filled by the local states `s` -/
def filled [Fintype ι] (occ : ι → ℕ → List M) (s : ι → ℕ) : M → Bool :=
  fun m => decide (∃ x, m ∈ occ x (s x))

/-- `|Ψ|²` of the configuration `S` -/
def fweight [StarRing K] [Fintype ι] {d : ℕ} (occ : ι → ℕ → List M) (Ψ : Fock K M)
    (S : Cfg ι d) : K :=
  star (Ψ (filled occ (nat S))) * Ψ (filled occ (nat S))

end fock

/-! ### Local states of the three models -/

inductive Spin | up | dn
  deriving DecidableEq, Repr

instance : Fintype Spin := ⟨{.up, .dn}, by intro x; cases x <;> simp⟩

/-- Hubbard: 0 `|↑↓⟩ = c†_↑ c†_↓ |0⟩`, 1 `|↑⟩`, 2 `|↓⟩`, 3 `|0⟩` -/
def hubbardOcc {ι : Type*} (x : ι) : ℕ → List (ι × Spin)
  | 0 => [(x, .up), (x, .dn)]
  | 1 => [(x, .up)]
  | 2 => [(x, .dn)]
  | _ => []

/-- t-J: 0 `|↑⟩`, 1 `|↓⟩`, 2 `|0⟩` -/
def tJOcc {ι : Type*} (x : ι) : ℕ → List (ι × Spin)
  | 0 => [(x, .up)]
  | 1 => [(x, .dn)]
  | _ => []

/-- spinless: 0 occupied, 1 empty -/
def spinlessOcc {ι : Type*} (x : ι) : ℕ → List ι
  | 0 => [x]
  | _ => []

/-! ### Hamiltonians -/

section ham
variable [Field K] {ι : Type*} [DecidableEq ι] [Fintype ι]

/-- `c†_m c_m' + c†_m' c_m` -/
def hop {M : Type*} [DecidableEq M] [Fintype M] (rk : M → ℕ) (m m' : M) :
    Module.End K (Fock K M) := cr rk m * an rk m' + cr rk m' * an rk m

/-- `Σ_σ (c†_{aσ} c_{bσ} + c†_{bσ} c_{aσ})` -/
def spinHop (rk : ι × Spin → ℕ) (a b : ι) : Module.End K (Fock K (ι × Spin)) :=
  hop rk (a, .up) (b, .up) + hop rk (a, .dn) (b, .dn)

/-- `n_a = n_{a↑} + n_{a↓}` -/
def density (rk : ι × Spin → ℕ) (a : ι) : Module.End K (Fock K (ι × Spin)) :=
  num rk (a, .up) + num rk (a, .dn)

/-- `S^z_a = (n_{a↑} - n_{a↓}) / 2` -/
def fSz (rk : ι × Spin → ℕ) (a : ι) : Module.End K (Fock K (ι × Spin)) :=
  (1 / 2 : K) • (num rk (a, .up) - num rk (a, .dn))

/-- `S^+_a = c†_{a↑} c_{a↓}` -/
def fSp (rk : ι × Spin → ℕ) (a : ι) : Module.End K (Fock K (ι × Spin)) :=
  cr rk (a, .up) * an rk (a, .dn)

/-- `S^-_a = c†_{a↓} c_{a↑}` -/
def fSm (rk : ι × Spin → ℕ) (a : ι) : Module.End K (Fock K (ι × Spin)) :=
  cr rk (a, .dn) * an rk (a, .up)

/-- `S_a · S_b` -/
def fSS (rk : ι × Spin → ℕ) (a b : ι) : Module.End K (Fock K (ι × Spin)) :=
  fSz rk a * fSz rk b + (1 / 2 : K) • (fSp rk a * fSm rk b + fSm rk a * fSp rk b)

/-- `Δ†_{ab} = (c†_{a↑} c†_{b↓} - c†_{a↓} c†_{b↑}) / √2` -/
def pairDag (r2 : K) (rk : ι × Spin → ℕ) (a b : ι) : Module.End K (Fock K (ι × Spin)) :=
  (1 / r2) • (cr rk (a, .up) * cr rk (b, .dn) - cr rk (a, .dn) * cr rk (b, .up))

/-- `Δ_{ab} = (-c_{a↑} c_{b↓} + c_{a↓} c_{b↑}) / √2` -/
def pair (r2 : K) (rk : ι × Spin → ℕ) (a b : ι) : Module.End K (Fock K (ι × Spin)) :=
  (1 / r2) • (-(an rk (a, .up) * an rk (b, .dn)) + an rk (a, .dn) * an rk (b, .up))

/-- the t-J bond:
`-t Σ_σ (c†_{aσ} c_{bσ} + h.c.) + J (S_a·S_b - n_a n_b / 4) + V n_a n_b` -/
def tJBondH (t J V : K) (rk : ι × Spin → ℕ) (a b : ι) : Module.End K (Fock K (ι × Spin)) :=
  (-t) • spinHop rk a b + J • (fSS rk a b - (1 / 4 : K) • (density rk a * density rk b)) +
    V • (density rk a * density rk b)

/-- the spinless bond: `-t (c†_a c_b + h.c.) + V n_a n_b` -/
def spinlessBondH (t V : K) (rk : ι → ℕ) (a b : ι) : Module.End K (Fock K ι) :=
  (-t) • hop rk a b + V • (num rk a * num rk b)

/-- `Σ` of a bond operator over the ordered pairs of sites in relation `R` -/
def bondSum {M : Type*} (R : ι → ι → Prop) [∀ a b, Decidable (R a b)]
    (O : ι → ι → Module.End K (Fock K M)) : Module.End K (Fock K M) :=
  ∑ a : ι, ∑ b : ι, if R a b then O a b else 0

end ham

section lattice
variable [Field K] {rows cols : ℕ}

/-- the sites of the lattice -/
abbrev LSite (rows cols : ℕ) := ↥(sites rows cols)

/-- `b` is the right or the lower neighbour of `a`: every nearest-neighbour bond once -/
def NN (a b : LSite rows cols) : Prop := RightOf a b ∨ Below a b

/-- `b` is the lower right or the upper right diagonal neighbour of `a`: every diagonal once -/
def NNN (a b : LSite rows cols) : Prop := DownRight a b ∨ UpRight a b

instance (a b : LSite rows cols) : Decidable (NN a b) := by unfold NN; infer_instance
instance (a b : LSite rows cols) : Decidable (NNN a b) := by unfold NNN; infer_instance

/-- the Hubbard model:
`-t Σ_{⟨ij⟩σ} (c†_{iσ} c_{jσ} + h.c.) + U Σ_i n_{i↑} n_{i↓} - μ Σ_i n_i` -/
def hubbardH (t U mu : K) (rk : LSite rows cols × Spin → ℕ) :
    Module.End K (Fock K (LSite rows cols × Spin)) :=
  bondSum NN (fun a b => (-t) • spinHop rk a b) +
    ∑ a, (U • (num rk (a, .up) * num rk (a, .dn)) - mu • density rk a)

/-- the t-J model:
`-t Σ_{⟨ij⟩σ} (c†c + h.c.) - t₂ Σ_{⟨⟨ij⟩⟩σ} (c†c + h.c.) + J Σ_{⟨ij⟩} (S·S - n n / 4)
 + V Σ_{⟨ij⟩} n n - μ Σ_i n_i` -/
def tJH (t t2 J V mu : K) (rk : LSite rows cols × Spin → ℕ) :
    Module.End K (Fock K (LSite rows cols × Spin)) :=
  bondSum NN (tJBondH t J V rk) +
    bondSum NNN (fun a b => (-t2) • spinHop rk a b) - ∑ a, mu • density rk a

/-- spinless fermions:
`-t Σ_{⟨ij⟩} (c†c + h.c.) - t₂ Σ_{⟨⟨ij⟩⟩} (c†c + h.c.) + V Σ_{⟨ij⟩} n n` -/
def spinlessH (t t2 V : K) (rk : LSite rows cols → ℕ) :
    Module.End K (Fock K (LSite rows cols)) :=
  bondSum NN (spinlessBondH t V rk) +
    bondSum NNN (fun a b => (-t2) • hop rk a b)

/-- no site is doubly occupied in `Ψ` -/
def NoDouble (Ψ : Fock K (LSite rows cols × Spin)) : Prop :=
  ∀ n, Ψ n ≠ 0 → ∀ a, ¬ (n (a, .up) = true ∧ n (a, .dn) = true)

/-! ### Samples and the exact contractor -/

/-- the sample as the code stores it -/
def sampleConfig (s : LSite rows cols → ℕ) : Config :=
  fun p => if h : p ∈ sites rows cols then s ⟨p, h⟩ else 0

/-- `s` with the states `x`, `y` on the two sites of the bond `b` -/
def put (s : LSite rows cols → ℕ) (b : Bond) (x y : ℕ) : LSite rows cols → ℕ :=
  fun p => if (p : Site) = b.b then y else if (p : Site) = b.a then x else s p

/-- The contractor without truncation error: for the bond `b` it returns amplitudes of `Ψ` on product
states, the sites being ordered as `ord b`. -/
def exactF [StarRing K] {M : Type*} [DecidableEq M] [Fintype M] (rk : M → ℕ)
    (occ : LSite rows cols → ℕ → List M) (Ψ : Fock K M) (ord : Bond → List (LSite rows cols))
    (s : LSite rows cols → ℕ) : Fermion.Contr K where
  trace b := amp rk occ Ψ (ord b) s
  replace b x y := amp rk occ Ψ (ord b) (put s b x y)

/-- The orders in which the sites are contracted: for every bond some order of all the sites in which
the first site of the bond immediately precedes the second; the two diagonals of a plaquette are
contracted in the same order (they share their environments). -/
structure PathOrder (rows cols : ℕ) (nnn : Bool) (ord : Bond → List (LSite rows cols)) : Prop where
  nn : ∀ a b : LSite rows cols, ∀ k, (k = .h ∧ RightOf a b) ∨ (k = .v ∧ Below a b) →
    (ord ⟨a, b, k⟩).Nodup ∧ (∀ x, x ∈ ord ⟨a, b, k⟩) ∧ [a, b] <:+: ord ⟨a, b, k⟩
  diag : nnn = true → ∀ a b : LSite rows cols, ∀ k, (k = .dr ∧ DownRight a b) ∨
      (k = .ur ∧ UpRight a b) →
    (ord ⟨a, b, k⟩).Nodup ∧ (∀ x, x ∈ ord ⟨a, b, k⟩) ∧ [a, b] <:+: ord ⟨a, b, k⟩
  shared : nnn = true → ∀ r c, ord ⟨(r, c), (r + 1, c + 1), .dr⟩ = ord ⟨(r + 1, c), (r, c + 1), .ur⟩

end lattice

end QLPeps.Spec
