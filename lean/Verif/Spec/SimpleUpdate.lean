import Verif.Model.SimpleUpdate
import Mathlib.Algebra.BigOperators.Group.Finset.Basic
import Mathlib.Data.Sym.Sym2

/-!
# Specification: operators on the whole lattice

An operator acting on a few sites is a matrix between configurations of the whole lattice: its
entry between `σ` and `τ` is the local entry when the two agree everywhere else, and 0 otherwise.
Hamiltonians are sums of such operators over the bonds and sites of the lattice.
-/

namespace QLPeps.SimpleUpdate.Spec

open QLPeps.State (BC) 
open QLPeps.SimpleUpdate (Site Op1 Op2 Op3 TriAct)

variable {𝕜 : Type*} [Field 𝕜]

/-- sites of the `ly × lx` lattice -/
def lattice (ly lx : ℕ) : Finset Site := Finset.range ly ×ˢ Finset.range lx

/-- matrix of an operator on the whole lattice, between basis configurations -/
abbrev Op (𝕜 : Type*) := (Site → ℕ) → (Site → ℕ) → 𝕜

open Classical in
/-- a one-site operator, acting as the identity on all other sites -/
noncomputable def on1 (Λ : Finset Site) (s : Site) (o : Op1 𝕜) : Op 𝕜 := fun σ τ =>
  if ∀ t ∈ Λ, t ≠ s → σ t = τ t then o (σ s) (τ s) else 0

open Classical in
/-- a two-site operator, acting as the identity on all other sites -/
noncomputable def on2 (Λ : Finset Site) (s t : Site) (h : Op2 𝕜) : Op 𝕜 := fun σ τ =>
  if ∀ u ∈ Λ, u ≠ s → u ≠ t → σ u = τ u then h (σ s) (τ s) (σ t) (τ t) else 0

open Classical in
/-- a three-site operator, acting as the identity on all other sites -/
noncomputable def on3 (Λ : Finset Site) (s t u : Site) (h : Op3 𝕜) : Op 𝕜 := fun σ τ =>
  if ∀ v ∈ Λ, v ≠ s → v ≠ t → v ≠ u → σ v = τ v then
    h (σ s) (τ s) (σ t) (τ t) (σ u) (τ u)
  else 0

/-- neighbour to the right (or below) along a line of `n` sites -/
def next (bc : BC) (n i : ℕ) : ℕ :=
  match bc with
  | .obc => i + 1
  | .pbc => if i + 1 = n then 0 else i + 1

/-- number of bonds along a line of `n` sites -/
def bonds (bc : BC) (n : ℕ) : ℕ :=
  match bc with
  | .obc => n - 1
  | .pbc => n

/-- number of bonds of a line that end at site `i` -/
def deg (bc : BC) (n i : ℕ) : ℕ :=
  match bc with
  | .pbc => 2
  | .obc => (if i + 1 < n then 1 else 0) + (if 0 < i then 1 else 0)

/-- sum of two-site terms over the horizontal bonds -/
noncomputable def horizontal (bc : BC) (ly lx : ℕ) (h : ℕ → ℕ → Op2 𝕜) : Op 𝕜 := fun σ τ =>
  ∑ r ∈ Finset.range ly, ∑ c ∈ Finset.range (bonds bc lx),
    on2 (lattice ly lx) (r, c) (r, next bc lx c) (h r c) σ τ

/-- sum of two-site terms over the vertical bonds -/
noncomputable def vertical (bc : BC) (ly lx : ℕ) (h : ℕ → ℕ → Op2 𝕜) : Op 𝕜 := fun σ τ =>
  ∑ r ∈ Finset.range (bonds bc ly), ∑ c ∈ Finset.range lx,
    on2 (lattice ly lx) (r, c) (next bc ly r, c) (h r c) σ τ

/-- sum of on-site terms -/
noncomputable def onSite (ly lx : ℕ) (o : ℕ → ℕ → Op1 𝕜) : Op 𝕜 := fun σ τ =>
  ∑ r ∈ Finset.range ly, ∑ c ∈ Finset.range lx, on1 (lattice ly lx) (r, c) (o r c) σ τ

/-- sum of two-site terms over both diagonals of every plaquette; on the diagonal from lower left
to upper right the first leg is the upper right site -/
noncomputable def diagonals (bc : BC) (ly lx : ℕ) (h : Op2 𝕜) : Op 𝕜 := fun σ τ =>
  ∑ r ∈ Finset.range (bonds bc ly), ∑ c ∈ Finset.range (bonds bc lx),
    (on2 (lattice ly lx) (r, c) (next bc ly r, next bc lx c) h σ τ +
     on2 (lattice ly lx) (r, next bc lx c) (next bc ly r, c) h σ τ)

/-- number of plaquettes at a site -/
def plaquettesAt (bc : BC) (ly lx r c : ℕ) : ℕ := deg bc ly r * deg bc lx c

/-- the four corners of the plaquette with upper left corner `p` -/
def corners (bc : BC) (ly lx : ℕ) (p : Site) : Finset Site :=
  {(p.1, p.2), (p.1, next bc lx p.2), (next bc ly p.1, p.2), (next bc ly p.1, next bc lx p.2)}

/-- the bonds of the triangular lattice drawn on an open square lattice: vertical, horizontal, and
one diagonal of every plaquette, from its upper right to its lower left corner -/
def triangularBonds (ly lx : ℕ) : Multiset (Sym2 Site) :=
  ∑ r ∈ Finset.range (ly - 1), ∑ c ∈ Finset.range lx, {s((r, c), (r + 1, c))} +
  ∑ r ∈ Finset.range ly, ∑ c ∈ Finset.range (lx - 1), {s((r, c), (r, c + 1))} +
  ∑ r ∈ Finset.range (ly - 1), ∑ c ∈ Finset.range (lx - 1), {s((r, c + 1), (r + 1, c))}

/-- the bonds a projection acts on: one, or the three sides of a triangle -/
def actBonds : TriAct → Multiset (Sym2 Site)
  | .nn a b => {s(a, b)}
  | .tri a b c => {s(a, b)} + {s(b, c)} + {s(a, c)}

/-- exchange of the two sites of a two-site operator -/
def swapped (h : Op2 𝕜) : Op2 𝕜 := fun i1 j1 i2 j2 => h i2 j2 i1 j1

end QLPeps.SimpleUpdate.Spec
