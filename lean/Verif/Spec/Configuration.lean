import Verif.Model.Configuration
import Verif.Spec.Lattice

/-! # Specification vocabulary for configurations -/

namespace QLPeps.Configuration

open QLPeps.Spec

/-- every site of the lattice has a value -/
def Valid (c : Conf) : Prop := ∀ p, InLattice c.rows c.cols p → ∃ v, c.cell p = some v

/-- nothing is stored outside the lattice -/
def Bounded (c : Conf) : Prop := ∀ p, ¬ InLattice c.rows c.cols p → c.cell p = none

/-- same shape and the same value at every site of the lattice -/
def SameAs (c c' : Conf) : Prop :=
  c.rows = c'.rows ∧ c.cols = c'.cols ∧ ∀ p, InLattice c.rows c.cols p → c.cell p = c'.cell p

/-- number of sites in local state `s` -/
def occ (c : Conf) (s : ℕ) : ℕ :=
  ((sites c.rows c.cols).filter (fun p => c.cell p = some s)).card

/-- all stored values fit in 64 bits -/
def Fits (c : Conf) : Prop := ∀ p v, c.cell p = some v → v < 2 ^ 64

end QLPeps.Configuration
