import Verif.Model.Sweep
import Mathlib.Data.Finset.Prod
import Mathlib.Data.Finset.Card

/-! # Specification: the open square lattice -/

namespace QLPeps.Spec

/-- `(r, c)` is a site of the `rows × cols` lattice -/
def InLattice (rows cols : ℕ) (a : Site) : Prop := a.1 < rows ∧ a.2 < cols

instance (rows cols : ℕ) (a : Site) : Decidable (InLattice rows cols a) := by
  unfold InLattice; infer_instance

/-- nearest neighbours on the open lattice: same row and adjacent columns, or same column
and adjacent rows -/
def Adjacent (rows cols : ℕ) (a b : Site) : Prop :=
  InLattice rows cols a ∧ InLattice rows cols b ∧
    ((a.1 = b.1 ∧ (a.2 = b.2 + 1 ∨ b.2 = a.2 + 1)) ∨
     (a.2 = b.2 ∧ (a.1 = b.1 + 1 ∨ b.1 = a.1 + 1)))

instance (rows cols : ℕ) (a b : Site) : Decidable (Adjacent rows cols a b) := by
  unfold Adjacent; infer_instance

/-- all sites of the lattice -/
def sites (rows cols : ℕ) : Finset Site := Finset.range rows ×ˢ Finset.range cols

/-- number of sites of the lattice in local state `s` -/
def occupancy (rows cols : ℕ) (c : Config) (s : ℕ) : ℕ :=
  ((sites rows cols).filter (fun p => c p = s)).card

end QLPeps.Spec
