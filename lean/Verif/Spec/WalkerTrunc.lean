import Verif.Spec.Contractor

/-!
# Specification: traces of a configuration
-/

namespace QLPeps.WalkerTrunc.Spec

open QLPeps.Contractor QLPeps.Sweep QLPeps.Updaters

/-- `a` and `b` are the ends of a bond of the open lattice with the orientation `d`, in the order of rows and columns -/
inductive IsBond (rows cols : ℕ) : Site → Site → Orient → Prop where
  | horizontal (r c : ℕ) (hr : r < rows) (hc : c + 1 < cols) : IsBond rows cols (r, c) (r, c + 1) .horizontal
  | vertical (r c : ℕ) (hr : r + 1 < rows) (hc : c < cols) : IsBond rows cols (r, c) (r + 1, c) .vertical

/-- an amplitude is the trace of the network of a configuration, from scratch, at some bond of the lattice -/
def IsTrace {T E B C C2 A H : Type*} (o : Ops T E B C C2 A H) (rows cols : ℕ) (sitps : Site → ℕ → T) (config : Config) (ψ : Option A) : Prop :=
  ∃ a b d, IsBond rows cols a b d ∧ ψ = some (bondAmp o rows cols (project sitps config) d a b)

/-- a walker that accepts a move takes the trace of the accepted states for its amplitude -/
def Reports {A : Type*} (dec : Decision A) : Prop :=
  ∀ s1 s2 d x y amp n tr m a b ψ, dec s1 s2 d x y amp n tr = some (m, some (a, b, ψ)) → ψ = tr a b

/-- the same for three sites -/
def Reports3 {A : Type*} (dec : Decision3 A) : Prop :=
  ∀ s1 s2 s3 d x y z amp n tr m a b e ψ, dec s1 s2 s3 d x y z amp n tr = some (m, some (a, b, e, ψ)) → ψ = tr a b e

/-- the moves of a three-site sweep in one row, from left to right: `refresh` sets the amplitude, `upd` moves three sites -/
def rowLine {S : Type*} (refresh : Site → Site → Site → Orient → S → S) (upd : Site → Site → Site → Orient → S → S × Bool) (cols r : ℕ) (s : S) : S :=
  (List.range (cols - 2)).foldl (fun s c => (upd (r, c) (r, c + 1) (r, c + 2) .horizontal s).1) (refresh (r, 0) (r, 1) (r, 2) .horizontal s)

/-- the same in one column, downwards -/
def colLine {S : Type*} (refresh : Site → Site → Site → Orient → S → S) (upd : Site → Site → Site → Orient → S → S × Bool) (rows c : ℕ) (s : S) : S :=
  (List.range (rows - 2)).foldl (fun s r => (upd (r, c) (r + 1, c) (r + 2, c) .vertical s).1) (refresh (0, c) (1, c) (2, c) .vertical s)

end QLPeps.WalkerTrunc.Spec
