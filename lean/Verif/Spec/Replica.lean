import Verif.Model.Replica
import Verif.Spec.Configuration
import Verif.Spec.Measurer

/-!
# Specification of the replica test

What one replica does on its own, and the overlaps of neighbouring replicas.
-/

namespace QLPeps.Replica

open QLPeps.Configuration

variable {Ω : Type*} {n : ℕ}

/-- the engine of a process after `k` sweeps -/
def engAt (E : Env Ω) (w : Ω) (k : ℕ) : Ω := (fun x => (E.sweep x).1)^[k] w

/-- its configuration after `k` sweeps -/
def confAt (E : Env Ω) (w : Ω) (k : ℕ) : Conf := E.conf (engAt E w k)

/-- the acceptance rates of its sweep number `k` -/
def ratesAt (E : Env Ω) (w : Ω) (k : ℕ) : List ℝ := (E.sweep (engAt E w k)).2

/-- configurations fill the lattice and the overlap reads them on the lattice only -/
structure Sound (E : Env Ω) : Prop where
  valid : ∀ x, Valid (E.conf x)
  rows : ∀ x, (E.conf x).rows = E.rows
  cols : ∀ x, (E.conf x).cols = E.cols
  overlap : ∀ c d d', SameAs d d' → E.overlap c d = E.overlap c d'

/-- the overlap after `k + 1` sweeps of replica `i` with the replica before it in the ring
(`i - 1` is cyclic: the neighbour of replica 0 is the last one) -/
def overlapAt (E : Env Ω) (w : Fin (n + 1) → Ω) (i : Fin (n + 1)) (k : ℕ) : ℝ :=
  E.overlap (confAt E (w i) (k + 1)) (confAt E (w (i - 1)) (k + 1))

/-- average over the first `j` sweeps of the rate number `c` -/
noncomputable def meanRate (E : Env Ω) (w : Ω) (j c : ℕ) : ℝ :=
  (∑ k ∈ Finset.range j, (ratesAt E w k).getD c 0) / j

end QLPeps.Replica
