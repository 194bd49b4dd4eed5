import Verif.Spec.Traversal
import Verif.Model.Walker

/-!
# Specification of the walker and of the structure factor

Amplitudes are computed from scratch (`oneAmp` of `Verif/Spec/Traversal`).
-/

namespace QLPeps.Walker

open QLPeps.Contractor

universe u

variable {T E B C C2 A H : Type u}

/-- all pairs of a source and a target in a lower row, in the order in which they are recorded -/
def crossPairs (rows cols : ℕ) : List (Site × Site) :=
  (List.range (rows - 1)).flatMap fun y1 => (List.range cols).flatMap fun x1 =>
    (List.range' (y1 + 1) (rows - (y1 + 1))).flatMap fun y2 => (List.range cols).map fun x2 =>
      ((y1, x1), (y2, x2))

/-- the configuration after `S⁻` at `s2` and `S⁺` at `s1` -/
def flipped (cfg : Config) (s1 s2 : Site) : Config := Updaters.setSite (Updaters.setSite cfg s1 1) s2 0

/-- `S⁺` at `s1` and `S⁻` at `s2` do not annihilate the configuration -/
def acts (cfg : Config) (s1 s2 : Site) : Prop := cfg s1 = 0 ∧ cfg s2 = 1

instance (cfg : Config) (s1 s2 : Site) : Decidable (acts cfg s1 s2) := by unfold acts; infer_instance

/-- the network without the `m` rows that follow row `a` -/
def withoutRows (a m : ℕ) (t : Site → T) : Site → T := fun s => if s.1 ≤ a then t s else t (s.1 + m, s.2)

/-- What is recorded when `h` boundary MPS from below are cached: zero for a target row whose lower
boundary is missing, and for the other rows the amplitude of the flipped configuration on the lattice
*without the rows skipped on the way* (none if `h = rows`). -/
def recorded [Zero A] (o : Ops T E B C C2 A H) (rows cols h : ℕ) (sitps : Site → ℕ → T) (cfg : Config)
    (s1 s2 : Site) : A :=
  if rows ≤ s2.1 + h ∧ acts cfg s1 s2 then
    oneAmp o (rows - (rows - h - (s1.1 + 1))) cols
      (withoutRows s1.1 (rows - h - (s1.1 + 1)) (project sitps (flipped cfg s1 s2)))
      (s2.1 - (rows - h - (s1.1 + 1)), s2.2)
  else 0

/-- the operations on the boundary tensors of a walker (all but `Evolve`) -/
inductive BTenOp
  | initLeft (target : ℕ)
  | initRight (target : ℕ)
  | growLeft
  | growRight
  | shiftLeft
  | shiftRight
  | clear

/-- effect of an operation in row `mpo` with the boundary MPS `opp` below -/
def BTenOp.step (o : Ops T E B C C2 A H) (cols : ℕ) (mpo : List T) (opp : B) (w : Wk B C) :
    BTenOp → Option (Wk B C)
  | .initLeft k => Walker.initLeft o cols mpo opp k w
  | .initRight k => Walker.initRight o cols mpo opp k w
  | .growLeft => Walker.growLeft o cols mpo opp w
  | .growRight => Walker.growRight o cols mpo opp w
  | .shiftLeft => Walker.shiftLeft o cols mpo opp w
  | .shiftRight => Walker.shiftRight o cols mpo opp w
  | .clear => some (Walker.clear w)

end QLPeps.Walker
