import Verif.Model.ObsMatrix

/-!
# What a lattice of values is

A lattice holds a value for every site inside of it. It knows nothing of strides.
-/

namespace QLPeps.ObsMatrix.Spec

variable {T : Type*}

/-- a lattice of values, or (`full = false`) one whose values have been taken out -/
structure Grid (T : Type*) where
  rows : ℕ
  cols : ℕ
  full : Bool
  val : ℕ × ℕ → T

/-- the effect of a call on the values -/
def after [Add T] (l : Grid T) : Call T → Grid T
  | .resize r c v => ⟨r, c, true, fun _ => v⟩
  | .put r c v => { l with val := fun s => if s = (r, c) then v else l.val s }
  | .add r c d => { l with val := fun s => if s = (r, c) then l.val s + d else l.val s }
  | .extract => { l with full := false }

/-- the sites in the order of rows -/
def sites (rows cols : ℕ) : List (ℕ × ℕ) := (List.range rows).flatMap fun r => (List.range cols).map fun c => (r, c)

end QLPeps.ObsMatrix.Spec
