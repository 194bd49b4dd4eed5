import Verif.Model.Bmps
import Verif.Model.Walker

/-!
# Model of `ContractRow` of the boundary-MPS walker

Source: `/repo/include/qlpeps/two_dim_tn/tensor_network_2d/bmps/impl/bmps_walker.h:57-204`. The tensors are the bosonic ones of
`Model/Bmps`. `none` stands for a thrown `runtime_error`. Simplification: an index has a dimension and no quantum numbers; tensors
whose indices do not match, for which `Contract` fails an assertion, are contracted over the dimensions of the first factor.
-/

namespace QLPeps.Walker

open QLPeps.Contractor
open QLPeps.Bmps (nil)
open QLPeps.Peps (Tn contractN)

noncomputable section

variable {𝕜 : Type*} [RCLike 𝕜] {C : Type*}

/-- one column (bmps_walker.h:130-138): the legs are top left, top right, site left, site right, bottom left, bottom right -/
def column (top site bot : Tn 𝕜) : Tn 𝕜 :=
  contractN (contractN top [1] site [3]) [3] bot [1]

/-- the column of iteration `i` (bmps_walker.h:121-138): the boundary MPS of the walker is stored from right to left -/
def columnAt (n : ℕ) (bmps mpo opp : List (Tn 𝕜)) (i : ℕ) : Tn 𝕜 :=
  column (bmps.getD i nil) (mpo.getD (n - 1 - i) nil) (opp.getD (n - 1 - i) nil)

/-- the accumulator after iteration `i` (bmps_walker.h:140-170) -/
def rowAcc (n : ℕ) (bmps mpo opp : List (Tn 𝕜)) : ℕ → Tn 𝕜
  | 0 => columnAt n bmps mpo opp 0
  | 1 => contractN (columnAt n bmps mpo opp 0) [1, 2, 4] (columnAt n bmps mpo opp 1) [0, 3, 5]
  | i + 2 => contractN (rowAcc n bmps mpo opp (i + 1)) [3, 4, 5] (columnAt n bmps mpo opp (i + 2)) [0, 3, 5]

/-- `ContractRow` (bmps_walker.h:57-204); `dir` is the direction of the opposite boundary -/
def contractRow (mpo : List (Tn 𝕜)) (dir : Pos) (opp : List (Tn 𝕜)) (w : Wk (List (Tn 𝕜)) C) : Option 𝕜 :=
  let n := w.bmps.length
  if n = 0 ∨ mpo.length ≠ n ∨ opp.length ≠ n then none
  else if w.pos ≠ .up ∨ dir ≠ .down then none
  else
    let acc := rowAcc n w.bmps mpo opp (n - 1)
    if acc.shape.all (· = 1) then some (acc.elem (List.replicate acc.shape.length 0)) else none

end

end QLPeps.Walker
