import Verif.Model.TrgTensor

/-!
# Model of `TRGContractor::PunchAllHoles`

Source: `trg_contractor_impl.h` (`I:`). The contractor and its caches are those of `Model/Trg`, the tensors those of
`Model/Peps` (bosonic, exact arithmetic).
-/

namespace QLPeps.Trg

open QLPeps.Peps (Tn Diag Lib Svd contractN transpose dag)

noncomputable section

variable {𝕜 : Type} [RCLike 𝕜]

/-- `a + b` -/
def addTen (a b : Tn 𝕜) : Tn 𝕜 := ⟨a.shape, fun x => a.elem x + b.elem x⟩

/-- `t * scalar` -/
def scaleTen (t : Tn 𝕜) (k : 𝕜) : Tn 𝕜 := ⟨t.shape, fun x => t.elem x * k⟩

/-- I:24-127 `LinearSplitAdjointToHole_`: the hole of a node from the hole of one of its pieces. Every call passes
exactly one of `H_P` and `H_Q`; `isP` says which. The hole of the left piece goes with `Vt` (I:63-73, I:98-108), that of
the right piece with `U` (I:76-86, I:111-121). -/
def pull (type1 : Bool) (iso : Iso 𝕜) (isP : Bool) (h : Tn 𝕜) : Tn 𝕜 :=
  let x := if type1 = isP then contractN (dag iso.u) [2] (contractN (dag iso.inv.ten) [1] h [0]) [0]
    else contractN (contractN h [2] (dag iso.inv.ten) [0]) [2] (dag iso.vt) [0]
  if type1 then x else transpose [0, 2, 3, 1] x

/-- I:1113-1133: the intermediates `H_tmp0` and `H_tmp1` -/
def plaqTmp (h q0 q1 p1 p0 : Tn 𝕜) : Tn 𝕜 × Tn 𝕜 :=
  let tmp0 := contractN p1 [1] p0 [0]
  let tmp1 := contractN q1 [0] q0 [2]
  let h2 := transpose [3, 2, 1, 0] h
  (transpose [0, 3, 2, 1] (contractN h2 [2, 3] tmp1 [1, 2]), transpose [3, 0, 1, 2] (contractN h2 [0, 1] tmp0 [0, 3]))

/-- I:1117-1171: the holes of the pieces of the children TL, TR, BL, BR of a plaquette -/
def plaqBack (h q0 q1 p1 p0 : Tn 𝕜) : ℕ → Tn 𝕜
  | 0 => contractN (plaqTmp h q0 q1 p1 p0).2 [0, 1] q1 [1, 2]
  | 1 => transpose [2, 0, 1] (contractN (plaqTmp h q0 q1 p1 p0).2 [2, 3] q0 [0, 1])
  | 2 => transpose [0, 2, 1] (contractN (plaqTmp h q0 q1 p1 p0).1 [2, 3] p0 [1, 2])
  | _ => transpose [2, 0, 1] (contractN (plaqTmp h q0 q1 p1 p0).1 [0, 1] p1 [0, 2])

/-- I:1181-1200: the intermediates `H_SW` and `H_NE` -/
def diamTmp (h np ep sq wq : Tn 𝕜) : Tn 𝕜 × Tn 𝕜 :=
  let sw := contractN sq [0] wq [2]
  let ne := contractN np [1] ep [0]
  let h2 := transpose [1, 0, 3, 2] h
  (transpose [3, 0, 1, 2] (contractN h2 [2, 3] ne [0, 3]), transpose [0, 3, 2, 1] (contractN h2 [0, 1] sw [1, 2]))

/-- I:1202-1240: the holes of the pieces of the children N, E, S, W of a diamond -/
def diamBack (h np ep sq wq : Tn 𝕜) : ℕ → Tn 𝕜
  | 0 => transpose [0, 2, 1] (contractN (diamTmp h np ep sq wq).2 [2, 3] ep [1, 2])
  | 1 => transpose [2, 0, 1] (contractN (diamTmp h np ep sq wq).2 [0, 1] np [0, 2])
  | 2 => transpose [2, 0, 1] (contractN (diamTmp h np ep sq wq).1 [2, 3] wq [0, 1])
  | _ => contractN (diamTmp h np ep sq wq).1 [0, 1] sq [1, 2]

/-- one entry of `hole_accum` and `hole_cnt` -/
abbrev Acc (𝕜 : Type) := Option (Tn 𝕜) × ℕ

/-- I:1140-1142 and the like: add a contribution -/
def addHole (a : Acc 𝕜) (t : Tn 𝕜) : Acc 𝕜 :=
  match a.1 with
  | none => (some t, a.2 + 1)
  | some x => (some (addTen x t), a.2 + 1)

/-- I:1139-1142 and the like: the contribution to one child -/
def backChild (fine : Scale (Tn 𝕜) (Tn 𝕜) (Iso 𝕜)) (s : ℕ) (piece : ℕ → Tn 𝕜) (children : List ℕ) (acc : ℕ → Acc 𝕜)
    (k : ℕ) : Except Fail (ℕ → Acc 𝕜) :=
  match fine.split (children.getD k 0) with
  | none => .error .runtime
  | some d => match d.iso with
    | none => .error .runtime
    | some iso => .ok (Function.update acc (children.getD k 0) (addHole (acc (children.getD k 0))
        (pull d.type1 iso (if s % 2 = 0 then k == 2 || k == 3 else k == 0 || k == 1) (piece k))))

/-- the pieces' holes of the children of a parent (I:1106-1200); a piece that was never computed is a default
tensor, and contracting it throws -/
def backPieces (fine : Scale (Tn 𝕜) (Tn 𝕜) (Iso 𝕜)) (s : ℕ) (h : Tn 𝕜) (children : List ℕ) :
    Except Fail (ℕ → Tn 𝕜) :=
  match fine.split (children.getD 0 0), fine.split (children.getD 1 0), fine.split (children.getD 2 0),
    fine.split (children.getD 3 0) with
  | some d0, some d1, some d2, some d3 =>
    if s % 2 = 0 then .ok (plaqBack h d0.q d1.q d2.p d3.p) else .ok (diamBack h d0.p d1.p d2.q d3.q)
  | _, _, _, _ => .error .runtime

/-- I:1100-1242, one coarse node. `holes_cur` has an entry for each of them, so that the `continue` of I:1102 is never
reached. -/
def backNode (fine coarse : Scale (Tn 𝕜) (Tn 𝕜) (Iso 𝕜)) (s : ℕ) (holes : ℕ → Tn 𝕜) (acc : ℕ → Acc 𝕜) (w : ℕ) :
    Except Fail (ℕ → Acc 𝕜) :=
  match backPieces fine s (holes w) (coarse.c2f w) with
  | .error e => .error e
  | .ok piece => (List.range 4).foldlM (backChild fine s piece (coarse.c2f w)) acc

/-- I:1249: the average of the contributions -/
def average (a : Acc 𝕜) : Tn 𝕜 :=
  match a.1 with
  | none => ⟨[], fun _ => 0⟩
  | some t => if 1 < a.2 then scaleTen t (1 / (a.2 : 𝕜)) else t

/-- I:1096-1252, one scale: the holes of the fine nodes from those of the coarse ones -/
def backScale (fine coarse : Scale (Tn 𝕜) (Tn 𝕜) (Iso 𝕜)) (s : ℕ) (holes : ℕ → Tn 𝕜) : Except Fail (ℕ → Tn 𝕜) :=
  match (List.range coarse.size).foldlM (backNode fine coarse s holes) (fun _ => (none, 0)) with
  | .error e => .error e
  | .ok acc =>
    if (List.range fine.size).any fun i => (acc i).2 == 0 then .error .logic else .ok fun i => average (acc i)

/-- I:935-976 `PunchAllHoleFinal2x2_` -/
def holes2 (t : ℕ → Tn 𝕜) : ℕ → Tn 𝕜
  | 0 => transpose [1, 3, 0, 2] (contractN (contractN (t 1) [1, 3] (t 3) [3, 1]) [2, 3] (t 2) [2, 0])
  | 1 => transpose [1, 3, 0, 2] (contractN (contractN (t 0) [1, 3] (t 2) [3, 1]) [2, 3] (t 3) [2, 0])
  | 2 => transpose [3, 1, 2, 0] (contractN (contractN (t 0) [0, 2] (t 1) [2, 0]) [2, 3] (t 3) [3, 1])
  | _ => transpose [3, 1, 2, 0] (contractN (contractN (t 0) [0, 2] (t 1) [2, 0]) [0, 1] (t 2) [3, 1])

/-- I:1015-1049: the hole at the site left out, from the other eight tensors by their position relative to it -/
def hole3 (t01 t02 t10 t11 t12 t20 t21 t22 : Tn 𝕜) : Tn 𝕜 :=
  let r0 := contractN t01 [2] t02 [0]
  let r1 := rowRing t10 t11 t12
  let r2 := rowRing t20 t21 t22
  let r12 := contractN r1 [0, 2, 4] r2 [1, 3, 5]
  transpose [1, 2, 0, 3] (contractN r0 [1, 3, 2, 5] r12 [1, 2, 4, 5])

/-- I:1003-1013: `rel_id(dr, dc)` -/
def relId (i dr dc : ℕ) : ℕ := (i / 3 + dr) % 3 * 3 + (i % 3 + dc) % 3

/-- I:980-1054 `PunchAllHoleFinal3x3_` -/
def holes3 (t : ℕ → Tn 𝕜) (i : ℕ) : Tn 𝕜 :=
  hole3 (t (relId i 0 1)) (t (relId i 0 2)) (t (relId i 1 0)) (t (relId i 1 1)) (t (relId i 1 2)) (t (relId i 2 0))
    (t (relId i 2 1)) (t (relId i 2 2))

/-- I:1063-1085: the holes of the last scale. Contracting a default tensor throws. -/
def topHoles (top : Scale (Tn 𝕜) (Tn 𝕜) (Iso 𝕜)) : Except Fail (ℕ → Tn 𝕜) :=
  if top.size = 9 then
    if (List.range 9).all fun i => (top.tens i).isSome then .ok (holes3 fun i => (top.tens i).getD ⟨[], fun _ => 0⟩)
    else .error .logic
  else if top.size = 4 then
    if (List.range 4).all fun i => (top.tens i).isSome then .ok (holes2 fun i => (top.tens i).getD ⟨[], fun _ => 0⟩)
    else .error .runtime
  else .error .logic

/-- I:1057-1252 `PunchAllHolesImpl_` from scale `s` on: the holes of the nodes of that scale -/
def holesFrom : ℕ → Scale (Tn 𝕜) (Tn 𝕜) (Iso 𝕜) → List (Scale (Tn 𝕜) (Tn 𝕜) (Iso 𝕜)) → Except Fail (ℕ → Tn 𝕜)
  | s, fine, coarse :: rest =>
    match holesFrom (s + 1) coarse rest with
    | .error e => .error e
    | .ok holes => backScale fine coarse s holes
  | _, top, [] => topHoles top

/-- I:1255-1267, I:1269-1313 `PunchAllHoles`: the hole of each site. The network given is read for the sizes 2 and 3 only. Without
scales `scales_.at(scales_.size() - 1)` throws. -/
def punchAllHoles (g : Trg (Tn 𝕜) (Tn 𝕜) (Iso 𝕜)) (tn : Net (Tn 𝕜)) : Except Fail (ℕ → ℕ → Tn 𝕜) :=
  if !g.periodic then .error .logic
  else if !tn.periodic then .error .invalid
  else if g.rows = 2 ∧ g.cols = 2 then .ok fun r c => holes2 (fun i => tn.ten (i / 2) (i % 2)) (r * g.cols + c)
  else if g.rows = 3 ∧ g.cols = 3 then .ok fun r c => holes3 (fun i => tn.ten (i / 3) (i % 3)) (r * g.cols + c)
  else if !g.ready then .error .logic
  else if g.rows = g.cols ∧ (isPow2 g.rows || (g.rows % 3 == 0 && isPow2 (g.rows / 3))) = true then
    match g.scales with
    | [] => .error .range
    | f :: r => match holesFrom 0 f r with
      | .error e => .error e
      | .ok holes => .ok fun r c => holes (r * g.cols + c)
  else .error .logic

end

end QLPeps.Trg
