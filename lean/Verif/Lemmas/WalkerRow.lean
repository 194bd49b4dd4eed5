import Verif.Model.WalkerRow
import Verif.Lemmas.BmpsValue
import Verif.Lemmas.Walker

/-!
# Lemmas: the accumulator of `ContractRow` is the boundary tensor of the right
-/

namespace QLPeps.Walker

open QLPeps.Contractor QLPeps.Bmps
open QLPeps.Peps (Tn contractN)

noncomputable section

variable {𝕜 : Type*} [RCLike 𝕜]

theorem column_eq {u s d : Tn 𝕜} {x n x' w m e z y z' : ℕ} (hu : u.shape = [x, n, x']) (hs : s.shape = [w, m, e, n])
    (hd : d.shape = [z, m, z']) :
    (column u s d).shape = [x, x', w, e, z, z'] ∧ ∀ a b c f g h, (column u s d).elem [a, b, c, f, g, h] =
      ∑ j ∈ Finset.range m, (∑ i ∈ Finset.range n, u.elem [a, i, b] * s.elem [c, j, f, i]) * d.elem [g, j, h] := by
  obtain ⟨sh, g⟩ := u
  obtain rfl : sh = _ := hu
  obtain ⟨sh, g'⟩ := s
  obtain rfl : sh = _ := hs
  obtain ⟨sh, g''⟩ := d
  obtain rfl : sh = _ := hd
  exact ⟨rfl, fun _ _ _ _ _ _ => rfl⟩

theorem acc1_eq {a c : Tn 𝕜} {x w z p q r x' w' z' : ℕ} (ha : a.shape = [p, x, w, q, z, r])
    (hc : c.shape = [x, x', w', w, z', z]) :
    (contractN a [1, 2, 4] c [0, 3, 5]).shape = [p, q, r, x', w', z'] ∧
    ∀ i j k f g h, (contractN a [1, 2, 4] c [0, 3, 5]).elem [i, j, k, f, g, h] =
      ∑ α ∈ Finset.range x, ∑ β ∈ Finset.range w, ∑ γ ∈ Finset.range z,
        a.elem [i, α, β, j, γ, k] * c.elem [α, f, g, β, h, γ] := by
  obtain ⟨sh, g⟩ := a
  obtain rfl : sh = _ := ha
  obtain ⟨sh, g'⟩ := c
  obtain rfl : sh = _ := hc
  exact ⟨rfl, fun _ _ _ _ _ _ => rfl⟩

theorem acc2_eq {a c : Tn 𝕜} {x w z p q r x' w' z' : ℕ} (ha : a.shape = [p, q, r, x, w, z])
    (hc : c.shape = [x, x', w', w, z', z]) :
    (contractN a [3, 4, 5] c [0, 3, 5]).shape = [p, q, r, x', w', z'] ∧
    ∀ i j k f g h, (contractN a [3, 4, 5] c [0, 3, 5]).elem [i, j, k, f, g, h] =
      ∑ α ∈ Finset.range x, ∑ β ∈ Finset.range w, ∑ γ ∈ Finset.range z,
        a.elem [i, j, k, α, β, γ] * c.elem [α, f, g, β, h, γ] := by
  obtain ⟨sh, g⟩ := a
  obtain rfl : sh = _ := ha
  obtain ⟨sh, g'⟩ := c
  obtain rfl : sh = _ := hc
  exact ⟨rfl, fun _ _ _ _ _ _ => rfl⟩

/-- a step of the boundary tensor of the right, in terms of the column -/
theorem grow_column {c u s d : Tn 𝕜} {x n x' w m e z z' : ℕ} (hu : u.shape = [x, n, x']) (hs : s.shape = [w, m, e, n])
    (hd : d.shape = [z, m, z']) (hc : c.shape = [z', e, x]) :
    (growBTen .right c d s u).shape = [z, w, x'] ∧ ∀ f g h, (growBTen .right c d s u).elem [h, g, f] =
      ∑ α ∈ Finset.range x, ∑ β ∈ Finset.range e, ∑ γ ∈ Finset.range z',
        c.elem [γ, β, α] * (column u s d).elem [α, f, g, β, h, γ] := by
  obtain ⟨h1, h2⟩ := growBTen_eq .right hd hc (show FShape .right s m e n w from hs) hu
  refine ⟨h1, fun f g h => ?_⟩
  rw [h2]
  simp only [(column_eq (y := 0) hu hs hd).2, Finset.mul_sum, Finset.sum_mul, fe]
  refine Finset.sum_congr rfl fun α _ => ?_
  rw [pull3, pull3]
  refine Finset.sum_congr rfl fun β _ => Finset.sum_congr rfl fun γ _ => ?_
  rw [Finset.sum_comm]
  refine Finset.sum_congr rfl fun j _ => Finset.sum_congr rfl fun i _ => ?_
  ring

variable (u s d r : ℕ → Tn 𝕜) (x w z n m : ℕ → ℕ)

/-- the accumulator for tensors given step by step -/
def stepAcc : ℕ → Tn 𝕜
  | 0 => column (u 0) (s 0) (d 0)
  | 1 => contractN (column (u 0) (s 0) (d 0)) [1, 2, 4] (column (u 1) (s 1) (d 1)) [0, 3, 5]
  | i + 2 => contractN (stepAcc (i + 1)) [3, 4, 5] (column (u (i + 2)) (s (i + 2)) (d (i + 2))) [0, 3, 5]

variable {u s d r x w z n m}

/-- the accumulator holds the boundary tensor of the right -/
theorem stepAcc_eq (N : ℕ) (hu : ∀ i < N, (u i).shape = [x i, n i, x (i + 1)])
    (hs : ∀ i < N, (s i).shape = [w (i + 1), m i, w i, n i]) (hd : ∀ i < N, (d i).shape = [z (i + 1), m i, z i])
    (hx : x 0 = 1) (hw : w 0 = 1) (hz : z 0 = 1) (hr0 : (r 0).shape = [1, 1, 1] ∧ (r 0).elem [0, 0, 0] = 1)
    (hr : ∀ i < N, r (i + 1) = growBTen .right (r i) (d i) (s i) (u i)) : ∀ i < N,
    (r (i + 1)).shape = [z (i + 1), w (i + 1), x (i + 1)] ∧
    (stepAcc u s d i).shape = (if i = 0 then [1, x 1, w 1, 1, z 1, 1] else [1, 1, 1, x (i + 1), w (i + 1), z (i + 1)]) ∧
    ∀ a b c, (stepAcc u s d i).elem (if i = 0 then [0, a, b, 0, c, 0] else [0, 0, 0, a, b, c]) = (r (i + 1)).elem [c, b, a] := by
  intro i
  induction i with
  | zero =>
    intro hi
    obtain ⟨g1, g2⟩ := grow_column (hu 0 hi) (hs 0 hi) (hd 0 hi) (by rw [hr0.1, hx, hw, hz])
    rw [hr 0 hi]
    refine ⟨g1, ?_, fun a b c => ?_⟩
    · rw [stepAcc, (column_eq (y := 0) (hu 0 hi) (hs 0 hi) (hd 0 hi)).1, hx, hw, hz]; rfl
    · rw [g2, hx, hw, hz]
      simp [hr0.2, stepAcc]
  | succ i ih =>
    intro hi
    obtain ⟨h1, h2, h3⟩ := ih (by omega)
    obtain ⟨g1, g2⟩ := grow_column (hu _ hi) (hs _ hi) (hd _ hi) h1
    have hc := (column_eq (y := 0) (hu _ hi) (hs _ hi) (hd _ hi)).1
    rw [hr _ hi]
    refine ⟨g1, ?_⟩
    simp only [Nat.succ_ne_zero, if_false]
    rcases i with _ | i
    · obtain ⟨k1, k2⟩ := acc1_eq h2 hc
      refine ⟨k1, fun a b c => ?_⟩
      rw [g2]
      refine (k2 ..).trans ?_
      refine Finset.sum_congr rfl fun α _ => Finset.sum_congr rfl fun β _ => Finset.sum_congr rfl fun γ _ => ?_
      rw [← h3]; rfl
    · simp only [Nat.succ_ne_zero, if_false] at h2 h3
      obtain ⟨k1, k2⟩ := acc2_eq h2 hc
      refine ⟨k1, fun a b c => ?_⟩
      rw [g2]
      refine (k2 ..).trans ?_
      refine Finset.sum_congr rfl fun α _ => Finset.sum_congr rfl fun β _ => Finset.sum_congr rfl fun γ _ => ?_
      rw [← h3]

theorem rowAcc_eq (N : ℕ) (bmps mpo opp : List (Tn 𝕜)) : ∀ i, rowAcc N bmps mpo opp i =
    stepAcc (fun i => bmps.getD i nil) (fun i => mpo.getD (N - 1 - i) nil) (fun i => opp.getD (N - 1 - i) nil) i
  | 0 => rfl
  | 1 => rfl
  | i + 2 => by rw [rowAcc, stepAcc, rowAcc_eq]; rfl

/-- the row between two boundary MPS -/
theorem contractRow_eq {C : Type*} {lib : QLPeps.Peps.Lib 𝕜} {rows cols : ℕ} {t : Site → Tn 𝕜} {dh dv : ℕ → ℕ → ℕ}
    (hl : Shaped lib) (hn : Net rows cols t dh dv) (row : ℕ) (hrow : row < rows) (hc : 0 < cols)
    (wk : Wk (List (Tn 𝕜)) C) (hp : wk.pos = .up) (hb : wk.bmps = env (tensorOps lib rows cols) rows cols t .up row) :
    contractRow ((List.range cols).map fun c => t (row, c)) .down
      (env (tensorOps lib rows cols) rows cols t .down (rows - 1 - row)) wk =
    some ((benv (tensorOps lib rows cols) rows cols t .right row cols).elem [0, 0, 0]) := by
  obtain ⟨s2, s1⟩ := Env_shp hl hn .right row hrow hc
  have l2 := s2.length
  have l1 := s1.length
  rw [fvl_length] at l2
  rw [List.length_reverse, fvl_length] at l1
  change (env (tensorOps lib rows cols) rows cols t .up row).length = cols at l2
  change (env (tensorOps lib rows cols) rows cols t .down (rows - 1 - row)).length = cols at l1
  have hE := fun i (hi : i < cols) => Env_shape hl hn .right row i hrow hi
  have hS := fun i (hi : i < cols) => cell_shape hn .right row i hrow hi
  have hG2 : ∀ i < cols, e2 (tensorOps lib rows cols) rows cols t .right row i =
      (env (tensorOps lib rows cols) rows cols t .up row).getD i nil := fun i (hi : i < cols) => e2_get (lib := lib) (t := t) .right (rows := rows) (cols := cols) row i hi
  have hG1 : ∀ i < cols, e1 (tensorOps lib rows cols) rows cols t .right row i =
      (env (tensorOps lib rows cols) rows cols t .down (rows - 1 - row)).getD (cols - 1 - i) nil := fun i (hi : i < cols) => e1_get (lib := lib) (t := t) .right (rows := rows) (cols := cols) row i hi
  have bz : bond (Env lib rows cols t .down row) cols = 1 := by
    have := bond_length (env (tensorOps lib rows cols) rows cols t .down (rows - 1 - row))
    rwa [l1] at this
  have hx : bond (Env lib rows cols t .up row) cols = 1 := by
    have := bond_length (env (tensorOps lib rows cols) rows cols t .up row)
    rwa [l2] at this
  have z0 := s1.get.1
  have x0 := s2.get.1
  have key := stepAcc_eq (u := fun i => (env (tensorOps lib rows cols) rows cols t .up row).getD i nil)
    (s := fun i => ((List.range cols).map fun c => t (row, c)).getD (cols - 1 - i) nil)
    (d := fun i => (env (tensorOps lib rows cols) rows cols t .down (rows - 1 - row)).getD (cols - 1 - i) nil)
    (r := fun i => benv (tensorOps lib rows cols) rows cols t .right row i)
    (x := fun i => bond (Env lib rows cols t .up row) i) (z := fun i => bond (Env lib rows cols t .down row) (cols - i))
    (w := fun i => fh rows cols dh dv .up row i) (n := fun i => fv rows cols dh dv .up row i)
    (m := fun i => fv rows cols dh dv .up (row + 1) i) cols
    (fun i hi => by rw [← hG2 i hi]; exact (hE i hi).1)
    (fun i hi => by
      have : ((List.range cols).map fun c => t (row, c)).getD (cols - 1 - i) nil = t (row, cols - 1 - i) := by
        rw [List.getD_eq_getElem _ _ (by simp; omega)]; simp
      rw [this]; exact hS i hi)
    (fun i hi => by rw [← hG1 i hi]; exact (hE i hi).2)
    x0 (by simp only [fh, Nat.sub_zero]; exact hn.east row hrow)
    (by simp only [Nat.sub_zero]; exact bz)
    (by
      have h := benv_shape hl hn .right row hrow hc 0 (by omega)
      rw [benv_zero]
      have e : (e1 (tensorOps lib rows cols) rows cols t .right row 0).shape.getD 2 0 = 1 := by
        rw [(hE 0 hc).2]; change bond (Env lib rows cols t .down row) (cols - 0) = 1
        rw [Nat.sub_zero]; exact bz
      have e' : (e2 (tensorOps lib rows cols) rows cols t .right row 0).shape.getD 0 0 = 1 := by
        rw [(hE 0 hc).1]; exact x0
      change (corner [_, 1, _]).shape = _ ∧ (corner [_, 1, _]).elem _ = _
      rw [e, e']
      exact ⟨rfl, rfl⟩)
    (fun i hi => by
      rw [benv_succ, hG1 i hi, hG2 i hi]
      have : ((List.range cols).map fun c => t (row, c)).getD (cols - 1 - i) nil = t (row, cols - 1 - i) := by
        rw [List.getD_eq_getElem _ _ (by simp; omega)]; simp
      rw [this]; rfl) (cols - 1) (by omega)
  obtain ⟨-, k2, k3⟩ := key
  have hz : bond (Env lib rows cols t .down row) (cols - cols) = 1 := by rw [Nat.sub_self]; exact z0
  have hw : fh rows cols dh dv .up row cols = 1 := by simp only [fh, Nat.sub_self]; exact hn.west row hrow
  have hN : cols - 1 + 1 = cols := by omega
  rw [hN] at k2 k3
  have hsh : (stepAcc (fun i => (env (tensorOps lib rows cols) rows cols t .up row).getD i nil)
    (fun i => ((List.range cols).map fun c => t (row, c)).getD (cols - 1 - i) nil)
    (fun i => (env (tensorOps lib rows cols) rows cols t .down (rows - 1 - row)).getD (cols - 1 - i) nil) (cols - 1)).shape =
      [1, 1, 1, 1, 1, 1] := by
    rw [k2]
    split
    · next h =>
      obtain rfl : cols = 1 := by omega
      simp only [hx, hw, hz]
    · simp only [hx, hw, hz]
  have hel := k3 0 0 0
  rw [ite_self (c := cols - 1 = 0) ([0, 0, 0, 0, 0, 0] : List ℕ)] at hel
  unfold contractRow
  simp only [hb, hp, l2, l1, List.length_map, List.length_range]
  rw [if_neg (by omega), if_neg (by simp), rowAcc_eq, hsh, if_pos (by rfl)]
  exact congrArg some hel

/-- the cut before the first column -/
theorem cut_zero {lib : QLPeps.Peps.Lib 𝕜} {rows cols : ℕ} {t : Site → Tn 𝕜} {dh dv : ℕ → ℕ → ℕ}
    (hl : Shaped lib) (hn : Net rows cols t dh dv) (row : ℕ) (hrow : row < rows) (hc : 0 < cols) :
    cut lib rows cols t .left row 0 = (benv (tensorOps lib rows cols) rows cols t .right row cols).elem [0, 0, 0] := by
  obtain ⟨s2, s1⟩ := Env_shp hl hn .left row hrow hc
  have l1 := s1.length
  rw [List.length_reverse, fvl_length] at l1
  change (env (tensorOps lib rows cols) rows cols t .up row).length = cols at l1
  have hx : bond (Env lib rows cols t .up row) cols = 1 := by
    have := bond_length (env (tensorOps lib rows cols) rows cols t .up row)
    rwa [l1] at this
  have z0 : bond (Env lib rows cols t .down row) 0 = 1 := s2.get.1
  have w0 : fh rows cols dh dv .down (rows - 1 - row) 0 = 1 := by
    simp only [fh]; exact hn.west _ (by omega)
  have e1 : (benv (tensorOps lib rows cols) rows cols t .left row 0).shape = [1, 1, 1] := by
    have h := benv_shape hl hn .left row hrow hc 0 (by omega)
    change _ = [bond (Env lib rows cols t .up row) cols, fh rows cols dh dv .down (rows - 1 - row) 0,
      bond (Env lib rows cols t .down row) 0] at h
    rw [h, hx, z0, w0]
  have e2 : (benv (tensorOps lib rows cols) rows cols t .right row cols).shape = [1, 1, 1] := by
    have h := benv_opposite_shape hl hn .left row hrow hc 0 (by omega)
    change (benv (tensorOps lib rows cols) rows cols t .right row cols).shape = [bond (Env lib rows cols t .down row) 0,
      fh rows cols dh dv .down (rows - 1 - row) 0, bond (Env lib rows cols t .up row) cols] at h
    rw [h, hx, z0, w0]
  have e3 : (benv (tensorOps lib rows cols) rows cols t .left row 0).elem [0, 0, 0] = 1 := by
    rw [benv_zero]; rfl
  refine (dot3 e1 e2).trans ?_
  simp only [Finset.range_one, Finset.sum_singleton, e3, one_mul]

end

end QLPeps.Walker
