import Verif.Spec.Peps

/-!
# Contractions with diagonal matrices

Shapes and elements of the contractions of rank-four and rank-five tensors with diagonal matrices.
-/

namespace QLPeps.Peps

variable {𝕜 : Type*} [RCLike 𝕜]

theorem contract_ten1 (t : Tn 𝕜) (i : ℕ) (d : Diag) (x : List ℕ) (y : ℕ)
    (hx : x.length = t.shape.length - 1) (hy : y < t.shape.getD i 0) :
    (contract t i d.ten 1).elem (x ++ [y]) =
      t.elem (rot (t.shape.length - i) (y :: x)) * (d.val y : 𝕜) := by
  simp only [contract]
  rw [List.take_left' hx, List.drop_left' hx, Finset.sum_eq_single y]
  · simp [Diag.ten, rot]
  · intro k _ hk
    simp [Diag.ten, rot, Ne.symm hk]
  · intro h
    exact absurd (Finset.mem_range.2 hy) h

theorem ten1_contract (t : Tn 𝕜) (i : ℕ) (d : Diag) (x : List ℕ) (y : ℕ) (hy : y < d.dim) :
    (contract d.ten 1 t i).elem (y :: x) =
      t.elem (rot (t.shape.length - i) (y :: x)) * (d.val y : 𝕜) := by
  simp only [contract]
  change ∑ k ∈ Finset.range d.dim, _ = _
  rw [Finset.sum_eq_single y]
  · simp [Diag.ten, rot, mul_comm]
  · intro k _ hk
    simp [Diag.ten, rot, Ne.symm hk]
  · intro h
    exact absurd (Finset.mem_range.2 hy) h

theorem contract_ten0 (t : Tn 𝕜) (i : ℕ) (d : Diag) (x : List ℕ) (y : ℕ)
    (hx : x.length = t.shape.length - 1) (hy : y < t.shape.getD i 0) :
    (contract t i d.ten 0).elem (x ++ [y]) =
      t.elem (rot (t.shape.length - i) (y :: x)) * (d.val y : 𝕜) := by
  simp only [contract]
  rw [List.take_left' hx, List.drop_left' hx, Finset.sum_eq_single y]
  · simp [Diag.ten, rot]
  · intro k _ hk
    simp [Diag.ten, rot, hk]
  · intro h
    exact absurd (Finset.mem_range.2 hy) h

theorem ten0_contract (t : Tn 𝕜) (i : ℕ) (d : Diag) (x : List ℕ) (y : ℕ) (hy : y < d.dim) :
    (contract d.ten 0 t i).elem (y :: x) =
      t.elem (rot (t.shape.length - i) (y :: x)) * (d.val y : 𝕜) := by
  simp only [contract]
  change ∑ k ∈ Finset.range d.dim, _ = _
  rw [Finset.sum_eq_single y]
  · simp [Diag.ten, rot, mul_comm]
  · intro k _ hk
    simp [Diag.ten, rot, hk]
  · intro h
    exact absurd (Finset.mem_range.2 hy) h

theorem s40_0 {t : Tn 𝕜} {a0 a1 a2 a3 : ℕ} (ht : t.shape = [a0, a1, a2, a3]) (d : Diag) :
    (contract t 0 d.ten 0).shape = [a1, a2, a3, d.dim] := by
  obtain ⟨sh, g⟩ := t
  obtain rfl : sh = _ := ht
  rfl

theorem c40_0 {t : Tn 𝕜} {a0 a1 a2 a3 : ℕ} (ht : t.shape = [a0, a1, a2, a3]) (d : Diag)
    {x1 x2 x3 y : ℕ} (hy : y < a0) :
    (contract t 0 d.ten 0).elem [x1, x2, x3, y] = t.elem [y, x1, x2, x3] * (d.val y : 𝕜) := by
  obtain ⟨sh, g⟩ := t
  obtain rfl : sh = _ := ht
  exact contract_ten0 ⟨[a0, a1, a2, a3], g⟩ 0 d [x1, x2, x3] y rfl hy

theorem s0_40 {t : Tn 𝕜} {a0 a1 a2 a3 : ℕ} (ht : t.shape = [a0, a1, a2, a3]) (d : Diag) :
    (contract d.ten 0 t 0).shape = [d.dim, a1, a2, a3] := by
  obtain ⟨sh, g⟩ := t
  obtain rfl : sh = _ := ht
  rfl

theorem c0_40 {t : Tn 𝕜} {a0 a1 a2 a3 : ℕ} (ht : t.shape = [a0, a1, a2, a3]) (d : Diag)
    {x1 x2 x3 y : ℕ} (hy : y < d.dim) :
    (contract d.ten 0 t 0).elem [y, x1, x2, x3] = t.elem [y, x1, x2, x3] * (d.val y : 𝕜) := by
  obtain ⟨sh, g⟩ := t
  obtain rfl : sh = _ := ht
  exact ten0_contract ⟨[a0, a1, a2, a3], g⟩ 0 d [x1, x2, x3] y hy

theorem s40_1 {t : Tn 𝕜} {a0 a1 a2 a3 : ℕ} (ht : t.shape = [a0, a1, a2, a3]) (d : Diag) :
    (contract t 0 d.ten 1).shape = [a1, a2, a3, d.dim] := by
  obtain ⟨sh, g⟩ := t
  obtain rfl : sh = _ := ht
  rfl

theorem c40_1 {t : Tn 𝕜} {a0 a1 a2 a3 : ℕ} (ht : t.shape = [a0, a1, a2, a3]) (d : Diag)
    {x1 x2 x3 y : ℕ} (hy : y < a0) :
    (contract t 0 d.ten 1).elem [x1, x2, x3, y] = t.elem [y, x1, x2, x3] * (d.val y : 𝕜) := by
  obtain ⟨sh, g⟩ := t
  obtain rfl : sh = _ := ht
  exact contract_ten1 ⟨[a0, a1, a2, a3], g⟩ 0 d [x1, x2, x3] y rfl hy

theorem s1_40 {t : Tn 𝕜} {a0 a1 a2 a3 : ℕ} (ht : t.shape = [a0, a1, a2, a3]) (d : Diag) :
    (contract d.ten 1 t 0).shape = [d.dim, a1, a2, a3] := by
  obtain ⟨sh, g⟩ := t
  obtain rfl : sh = _ := ht
  rfl

theorem c1_40 {t : Tn 𝕜} {a0 a1 a2 a3 : ℕ} (ht : t.shape = [a0, a1, a2, a3]) (d : Diag)
    {x1 x2 x3 y : ℕ} (hy : y < d.dim) :
    (contract d.ten 1 t 0).elem [y, x1, x2, x3] = t.elem [y, x1, x2, x3] * (d.val y : 𝕜) := by
  obtain ⟨sh, g⟩ := t
  obtain rfl : sh = _ := ht
  exact ten1_contract ⟨[a0, a1, a2, a3], g⟩ 0 d [x1, x2, x3] y hy

theorem s41_0 {t : Tn 𝕜} {a0 a1 a2 a3 : ℕ} (ht : t.shape = [a0, a1, a2, a3]) (d : Diag) :
    (contract t 1 d.ten 0).shape = [a2, a3, a0, d.dim] := by
  obtain ⟨sh, g⟩ := t
  obtain rfl : sh = _ := ht
  rfl

theorem c41_0 {t : Tn 𝕜} {a0 a1 a2 a3 : ℕ} (ht : t.shape = [a0, a1, a2, a3]) (d : Diag)
    {x2 x3 x0 y : ℕ} (hy : y < a1) :
    (contract t 1 d.ten 0).elem [x2, x3, x0, y] = t.elem [x0, y, x2, x3] * (d.val y : 𝕜) := by
  obtain ⟨sh, g⟩ := t
  obtain rfl : sh = _ := ht
  exact contract_ten0 ⟨[a0, a1, a2, a3], g⟩ 1 d [x2, x3, x0] y rfl hy

theorem s0_41 {t : Tn 𝕜} {a0 a1 a2 a3 : ℕ} (ht : t.shape = [a0, a1, a2, a3]) (d : Diag) :
    (contract d.ten 0 t 1).shape = [d.dim, a2, a3, a0] := by
  obtain ⟨sh, g⟩ := t
  obtain rfl : sh = _ := ht
  rfl

theorem c0_41 {t : Tn 𝕜} {a0 a1 a2 a3 : ℕ} (ht : t.shape = [a0, a1, a2, a3]) (d : Diag)
    {x2 x3 x0 y : ℕ} (hy : y < d.dim) :
    (contract d.ten 0 t 1).elem [y, x2, x3, x0] = t.elem [x0, y, x2, x3] * (d.val y : 𝕜) := by
  obtain ⟨sh, g⟩ := t
  obtain rfl : sh = _ := ht
  exact ten0_contract ⟨[a0, a1, a2, a3], g⟩ 1 d [x2, x3, x0] y hy

theorem s41_1 {t : Tn 𝕜} {a0 a1 a2 a3 : ℕ} (ht : t.shape = [a0, a1, a2, a3]) (d : Diag) :
    (contract t 1 d.ten 1).shape = [a2, a3, a0, d.dim] := by
  obtain ⟨sh, g⟩ := t
  obtain rfl : sh = _ := ht
  rfl

theorem c41_1 {t : Tn 𝕜} {a0 a1 a2 a3 : ℕ} (ht : t.shape = [a0, a1, a2, a3]) (d : Diag)
    {x2 x3 x0 y : ℕ} (hy : y < a1) :
    (contract t 1 d.ten 1).elem [x2, x3, x0, y] = t.elem [x0, y, x2, x3] * (d.val y : 𝕜) := by
  obtain ⟨sh, g⟩ := t
  obtain rfl : sh = _ := ht
  exact contract_ten1 ⟨[a0, a1, a2, a3], g⟩ 1 d [x2, x3, x0] y rfl hy

theorem s1_41 {t : Tn 𝕜} {a0 a1 a2 a3 : ℕ} (ht : t.shape = [a0, a1, a2, a3]) (d : Diag) :
    (contract d.ten 1 t 1).shape = [d.dim, a2, a3, a0] := by
  obtain ⟨sh, g⟩ := t
  obtain rfl : sh = _ := ht
  rfl

theorem c1_41 {t : Tn 𝕜} {a0 a1 a2 a3 : ℕ} (ht : t.shape = [a0, a1, a2, a3]) (d : Diag)
    {x2 x3 x0 y : ℕ} (hy : y < d.dim) :
    (contract d.ten 1 t 1).elem [y, x2, x3, x0] = t.elem [x0, y, x2, x3] * (d.val y : 𝕜) := by
  obtain ⟨sh, g⟩ := t
  obtain rfl : sh = _ := ht
  exact ten1_contract ⟨[a0, a1, a2, a3], g⟩ 1 d [x2, x3, x0] y hy

theorem s42_0 {t : Tn 𝕜} {a0 a1 a2 a3 : ℕ} (ht : t.shape = [a0, a1, a2, a3]) (d : Diag) :
    (contract t 2 d.ten 0).shape = [a3, a0, a1, d.dim] := by
  obtain ⟨sh, g⟩ := t
  obtain rfl : sh = _ := ht
  rfl

theorem c42_0 {t : Tn 𝕜} {a0 a1 a2 a3 : ℕ} (ht : t.shape = [a0, a1, a2, a3]) (d : Diag)
    {x3 x0 x1 y : ℕ} (hy : y < a2) :
    (contract t 2 d.ten 0).elem [x3, x0, x1, y] = t.elem [x0, x1, y, x3] * (d.val y : 𝕜) := by
  obtain ⟨sh, g⟩ := t
  obtain rfl : sh = _ := ht
  exact contract_ten0 ⟨[a0, a1, a2, a3], g⟩ 2 d [x3, x0, x1] y rfl hy

theorem s0_42 {t : Tn 𝕜} {a0 a1 a2 a3 : ℕ} (ht : t.shape = [a0, a1, a2, a3]) (d : Diag) :
    (contract d.ten 0 t 2).shape = [d.dim, a3, a0, a1] := by
  obtain ⟨sh, g⟩ := t
  obtain rfl : sh = _ := ht
  rfl

theorem c0_42 {t : Tn 𝕜} {a0 a1 a2 a3 : ℕ} (ht : t.shape = [a0, a1, a2, a3]) (d : Diag)
    {x3 x0 x1 y : ℕ} (hy : y < d.dim) :
    (contract d.ten 0 t 2).elem [y, x3, x0, x1] = t.elem [x0, x1, y, x3] * (d.val y : 𝕜) := by
  obtain ⟨sh, g⟩ := t
  obtain rfl : sh = _ := ht
  exact ten0_contract ⟨[a0, a1, a2, a3], g⟩ 2 d [x3, x0, x1] y hy

theorem s42_1 {t : Tn 𝕜} {a0 a1 a2 a3 : ℕ} (ht : t.shape = [a0, a1, a2, a3]) (d : Diag) :
    (contract t 2 d.ten 1).shape = [a3, a0, a1, d.dim] := by
  obtain ⟨sh, g⟩ := t
  obtain rfl : sh = _ := ht
  rfl

theorem c42_1 {t : Tn 𝕜} {a0 a1 a2 a3 : ℕ} (ht : t.shape = [a0, a1, a2, a3]) (d : Diag)
    {x3 x0 x1 y : ℕ} (hy : y < a2) :
    (contract t 2 d.ten 1).elem [x3, x0, x1, y] = t.elem [x0, x1, y, x3] * (d.val y : 𝕜) := by
  obtain ⟨sh, g⟩ := t
  obtain rfl : sh = _ := ht
  exact contract_ten1 ⟨[a0, a1, a2, a3], g⟩ 2 d [x3, x0, x1] y rfl hy

theorem s1_42 {t : Tn 𝕜} {a0 a1 a2 a3 : ℕ} (ht : t.shape = [a0, a1, a2, a3]) (d : Diag) :
    (contract d.ten 1 t 2).shape = [d.dim, a3, a0, a1] := by
  obtain ⟨sh, g⟩ := t
  obtain rfl : sh = _ := ht
  rfl

theorem c1_42 {t : Tn 𝕜} {a0 a1 a2 a3 : ℕ} (ht : t.shape = [a0, a1, a2, a3]) (d : Diag)
    {x3 x0 x1 y : ℕ} (hy : y < d.dim) :
    (contract d.ten 1 t 2).elem [y, x3, x0, x1] = t.elem [x0, x1, y, x3] * (d.val y : 𝕜) := by
  obtain ⟨sh, g⟩ := t
  obtain rfl : sh = _ := ht
  exact ten1_contract ⟨[a0, a1, a2, a3], g⟩ 2 d [x3, x0, x1] y hy

theorem s43_0 {t : Tn 𝕜} {a0 a1 a2 a3 : ℕ} (ht : t.shape = [a0, a1, a2, a3]) (d : Diag) :
    (contract t 3 d.ten 0).shape = [a0, a1, a2, d.dim] := by
  obtain ⟨sh, g⟩ := t
  obtain rfl : sh = _ := ht
  rfl

theorem c43_0 {t : Tn 𝕜} {a0 a1 a2 a3 : ℕ} (ht : t.shape = [a0, a1, a2, a3]) (d : Diag)
    {x0 x1 x2 y : ℕ} (hy : y < a3) :
    (contract t 3 d.ten 0).elem [x0, x1, x2, y] = t.elem [x0, x1, x2, y] * (d.val y : 𝕜) := by
  obtain ⟨sh, g⟩ := t
  obtain rfl : sh = _ := ht
  exact contract_ten0 ⟨[a0, a1, a2, a3], g⟩ 3 d [x0, x1, x2] y rfl hy

theorem s0_43 {t : Tn 𝕜} {a0 a1 a2 a3 : ℕ} (ht : t.shape = [a0, a1, a2, a3]) (d : Diag) :
    (contract d.ten 0 t 3).shape = [d.dim, a0, a1, a2] := by
  obtain ⟨sh, g⟩ := t
  obtain rfl : sh = _ := ht
  rfl

theorem c0_43 {t : Tn 𝕜} {a0 a1 a2 a3 : ℕ} (ht : t.shape = [a0, a1, a2, a3]) (d : Diag)
    {x0 x1 x2 y : ℕ} (hy : y < d.dim) :
    (contract d.ten 0 t 3).elem [y, x0, x1, x2] = t.elem [x0, x1, x2, y] * (d.val y : 𝕜) := by
  obtain ⟨sh, g⟩ := t
  obtain rfl : sh = _ := ht
  exact ten0_contract ⟨[a0, a1, a2, a3], g⟩ 3 d [x0, x1, x2] y hy

theorem s43_1 {t : Tn 𝕜} {a0 a1 a2 a3 : ℕ} (ht : t.shape = [a0, a1, a2, a3]) (d : Diag) :
    (contract t 3 d.ten 1).shape = [a0, a1, a2, d.dim] := by
  obtain ⟨sh, g⟩ := t
  obtain rfl : sh = _ := ht
  rfl

theorem c43_1 {t : Tn 𝕜} {a0 a1 a2 a3 : ℕ} (ht : t.shape = [a0, a1, a2, a3]) (d : Diag)
    {x0 x1 x2 y : ℕ} (hy : y < a3) :
    (contract t 3 d.ten 1).elem [x0, x1, x2, y] = t.elem [x0, x1, x2, y] * (d.val y : 𝕜) := by
  obtain ⟨sh, g⟩ := t
  obtain rfl : sh = _ := ht
  exact contract_ten1 ⟨[a0, a1, a2, a3], g⟩ 3 d [x0, x1, x2] y rfl hy

theorem s1_43 {t : Tn 𝕜} {a0 a1 a2 a3 : ℕ} (ht : t.shape = [a0, a1, a2, a3]) (d : Diag) :
    (contract d.ten 1 t 3).shape = [d.dim, a0, a1, a2] := by
  obtain ⟨sh, g⟩ := t
  obtain rfl : sh = _ := ht
  rfl

theorem c1_43 {t : Tn 𝕜} {a0 a1 a2 a3 : ℕ} (ht : t.shape = [a0, a1, a2, a3]) (d : Diag)
    {x0 x1 x2 y : ℕ} (hy : y < d.dim) :
    (contract d.ten 1 t 3).elem [y, x0, x1, x2] = t.elem [x0, x1, x2, y] * (d.val y : 𝕜) := by
  obtain ⟨sh, g⟩ := t
  obtain rfl : sh = _ := ht
  exact ten1_contract ⟨[a0, a1, a2, a3], g⟩ 3 d [x0, x1, x2] y hy

theorem s50_0 {t : Tn 𝕜} {a0 a1 a2 a3 a4 : ℕ} (ht : t.shape = [a0, a1, a2, a3, a4]) (d : Diag) :
    (contract t 0 d.ten 0).shape = [a1, a2, a3, a4, d.dim] := by
  obtain ⟨sh, g⟩ := t
  obtain rfl : sh = _ := ht
  rfl

theorem c50_0 {t : Tn 𝕜} {a0 a1 a2 a3 a4 : ℕ} (ht : t.shape = [a0, a1, a2, a3, a4]) (d : Diag)
    {x1 x2 x3 x4 y : ℕ} (hy : y < a0) :
    (contract t 0 d.ten 0).elem [x1, x2, x3, x4, y] = t.elem [y, x1, x2, x3, x4] * (d.val y : 𝕜) := by
  obtain ⟨sh, g⟩ := t
  obtain rfl : sh = _ := ht
  exact contract_ten0 ⟨[a0, a1, a2, a3, a4], g⟩ 0 d [x1, x2, x3, x4] y rfl hy

theorem s0_50 {t : Tn 𝕜} {a0 a1 a2 a3 a4 : ℕ} (ht : t.shape = [a0, a1, a2, a3, a4]) (d : Diag) :
    (contract d.ten 0 t 0).shape = [d.dim, a1, a2, a3, a4] := by
  obtain ⟨sh, g⟩ := t
  obtain rfl : sh = _ := ht
  rfl

theorem c0_50 {t : Tn 𝕜} {a0 a1 a2 a3 a4 : ℕ} (ht : t.shape = [a0, a1, a2, a3, a4]) (d : Diag)
    {x1 x2 x3 x4 y : ℕ} (hy : y < d.dim) :
    (contract d.ten 0 t 0).elem [y, x1, x2, x3, x4] = t.elem [y, x1, x2, x3, x4] * (d.val y : 𝕜) := by
  obtain ⟨sh, g⟩ := t
  obtain rfl : sh = _ := ht
  exact ten0_contract ⟨[a0, a1, a2, a3, a4], g⟩ 0 d [x1, x2, x3, x4] y hy

theorem s50_1 {t : Tn 𝕜} {a0 a1 a2 a3 a4 : ℕ} (ht : t.shape = [a0, a1, a2, a3, a4]) (d : Diag) :
    (contract t 0 d.ten 1).shape = [a1, a2, a3, a4, d.dim] := by
  obtain ⟨sh, g⟩ := t
  obtain rfl : sh = _ := ht
  rfl

theorem c50_1 {t : Tn 𝕜} {a0 a1 a2 a3 a4 : ℕ} (ht : t.shape = [a0, a1, a2, a3, a4]) (d : Diag)
    {x1 x2 x3 x4 y : ℕ} (hy : y < a0) :
    (contract t 0 d.ten 1).elem [x1, x2, x3, x4, y] = t.elem [y, x1, x2, x3, x4] * (d.val y : 𝕜) := by
  obtain ⟨sh, g⟩ := t
  obtain rfl : sh = _ := ht
  exact contract_ten1 ⟨[a0, a1, a2, a3, a4], g⟩ 0 d [x1, x2, x3, x4] y rfl hy

theorem s1_50 {t : Tn 𝕜} {a0 a1 a2 a3 a4 : ℕ} (ht : t.shape = [a0, a1, a2, a3, a4]) (d : Diag) :
    (contract d.ten 1 t 0).shape = [d.dim, a1, a2, a3, a4] := by
  obtain ⟨sh, g⟩ := t
  obtain rfl : sh = _ := ht
  rfl

theorem c1_50 {t : Tn 𝕜} {a0 a1 a2 a3 a4 : ℕ} (ht : t.shape = [a0, a1, a2, a3, a4]) (d : Diag)
    {x1 x2 x3 x4 y : ℕ} (hy : y < d.dim) :
    (contract d.ten 1 t 0).elem [y, x1, x2, x3, x4] = t.elem [y, x1, x2, x3, x4] * (d.val y : 𝕜) := by
  obtain ⟨sh, g⟩ := t
  obtain rfl : sh = _ := ht
  exact ten1_contract ⟨[a0, a1, a2, a3, a4], g⟩ 0 d [x1, x2, x3, x4] y hy

theorem s51_0 {t : Tn 𝕜} {a0 a1 a2 a3 a4 : ℕ} (ht : t.shape = [a0, a1, a2, a3, a4]) (d : Diag) :
    (contract t 1 d.ten 0).shape = [a2, a3, a4, a0, d.dim] := by
  obtain ⟨sh, g⟩ := t
  obtain rfl : sh = _ := ht
  rfl

theorem c51_0 {t : Tn 𝕜} {a0 a1 a2 a3 a4 : ℕ} (ht : t.shape = [a0, a1, a2, a3, a4]) (d : Diag)
    {x2 x3 x4 x0 y : ℕ} (hy : y < a1) :
    (contract t 1 d.ten 0).elem [x2, x3, x4, x0, y] = t.elem [x0, y, x2, x3, x4] * (d.val y : 𝕜) := by
  obtain ⟨sh, g⟩ := t
  obtain rfl : sh = _ := ht
  exact contract_ten0 ⟨[a0, a1, a2, a3, a4], g⟩ 1 d [x2, x3, x4, x0] y rfl hy

theorem s0_51 {t : Tn 𝕜} {a0 a1 a2 a3 a4 : ℕ} (ht : t.shape = [a0, a1, a2, a3, a4]) (d : Diag) :
    (contract d.ten 0 t 1).shape = [d.dim, a2, a3, a4, a0] := by
  obtain ⟨sh, g⟩ := t
  obtain rfl : sh = _ := ht
  rfl

theorem c0_51 {t : Tn 𝕜} {a0 a1 a2 a3 a4 : ℕ} (ht : t.shape = [a0, a1, a2, a3, a4]) (d : Diag)
    {x2 x3 x4 x0 y : ℕ} (hy : y < d.dim) :
    (contract d.ten 0 t 1).elem [y, x2, x3, x4, x0] = t.elem [x0, y, x2, x3, x4] * (d.val y : 𝕜) := by
  obtain ⟨sh, g⟩ := t
  obtain rfl : sh = _ := ht
  exact ten0_contract ⟨[a0, a1, a2, a3, a4], g⟩ 1 d [x2, x3, x4, x0] y hy

theorem s51_1 {t : Tn 𝕜} {a0 a1 a2 a3 a4 : ℕ} (ht : t.shape = [a0, a1, a2, a3, a4]) (d : Diag) :
    (contract t 1 d.ten 1).shape = [a2, a3, a4, a0, d.dim] := by
  obtain ⟨sh, g⟩ := t
  obtain rfl : sh = _ := ht
  rfl

theorem c51_1 {t : Tn 𝕜} {a0 a1 a2 a3 a4 : ℕ} (ht : t.shape = [a0, a1, a2, a3, a4]) (d : Diag)
    {x2 x3 x4 x0 y : ℕ} (hy : y < a1) :
    (contract t 1 d.ten 1).elem [x2, x3, x4, x0, y] = t.elem [x0, y, x2, x3, x4] * (d.val y : 𝕜) := by
  obtain ⟨sh, g⟩ := t
  obtain rfl : sh = _ := ht
  exact contract_ten1 ⟨[a0, a1, a2, a3, a4], g⟩ 1 d [x2, x3, x4, x0] y rfl hy

theorem s1_51 {t : Tn 𝕜} {a0 a1 a2 a3 a4 : ℕ} (ht : t.shape = [a0, a1, a2, a3, a4]) (d : Diag) :
    (contract d.ten 1 t 1).shape = [d.dim, a2, a3, a4, a0] := by
  obtain ⟨sh, g⟩ := t
  obtain rfl : sh = _ := ht
  rfl

theorem c1_51 {t : Tn 𝕜} {a0 a1 a2 a3 a4 : ℕ} (ht : t.shape = [a0, a1, a2, a3, a4]) (d : Diag)
    {x2 x3 x4 x0 y : ℕ} (hy : y < d.dim) :
    (contract d.ten 1 t 1).elem [y, x2, x3, x4, x0] = t.elem [x0, y, x2, x3, x4] * (d.val y : 𝕜) := by
  obtain ⟨sh, g⟩ := t
  obtain rfl : sh = _ := ht
  exact ten1_contract ⟨[a0, a1, a2, a3, a4], g⟩ 1 d [x2, x3, x4, x0] y hy

theorem s52_0 {t : Tn 𝕜} {a0 a1 a2 a3 a4 : ℕ} (ht : t.shape = [a0, a1, a2, a3, a4]) (d : Diag) :
    (contract t 2 d.ten 0).shape = [a3, a4, a0, a1, d.dim] := by
  obtain ⟨sh, g⟩ := t
  obtain rfl : sh = _ := ht
  rfl

theorem c52_0 {t : Tn 𝕜} {a0 a1 a2 a3 a4 : ℕ} (ht : t.shape = [a0, a1, a2, a3, a4]) (d : Diag)
    {x3 x4 x0 x1 y : ℕ} (hy : y < a2) :
    (contract t 2 d.ten 0).elem [x3, x4, x0, x1, y] = t.elem [x0, x1, y, x3, x4] * (d.val y : 𝕜) := by
  obtain ⟨sh, g⟩ := t
  obtain rfl : sh = _ := ht
  exact contract_ten0 ⟨[a0, a1, a2, a3, a4], g⟩ 2 d [x3, x4, x0, x1] y rfl hy

theorem s0_52 {t : Tn 𝕜} {a0 a1 a2 a3 a4 : ℕ} (ht : t.shape = [a0, a1, a2, a3, a4]) (d : Diag) :
    (contract d.ten 0 t 2).shape = [d.dim, a3, a4, a0, a1] := by
  obtain ⟨sh, g⟩ := t
  obtain rfl : sh = _ := ht
  rfl

theorem c0_52 {t : Tn 𝕜} {a0 a1 a2 a3 a4 : ℕ} (ht : t.shape = [a0, a1, a2, a3, a4]) (d : Diag)
    {x3 x4 x0 x1 y : ℕ} (hy : y < d.dim) :
    (contract d.ten 0 t 2).elem [y, x3, x4, x0, x1] = t.elem [x0, x1, y, x3, x4] * (d.val y : 𝕜) := by
  obtain ⟨sh, g⟩ := t
  obtain rfl : sh = _ := ht
  exact ten0_contract ⟨[a0, a1, a2, a3, a4], g⟩ 2 d [x3, x4, x0, x1] y hy

theorem s52_1 {t : Tn 𝕜} {a0 a1 a2 a3 a4 : ℕ} (ht : t.shape = [a0, a1, a2, a3, a4]) (d : Diag) :
    (contract t 2 d.ten 1).shape = [a3, a4, a0, a1, d.dim] := by
  obtain ⟨sh, g⟩ := t
  obtain rfl : sh = _ := ht
  rfl

theorem c52_1 {t : Tn 𝕜} {a0 a1 a2 a3 a4 : ℕ} (ht : t.shape = [a0, a1, a2, a3, a4]) (d : Diag)
    {x3 x4 x0 x1 y : ℕ} (hy : y < a2) :
    (contract t 2 d.ten 1).elem [x3, x4, x0, x1, y] = t.elem [x0, x1, y, x3, x4] * (d.val y : 𝕜) := by
  obtain ⟨sh, g⟩ := t
  obtain rfl : sh = _ := ht
  exact contract_ten1 ⟨[a0, a1, a2, a3, a4], g⟩ 2 d [x3, x4, x0, x1] y rfl hy

theorem s1_52 {t : Tn 𝕜} {a0 a1 a2 a3 a4 : ℕ} (ht : t.shape = [a0, a1, a2, a3, a4]) (d : Diag) :
    (contract d.ten 1 t 2).shape = [d.dim, a3, a4, a0, a1] := by
  obtain ⟨sh, g⟩ := t
  obtain rfl : sh = _ := ht
  rfl

theorem c1_52 {t : Tn 𝕜} {a0 a1 a2 a3 a4 : ℕ} (ht : t.shape = [a0, a1, a2, a3, a4]) (d : Diag)
    {x3 x4 x0 x1 y : ℕ} (hy : y < d.dim) :
    (contract d.ten 1 t 2).elem [y, x3, x4, x0, x1] = t.elem [x0, x1, y, x3, x4] * (d.val y : 𝕜) := by
  obtain ⟨sh, g⟩ := t
  obtain rfl : sh = _ := ht
  exact ten1_contract ⟨[a0, a1, a2, a3, a4], g⟩ 2 d [x3, x4, x0, x1] y hy

theorem s53_0 {t : Tn 𝕜} {a0 a1 a2 a3 a4 : ℕ} (ht : t.shape = [a0, a1, a2, a3, a4]) (d : Diag) :
    (contract t 3 d.ten 0).shape = [a4, a0, a1, a2, d.dim] := by
  obtain ⟨sh, g⟩ := t
  obtain rfl : sh = _ := ht
  rfl

theorem c53_0 {t : Tn 𝕜} {a0 a1 a2 a3 a4 : ℕ} (ht : t.shape = [a0, a1, a2, a3, a4]) (d : Diag)
    {x4 x0 x1 x2 y : ℕ} (hy : y < a3) :
    (contract t 3 d.ten 0).elem [x4, x0, x1, x2, y] = t.elem [x0, x1, x2, y, x4] * (d.val y : 𝕜) := by
  obtain ⟨sh, g⟩ := t
  obtain rfl : sh = _ := ht
  exact contract_ten0 ⟨[a0, a1, a2, a3, a4], g⟩ 3 d [x4, x0, x1, x2] y rfl hy

theorem s0_53 {t : Tn 𝕜} {a0 a1 a2 a3 a4 : ℕ} (ht : t.shape = [a0, a1, a2, a3, a4]) (d : Diag) :
    (contract d.ten 0 t 3).shape = [d.dim, a4, a0, a1, a2] := by
  obtain ⟨sh, g⟩ := t
  obtain rfl : sh = _ := ht
  rfl

theorem c0_53 {t : Tn 𝕜} {a0 a1 a2 a3 a4 : ℕ} (ht : t.shape = [a0, a1, a2, a3, a4]) (d : Diag)
    {x4 x0 x1 x2 y : ℕ} (hy : y < d.dim) :
    (contract d.ten 0 t 3).elem [y, x4, x0, x1, x2] = t.elem [x0, x1, x2, y, x4] * (d.val y : 𝕜) := by
  obtain ⟨sh, g⟩ := t
  obtain rfl : sh = _ := ht
  exact ten0_contract ⟨[a0, a1, a2, a3, a4], g⟩ 3 d [x4, x0, x1, x2] y hy

theorem s53_1 {t : Tn 𝕜} {a0 a1 a2 a3 a4 : ℕ} (ht : t.shape = [a0, a1, a2, a3, a4]) (d : Diag) :
    (contract t 3 d.ten 1).shape = [a4, a0, a1, a2, d.dim] := by
  obtain ⟨sh, g⟩ := t
  obtain rfl : sh = _ := ht
  rfl

theorem c53_1 {t : Tn 𝕜} {a0 a1 a2 a3 a4 : ℕ} (ht : t.shape = [a0, a1, a2, a3, a4]) (d : Diag)
    {x4 x0 x1 x2 y : ℕ} (hy : y < a3) :
    (contract t 3 d.ten 1).elem [x4, x0, x1, x2, y] = t.elem [x0, x1, x2, y, x4] * (d.val y : 𝕜) := by
  obtain ⟨sh, g⟩ := t
  obtain rfl : sh = _ := ht
  exact contract_ten1 ⟨[a0, a1, a2, a3, a4], g⟩ 3 d [x4, x0, x1, x2] y rfl hy

theorem s1_53 {t : Tn 𝕜} {a0 a1 a2 a3 a4 : ℕ} (ht : t.shape = [a0, a1, a2, a3, a4]) (d : Diag) :
    (contract d.ten 1 t 3).shape = [d.dim, a4, a0, a1, a2] := by
  obtain ⟨sh, g⟩ := t
  obtain rfl : sh = _ := ht
  rfl

theorem c1_53 {t : Tn 𝕜} {a0 a1 a2 a3 a4 : ℕ} (ht : t.shape = [a0, a1, a2, a3, a4]) (d : Diag)
    {x4 x0 x1 x2 y : ℕ} (hy : y < d.dim) :
    (contract d.ten 1 t 3).elem [y, x4, x0, x1, x2] = t.elem [x0, x1, x2, y, x4] * (d.val y : 𝕜) := by
  obtain ⟨sh, g⟩ := t
  obtain rfl : sh = _ := ht
  exact ten1_contract ⟨[a0, a1, a2, a3, a4], g⟩ 3 d [x4, x0, x1, x2] y hy

theorem s54_0 {t : Tn 𝕜} {a0 a1 a2 a3 a4 : ℕ} (ht : t.shape = [a0, a1, a2, a3, a4]) (d : Diag) :
    (contract t 4 d.ten 0).shape = [a0, a1, a2, a3, d.dim] := by
  obtain ⟨sh, g⟩ := t
  obtain rfl : sh = _ := ht
  rfl

theorem c54_0 {t : Tn 𝕜} {a0 a1 a2 a3 a4 : ℕ} (ht : t.shape = [a0, a1, a2, a3, a4]) (d : Diag)
    {x0 x1 x2 x3 y : ℕ} (hy : y < a4) :
    (contract t 4 d.ten 0).elem [x0, x1, x2, x3, y] = t.elem [x0, x1, x2, x3, y] * (d.val y : 𝕜) := by
  obtain ⟨sh, g⟩ := t
  obtain rfl : sh = _ := ht
  exact contract_ten0 ⟨[a0, a1, a2, a3, a4], g⟩ 4 d [x0, x1, x2, x3] y rfl hy

theorem s0_54 {t : Tn 𝕜} {a0 a1 a2 a3 a4 : ℕ} (ht : t.shape = [a0, a1, a2, a3, a4]) (d : Diag) :
    (contract d.ten 0 t 4).shape = [d.dim, a0, a1, a2, a3] := by
  obtain ⟨sh, g⟩ := t
  obtain rfl : sh = _ := ht
  rfl

theorem c0_54 {t : Tn 𝕜} {a0 a1 a2 a3 a4 : ℕ} (ht : t.shape = [a0, a1, a2, a3, a4]) (d : Diag)
    {x0 x1 x2 x3 y : ℕ} (hy : y < d.dim) :
    (contract d.ten 0 t 4).elem [y, x0, x1, x2, x3] = t.elem [x0, x1, x2, x3, y] * (d.val y : 𝕜) := by
  obtain ⟨sh, g⟩ := t
  obtain rfl : sh = _ := ht
  exact ten0_contract ⟨[a0, a1, a2, a3, a4], g⟩ 4 d [x0, x1, x2, x3] y hy

theorem s54_1 {t : Tn 𝕜} {a0 a1 a2 a3 a4 : ℕ} (ht : t.shape = [a0, a1, a2, a3, a4]) (d : Diag) :
    (contract t 4 d.ten 1).shape = [a0, a1, a2, a3, d.dim] := by
  obtain ⟨sh, g⟩ := t
  obtain rfl : sh = _ := ht
  rfl

theorem c54_1 {t : Tn 𝕜} {a0 a1 a2 a3 a4 : ℕ} (ht : t.shape = [a0, a1, a2, a3, a4]) (d : Diag)
    {x0 x1 x2 x3 y : ℕ} (hy : y < a4) :
    (contract t 4 d.ten 1).elem [x0, x1, x2, x3, y] = t.elem [x0, x1, x2, x3, y] * (d.val y : 𝕜) := by
  obtain ⟨sh, g⟩ := t
  obtain rfl : sh = _ := ht
  exact contract_ten1 ⟨[a0, a1, a2, a3, a4], g⟩ 4 d [x0, x1, x2, x3] y rfl hy

theorem s1_54 {t : Tn 𝕜} {a0 a1 a2 a3 a4 : ℕ} (ht : t.shape = [a0, a1, a2, a3, a4]) (d : Diag) :
    (contract d.ten 1 t 4).shape = [d.dim, a0, a1, a2, a3] := by
  obtain ⟨sh, g⟩ := t
  obtain rfl : sh = _ := ht
  rfl

theorem c1_54 {t : Tn 𝕜} {a0 a1 a2 a3 a4 : ℕ} (ht : t.shape = [a0, a1, a2, a3, a4]) (d : Diag)
    {x0 x1 x2 x3 y : ℕ} (hy : y < d.dim) :
    (contract d.ten 1 t 4).elem [y, x0, x1, x2, x3] = t.elem [x0, x1, x2, x3, y] * (d.val y : 𝕜) := by
  obtain ⟨sh, g⟩ := t
  obtain rfl : sh = _ := ht
  exact ten1_contract ⟨[a0, a1, a2, a3, a4], g⟩ 4 d [x0, x1, x2, x3] y hy

end QLPeps.Peps
