import Verif.Lemmas.PepsProject

/-!
# The three-site projections: outer sites, gates and the algebra of the cluster
-/

namespace QLPeps.Peps

open QLPeps.State (BC)
open QLPeps.Tps.Spec (Bond Site leg external slots)
open QLPeps.Peps.Spec

/-- the algebra of a three-site projection for fixed outer bonds; the first site of the gate is split
off by the second factorization -/
theorem core3 {𝕜 : Type*} [Field 𝕜] {Ka Kc A B C D D' E E' : ℕ} {ga gc : ℕ → ℕ → 𝕜}
    {gm : ℕ → ℕ → ℕ → 𝕜} {ga' gc' : ℕ → 𝕜} {gm' : ℕ → ℕ → 𝕜} {qa qc : ℕ → 𝕜}
    {ra rc : ℕ → ℕ → ℕ → 𝕜} {u1 u2 v1 v2 : ℕ → ℕ → 𝕜} {lam lam' s1 s2 i1 : ℕ → 𝕜}
    {g : ℕ → ℕ → ℕ → 𝕜} {ca cc cm ia ic im N : 𝕜} (ha : ia * ca = 1) (hc : ic * cc = 1)
    (hm : im * cm = 1) (hi : ∀ l < E', i1 l * s1 l = 1)
    (h0 : ∀ i < A, ∀ l < D, ∑ k ∈ Finset.range Ka, qa k * ra k i l = ga i l * ca)
    (h1 : ∀ i < C, ∀ l < D', ∑ k ∈ Finset.range Kc, qc k * rc k i l = gc i l * cc)
    (hs1 : ∀ k < Ka, ∀ k' < Kc, ∑ l ∈ Finset.range E', u1 k l * s1 l * v1 l k' =
      (∑ i ∈ Finset.range A, ∑ j ∈ Finset.range B, ∑ n ∈ Finset.range C,
        (∑ l ∈ Finset.range D, ∑ l' ∈ Finset.range D',
          ra k i l * (gm j l l' * lam l * lam' l' * cm) * rc k' n l') * g i j n) / N)
    (hs2 : ∀ k < Ka, ∀ l' < E', ∑ l ∈ Finset.range E, u2 k l * s2 l * v2 l l' = u1 k l' * s1 l')
    (hga : ∀ l < E, ga' l = ∑ k ∈ Finset.range Ka, qa k * ia * u2 k l)
    (hgc : ∀ l < E', gc' l = ∑ k ∈ Finset.range Kc, qc k * ic * v1 l k)
    (hgm : ∀ l < E, ∀ l' < E', gm' l l' = v2 l l' * i1 l' * im) :
    ∑ l ∈ Finset.range E, ∑ l' ∈ Finset.range E', ga' l * s2 l * gm' l l' * s1 l' * gc' l' =
      N⁻¹ * ∑ i ∈ Finset.range A, ∑ j ∈ Finset.range B, ∑ n ∈ Finset.range C, g i j n *
        ∑ l ∈ Finset.range D, ∑ l' ∈ Finset.range D',
          ga i l * lam l * gm j l l' * lam' l' * gc n l' := by
  have e1 : ∑ l ∈ Finset.range E, ∑ l' ∈ Finset.range E', ga' l * s2 l * gm' l l' * s1 l' * gc' l' =
      ∑ k ∈ Finset.range Ka, ∑ k' ∈ Finset.range Kc, qa k * ia * (qc k' * ic) * im *
        ∑ l' ∈ Finset.range E', u1 k l' * s1 l' * v1 l' k' := by
    have a1 : ∀ l ∈ Finset.range E, ∀ l' ∈ Finset.range E',
        ga' l * s2 l * gm' l l' * s1 l' * gc' l' =
        ∑ k ∈ Finset.range Ka, ∑ k' ∈ Finset.range Kc, qa k * ia * (qc k' * ic) * im *
          ((u2 k l * s2 l * v2 l l') * v1 l' k') := by
      intro l hl l' hl'
      have hl := Finset.mem_range.1 hl
      have hl' := Finset.mem_range.1 hl'
      rw [hga l hl, hgc l' hl', hgm l hl l' hl', Finset.sum_mul, Finset.sum_mul, Finset.sum_mul,
        Finset.sum_mul]
      refine Finset.sum_congr rfl fun k _ => ?_
      rw [Finset.mul_sum]
      refine Finset.sum_congr rfl fun k' _ => ?_
      have := hi l' hl'
      linear_combination (qa k * ia * u2 k l * s2 l * v2 l l' * im * qc k' * ic * v1 l' k') * this
    rw [Finset.sum_congr rfl fun l hl => Finset.sum_congr rfl fun l' hl' => a1 l hl l' hl']
    have a2 : ∀ k ∈ Finset.range Ka, ∀ k' ∈ Finset.range Kc, qa k * ia * (qc k' * ic) * im *
        ∑ l' ∈ Finset.range E', u1 k l' * s1 l' * v1 l' k' =
        ∑ l' ∈ Finset.range E', ∑ l ∈ Finset.range E, qa k * ia * (qc k' * ic) * im *
          ((u2 k l * s2 l * v2 l l') * v1 l' k') := by
      intro k hk k' _
      rw [Finset.mul_sum]
      refine Finset.sum_congr rfl fun l' hl' => ?_
      rw [← hs2 k (Finset.mem_range.1 hk) l' (Finset.mem_range.1 hl'), Finset.sum_mul,
        Finset.mul_sum]
    rw [Finset.sum_congr rfl fun k hk => Finset.sum_congr rfl fun k' hk' => a2 k hk k' hk']
    rw [Finset.sum_comm]
    rw [Finset.sum_congr rfl fun l' _ => Finset.sum_comm]
    rw [Finset.sum_congr rfl fun l' _ => Finset.sum_congr rfl fun k _ => Finset.sum_comm]
    rw [Finset.sum_comm]
    refine Finset.sum_congr rfl fun k _ => ?_
    rw [Finset.sum_comm]
  have e2 : ∀ i < A, ∀ j, ∀ n < C, ∑ l ∈ Finset.range D, ∑ l' ∈ Finset.range D',
        ga i l * lam l * gm j l l' * lam' l' * gc n l' =
      ∑ k ∈ Finset.range Ka, ∑ k' ∈ Finset.range Kc, qa k * ia * (qc k' * ic) * im *
        ∑ l ∈ Finset.range D, ∑ l' ∈ Finset.range D',
          ra k i l * (gm j l l' * lam l * lam' l' * cm) * rc k' n l' := by
    intro i hi' j n hn
    have a1 : ∀ l ∈ Finset.range D, ∀ l' ∈ Finset.range D',
        ga i l * lam l * gm j l l' * lam' l' * gc n l' =
        ∑ k ∈ Finset.range Ka, ∑ k' ∈ Finset.range Kc, qa k * ia * (qc k' * ic) * im *
          (ra k i l * (gm j l l' * lam l * lam' l' * cm) * rc k' n l') := by
      intro l hl l' hl'
      have b0 : ga i l = ia * ∑ k ∈ Finset.range Ka, qa k * ra k i l := by
        rw [h0 i hi' l (Finset.mem_range.1 hl), mul_comm (ga i l), ← mul_assoc, ha, one_mul]
      have b1 : gc n l' = ic * ∑ k ∈ Finset.range Kc, qc k * rc k n l' := by
        rw [h1 n hn l' (Finset.mem_range.1 hl'), mul_comm (gc n l'), ← mul_assoc, hc, one_mul]
      rw [b0, b1, Finset.mul_sum, Finset.sum_mul, Finset.sum_mul, Finset.sum_mul, Finset.sum_mul]
      refine Finset.sum_congr rfl fun k _ => ?_
      rw [Finset.mul_sum, Finset.mul_sum]
      refine Finset.sum_congr rfl fun k' _ => ?_
      linear_combination (-(ia * qa k * ra k i l * lam l * gm j l l' * lam' l' * ic * qc k' *
        rc k' n l')) * hm
    rw [Finset.sum_congr rfl fun l hl => Finset.sum_congr rfl fun l' hl' => a1 l hl l' hl']
    simp only [Finset.mul_sum]
    rw [Finset.sum_congr rfl fun l _ => Finset.sum_comm, Finset.sum_comm]
    refine Finset.sum_congr rfl fun k _ => ?_
    rw [Finset.sum_congr rfl fun l _ => Finset.sum_comm, Finset.sum_comm]
  rw [e1]
  have e3 : ∀ i ∈ Finset.range A, ∀ j ∈ Finset.range B, ∀ n ∈ Finset.range C,
      g i j n * ∑ l ∈ Finset.range D, ∑ l' ∈ Finset.range D',
        ga i l * lam l * gm j l l' * lam' l' * gc n l' =
      ∑ k ∈ Finset.range Ka, ∑ k' ∈ Finset.range Kc, qa k * ia * (qc k' * ic) * im *
        ((∑ l ∈ Finset.range D, ∑ l' ∈ Finset.range D',
          ra k i l * (gm j l l' * lam l * lam' l' * cm) * rc k' n l') * g i j n) := by
    intro i hi j hj n hn
    rw [e2 i (Finset.mem_range.1 hi) j n (Finset.mem_range.1 hn), Finset.mul_sum]
    refine Finset.sum_congr rfl fun k _ => ?_
    rw [Finset.mul_sum]
    exact Finset.sum_congr rfl fun k' _ => by ring
  rw [Finset.sum_congr rfl fun i hi => Finset.sum_congr rfl fun j hj =>
    Finset.sum_congr rfl fun n hn => e3 i hi j hj n hn]
  conv_rhs =>
    rw [Finset.sum_congr rfl fun i _ => Finset.sum_congr rfl fun j _ => Finset.sum_comm]
    rw [Finset.sum_congr rfl fun i _ => Finset.sum_comm, Finset.sum_comm, Finset.mul_sum]
  refine Finset.sum_congr rfl fun k hk => ?_
  conv_rhs =>
    rw [Finset.sum_congr rfl fun i _ => Finset.sum_congr rfl fun j _ => Finset.sum_comm]
    rw [Finset.sum_congr rfl fun i _ => Finset.sum_comm, Finset.sum_comm, Finset.mul_sum]
  refine Finset.sum_congr rfl fun k' hk' => ?_
  rw [hs1 k (Finset.mem_range.1 hk) k' (Finset.mem_range.1 hk'), div_eq_mul_inv]
  simp only [← Finset.mul_sum]
  ring

/-- the same without dividing by the norm -/
theorem core3' {𝕜 : Type*} [Field 𝕜] {Ka Kc A B C D D' E E' : ℕ} {ga gc : ℕ → ℕ → 𝕜}
    {gm : ℕ → ℕ → ℕ → 𝕜} {ga' gc' : ℕ → 𝕜} {gm' : ℕ → ℕ → 𝕜} {qa qc : ℕ → 𝕜}
    {ra rc : ℕ → ℕ → ℕ → 𝕜} {u1 u2 v1 v2 : ℕ → ℕ → 𝕜} {lam lam' s1 s2 i1 : ℕ → 𝕜}
    {g : ℕ → ℕ → ℕ → 𝕜} {ca cc cm ia ic im N : 𝕜} (ha : ia * ca = 1) (hc : ic * cc = 1)
    (hm : im * cm = 1) (hi : ∀ l < E', i1 l * s1 l = 1)
    (h0 : ∀ i < A, ∀ l < D, ∑ k ∈ Finset.range Ka, qa k * ra k i l = ga i l * ca)
    (h1 : ∀ i < C, ∀ l < D', ∑ k ∈ Finset.range Kc, qc k * rc k i l = gc i l * cc)
    (hs1 : ∀ k < Ka, ∀ k' < Kc, N * ∑ l ∈ Finset.range E', u1 k l * s1 l * v1 l k' =
      ∑ i ∈ Finset.range A, ∑ j ∈ Finset.range B, ∑ n ∈ Finset.range C,
        (∑ l ∈ Finset.range D, ∑ l' ∈ Finset.range D',
          ra k i l * (gm j l l' * lam l * lam' l' * cm) * rc k' n l') * g i j n)
    (hs2 : ∀ k < Ka, ∀ l' < E', ∑ l ∈ Finset.range E, u2 k l * s2 l * v2 l l' = u1 k l' * s1 l')
    (hga : ∀ l < E, ga' l = ∑ k ∈ Finset.range Ka, qa k * ia * u2 k l)
    (hgc : ∀ l < E', gc' l = ∑ k ∈ Finset.range Kc, qc k * ic * v1 l k)
    (hgm : ∀ l < E, ∀ l' < E', gm' l l' = v2 l l' * i1 l' * im) :
    N * ∑ l ∈ Finset.range E, ∑ l' ∈ Finset.range E', ga' l * s2 l * gm' l l' * s1 l' * gc' l' =
      ∑ i ∈ Finset.range A, ∑ j ∈ Finset.range B, ∑ n ∈ Finset.range C, g i j n *
        ∑ l ∈ Finset.range D, ∑ l' ∈ Finset.range D',
          ga i l * lam l * gm j l l' * lam' l' * gc n l' := by
  have := core3 (u1 := fun k l => N * u1 k l) (u2 := fun k l => N * u2 k l)
    (ga' := fun l => N * ga' l) (s2 := s2) (N := 1) (B := B) (v2 := v2) ha hc hm hi h0 h1
    (fun k hk k' hk' => by
      rw [div_one, ← hs1 k hk k' hk', Finset.mul_sum]
      exact Finset.sum_congr rfl fun l _ => by ring)
    (fun k hk l' hl' => by
      rw [mul_assoc, ← hs2 k hk l' hl', Finset.mul_sum]
      exact Finset.sum_congr rfl fun l _ => by ring)
    (fun l hl => by
      rw [hga l hl, Finset.mul_sum]
      exact Finset.sum_congr rfl fun k _ => by ring) hgc hgm
  rw [inv_one, one_mul] at this
  rw [← this, Finset.mul_sum]
  refine Finset.sum_congr rfl fun l _ => ?_
  rw [Finset.mul_sum]
  exact Finset.sum_congr rfl fun l' _ => by ring

variable {𝕜 : Type*} [RCLike 𝕜] {bc : BC} {rows cols : ℕ}

/-- the leg left out by `Eat3SurroundLambdas_` -/
def rem : Pos → Fin 4
  | .left => 0 | .down => 1 | .right => 2 | .up => 3

/-- the other three, in the order of the axes of its result -/
def out : Pos → Fin 3 → Fin 4
  | .right => ![3, 0, 1]
  | .left => ![1, 2, 3]
  | .down => ![2, 3, 0]
  | .up => ![2, 1, 0]

theorem out_ne (d : Pos) (j : Fin 3) : out d j ≠ rem d := by
  cases d <;> revert j <;> decide

/-- the values of the three legs -/
def outs (γ : Bond bc rows cols → ℕ) (s : Site rows cols) (d : Pos) : List ℕ :=
  [γ (leg bc s (out d 0)), γ (leg bc s (out d 1)), γ (leg bc s (out d 2))]

/-- product of their weights -/
noncomputable def env (p : Peps 𝕜) (γ : Bond bc rows cols → ℕ) (s : Site rows cols) (d : Pos) : 𝕜 :=
  ((weight p (leg bc s (out d 0))).val (γ (leg bc s (out d 0))) : 𝕜) *
  ((weight p (leg bc s (out d 1))).val (γ (leg bc s (out d 1))) : 𝕜) *
  ((weight p (leg bc s (out d 2))).val (γ (leg bc s (out d 2))) : 𝕜)

/-- product of the inverses -/
noncomputable def ienv (tol : ℝ) (p : Peps 𝕜) (γ : Bond bc rows cols → ℕ) (s : Site rows cols)
    (d : Pos) : 𝕜 :=
  ((diagInv tol (weight p (leg bc s (out d 0)))).val (γ (leg bc s (out d 0))) : 𝕜) *
  ((diagInv tol (weight p (leg bc s (out d 1)))).val (γ (leg bc s (out d 1))) : 𝕜) *
  ((diagInv tol (weight p (leg bc s (out d 2)))).val (γ (leg bc s (out d 2))) : 𝕜)

/-- the values of the legs are within the dimensions -/
def Within (dim γ : Bond bc rows cols → ℕ) (s : Site rows cols) (d : Pos) : Prop :=
  ∀ j, γ (leg bc s (out d j)) < dim (leg bc s (out d j))

section
variable {p : Peps 𝕜} {phys : Site rows cols → ℕ} {dim : Bond bc rows cols → ℕ}

theorem ienv_env (hf : Fits p phys dim) {tol : ℝ} (htol : 0 ≤ tol) {s : Site rows cols} {d : Pos}
    (hab : ∀ k, k ≠ rem d → Above tol (weight p (leg bc s k))) {γ : Bond bc rows cols → ℕ}
    (hγ : Within dim γ s d) : ienv tol p γ s d * env p γ s d = (1 : 𝕜) :=
  above_inv3 htol (hab _ (out_ne d 0)) (hab _ (out_ne d 1)) (hab _ (out_ne d 2))
    (by rw [hf.weight]; exact hγ 0) (by rw [hf.weight]; exact hγ 1) (by rw [hf.weight]; exact hγ 2)

theorem eat3_out_shape (hf : Fits p phys dim) (s : Site rows cols) (d : Pos) :
    (eat3 p s.1 s.2 d).shape = [dim (leg bc s (out d 0)), dim (leg bc s (out d 1)),
      dim (leg bc s (out d 2)), phys s, dim (leg bc s (rem d))] := by
  cases d
  · have := eat3_left_shape p s.1 s.2 (hf.shape s)
    rwa [east_eq hf.cols_eq hf.bc_eq, north_eq (bc := bc), south_eq hf.rows_eq hf.bc_eq, hf.weight,
      hf.weight, hf.weight] at this
  · have := eat3_down_shape p s.1 s.2 (hf.shape s)
    rwa [west_eq (bc := bc), north_eq (bc := bc), east_eq hf.cols_eq hf.bc_eq, hf.weight, hf.weight,
      hf.weight] at this
  · have := eat3_right_shape p s.1 s.2 (hf.shape s)
    rwa [west_eq (bc := bc), north_eq (bc := bc), south_eq hf.rows_eq hf.bc_eq, hf.weight, hf.weight,
      hf.weight] at this
  · have := eat3_up_shape p s.1 s.2 (hf.shape s)
    rwa [east_eq hf.cols_eq hf.bc_eq, west_eq (bc := bc), south_eq hf.rows_eq hf.bc_eq, hf.weight,
      hf.weight, hf.weight] at this

theorem eat3_out (hf : Fits p phys dim) {s : Site rows cols} {d : Pos} {γ : Bond bc rows cols → ℕ}
    (hγ : Within dim γ s d) (hs : ∀ k, k ≠ rem d → leg bc s k ≠ leg bc s (rem d)) (i l : ℕ) :
    (eat3 p s.1 s.2 d).elem (outs γ s d ++ [i, l]) =
      (p.gamma s.1 s.2).elem (coords (Function.update γ (leg bc s (rem d)) l) s i) *
        env p γ s d := by
  have b0 := hγ 0
  have b1 := hγ 1
  have b2 := hγ 2
  have hcs : coords (Function.update γ (leg bc s (rem d)) l) s i = match d with
      | .left => [l, γ (leg bc s 1), γ (leg bc s 2), γ (leg bc s 3), i]
      | .down => [γ (leg bc s 0), l, γ (leg bc s 2), γ (leg bc s 3), i]
      | .right => [γ (leg bc s 0), γ (leg bc s 1), l, γ (leg bc s 3), i]
      | .up => [γ (leg bc s 0), γ (leg bc s 1), γ (leg bc s 2), l, i] := by
    cases d <;> simp only [coords, rem, Function.update_self] at hs ⊢
    · rw [Function.update_of_ne (hs 1 (by decide)), Function.update_of_ne (hs 2 (by decide)),
        Function.update_of_ne (hs 3 (by decide))]
    · rw [Function.update_of_ne (hs 0 (by decide)), Function.update_of_ne (hs 2 (by decide)),
        Function.update_of_ne (hs 3 (by decide))]
    · rw [Function.update_of_ne (hs 0 (by decide)), Function.update_of_ne (hs 1 (by decide)),
        Function.update_of_ne (hs 3 (by decide))]
    · rw [Function.update_of_ne (hs 0 (by decide)), Function.update_of_ne (hs 1 (by decide)),
        Function.update_of_ne (hs 2 (by decide))]
  rw [hcs]
  unfold env
  cases d
  · refine (eat3_left p s.1 s.2 (hf.shape s) ?_ b1 b2).trans ?_
    · rw [south_eq (bc := bc) hf.rows_eq hf.bc_eq, hf.weight]; exact b0
    · rw [north_eq (bc := bc), south_eq (bc := bc) hf.rows_eq hf.bc_eq,
        east_eq (bc := bc) hf.cols_eq hf.bc_eq]
      simp only [out, Matrix.cons_val]
      ring
  · refine (eat3_down p s.1 s.2 (hf.shape s) ?_ ?_ ?_).trans ?_
    · rw [east_eq (bc := bc) hf.cols_eq hf.bc_eq, hf.weight]; exact b0
    · rw [north_eq (bc := bc), hf.weight]; exact b1
    · rw [west_eq (bc := bc), hf.weight]; exact b2
    · rw [north_eq (bc := bc), west_eq (bc := bc), east_eq (bc := bc) hf.cols_eq hf.bc_eq]
      simp only [out, Matrix.cons_val]
      ring
  · refine (eat3_right p s.1 s.2 (hf.shape s) b0 b1 b2).trans ?_
    rw [north_eq (bc := bc), west_eq (bc := bc), south_eq (bc := bc) hf.rows_eq hf.bc_eq]
    simp only [out, Matrix.cons_val]
    ring
  · refine (eat3_up p s.1 s.2 (hf.shape s) ?_ ?_ ?_).trans ?_
    · rw [east_eq (bc := bc) hf.cols_eq hf.bc_eq, hf.weight]; exact b0
    · rw [south_eq (bc := bc) hf.rows_eq hf.bc_eq, hf.weight]; exact b1
    · rw [west_eq (bc := bc), hf.weight]; exact b2
    · rw [south_eq (bc := bc) hf.rows_eq hf.bc_eq, west_eq (bc := bc),
        east_eq (bc := bc) hf.cols_eq hf.bc_eq]
      simp only [out, Matrix.cons_val]
      ring

/-- `QR` of a site dressed with three weights -/
theorem qr_out {lib : Lib 𝕜} (hlib : Exact lib) (hf : Fits p phys dim) {s : Site rows cols} {d : Pos}
    (hs : ∀ k, k ≠ rem d → leg bc s k ≠ leg bc s (rem d)) :
    ∃ K, (lib.qr (eat3 p s.1 s.2 d) 3).1.shape = [dim (leg bc s (out d 0)),
        dim (leg bc s (out d 1)), dim (leg bc s (out d 2)), K] ∧
      (lib.qr (eat3 p s.1 s.2 d) 3).2.shape = [K, phys s, dim (leg bc s (rem d))] ∧
      ∀ γ, Within dim γ s d → ∀ i < phys s, ∀ l < dim (leg bc s (rem d)),
        ∑ k ∈ Finset.range K, (lib.qr (eat3 p s.1 s.2 d) 3).1.elem (outs γ s d ++ [k]) *
          (lib.qr (eat3 p s.1 s.2 d) 3).2.elem [k, i, l] =
        (p.gamma s.1 s.2).elem (coords (Function.update γ (leg bc s (rem d)) l) s i) *
          env p γ s d := by
  obtain ⟨K, h1, h2, h3⟩ := qr3 hlib (eat3_out_shape hf s d)
  refine ⟨K, h1, h2, fun γ hγ i hi l hl => ?_⟩
  rw [← eat3_out hf hγ hs]
  exact h3 _ (hγ 0) _ (hγ 1) _ (hγ 2) i hi l hl

/-- order of the axes of the result of `QTenSplitOutLambdas_` -/
def perm : Pos → List ℕ → ℕ → List ℕ
  | .right, l, k => k :: l
  | .left, l, k => k :: l
  | .down, l, k => l ++ [k]
  | .up, l, k => [l.getD 2 0, k, l.getD 0 0, l.getD 1 0]

theorem split_out_shape (hf : Fits p phys dim) {p1 : Peps 𝕜} (hr : p1.rows = p.rows)
    (hc : p1.cols = p.cols) (hb : p1.bc = p.bc) {s : Site rows cols} {d : Pos}
    (hw : ∀ j, weight p1 (leg bc s (out d j)) = weight p (leg bc s (out d j))) (tol : ℝ)
    {q : Tn 𝕜} {K : ℕ} (hq : q.shape = [dim (leg bc s (out d 0)), dim (leg bc s (out d 1)),
      dim (leg bc s (out d 2)), K]) :
    (split tol p1 q s.1 s.2 d).shape = perm d [dim (leg bc s (out d 0)), dim (leg bc s (out d 1)),
      dim (leg bc s (out d 2))] K := by
  have hr := hr.trans hf.rows_eq
  have hc := hc.trans hf.cols_eq
  have hb := hb.trans hf.bc_eq
  have w0 := hw 0
  have w1 := hw 1
  have w2 := hw 2
  cases d <;> simp only [out, Matrix.cons_val] at w0 w1 w2
  · rw [split_left_shape tol p1 q s.1 s.2 hq, south_eq hr hb, east_eq hc hb, north_eq (bc := bc), w0,
      w1, w2, hf.weight, hf.weight, hf.weight]
    rfl
  · rw [split_down_shape tol p1 q s.1 s.2 hq, west_eq (bc := bc), east_eq hc hb, north_eq (bc := bc),
      w0, w1, w2, hf.weight, hf.weight, hf.weight]
    rfl
  · rw [split_right_shape tol p1 q s.1 s.2 hq, west_eq (bc := bc), south_eq hr hb,
      north_eq (bc := bc), w0, w1, w2, hf.weight, hf.weight, hf.weight]
    rfl
  · rw [split_up_shape tol p1 q s.1 s.2 hq, west_eq (bc := bc), south_eq hr hb, east_eq hc hb,
      w0, w1, w2, hf.weight, hf.weight, hf.weight]
    rfl

theorem split_out (hf : Fits p phys dim) {p1 : Peps 𝕜} (hr : p1.rows = p.rows)
    (hc : p1.cols = p.cols) (hb : p1.bc = p.bc) {s : Site rows cols} {d : Pos}
    (hw : ∀ j, weight p1 (leg bc s (out d j)) = weight p (leg bc s (out d j))) (tol : ℝ)
    {q : Tn 𝕜} {K : ℕ} (hq : q.shape = [dim (leg bc s (out d 0)), dim (leg bc s (out d 1)),
      dim (leg bc s (out d 2)), K]) {γ : Bond bc rows cols → ℕ} (hγ : Within dim γ s d) (k : ℕ) :
    (split tol p1 q s.1 s.2 d).elem (perm d (outs γ s d) k) =
      q.elem (outs γ s d ++ [k]) * ienv tol p γ s d := by
  have hr := hr.trans hf.rows_eq
  have hc := hc.trans hf.cols_eq
  have hb := hb.trans hf.bc_eq
  have w0 := hw 0
  have w1 := hw 1
  have w2 := hw 2
  have b0 := hγ 0
  have b1 := hγ 1
  have b2 := hγ 2
  unfold ienv
  cases d <;> simp only [out, Matrix.cons_val] at w0 w1 w2 b0 b1 b2
  · refine (split_left tol p1 q s.1 s.2 hq b0 b1 b2).trans ?_
    rw [south_eq hr hb, east_eq hc hb, north_eq (bc := bc), w0, w1, w2]
    simp only [out, outs, Matrix.cons_val, List.cons_append, List.nil_append]
    ring
  · refine (split_down tol p1 q s.1 s.2 hq ?_ ?_ ?_).trans ?_
    · rw [east_eq hc hb, w0, hf.weight]; exact b0
    · rw [north_eq (bc := bc), w1, hf.weight]; exact b1
    · rw [west_eq (bc := bc), w2, hf.weight]; exact b2
    · rw [west_eq (bc := bc), east_eq hc hb, north_eq (bc := bc), w0, w1, w2]
      simp only [out, outs, Matrix.cons_val, List.cons_append, List.nil_append]
      ring
  · refine (split_right tol p1 q s.1 s.2 hq b0 b1 b2).trans ?_
    rw [south_eq hr hb, west_eq (bc := bc), north_eq (bc := bc), w0, w1, w2]
    simp only [out, outs, Matrix.cons_val, List.cons_append, List.nil_append]
    ring
  · refine (split_up tol p1 q s.1 s.2 hq ?_ ?_ ?_).trans ?_
    · rw [east_eq hc hb, w0, hf.weight]; exact b0
    · rw [south_eq hr hb, w1, hf.weight]; exact b1
    · rw [west_eq (bc := bc), w2, hf.weight]; exact b2
    · rw [west_eq (bc := bc), east_eq hc hb, south_eq hr hb, w0, w1, w2]
      simp only [out, outs, Matrix.cons_val, List.cons_append, List.nil_append,
        List.getD_cons_zero, List.getD_cons_succ]
      ring

end

/-! ## Factorizations and contractions of the three-site cluster -/

theorem svd52 {lib : Lib 𝕜} (hlib : Exact lib) {t : Tn 𝕜} {a b c d e x y : ℕ}
    (ht : t.shape = [a, b, c, d, e, x, y]) :
    (lib.svd t 5).u.shape = [a, b, c, d, e, (lib.svd t 5).s.dim] ∧
    (lib.svd t 5).vt.shape = [(lib.svd t 5).s.dim, x, y] ∧ ((lib.svd t 5).err = 0 →
      ∀ i0 < a, ∀ i1 < b, ∀ i2 < c, ∀ i3 < d, ∀ i4 < e, ∀ i < x, ∀ j < y,
      ∑ m ∈ Finset.range (lib.svd t 5).s.dim, (lib.svd t 5).u.elem [i0, i1, i2, i3, i4, m] *
        ((lib.svd t 5).s.val m : 𝕜) * (lib.svd t 5).vt.elem [m, i, j] =
          t.elem [i0, i1, i2, i3, i4, i, j]) := by
  have h1 := hlib.svd_shape t 5
  have h2 := hlib.svd t 5
  rw [ht] at h1 h2
  exact ⟨h1.1, h1.2, fun he i0 h0 i1 h1 i2 h2' i3 h3 i4 h4 i hi j hj =>
    h2 he [i0, i1, i2, i3, i4] [i, j] (.cons h0 (.cons h1 (valid3 h2' h3 h4))) (valid2 hi hj)⟩

theorem svd24 {lib : Lib 𝕜} (hlib : Exact lib) {t : Tn 𝕜} {a b c d e x : ℕ}
    (ht : t.shape = [a, b, c, d, e, x]) :
    (lib.svd t 2).u.shape = [a, b, (lib.svd t 2).s.dim] ∧
    (lib.svd t 2).vt.shape = [(lib.svd t 2).s.dim, c, d, e, x] ∧ ((lib.svd t 2).err = 0 →
      ∀ i0 < a, ∀ i1 < b, ∀ i2 < c, ∀ i3 < d, ∀ i4 < e, ∀ i < x,
      ∑ m ∈ Finset.range (lib.svd t 2).s.dim, (lib.svd t 2).u.elem [i0, i1, m] *
        ((lib.svd t 2).s.val m : 𝕜) * (lib.svd t 2).vt.elem [m, i2, i3, i4, i] =
          t.elem [i0, i1, i2, i3, i4, i]) := by
  have h1 := hlib.svd_shape t 2
  have h2 := hlib.svd t 2
  rw [ht] at h1 h2
  exact ⟨h1.1, h1.2, fun he i0 h0 i1 h1 i2 h2' i3 h3 i4 h4 i hi =>
    h2 he [i0, i1] [i2, i3, i4, i] (valid2 h0 h1) (.cons h2' (valid3 h3 h4 hi))⟩

theorem n65 {t : Tn 𝕜} {a0 a1 a2 a3 a4 a5 : ℕ} (ht : t.shape = [a0, a1, a2, a3, a4, a5]) (d : Diag) :
    (contractN t [5] d.ten [0]).shape = [a0, a1, a2, a3, a4, d.dim] ∧
    ∀ i0 i1 i2 i3 i4 b, b < a5 → (contractN t [5] d.ten [0]).elem [i0, i1, i2, i3, i4, b] =
      t.elem [i0, i1, i2, i3, i4, b] * (d.val b : 𝕜) := by
  obtain ⟨sh, g⟩ := t
  obtain rfl : sh = _ := ht
  refine ⟨rfl, fun i0 i1 i2 i3 i4 b hb => ?_⟩
  change ∑ m ∈ Finset.range a5, g [i0, i1, i2, i3, i4, m] *
    (if m = b then (d.val m : 𝕜) else 0) = _
  rw [Finset.sum_eq_single b (fun m _ h => by rw [if_neg h, mul_zero])
    (fun h => absurd (Finset.mem_range.2 hb) h), if_pos rfl]

theorem n54 {t : Tn 𝕜} {a0 a1 a2 a3 a4 : ℕ} (ht : t.shape = [a0, a1, a2, a3, a4]) (d : Diag) :
    (contractN t [4] d.ten [0]).shape = [a0, a1, a2, a3, d.dim] ∧
    ∀ i0 i1 i2 i3 b, b < a4 → (contractN t [4] d.ten [0]).elem [i0, i1, i2, i3, b] =
      t.elem [i0, i1, i2, i3, b] * (d.val b : 𝕜) := by
  obtain ⟨sh, g⟩ := t
  obtain rfl : sh = _ := ht
  refine ⟨rfl, fun i0 i1 i2 i3 b hb => ?_⟩
  change ∑ m ∈ Finset.range a4, g [i0, i1, i2, i3, m] * (if m = b then (d.val m : 𝕜) else 0) = _
  rw [Finset.sum_eq_single b (fun m _ h => by rw [if_neg h, mul_zero])
    (fun h => absurd (Finset.mem_range.2 hb) h), if_pos rfl]

section
variable {r r' M gate : Tn 𝕜} {K K' A B C D D' P W S E N F G H : ℕ}
  (hr : r.shape = [K, A, D]) (hr' : r'.shape = [K', C, D']) (hM : M.shape = [P, W, S, E, N])
  (hg : gate.shape = [F, G, H, A, P, C])
include hr hr' hM hg

theorem gateUR (hS : S = D') :
    (contractN (contract (contract r 2 M 1) 2 r' 2) [4, 2, 6] gate [0, 1, 2]).shape =
      [E, N, K, K', A, P, C] ∧
    ∀ e n k k' x y z,
      (contractN (contract (contract r 2 M 1) 2 r' 2) [4, 2, 6] gate [0, 1, 2]).elem
        [e, n, k, k', x, y, z] =
      ∑ i ∈ Finset.range A, ∑ j ∈ Finset.range P, ∑ m ∈ Finset.range C,
        (∑ l ∈ Finset.range D, ∑ l' ∈ Finset.range D',
          r.elem [k, i, l] * M.elem [j, l, l', e, n] * r'.elem [k', m, l']) *
        gate.elem [i, j, m, x, y, z] := by
  obtain ⟨sh, g⟩ := r
  obtain rfl : sh = _ := hr
  obtain ⟨sh, g'⟩ := r'
  obtain rfl : sh = _ := hr'
  obtain ⟨sh, gm⟩ := M
  obtain rfl : sh = _ := hM
  obtain ⟨sh, gg⟩ := gate
  obtain rfl : sh = _ := hg
  subst hS
  refine ⟨rfl, fun e n k k' x y z => ?_⟩
  change ∑ i ∈ Finset.range A, ∑ j ∈ Finset.range P, ∑ m ∈ Finset.range C,
    (∑ l' ∈ Finset.range S, (∑ l ∈ Finset.range D, g [k, i, l] * gm [j, l, l', e, n]) *
      g' [k', m, l']) * gg [i, j, m, x, y, z] = _
  refine Finset.sum_congr rfl fun i _ => Finset.sum_congr rfl fun j _ =>
    Finset.sum_congr rfl fun m _ => ?_
  congr 1
  rw [Finset.sum_comm]
  refine Finset.sum_congr rfl fun l' _ => ?_
  exact Finset.sum_mul _ _ _

theorem gateUL (hE : E = D) (hS : S = D') :
    (contractN (contract r 2 (contract M 2 r' 2) 0) [1, 3, 6] gate [0, 1, 2]).shape =
      [K, N, W, K', A, P, C] ∧
    ∀ k n w k' x y z,
      (contractN (contract r 2 (contract M 2 r' 2) 0) [1, 3, 6] gate [0, 1, 2]).elem
        [k, n, w, k', x, y, z] =
      ∑ i ∈ Finset.range A, ∑ j ∈ Finset.range P, ∑ m ∈ Finset.range C,
        (∑ l ∈ Finset.range D, ∑ l' ∈ Finset.range D',
          r.elem [k, i, l] * M.elem [j, w, l', l, n] * r'.elem [k', m, l']) *
        gate.elem [i, j, m, x, y, z] := by
  obtain ⟨sh, g⟩ := r
  obtain rfl : sh = _ := hr
  obtain ⟨sh, g'⟩ := r'
  obtain rfl : sh = _ := hr'
  obtain ⟨sh, gm⟩ := M
  obtain rfl : sh = _ := hM
  obtain ⟨sh, gg⟩ := gate
  obtain rfl : sh = _ := hg
  subst hS hE
  refine ⟨rfl, fun k n w k' x y z => ?_⟩
  change ∑ i ∈ Finset.range A, ∑ j ∈ Finset.range P, ∑ m ∈ Finset.range C,
    (∑ l ∈ Finset.range E, g [k, i, l] * (∑ l' ∈ Finset.range S, gm [j, w, l', l, n] *
      g' [k', m, l'])) * gg [i, j, m, x, y, z] = _
  refine Finset.sum_congr rfl fun i _ => Finset.sum_congr rfl fun j _ =>
    Finset.sum_congr rfl fun m _ => ?_
  congr 1
  refine Finset.sum_congr rfl fun l _ => ?_
  refine (Finset.mul_sum _ _ _).trans ?_
  exact Finset.sum_congr rfl fun l' _ => (mul_assoc _ _ _).symm

theorem gateLR (hN : N = D) (hW : W = D') :
    (contractN (contract (contract r 2 M 4) 3 r' 2) [3, 4, 6] gate [0, 1, 2]).shape =
      [S, E, K, K', A, P, C] ∧
    ∀ s e k k' x y z,
      (contractN (contract (contract r 2 M 4) 3 r' 2) [3, 4, 6] gate [0, 1, 2]).elem
        [s, e, k, k', x, y, z] =
      ∑ i ∈ Finset.range A, ∑ j ∈ Finset.range P, ∑ m ∈ Finset.range C,
        (∑ l ∈ Finset.range D, ∑ l' ∈ Finset.range D',
          r.elem [k, i, l] * M.elem [j, l', s, e, l] * r'.elem [k', m, l']) *
        gate.elem [i, j, m, x, y, z] := by
  obtain ⟨sh, g⟩ := r
  obtain rfl : sh = _ := hr
  obtain ⟨sh, g'⟩ := r'
  obtain rfl : sh = _ := hr'
  obtain ⟨sh, gm⟩ := M
  obtain rfl : sh = _ := hM
  obtain ⟨sh, gg⟩ := gate
  obtain rfl : sh = _ := hg
  subst hN hW
  refine ⟨rfl, fun s e k k' x y z => ?_⟩
  change ∑ i ∈ Finset.range A, ∑ j ∈ Finset.range P, ∑ m ∈ Finset.range C,
    (∑ l' ∈ Finset.range W, (∑ l ∈ Finset.range N, g [k, i, l] * gm [j, l', s, e, l]) *
      g' [k', m, l']) * gg [i, j, m, x, y, z] = _
  refine Finset.sum_congr rfl fun i _ => Finset.sum_congr rfl fun j _ =>
    Finset.sum_congr rfl fun m _ => ?_
  congr 1
  rw [Finset.sum_comm]
  refine Finset.sum_congr rfl fun l' _ => ?_
  exact Finset.sum_mul _ _ _

theorem gateLL (hN : N = D) (hE : E = D') :
    (contractN (contract (contract r 2 M 4) 5 r' 2) [1, 2, 6] gate [0, 1, 2]).shape =
      [K, W, S, K', A, P, C] ∧
    ∀ k w s k' x y z,
      (contractN (contract (contract r 2 M 4) 5 r' 2) [1, 2, 6] gate [0, 1, 2]).elem
        [k, w, s, k', x, y, z] =
      ∑ i ∈ Finset.range A, ∑ j ∈ Finset.range P, ∑ m ∈ Finset.range C,
        (∑ l ∈ Finset.range D, ∑ l' ∈ Finset.range D',
          r.elem [k, i, l] * M.elem [j, w, s, l', l] * r'.elem [k', m, l']) *
        gate.elem [i, j, m, x, y, z] := by
  obtain ⟨sh, g⟩ := r
  obtain rfl : sh = _ := hr
  obtain ⟨sh, g'⟩ := r'
  obtain rfl : sh = _ := hr'
  obtain ⟨sh, gm⟩ := M
  obtain rfl : sh = _ := hM
  obtain ⟨sh, gg⟩ := gate
  obtain rfl : sh = _ := hg
  subst hN hE
  refine ⟨rfl, fun k w s k' x y z => ?_⟩
  change ∑ i ∈ Finset.range A, ∑ j ∈ Finset.range P, ∑ m ∈ Finset.range C,
    (∑ l' ∈ Finset.range E, (∑ l ∈ Finset.range N, g [k, i, l] * gm [j, w, s, l', l]) *
      g' [k', m, l']) * gg [i, j, m, x, y, z] = _
  refine Finset.sum_congr rfl fun i _ => Finset.sum_congr rfl fun j _ =>
    Finset.sum_congr rfl fun m _ => ?_
  congr 1
  rw [Finset.sum_comm]
  refine Finset.sum_congr rfl fun l' _ => ?_
  exact Finset.sum_mul _ _ _

end

/-- assembling a site tensor: `t5` is the stripped site, `u` the factor -/
theorem asmR1 {t u : Tn 𝕜} {K a b c A D : ℕ} (ht : t.shape = [K, a, b, c]) (hu : u.shape = [D, A, K]) :
    (transpose [1, 2, 3, 0, 4] (contract t 0 u 2)).shape = [b, c, D, a, A] ∧
    ∀ w s l n x, (transpose [1, 2, 3, 0, 4] (contract t 0 u 2)).elem [w, s, l, n, x] =
      ∑ k ∈ Finset.range K, t.elem [k, n, w, s] * u.elem [l, x, k] := by
  obtain ⟨sh, g⟩ := t
  obtain rfl : sh = _ := ht
  obtain ⟨sh, g'⟩ := u
  obtain rfl : sh = _ := hu
  exact ⟨rfl, fun _ _ _ _ _ => rfl⟩

theorem asmR2 {t u : Tn 𝕜} {K a b c A D : ℕ} (ht : t.shape = [K, a, b, c]) (hu : u.shape = [A, K, D]) :
    (transpose [1, 2, 3, 0, 4] (contract t 0 u 1)).shape = [b, c, D, a, A] ∧
    ∀ w s l n x, (transpose [1, 2, 3, 0, 4] (contract t 0 u 1)).elem [w, s, l, n, x] =
      ∑ k ∈ Finset.range K, t.elem [k, n, w, s] * u.elem [x, k, l] := by
  obtain ⟨sh, g⟩ := t
  obtain rfl : sh = _ := ht
  obtain ⟨sh, g'⟩ := u
  obtain rfl : sh = _ := hu
  exact ⟨rfl, fun _ _ _ _ _ => rfl⟩

theorem asmU1 {t u : Tn 𝕜} {K a b c A D : ℕ} (ht : t.shape = [a, K, b, c]) (hu : u.shape = [A, K, D]) :
    (transpose [2, 1, 0, 3, 4] (contract t 1 u 1)).shape = [a, c, b, D, A] ∧
    ∀ w s m l x, (transpose [2, 1, 0, 3, 4] (contract t 1 u 1)).elem [w, s, m, l, x] =
      ∑ k ∈ Finset.range K, t.elem [w, k, m, s] * u.elem [x, k, l] := by
  obtain ⟨sh, g⟩ := t
  obtain rfl : sh = _ := ht
  obtain ⟨sh, g'⟩ := u
  obtain rfl : sh = _ := hu
  exact ⟨rfl, fun _ _ _ _ _ => rfl⟩

theorem asmU2 {t u : Tn 𝕜} {K a b c A D : ℕ} (ht : t.shape = [a, K, b, c]) (hu : u.shape = [D, A, K]) :
    (transpose [4, 3, 2, 0, 1] (contract u 2 t 1)).shape = [a, c, b, D, A] ∧
    ∀ w s m l x, (transpose [4, 3, 2, 0, 1] (contract u 2 t 1)).elem [w, s, m, l, x] =
      ∑ k ∈ Finset.range K, t.elem [w, k, m, s] * u.elem [l, x, k] := by
  obtain ⟨sh, g⟩ := t
  obtain rfl : sh = _ := ht
  obtain ⟨sh, g'⟩ := u
  obtain rfl : sh = _ := hu
  refine ⟨rfl, fun w s m l x => ?_⟩
  change ∑ k ∈ Finset.range K, g' [l, x, k] * g [w, k, m, s] = _
  exact Finset.sum_congr rfl fun _ _ => mul_comm _ _

theorem asmD1 {t u : Tn 𝕜} {K a b c A D : ℕ} (ht : t.shape = [a, b, c, K]) (hu : u.shape = [D, A, K]) :
    (transpose [2, 3, 0, 1, 4] (contract t 3 u 2)).shape = [c, D, a, b, A] ∧
    ∀ w l m n x, (transpose [2, 3, 0, 1, 4] (contract t 3 u 2)).elem [w, l, m, n, x] =
      ∑ k ∈ Finset.range K, t.elem [m, n, w, k] * u.elem [l, x, k] := by
  obtain ⟨sh, g⟩ := t
  obtain rfl : sh = _ := ht
  obtain ⟨sh, g'⟩ := u
  obtain rfl : sh = _ := hu
  exact ⟨rfl, fun _ _ _ _ _ => rfl⟩

theorem asmL1 {t u : Tn 𝕜} {K a b c A D : ℕ} (ht : t.shape = [K, a, b, c]) (hu : u.shape = [D, A, K]) :
    (transpose [0, 2, 3, 4, 1] (contract u 2 t 0)).shape = [D, a, b, c, A] ∧
    ∀ l s m n x, (transpose [0, 2, 3, 4, 1] (contract u 2 t 0)).elem [l, s, m, n, x] =
      ∑ k ∈ Finset.range K, t.elem [k, s, m, n] * u.elem [l, x, k] := by
  obtain ⟨sh, g⟩ := t
  obtain rfl : sh = _ := ht
  obtain ⟨sh, g'⟩ := u
  obtain rfl : sh = _ := hu
  refine ⟨rfl, fun l s m n x => ?_⟩
  change ∑ k ∈ Finset.range K, g' [l, x, k] * g [k, s, m, n] = _
  exact Finset.sum_congr rfl fun _ _ => mul_comm _ _

theorem asmL2 {t u : Tn 𝕜} {K a b c A D : ℕ} (ht : t.shape = [K, a, b, c]) (hu : u.shape = [K, A, D]) :
    (transpose [4, 0, 1, 2, 3] (contract t 0 u 0)).shape = [D, a, b, c, A] ∧
    ∀ l s m n x, (transpose [4, 0, 1, 2, 3] (contract t 0 u 0)).elem [l, s, m, n, x] =
      ∑ k ∈ Finset.range K, t.elem [k, s, m, n] * u.elem [k, x, l] := by
  obtain ⟨sh, g⟩ := t
  obtain rfl : sh = _ := ht
  obtain ⟨sh, g'⟩ := u
  obtain rfl : sh = _ := hu
  exact ⟨rfl, fun _ _ _ _ _ => rfl⟩

/-- assembling the corner tensors -/
theorem corUR {t : Tn 𝕜} {l e n y l' : ℕ} (ht : t.shape = [l, e, n, y, l']) (d1 dN dE : Diag) :
    (transpose [2, 3, 4, 0, 1] (contract (contract (contractN t [4] d1.ten [0]) 2 dN.ten 1) 3
      dE.ten 0)).shape = [d1.dim, l, dE.dim, dN.dim, y] ∧
    ∀ a b i j x, a < l' → i < e → j < n →
      (transpose [2, 3, 4, 0, 1] (contract (contract (contractN t [4] d1.ten [0]) 2 dN.ten 1) 3
        dE.ten 0)).elem [a, b, i, j, x] =
      t.elem [b, i, j, x, a] * (d1.val a : 𝕜) * (dN.val j : 𝕜) * (dE.val i : 𝕜) := by
  obtain ⟨h1, h2⟩ := n54 ht d1
  refine ⟨?_, fun a b i j x ha hi hj => ?_⟩
  · simp only [transpose]
    rw [s53_0 (s52_1 h1 _) _]
    rfl
  · change (contract (contract (contractN t [4] d1.ten [0]) 2 dN.ten 1) 3 dE.ten 0).elem
      [j, x, a, b, i] = _
    rw [c53_0 (s52_1 h1 _) _ hi, c52_1 h1 _ hj, h2 _ _ _ _ _ ha]

theorem corUL {t : Tn 𝕜} {l y n w l' : ℕ} (ht : t.shape = [l, y, n, w, l']) (d1 dN dW : Diag) :
    (transpose [4, 0, 1, 3, 2] (contract (contract (contractN t [4] d1.ten [0]) 2 dN.ten 1) 0
      dW.ten 1)).shape = [dW.dim, d1.dim, l, dN.dim, y] ∧
    ∀ i a b j x, a < l' → i < w → j < n →
      (transpose [4, 0, 1, 3, 2] (contract (contract (contractN t [4] d1.ten [0]) 2 dN.ten 1) 0
        dW.ten 1)).elem [i, a, b, j, x] =
      t.elem [b, x, j, i, a] * (d1.val a : 𝕜) * (dN.val j : 𝕜) * (dW.val i : 𝕜) := by
  obtain ⟨h1, h2⟩ := n54 ht d1
  refine ⟨?_, fun i a b j x ha hi hj => ?_⟩
  · simp only [transpose]
    rw [s50_1 (s52_1 h1 _) _]
    rfl
  · change (contract (contract (contractN t [4] d1.ten [0]) 2 dN.ten 1) 0 dW.ten 1).elem
      [a, b, x, j, i] = _
    rw [c50_1 (s52_1 h1 _) _ hi, c52_1 h1 _ hj, h2 _ _ _ _ _ ha]

theorem corLR {t : Tn 𝕜} {l s e y l' : ℕ} (ht : t.shape = [l, s, e, y, l']) (d1 dS dE : Diag) :
    (transpose [2, 3, 4, 1, 0] (contract (contract (contractN t [4] d1.ten [0]) 1 dS.ten 0) 0
      dE.ten 0)).shape = [l, dS.dim, dE.dim, d1.dim, y] ∧
    ∀ b j i a x, a < l' → i < e → j < s →
      (transpose [2, 3, 4, 1, 0] (contract (contract (contractN t [4] d1.ten [0]) 1 dS.ten 0) 0
        dE.ten 0)).elem [b, j, i, a, x] =
      t.elem [b, j, i, x, a] * (d1.val a : 𝕜) * (dS.val j : 𝕜) * (dE.val i : 𝕜) := by
  obtain ⟨h1, h2⟩ := n54 ht d1
  refine ⟨?_, fun b j i a x ha hi hj => ?_⟩
  · simp only [transpose]
    rw [s50_0 (s51_0 h1 _) _]
    rfl
  · change (contract (contract (contractN t [4] d1.ten [0]) 1 dS.ten 0) 0 dE.ten 0).elem
      [x, a, b, j, i] = _
    rw [c50_0 (s51_0 h1 _) _ hi, c51_0 h1 _ hj, h2 _ _ _ _ _ ha]

theorem corLL {t : Tn 𝕜} {l y w s l' : ℕ} (ht : t.shape = [l, y, w, s, l']) (d1 dS dW : Diag) :
    (transpose [4, 0, 1, 2, 3] (contract (contract (contractN t [4] d1.ten [0]) 3 dS.ten 0) 3
      dW.ten 1)).shape = [dW.dim, dS.dim, d1.dim, l, y] ∧
    ∀ i j a b x, a < l' → i < w → j < s →
      (transpose [4, 0, 1, 2, 3] (contract (contract (contractN t [4] d1.ten [0]) 3 dS.ten 0) 3
        dW.ten 1)).elem [i, j, a, b, x] =
      t.elem [b, x, i, j, a] * (d1.val a : 𝕜) * (dS.val j : 𝕜) * (dW.val i : 𝕜) := by
  obtain ⟨h1, h2⟩ := n54 ht d1
  refine ⟨?_, fun i j a b x ha hi hj => ?_⟩
  · simp only [transpose]
    rw [s53_1 (s53_0 h1 _) _]
    rfl
  · change (contract (contract (contractN t [4] d1.ten [0]) 3 dS.ten 0) 3 dW.ten 1).elem
      [j, a, b, x, i] = _
    rw [c53_1 (s53_0 h1 _) _ hi, c53_0 h1 _ hj, h2 _ _ _ _ _ ha]

/-! ## The cluster as a whole -/

theorem coords_out {γ : Bond bc rows cols → ℕ} {s : Site rows cols} {d : Pos}
    (hs : ∀ k, k ≠ rem d → leg bc s k ≠ leg bc s (rem d)) (l i : ℕ) :
    coords (Function.update γ (leg bc s (rem d)) l) s i = match d with
      | .left => [l, γ (leg bc s 1), γ (leg bc s 2), γ (leg bc s 3), i]
      | .down => [γ (leg bc s 0), l, γ (leg bc s 2), γ (leg bc s 3), i]
      | .right => [γ (leg bc s 0), γ (leg bc s 1), l, γ (leg bc s 3), i]
      | .up => [γ (leg bc s 0), γ (leg bc s 1), γ (leg bc s 2), l, i] := by
  cases d <;> simp only [coords, rem, Function.update_self] at hs ⊢
  · rw [Function.update_of_ne (hs 1 (by decide)), Function.update_of_ne (hs 2 (by decide)),
      Function.update_of_ne (hs 3 (by decide))]
  · rw [Function.update_of_ne (hs 0 (by decide)), Function.update_of_ne (hs 2 (by decide)),
      Function.update_of_ne (hs 3 (by decide))]
  · rw [Function.update_of_ne (hs 0 (by decide)), Function.update_of_ne (hs 1 (by decide)),
      Function.update_of_ne (hs 3 (by decide))]
  · rw [Function.update_of_ne (hs 0 (by decide)), Function.update_of_ne (hs 1 (by decide)),
      Function.update_of_ne (hs 2 (by decide))]

theorem above_inv2 {tol : ℝ} (htol : 0 ≤ tol) {a b : Diag} (ha : Above tol a) (hb : Above tol b)
    {i j : ℕ} (hi : i < a.dim) (hj : j < b.dim) :
    ((diagInv tol a).val i : 𝕜) * ((diagInv tol b).val j : 𝕜) * ((a.val i : 𝕜) * (b.val j : 𝕜)) = 1 := by
  have h1 := diagInv_mul (𝕜 := 𝕜) ha htol hi
  have h2 := diagInv_mul (𝕜 := 𝕜) hb htol hj
  linear_combination ((diagInv tol b).val j : 𝕜) * (b.val j : 𝕜) * h1 + h2

/-- a three-site projection: `a` is the site split off by the second factorization, `c` the one split
off by the first, `m` the corner -/
theorem project3 {p p' : Peps 𝕜} {phys : Site rows cols → ℕ} {dim : Bond bc rows cols → ℕ}
    (hf : Fits p phys dim) (hrows : p'.rows = p.rows) (hcols : p'.cols = p.cols)
    (hbc : p'.bc = p.bc) {a m c : Site rows cols} (h1 : a ≠ m) (h2 : a ≠ c) (h3 : m ≠ c)
    {da dc : Pos} {ka kc o1 o2 : Fin 4}
    (ha : leg bc a (rem da) = leg bc m ka) (hc : leg bc c (rem dc) = leg bc m kc)
    (hea : ∀ t k, leg bc t k = leg bc m ka → (t = a ∧ k = rem da) ∨ (t = m ∧ k = ka))
    (hec : ∀ t k, leg bc t k = leg bc m kc → (t = c ∧ k = rem dc) ∨ (t = m ∧ k = kc))
    (hk : ka ≠ kc) (ho1 : o1 ≠ ka ∧ o1 ≠ kc) (ho2 : o2 ≠ ka ∧ o2 ≠ kc)
    (hxa : ¬ external bc (leg bc m ka)) (hxc : ¬ external bc (leg bc m kc))
    {s1 s2 : Diag} {Ga Gm Gc : Tn 𝕜}
    (hg : ∀ t : Site rows cols, p'.gamma t.1 t.2 =
      if t = m then Gm else if t = a then Ga else if t = c then Gc else p.gamma t.1 t.2)
    (hw : ∀ b : Bond bc rows cols, weight p' b =
      if b = leg bc m ka then s2 else if b = leg bc m kc then s1 else weight p b)
    (sa : Ga.shape = coords (Function.update dim (leg bc a (rem da)) s2.dim) a (phys a))
    (sc : Gc.shape = coords (Function.update dim (leg bc c (rem dc)) s1.dim) c (phys c))
    (sm : Gm.shape = coords (Function.update (Function.update dim (leg bc m ka) s2.dim)
      (leg bc m kc) s1.dim) m (phys m))
    {tol : ℝ} (htol : 0 ≤ tol)
    (haba : ∀ k, k ≠ rem da → Above tol (weight p (leg bc a k)))
    (habc : ∀ k, k ≠ rem dc → Above tol (weight p (leg bc c k)))
    (habm1 : Above tol (weight p (leg bc m o1))) (habm2 : Above tol (weight p (leg bc m o2)))
    (hab1 : Above tol s1) {Ka Kc : ℕ} {qa ra qc rc : Tn 𝕜}
    (h0a : ∀ γ, Within dim γ a da → ∀ i < phys a, ∀ l < dim (leg bc a (rem da)),
      ∑ k ∈ Finset.range Ka, qa.elem (outs γ a da ++ [k]) * ra.elem [k, i, l] =
        (p.gamma a.1 a.2).elem (coords (Function.update γ (leg bc a (rem da)) l) a i) * env p γ a da)
    (h0c : ∀ γ, Within dim γ c dc → ∀ i < phys c, ∀ l < dim (leg bc c (rem dc)),
      ∑ k ∈ Finset.range Kc, qc.elem (outs γ c dc ++ [k]) * rc.elem [k, i, l] =
        (p.gamma c.1 c.2).elem (coords (Function.update γ (leg bc c (rem dc)) l) c i) * env p γ c dc)
    {g : ℕ → ℕ → ℕ → ℕ → ℕ → ℕ → 𝕜} {N : 𝕜} {u1 : ℕ → ℕ → ℕ → ℕ → ℕ → ℕ → 𝕜}
    {v1 u2 : ℕ → ℕ → ℕ → 𝕜} {v2 : ℕ → ℕ → ℕ → ℕ → ℕ → 𝕜}
    (hs1 : ∀ γ : Bond bc rows cols → ℕ, (∀ k, k ≠ ka → k ≠ kc → γ (leg bc m k) < dim (leg bc m k)) →
      ∀ x < phys a, ∀ y < phys m, ∀ z < phys c, ∀ k < Ka, ∀ k' < Kc,
      N * ∑ l ∈ Finset.range s1.dim, u1 (γ (leg bc m o1)) (γ (leg bc m o2)) x y k l *
        (s1.val l : 𝕜) * v1 z l k' =
      ∑ i ∈ Finset.range (phys a), ∑ j ∈ Finset.range (phys m), ∑ n ∈ Finset.range (phys c),
        (∑ l ∈ Finset.range (dim (leg bc m ka)), ∑ l' ∈ Finset.range (dim (leg bc m kc)),
          ra.elem [k, i, l] * ((p.gamma m.1 m.2).elem (coords (Function.update (Function.update γ
            (leg bc m ka) l) (leg bc m kc) l') m j) * ((weight p (leg bc m ka)).val l : 𝕜) *
            ((weight p (leg bc m kc)).val l' : 𝕜) * (((weight p (leg bc m o1)).val
              (γ (leg bc m o1)) : 𝕜) * ((weight p (leg bc m o2)).val (γ (leg bc m o2)) : 𝕜))) *
            rc.elem [k', n, l']) * g i j n x y z)
    (hs2 : ∀ γ : Bond bc rows cols → ℕ, (∀ k, k ≠ ka → k ≠ kc → γ (leg bc m k) < dim (leg bc m k)) →
      ∀ x < phys a, ∀ y < phys m, ∀ k < Ka, ∀ l' < s1.dim,
      ∑ l ∈ Finset.range s2.dim, u2 x k l * (s2.val l : 𝕜) *
        v2 (γ (leg bc m o1)) (γ (leg bc m o2)) y l l' =
      u1 (γ (leg bc m o1)) (γ (leg bc m o2)) x y k l' * (s1.val l' : 𝕜))
    (hga : ∀ γ, Within dim γ a da → ∀ x, ∀ l < s2.dim,
      Ga.elem (coords (Function.update γ (leg bc a (rem da)) l) a x) =
      ∑ k ∈ Finset.range Ka, qa.elem (outs γ a da ++ [k]) * ienv tol p γ a da * u2 x k l)
    (hgc : ∀ γ, Within dim γ c dc → ∀ z, ∀ l < s1.dim,
      Gc.elem (coords (Function.update γ (leg bc c (rem dc)) l) c z) =
      ∑ k ∈ Finset.range Kc, qc.elem (outs γ c dc ++ [k]) * ienv tol p γ c dc * v1 z l k)
    (hgm : ∀ γ : Bond bc rows cols → ℕ, (∀ k, k ≠ ka → k ≠ kc → γ (leg bc m k) < dim (leg bc m k)) →
      ∀ y, ∀ l < s2.dim, ∀ l' < s1.dim,
      Gm.elem (coords (Function.update (Function.update γ (leg bc m ka) l) (leg bc m kc) l') m y) =
      v2 (γ (leg bc m o1)) (γ (leg bc m o2)) y l l' * ((diagInv tol s1).val l' : 𝕜) *
        (((diagInv tol (weight p (leg bc m o1))).val (γ (leg bc m o1)) : 𝕜) *
          ((diagInv tol (weight p (leg bc m o2))).val (γ (leg bc m o2)) : 𝕜))) :
    Fits p' phys (Function.update (Function.update dim (leg bc m ka) s2.dim) (leg bc m kc) s1.dim) ∧
    ∀ σ, (∀ t, σ t < phys t) →
      N * amplitude p' (Function.update (Function.update dim (leg bc m ka) s2.dim) (leg bc m kc) s1.dim) σ =
        ∑ i ∈ Finset.range (phys a), ∑ j ∈ Finset.range (phys m), ∑ n ∈ Finset.range (phys c),
          g i j n (σ a) (σ m) (σ c) * amplitude p dim
            (Function.update (Function.update (Function.update σ a i) m j) c n) := by
  have hbb : leg bc m ka ≠ leg bc m kc := fun h => by
    rcases hec _ _ h with h' | h'
    · exact h3 h'.1
    · exact hk h'.2
  -- `a` has no leg on the other bond, nor has `c`
  have na : ∀ k, leg bc a k ≠ leg bc m kc := fun k h => by
    rcases hec _ _ h with h' | h'
    · exact h2 h'.1
    · exact h1 h'.1
  have nc : ∀ k, leg bc c k ≠ leg bc m ka := fun k h => by
    rcases hea _ _ h with h' | h'
    · exact h2 h'.1.symm
    · exact h3 h'.1.symm
  have sa' : ∀ k, k ≠ rem da → leg bc a k ≠ leg bc m ka := fun k hk' h => by
    rcases hea _ _ h with h' | h'
    · exact hk' h'.2
    · exact h1 h'.1
  have sc' : ∀ k, k ≠ rem dc → leg bc c k ≠ leg bc m kc := fun k hk' h => by
    rcases hec _ _ h with h' | h'
    · exact hk' h'.2
    · exact h3 h'.1.symm
  have sm' : ∀ k, k ≠ ka → k ≠ kc → leg bc m k ≠ leg bc m ka ∧ leg bc m k ≠ leg bc m kc :=
    fun k hk1 hk2 => ⟨fun h => by
      rcases hea _ _ h with h' | h'
      · exact h1 h'.1.symm
      · exact hk1 h'.2, fun h => by
      rcases hec _ _ h with h' | h'
      · exact h3 h'.1
      · exact hk2 h'.2⟩
  have ca : ∀ (β : Bond bc rows cols → ℕ) l l' x, coords (Function.update (Function.update β
      (leg bc m ka) l) (leg bc m kc) l') a x = coords (Function.update β (leg bc a (rem da)) l) a x :=
    fun β l l' x => by rw [coords_update na, ha]
  have cc : ∀ (β : Bond bc rows cols → ℕ) l l' x, coords (Function.update (Function.update β
      (leg bc m ka) l) (leg bc m kc) l') c x = coords (Function.update β (leg bc c (rem dc)) l') c x :=
    fun β l l' x => by rw [Function.update_comm hbb, coords_update nc, hc]
  refine ⟨⟨hrows.trans hf.rows_eq, hcols.trans hf.cols_eq, hbc.trans hf.bc_eq, fun t => ?_,
    fun b => ?_, fun b hb => ?_⟩, fun σ hσ => ?_⟩
  · change _ = coords _ t (phys t)
    rw [hg]
    by_cases hm : t = m
    · subst hm; rw [if_pos rfl, sm]
    rw [if_neg hm]
    by_cases hta : t = a
    · subst hta; rw [if_pos rfl, sa, ca]
    rw [if_neg hta]
    by_cases htc : t = c
    · subst htc; rw [if_pos rfl, sc, cc]
    rw [if_neg htc, hf.shape, coords_update, coords_update]
    · rfl
    · exact fun k h => by
        rcases hea _ _ h with h' | h'
        · exact hta h'.1
        · exact hm h'.1
    · exact fun k h => by
        rcases hec _ _ h with h' | h'
        · exact htc h'.1
        · exact hm h'.1
  · rw [hw]
    by_cases hb1 : b = leg bc m ka
    · subst hb1; rw [if_pos rfl, Function.update_of_ne hbb, Function.update_self]
    rw [if_neg hb1]
    by_cases hb2 : b = leg bc m kc
    · subst hb2; rw [if_pos rfl, Function.update_self]
    rw [if_neg hb2, Function.update_of_ne hb2, Function.update_of_ne hb1, hf.weight]
  · have hb1 : b ≠ leg bc m ka := fun h => hxa (h ▸ hb)
    have hb2 : b ≠ leg bc m kc := fun h => hxc (h ▸ hb)
    rw [Function.update_of_ne hb2, Function.update_of_ne hb1, hf.external b hb]
  · refine lift3 h1 h2 h3 hbb (fun t k h => (hea t k h).imp (·.1) (·.1))
      (fun t k h => ((hec t k h).imp (·.1) (·.1)).symm) (fun t ht1 ht2 ht3 => ?_)
      (fun b hb1 hb2 => ?_) (fun b hb1 hb2 => ?_) fun γ hγ => ?_
    · rw [hg, if_neg ht2, if_neg ht1, if_neg ht3]
    · rw [hw, if_neg hb1, if_neg hb2]
    · rw [Function.update_of_ne hb2, Function.update_of_ne hb1]
    · rw [Function.update_of_ne hbb, Function.update_self, Function.update_self]
      unfold triple
      rw [hg a, hg m, hg c, if_neg h1, if_pos rfl, if_pos rfl, if_neg h3.symm, if_neg h2.symm,
        if_pos rfl, hw, hw, if_pos rfl, if_neg hbb.symm, if_pos rfl]
      simp only [ca, cc]
      have wa : Within dim γ a da := fun j => hγ _ (sa' _ (out_ne da j)) (na _)
      have wc : Within dim γ c dc := fun j => hγ _ (nc _) (sc' _ (out_ne dc j))
      have wm : ∀ k, k ≠ ka → k ≠ kc → γ (leg bc m k) < dim (leg bc m k) :=
        fun k hk1 hk2 => hγ _ (sm' k hk1 hk2).1 (sm' k hk1 hk2).2
      exact core3' (ienv_env hf htol haba wa) (ienv_env hf htol habc wc)
        (above_inv2 (𝕜 := 𝕜) htol habm1 habm2 (by rw [hf.weight]; exact wm _ ho1.1 ho1.2)
          (by rw [hf.weight]; exact wm _ ho2.1 ho2.2))
        (i1 := fun l => ((diagInv tol s1).val l : 𝕜)) (s1 := fun l => (s1.val l : 𝕜))
        (fun l hl => diagInv_mul (𝕜 := 𝕜) hab1 htol hl)
        (h0 := fun i hi l hl => h0a γ wa i hi l (by rwa [ha]))
        (h1 := fun i hi l hl => h0c γ wc i hi l (by rwa [hc]))
        (hs1 := fun k hk k' hk' => hs1 γ wm (σ a) (hσ a) (σ m) (hσ m) (σ c) (hσ c) k hk k' hk')
        (hs2 := fun k hk l hl => hs2 γ wm (σ a) (hσ a) (σ m) (hσ m) k hk l hl)
        (hga := fun l hl => hga γ wa (σ a) l hl) (hgc := fun l hl => hgc γ wc (σ c) l hl)
        (hgm := fun l hl l' hl' => hgm γ wm (σ m) l hl l' hl')

/-! ## The four triangles -/

theorem prev_h {p : Peps 𝕜} (hc : p.cols = cols) (hbc : p.bc = bc) {s s' : Site rows cols}
    (hb : leg bc s 2 = leg bc s' 0) :
    (s.1 : ℕ) = s'.1 ∧ ((s'.2 : ℕ) + p.hCols - 1) % p.hCols = s.2 := by
  rw [hCols_eq hc hbc]
  simp only [leg, Sum.inl.injEq, Prod.mk.injEq, Fin.mk.injEq] at hb
  refine ⟨by rw [hb.1], ?_⟩
  rw [← hb.2]
  have h := s.2.2
  have h' : (s.2 : ℕ) < slots bc cols := by unfold slots; split <;> omega
  rcases Nat.lt_or_ge ((s.2 : ℕ) + 1) (slots bc cols) with hl | hl
  · rw [Nat.mod_eq_of_lt hl, show (s.2 : ℕ) + 1 + slots bc cols - 1 = s.2 + slots bc cols by omega,
      Nat.add_mod_right, Nat.mod_eq_of_lt h']
  · have : (s.2 : ℕ) + 1 = slots bc cols := by omega
    rw [this, Nat.mod_self, Nat.mod_eq_of_lt (by omega)]
    omega

theorem eat_site {p : Peps 𝕜} {phys : Site rows cols → ℕ} {dim : Bond bc rows cols → ℕ}
    (hf : Fits p phys dim) (s : Site rows cols) : (eat p s.1 s.2).shape =
      [phys s, dim (leg bc s 0), dim (leg bc s 1), dim (leg bc s 2), dim (leg bc s 3)] := by
  have := eat_shape p s.1 s.2 (hf.shape s)
  rwa [west_eq (bc := bc), south_eq hf.rows_eq hf.bc_eq, east_eq hf.cols_eq hf.bc_eq,
    north_eq (bc := bc), hf.weight, hf.weight, hf.weight, hf.weight] at this

theorem eat_val {p : Peps 𝕜} {phys : Site rows cols → ℕ} {dim : Bond bc rows cols → ℕ}
    (hf : Fits p phys dim) (s : Site rows cols) {i0 i1 i2 i3 : ℕ} (j : ℕ) (h0 : i0 < dim (leg bc s 0))
    (h1 : i1 < dim (leg bc s 1)) (h2 : i2 < dim (leg bc s 2)) (h3 : i3 < dim (leg bc s 3)) :
    (eat p s.1 s.2).elem [j, i0, i1, i2, i3] = (p.gamma s.1 s.2).elem [i0, i1, i2, i3, j] *
      ((weight p (leg bc s 0)).val i0 : 𝕜) * ((weight p (leg bc s 1)).val i1 : 𝕜) *
      ((weight p (leg bc s 2)).val i2 : 𝕜) * ((weight p (leg bc s 3)).val i3 : 𝕜) := by
  rw [eat_elem p s.1 s.2 (hf.shape s) h0 h1 h2 h3, west_eq (bc := bc),
    south_eq hf.rows_eq hf.bc_eq, east_eq hf.cols_eq hf.bc_eq, north_eq (bc := bc)]

theorem sum3_comm {M : Type*} [AddCommMonoid M] (A B C : ℕ) (F : ℕ → ℕ → ℕ → M) :
    ∑ i ∈ Finset.range A, ∑ j ∈ Finset.range B, ∑ n ∈ Finset.range C, F i j n =
      ∑ n ∈ Finset.range C, ∑ j ∈ Finset.range B, ∑ i ∈ Finset.range A, F i j n := by
  rw [Finset.sum_congr rfl fun i _ => Finset.sum_comm, Finset.sum_comm]
  exact Finset.sum_congr rfl fun n _ => Finset.sum_comm

theorem leg_ne_10 {m : Site rows cols} : leg bc m 1 ≠ leg bc m 0 := (leg_hv (Or.inl rfl) (Or.inl rfl)).symm

theorem leg_ne_21 {m : Site rows cols} : leg bc m 2 ≠ leg bc m 1 := leg_hv (Or.inr rfl) (Or.inl rfl)

theorem leg_ne_03 {m : Site rows cols} : leg bc m 0 ≠ leg bc m 3 := leg_hv (Or.inl rfl) (Or.inr rfl)

theorem leg_ne_32 {m : Site rows cols} : leg bc m 3 ≠ leg bc m 2 := (leg_hv (Or.inr rfl) (Or.inr rfl)).symm


/-- `upperRight` with the positions of the sites given -/
noncomputable def upperRightAt (lib : Lib 𝕜) (tol : ℝ) (p : Peps 𝕜) (gate : Tn 𝕜)
    (ar ac mr mc cr cc : ℕ) (ham : Option (Tn 𝕜)) : Res 𝕜 :=
  let A := lib.qr (eat3 p ar ac .up) 3
  let B := lib.qr (eat3 p cr cc .right) 3
  let t3 := contract B.2 2 (eat p mr mc) 1
  let t4 := contract t3 2 A.2 2
  let t5 := contractN t4 [4, 2, 6] gate [0, 1, 2]
  let state := normalized t5
  let f1 := lib.svd (transpose [6, 3, 0, 1, 5, 4, 2] state) 5
  let p1 := p.setH mr mc f1.s
  let t6 := split tol p1 B.1 cr cc .right
  let p2 := p1.setGamma cr cc (transpose [1, 2, 3, 0, 4] (contract t6 0 f1.vt 2))
  let t7 := contractN f1.u [5] f1.s.ten [0]
  let f2 := lib.svd t7 2
  let p3 := p2.setV ar ac f2.s
  let t8 := split tol p3 A.1 ar ac .up
  let p4 := p3.setGamma ar ac (transpose [2, 1, 0, 3, 4] (contract t8 1 f2.u 1))
  let t9 := contractN f2.vt [4] (diagInv tol f1.s).ten [0]
  let t10 := contract t9 2 (diagInv tol (p4.north mr mc)).ten 1
  let p5 := p4.setGamma mr mc (transpose [2, 3, 4, 0, 1]
    (contract t10 3 (diagInv tol (p4.east mr mc)).ten 0))
  ⟨p5, 1 * norm2 t5, max f1.err f2.err, max f1.dim f2.dim, ham.map fun h => threeSiteEnergy h state⟩

theorem upperRightAt_eq (lib : Lib 𝕜) (tol : ℝ) (p : Peps 𝕜) (gate : Tn 𝕜) (ar ac mr mc cr cc : ℕ)
    (ham : Option (Tn 𝕜)) (h0 : (mr + 1) % p.vRows = ar) (h1 : mc = ac) (h2 : mr = cr) (h3 : (mc + p.hCols - 1) % p.hCols = cc) :
    upperRight lib tol p gate mr mc ham = upperRightAt lib tol p gate ar ac mr mc cr cc ham := by
  subst h0 h1 h2 h3
  rfl

theorem upperRight_corner {s m s' : Site rows cols} (hb1 : leg bc s 2 = leg bc m 0) (hb2 : leg bc m 1 = leg bc s' 3)
    (h1 : s ≠ m) (h3 : m ≠ s') (h : s = s') : False := by
  subst h
  simp only [leg, Sum.inl.injEq, Sum.inr.injEq, Prod.mk.injEq, Fin.mk.injEq] at hb1 hb2
  exact h1 (Prod.ext hb1.1 hb2.2.symm)

theorem upperRight_exact {lib : Lib 𝕜} (hlib : Exact lib) {tol : ℝ} (htol : 0 ≤ tol) {p : Peps 𝕜}
    {phys : Site rows cols → ℕ} {dim : Bond bc rows cols → ℕ} (hf : Fits p phys dim)
    {s m s' : Site rows cols} (h1 : s ≠ m) (h3 : m ≠ s') (hb1 : leg bc s 2 = leg bc m 0)
    (hb2 : leg bc m 1 = leg bc s' 3) {gate : Tn 𝕜}
    (hgate : gate.shape = [phys s, phys m, phys s', phys s, phys m, phys s'])
    (hab : ∀ k, k ≠ 2 → Above tol (weight p (leg bc s k)))
    (hab' : ∀ k, k ≠ 3 → Above tol (weight p (leg bc s' k)))
    (habm : ∀ k, k ≠ 1 → k ≠ 0 → Above tol (weight p (leg bc m k))) (ham : Option (Tn 𝕜))
    (herr : (upperRight lib tol p gate m.1 m.2 ham).err = 0)
    (hnew : Above tol (weight (upperRight lib tol p gate m.1 m.2 ham).peps (leg bc m 0))) :
    let res := upperRight lib tol p gate m.1 m.2 ham
    ∃ D D', max D D' = res.dim ∧
    Fits res.peps phys (Function.update (Function.update dim (leg bc m 1) D) (leg bc m 0) D') ∧
    ∀ σ, (∀ t, σ t < phys t) →
      (res.norm : 𝕜) * amplitude res.peps
        (Function.update (Function.update dim (leg bc m 1) D) (leg bc m 0) D') σ =
        apply3 phys gate s m s' (amplitude p dim) σ := by
  obtain ⟨e1, e2⟩ := prev_h hf.cols_eq hf.bc_eq hb1
  obtain ⟨e3, e4, -⟩ := next_v hf.rows_eq hf.bc_eq hb2
  rw [upperRightAt_eq _ _ _ _ s'.1 s'.2 m.1 m.2 s.1 s.2 _ e4 e3 e1.symm e2] at herr hnew ⊢
  clear e1 e2 e3 e4
  have hea : ∀ t k, leg bc t k = leg bc m 1 → (t = s' ∧ k = 3) ∨ (t = m ∧ k = 1) :=
    fun t k h => (ends_v hb2 h).symm
  have hec : ∀ t k, leg bc t k = leg bc m 0 → (t = s ∧ k = 2) ∨ (t = m ∧ k = 0) :=
    fun t k h => ends_h hb1 (h.trans hb1.symm)
  have ha : leg bc s' 3 = leg bc m 1 := hb2.symm
  have hc : leg bc s 2 = leg bc m 0 := hb1
  have h1a : s' ≠ m := h3.symm
  have h3c : m ≠ s := h1.symm
  have h2 : s' ≠ s := fun h => by
    rcases hec _ _ ((h ▸ rfl : leg bc s' 2 = leg bc s 2).trans hc) with h' | h'
    · rcases hea _ _ ((h ▸ rfl : leg bc s 3 = leg bc s' 3).trans ha) with h'' | h''
      · exact upperRight_corner hb1 hb2 h1 h3 h.symm
      · exact h3c h''.1.symm
    · exact h1a h'.1
  have sa : ∀ k, k ≠ rem .up → leg bc s' k ≠ leg bc s' (rem .up) := fun k hk h => by
    rcases hea _ _ (h.trans ha) with h' | h'
    · exact hk h'.2
    · exact h1a h'.1
  have sc : ∀ k, k ≠ rem .right → leg bc s k ≠ leg bc s (rem .right) := fun k hk h => by
    rcases hec _ _ (h.trans hc) with h' | h'
    · exact hk h'.2
    · exact h3c h'.1.symm
  have na : ∀ k, leg bc s' k ≠ leg bc m 0 := fun k h => by
    rcases hec _ _ h with h' | h'
    · exact h2 h'.1
    · exact h1a h'.1
  have nc : ∀ k, leg bc s k ≠ leg bc m 1 := fun k h => by
    rcases hea _ _ h with h' | h'
    · exact h2 h'.1.symm
    · exact h3c h'.1.symm
  have nm : ∀ k, k ≠ 1 → k ≠ 0 → leg bc m k ≠ leg bc m 1 ∧ leg bc m k ≠ leg bc m 0 :=
    fun k hk1 hk2 => ⟨fun h => by
      rcases hea _ _ h with h' | h'
      · exact h1a h'.1.symm
      · exact hk1 h'.2, fun h => by
      rcases hec _ _ h with h' | h'
      · exact h3c h'.1
      · exact hk2 h'.2⟩
  have hbb : leg bc m 1 ≠ leg bc m 0 := leg_ne_10
  have cm : ∀ (γ : Bond bc rows cols → ℕ) l l' y, coords (Function.update (Function.update γ
      (leg bc m 1) l) (leg bc m 0) l') m y = [l', l, γ (leg bc m 2), γ (leg bc m 3), y] := fun γ l l' y => by
    simp only [coords, Function.update_self, Function.update_of_ne hbb,
      Function.update_of_ne (nm 2 (by decide) (by decide)).1,
      Function.update_of_ne (nm 2 (by decide) (by decide)).2,
      Function.update_of_ne (nm 3 (by decide) (by decide)).1,
      Function.update_of_ne (nm 3 (by decide) (by decide)).2]
  simp only [upperRightAt] at herr hnew ⊢
  obtain ⟨Ka, qas, ras, h0a⟩ := qr_out hlib hf sa
  obtain ⟨Kc, qcs, rcs, h0c⟩ := qr_out hlib hf sc
  generalize lib.qr (eat3 p s'.1 s'.2 .up) 3 = QA at *
  generalize lib.qr (eat3 p s.1 s.2 .right) 3 = QC at *
  obtain ⟨qa, ra⟩ := QA
  obtain ⟨qc, rc⟩ := QC
  dsimp only at qas ras h0a qcs rcs h0c herr hnew ⊢
  obtain ⟨t5s, t5e⟩ := gateUR rcs ras (eat_site hf m) hgate (congrArg dim (hb2.symm).symm)
  generalize contractN (contract (contract rc 2 (eat p m.1 m.2) 1) 2 ra 2) [4, 2, 6] gate [0, 1, 2] = t5 at *
  have sT : (transpose [6, 3, 0, 1, 5, 4, 2] (normalized t5)).shape =
      [phys s', Ka, dim (leg bc m 2), dim (leg bc m 3), phys m, phys s, Kc] := by
    simp only [transpose, normalized, t5s]; rfl
  obtain ⟨u1s, v1s, hsvd1⟩ := svd52 hlib sT
  have d1 := hlib.svd_dim (transpose [6, 3, 0, 1, 5, 4, 2] (normalized t5)) 5
  have p1' := hlib.svd_err (transpose [6, 3, 0, 1, 5, 4, 2] (normalized t5)) 5
  generalize lib.svd (transpose [6, 3, 0, 1, 5, 4, 2] (normalized t5)) 5 = f1 at *
  obtain ⟨t7s, t7e⟩ := n65 u1s f1.s
  generalize contractN f1.u [5] f1.s.ten [0] = t7 at *
  obtain ⟨u2s, v2s, hsvd2⟩ := svd24 hlib t7s
  have d2 := hlib.svd_dim t7 2
  have p2' := hlib.svd_err t7 2
  generalize lib.svd t7 2 = f2 at *
  have e1 : f1.err = 0 := le_antisymm (herr ▸ le_max_left _ _) p1'
  have e2 : f2.err = 0 := le_antisymm (herr ▸ le_max_right _ _) p2'
  rw [one_mul, d1, d2]
  set p1 := p.setH m.1 m.2 f1.s with hp1
  have w1 : ∀ b : Bond bc rows cols, weight p1 b =
      if b = leg bc m 0 then f1.s else weight p b := fun b => by
    rw [hp1, weight_setH]
  have spc := split_out_shape hf (p1 := p1) rfl rfl rfl (s := s) (d := .right)
    (fun j => by rw [w1, if_neg]; exact fun h => sc _ (out_ne .right j) (h.trans hc.symm)) tol qcs
  obtain ⟨gcs, gce⟩ := asmR1 (by exact spc : (split tol p1 qc s.1 s.2 .right).shape =
    [Kc, dim (leg bc s 3), dim (leg bc s 0), dim (leg bc s 1)]) v1s
  have spc' := fun γ hγ k => split_out hf (p1 := p1) rfl rfl rfl (s := s) (d := .right)
    (fun j => by rw [w1, if_neg]; exact fun h => sc _ (out_ne .right j) (h.trans hc.symm)) tol qcs
    (γ := γ) hγ k
  set p2 := p1.setGamma s.1 s.2 (transpose [1, 2, 3, 0, 4] (contract (split tol p1 qc s.1 s.2 .right) 0 f1.vt 2)) with hp2
  set p3 := p2.setV s'.1 s'.2 f2.s with hp3
  have w3 : ∀ b : Bond bc rows cols, weight p3 b =
      if b = leg bc m 1 then f2.s else if b = leg bc m 0 then f1.s else weight p b := fun b => by
    rw [hp3, weight_setV, hb2.symm, hp2, weight_setGamma, w1]
  have spa := split_out_shape hf (p1 := p3) rfl rfl rfl (s := s') (d := .up)
    (fun j => by
      rw [w3, if_neg, if_neg (na _)]; exact fun h => sa _ (out_ne .up j) (h.trans ha.symm)) tol qas
  obtain ⟨gas, gae⟩ := asmU1 (by exact spa : (split tol p3 qa s'.1 s'.2 .up).shape =
    [dim (leg bc s' 0), Ka, dim (leg bc s' 2), dim (leg bc s' 1)]) u2s
  have spa' := fun γ hγ k => split_out hf (p1 := p3) rfl rfl rfl (s := s') (d := .up)
    (fun j => by
      rw [w3, if_neg, if_neg (na _)]; exact fun h => sa _ (out_ne .up j) (h.trans ha.symm)) tol qas
    (γ := γ) hγ k
  set p4 := p3.setGamma s'.1 s'.2 (transpose [2, 1, 0, 3, 4] (contract (split tol p3 qa s'.1 s'.2 .up) 1 f2.u 1)) with hp4
  have w4 : ∀ b : Bond bc rows cols, weight p4 b = weight p3 b := fun b => weight_setGamma _ _ _ _ b
  have eo1 : p4.north m.1 m.2 = weight p (leg bc m 3) := by
    rw [north_eq (bc := bc), w4, w3, if_neg (nm 3 (by decide) (by decide)).1,
      if_neg (nm 3 (by decide) (by decide)).2]
  have eo2 : p4.east m.1 m.2 = weight p (leg bc m 2) := by
    rw [east_eq (bc := bc) (p := p4) hf.cols_eq hf.bc_eq, w4, w3, if_neg (nm 2 (by decide) (by decide)).1,
      if_neg (nm 2 (by decide) (by decide)).2]
  rw [eo1, eo2] at hnew ⊢
  obtain ⟨gms, gme⟩ := corUR v2s (diagInv tol f1.s) (diagInv tol (weight p (leg bc m 3)))
    (diagInv tol (weight p (leg bc m 2)))
  rw [weight_setGamma, w4, w3, if_neg hbb.symm, if_pos rfl] at hnew
  generalize hGm : (transpose [2, 3, 4, 0, 1] (contract (contract (contractN f2.vt [4] (diagInv tol f1.s).ten [0]) 2 (diagInv tol (weight p (leg bc m 3))).ten 1) 3 (diagInv tol (weight p (leg bc m 2))).ten 0)) = Gm at *
  have key := project3 (p' := p4.setGamma m.1 m.2 Gm) hf rfl rfl rfl h1a h2 h3c (da := .up)
    (dc := .right) (o1 := 3) (o2 := 2) ha hc hea hec (by decide) (by decide) (by decide)
    (not_external_v hb2) (by rw [← hb1]; exact not_external_h hb1) (s1 := f1.s) (s2 := f2.s)
    (Ga := (transpose [2, 1, 0, 3, 4] (contract (split tol p3 qa s'.1 s'.2 .up) 1 f2.u 1))) (Gm := Gm) (Gc := (transpose [1, 2, 3, 0, 4] (contract (split tol p1 qc s.1 s.2 .right) 0 f1.vt 2)))
    (fun t => by
      rw [gamma_setGamma, hp4, gamma_setGamma]
      by_cases h : t = m
      · rw [if_pos h, if_pos h]
      rw [if_neg h, if_neg h]
      by_cases h' : t = s'
      · rw [if_pos h', if_pos h']
      rw [if_neg h', if_neg h']
      exact gamma_setGamma p1 s t _)
    (fun b => by rw [weight_setGamma, w4, w3])
    (by rw [gas, coords_out sa]) (by rw [gcs, coords_out sc])
    (by rw [gms, cm]; simp only [diagInv_dim, hf.weight])
    htol hab' hab (habm 3 (by decide) (by decide)) (habm 2 (by decide) (by decide)) hnew h0a h0c
    (g := fun i j n x y z => gate.elem [n, j, i, z, y, x]) (N := (norm2 t5 : 𝕜))
    (u1 := fun n e x y k l => f1.u.elem [x, k, e, n, y, l]) (v1 := fun z l k => f1.vt.elem [l, z, k])
    (u2 := fun x k l => f2.u.elem [x, k, l]) (v2 := fun n e y l l' => f2.vt.elem [l, e, n, y, l'])
    (fun γ hγ x hx y hy z hz k hk k' hk' => by
      refine (congrArg ((norm2 t5 : 𝕜) * ·) (hsvd1 e1 x hx k hk _ (hγ 2 (by decide) (by decide)) _ (hγ 3 (by decide) (by decide)) y hy z hz k' hk')).trans ?_
      refine (norm2_mul t5 (x := [γ (leg bc m 2), γ (leg bc m 3), k', k, z, y, x])
        (by rw [t5s]; exact .cons (hγ 2 (by decide) (by decide)) (.cons (hγ 3 (by decide) (by decide)) (.cons hk' (.cons hk (valid3 hz hy hx)))))).trans ?_
      rw [t5e]
      rw [sum3_comm]
      refine Finset.sum_congr rfl fun i _ => Finset.sum_congr rfl fun j _ =>
        Finset.sum_congr rfl fun n _ => ?_
      refine congrArg (· * gate.elem [n, j, i, z, y, x]) ?_
      rw [show leg bc s' (rem .up) = leg bc m 1 from ha,
        show leg bc s (rem .right) = leg bc m 0 from hc, Finset.sum_comm]
      refine Finset.sum_congr rfl fun l hl => Finset.sum_congr rfl fun l' hl' => ?_
      have hl := Finset.mem_range.1 hl
      have hl' := Finset.mem_range.1 hl'
      rw [eat_val hf m j hl' hl (hγ 2 (by decide) (by decide)) (hγ 3 (by decide) (by decide)), cm]
      ring)
    (fun γ hγ x hx y hy k hk l' hl' => by
      refine (hsvd2 e2 x hx k hk _ (hγ 2 (by decide) (by decide)) _ (hγ 3 (by decide) (by decide)) y hy l' hl').trans ?_
      exact t7e _ _ _ _ _ l' hl')
    (fun γ hγ x l hl => by
      rw [coords_out sa]
      refine (gae _ _ _ _ _).trans (Finset.sum_congr rfl fun k _ => ?_)
      exact congrArg (· * f2.u.elem [x, k, l]) (spa' γ hγ k))
    (fun γ hγ z l hl => by
      rw [coords_out sc]
      refine (gce _ _ _ _ _).trans (Finset.sum_congr rfl fun k _ => ?_)
      exact congrArg (· * f1.vt.elem [l, z, k]) (spc' γ hγ k))
    (fun γ hγ y l hl l' hl' => by
      rw [cm]
      refine (gme _ _ _ _ _ hl' (hγ 2 (by decide) (by decide)) (hγ 3 (by decide) (by decide))).trans ?_
      ring)
  refine ⟨f2.s.dim, f1.s.dim, max_comm _ _, key.1, fun σ hσ => (key.2 σ hσ).trans ?_⟩
  unfold apply3
  rw [sum3_comm]
  refine Finset.sum_congr rfl fun i _ => Finset.sum_congr rfl fun j _ =>
    Finset.sum_congr rfl fun n _ => ?_
  congr 2
  rw [Function.update_comm h1a, Function.update_comm h2, Function.update_comm h3c]

/-- `upperLeft` with the positions of the sites given -/
noncomputable def upperLeftAt (lib : Lib 𝕜) (tol : ℝ) (p : Peps 𝕜) (gate : Tn 𝕜)
    (ar ac mr mc cr cc : ℕ) (ham : Option (Tn 𝕜)) : Res 𝕜 :=
  let A := lib.qr (eat3 p ar ac .left) 3
  let B := lib.qr (eat3 p cr cc .up) 3
  let t3 := contract (eat p mr mc) 2 B.2 2
  let t4 := contract A.2 2 t3 0
  let t5 := contractN t4 [1, 3, 6] gate [0, 1, 2]
  let state := normalized t5
  let f1 := lib.svd (transpose [0, 4, 5, 1, 2, 6, 3] state) 5
  let p1 := p.setV cr cc f1.s
  let t6 := split tol p1 B.1 cr cc .up
  let p2 := p1.setGamma cr cc (transpose [4, 3, 2, 0, 1] (contract f1.vt 2 t6 1))
  let t7 := contractN f1.u [5] f1.s.ten [0]
  let f2 := lib.svd t7 2
  let p3 := p2.setH ar ac f2.s
  let t8 := split tol p3 A.1 ar ac .left
  let p4 := p3.setGamma ar ac (transpose [4, 0, 1, 2, 3] (contract t8 0 f2.u 0))
  let t9 := contractN f2.vt [4] (diagInv tol f1.s).ten [0]
  let t10 := contract t9 2 (diagInv tol (p4.north mr mc)).ten 1
  let p5 := p4.setGamma mr mc (transpose [4, 0, 1, 3, 2]
    (contract t10 0 (diagInv tol (p4.west mr mc)).ten 1))
  ⟨p5, 1 * norm2 t5, max f1.err f2.err, max f1.dim f2.dim, ham.map fun h => threeSiteEnergy h state⟩

theorem upperLeftAt_eq (lib : Lib 𝕜) (tol : ℝ) (p : Peps 𝕜) (gate : Tn 𝕜) (ar ac mr mc cr cc : ℕ)
    (ham : Option (Tn 𝕜)) (h0 : mr = ar) (h1 : (mc + 1) % p.hCols = ac) (h2 : (mr + 1) % p.vRows = cr) (h3 : mc = cc) :
    upperLeft lib tol p gate mr mc ham = upperLeftAt lib tol p gate ar ac mr mc cr cc ham := by
  subst h0 h1 h2 h3
  rfl

theorem upperLeft_corner {s m s' : Site rows cols} (hb1 : leg bc m 2 = leg bc s 0) (hb2 : leg bc m 1 = leg bc s' 3)
    (h1 : s ≠ m) (h3 : m ≠ s') (h : s = s') : False := by
  subst h
  simp only [leg, Sum.inl.injEq, Sum.inr.injEq, Prod.mk.injEq, Fin.mk.injEq] at hb1 hb2
  exact h1 (Prod.ext hb1.1.symm hb2.2.symm)

theorem upperLeft_exact {lib : Lib 𝕜} (hlib : Exact lib) {tol : ℝ} (htol : 0 ≤ tol) {p : Peps 𝕜}
    {phys : Site rows cols → ℕ} {dim : Bond bc rows cols → ℕ} (hf : Fits p phys dim)
    {s m s' : Site rows cols} (h1 : s ≠ m) (h3 : m ≠ s') (hb1 : leg bc m 2 = leg bc s 0)
    (hb2 : leg bc m 1 = leg bc s' 3) {gate : Tn 𝕜}
    (hgate : gate.shape = [phys s, phys m, phys s', phys s, phys m, phys s'])
    (hab : ∀ k, k ≠ 0 → Above tol (weight p (leg bc s k)))
    (hab' : ∀ k, k ≠ 3 → Above tol (weight p (leg bc s' k)))
    (habm : ∀ k, k ≠ 2 → k ≠ 1 → Above tol (weight p (leg bc m k))) (ham : Option (Tn 𝕜))
    (herr : (upperLeft lib tol p gate m.1 m.2 ham).err = 0)
    (hnew : Above tol (weight (upperLeft lib tol p gate m.1 m.2 ham).peps (leg bc m 1))) :
    let res := upperLeft lib tol p gate m.1 m.2 ham
    ∃ D D', max D D' = res.dim ∧
    Fits res.peps phys (Function.update (Function.update dim (leg bc m 2) D) (leg bc m 1) D') ∧
    ∀ σ, (∀ t, σ t < phys t) →
      (res.norm : 𝕜) * amplitude res.peps
        (Function.update (Function.update dim (leg bc m 2) D) (leg bc m 1) D') σ =
        apply3 phys gate s m s' (amplitude p dim) σ := by
  obtain ⟨e1, e2⟩ := next_h hf.cols_eq hf.bc_eq hb1
  obtain ⟨e3, e4, -⟩ := next_v hf.rows_eq hf.bc_eq hb2
  rw [upperLeftAt_eq _ _ _ _ s.1 s.2 m.1 m.2 s'.1 s'.2 _ e1 e2 e4 e3] at herr hnew ⊢
  clear e1 e2 e3 e4
  have hea : ∀ t k, leg bc t k = leg bc m 2 → (t = s ∧ k = 0) ∨ (t = m ∧ k = 2) :=
    fun t k h => (ends_h hb1 h).symm
  have hec : ∀ t k, leg bc t k = leg bc m 1 → (t = s' ∧ k = 3) ∨ (t = m ∧ k = 1) :=
    fun t k h => (ends_v hb2 h).symm
  have ha : leg bc s 0 = leg bc m 2 := hb1.symm
  have hc : leg bc s' 3 = leg bc m 1 := hb2.symm
  have h1a : s ≠ m := h1
  have h3c : m ≠ s' := h3
  have h2 : s ≠ s' := fun h => by
    rcases hec _ _ ((h ▸ rfl : leg bc s 3 = leg bc s' 3).trans hc) with h' | h'
    · rcases hea _ _ ((h ▸ rfl : leg bc s' 0 = leg bc s 0).trans ha) with h'' | h''
      · exact upperLeft_corner hb1 hb2 h1 h3 h
      · exact h3c h''.1.symm
    · exact h1a h'.1
  have sa : ∀ k, k ≠ rem .left → leg bc s k ≠ leg bc s (rem .left) := fun k hk h => by
    rcases hea _ _ (h.trans ha) with h' | h'
    · exact hk h'.2
    · exact h1a h'.1
  have sc : ∀ k, k ≠ rem .up → leg bc s' k ≠ leg bc s' (rem .up) := fun k hk h => by
    rcases hec _ _ (h.trans hc) with h' | h'
    · exact hk h'.2
    · exact h3c h'.1.symm
  have na : ∀ k, leg bc s k ≠ leg bc m 1 := fun k h => by
    rcases hec _ _ h with h' | h'
    · exact h2 h'.1
    · exact h1a h'.1
  have nc : ∀ k, leg bc s' k ≠ leg bc m 2 := fun k h => by
    rcases hea _ _ h with h' | h'
    · exact h2 h'.1.symm
    · exact h3c h'.1.symm
  have nm : ∀ k, k ≠ 2 → k ≠ 1 → leg bc m k ≠ leg bc m 2 ∧ leg bc m k ≠ leg bc m 1 :=
    fun k hk1 hk2 => ⟨fun h => by
      rcases hea _ _ h with h' | h'
      · exact h1a h'.1.symm
      · exact hk1 h'.2, fun h => by
      rcases hec _ _ h with h' | h'
      · exact h3c h'.1
      · exact hk2 h'.2⟩
  have hbb : leg bc m 2 ≠ leg bc m 1 := leg_ne_21
  have cm : ∀ (γ : Bond bc rows cols → ℕ) l l' y, coords (Function.update (Function.update γ
      (leg bc m 2) l) (leg bc m 1) l') m y = [γ (leg bc m 0), l', l, γ (leg bc m 3), y] := fun γ l l' y => by
    simp only [coords, Function.update_self, Function.update_of_ne hbb,
      Function.update_of_ne (nm 0 (by decide) (by decide)).1,
      Function.update_of_ne (nm 0 (by decide) (by decide)).2,
      Function.update_of_ne (nm 3 (by decide) (by decide)).1,
      Function.update_of_ne (nm 3 (by decide) (by decide)).2]
  simp only [upperLeftAt] at herr hnew ⊢
  obtain ⟨Ka, qas, ras, h0a⟩ := qr_out hlib hf sa
  obtain ⟨Kc, qcs, rcs, h0c⟩ := qr_out hlib hf sc
  generalize lib.qr (eat3 p s.1 s.2 .left) 3 = QA at *
  generalize lib.qr (eat3 p s'.1 s'.2 .up) 3 = QC at *
  obtain ⟨qa, ra⟩ := QA
  obtain ⟨qc, rc⟩ := QC
  dsimp only at qas ras h0a qcs rcs h0c herr hnew ⊢
  obtain ⟨t5s, t5e⟩ := gateUL ras rcs (eat_site hf m) hgate (congrArg dim (hb1.symm).symm) (congrArg dim (hb2.symm).symm)
  generalize contractN (contract ra 2 (contract (eat p m.1 m.2) 2 rc 2) 0) [1, 3, 6] gate [0, 1, 2] = t5 at *
  have sT : (transpose [0, 4, 5, 1, 2, 6, 3] (normalized t5)).shape =
      [Ka, phys s, phys m, dim (leg bc m 3), dim (leg bc m 0), phys s', Kc] := by
    simp only [transpose, normalized, t5s]; rfl
  obtain ⟨u1s, v1s, hsvd1⟩ := svd52 hlib sT
  have d1 := hlib.svd_dim (transpose [0, 4, 5, 1, 2, 6, 3] (normalized t5)) 5
  have p1' := hlib.svd_err (transpose [0, 4, 5, 1, 2, 6, 3] (normalized t5)) 5
  generalize lib.svd (transpose [0, 4, 5, 1, 2, 6, 3] (normalized t5)) 5 = f1 at *
  obtain ⟨t7s, t7e⟩ := n65 u1s f1.s
  generalize contractN f1.u [5] f1.s.ten [0] = t7 at *
  obtain ⟨u2s, v2s, hsvd2⟩ := svd24 hlib t7s
  have d2 := hlib.svd_dim t7 2
  have p2' := hlib.svd_err t7 2
  generalize lib.svd t7 2 = f2 at *
  have e1 : f1.err = 0 := le_antisymm (herr ▸ le_max_left _ _) p1'
  have e2 : f2.err = 0 := le_antisymm (herr ▸ le_max_right _ _) p2'
  rw [one_mul, d1, d2]
  set p1 := p.setV s'.1 s'.2 f1.s with hp1
  have w1 : ∀ b : Bond bc rows cols, weight p1 b =
      if b = leg bc m 1 then f1.s else weight p b := fun b => by
    rw [hp1, weight_setV, hb2.symm]
  have spc := split_out_shape hf (p1 := p1) rfl rfl rfl (s := s') (d := .up)
    (fun j => by rw [w1, if_neg]; exact fun h => sc _ (out_ne .up j) (h.trans hc.symm)) tol qcs
  obtain ⟨gcs, gce⟩ := asmU2 (by exact spc : (split tol p1 qc s'.1 s'.2 .up).shape =
    [dim (leg bc s' 0), Kc, dim (leg bc s' 2), dim (leg bc s' 1)]) v1s
  have spc' := fun γ hγ k => split_out hf (p1 := p1) rfl rfl rfl (s := s') (d := .up)
    (fun j => by rw [w1, if_neg]; exact fun h => sc _ (out_ne .up j) (h.trans hc.symm)) tol qcs
    (γ := γ) hγ k
  set p2 := p1.setGamma s'.1 s'.2 (transpose [4, 3, 2, 0, 1] (contract f1.vt 2 (split tol p1 qc s'.1 s'.2 .up) 1)) with hp2
  set p3 := p2.setH s.1 s.2 f2.s with hp3
  have w3 : ∀ b : Bond bc rows cols, weight p3 b =
      if b = leg bc m 2 then f2.s else if b = leg bc m 1 then f1.s else weight p b := fun b => by
    rw [hp3, weight_setH, hb1.symm, hp2, weight_setGamma, w1]
  have spa := split_out_shape hf (p1 := p3) rfl rfl rfl (s := s) (d := .left)
    (fun j => by
      rw [w3, if_neg, if_neg (na _)]; exact fun h => sa _ (out_ne .left j) (h.trans ha.symm)) tol qas
  obtain ⟨gas, gae⟩ := asmL2 (by exact spa : (split tol p3 qa s.1 s.2 .left).shape =
    [Ka, dim (leg bc s 1), dim (leg bc s 2), dim (leg bc s 3)]) u2s
  have spa' := fun γ hγ k => split_out hf (p1 := p3) rfl rfl rfl (s := s) (d := .left)
    (fun j => by
      rw [w3, if_neg, if_neg (na _)]; exact fun h => sa _ (out_ne .left j) (h.trans ha.symm)) tol qas
    (γ := γ) hγ k
  set p4 := p3.setGamma s.1 s.2 (transpose [4, 0, 1, 2, 3] (contract (split tol p3 qa s.1 s.2 .left) 0 f2.u 0)) with hp4
  have w4 : ∀ b : Bond bc rows cols, weight p4 b = weight p3 b := fun b => weight_setGamma _ _ _ _ b
  have eo1 : p4.north m.1 m.2 = weight p (leg bc m 3) := by
    rw [north_eq (bc := bc), w4, w3, if_neg (nm 3 (by decide) (by decide)).1,
      if_neg (nm 3 (by decide) (by decide)).2]
  have eo2 : p4.west m.1 m.2 = weight p (leg bc m 0) := by
    rw [west_eq (bc := bc), w4, w3, if_neg (nm 0 (by decide) (by decide)).1,
      if_neg (nm 0 (by decide) (by decide)).2]
  rw [eo1, eo2] at hnew ⊢
  obtain ⟨gms, gme⟩ := corUL v2s (diagInv tol f1.s) (diagInv tol (weight p (leg bc m 3)))
    (diagInv tol (weight p (leg bc m 0)))
  rw [weight_setGamma, w4, w3, if_neg hbb.symm, if_pos rfl] at hnew
  generalize hGm : (transpose [4, 0, 1, 3, 2] (contract (contract (contractN f2.vt [4] (diagInv tol f1.s).ten [0]) 2 (diagInv tol (weight p (leg bc m 3))).ten 1) 0 (diagInv tol (weight p (leg bc m 0))).ten 1)) = Gm at *
  have key := project3 (p' := p4.setGamma m.1 m.2 Gm) hf rfl rfl rfl h1a h2 h3c (da := .left)
    (dc := .up) (o1 := 3) (o2 := 0) ha hc hea hec (by decide) (by decide) (by decide)
    (not_external_h hb1) (not_external_v hb2) (s1 := f1.s) (s2 := f2.s)
    (Ga := (transpose [4, 0, 1, 2, 3] (contract (split tol p3 qa s.1 s.2 .left) 0 f2.u 0))) (Gm := Gm) (Gc := (transpose [4, 3, 2, 0, 1] (contract f1.vt 2 (split tol p1 qc s'.1 s'.2 .up) 1)))
    (fun t => by
      rw [gamma_setGamma, hp4, gamma_setGamma]
      by_cases h : t = m
      · rw [if_pos h, if_pos h]
      rw [if_neg h, if_neg h]
      by_cases h' : t = s
      · rw [if_pos h', if_pos h']
      rw [if_neg h', if_neg h']
      exact gamma_setGamma p1 s' t _)
    (fun b => by rw [weight_setGamma, w4, w3])
    (by rw [gas, coords_out sa]) (by rw [gcs, coords_out sc])
    (by rw [gms, cm]; simp only [diagInv_dim, hf.weight])
    htol hab hab' (habm 3 (by decide) (by decide)) (habm 0 (by decide) (by decide)) hnew h0a h0c
    (g := fun i j n x y z => gate.elem [i, j, n, x, y, z]) (N := (norm2 t5 : 𝕜))
    (u1 := fun n e x y k l => f1.u.elem [k, x, y, n, e, l]) (v1 := fun z l k => f1.vt.elem [l, z, k])
    (u2 := fun x k l => f2.u.elem [k, x, l]) (v2 := fun n e y l l' => f2.vt.elem [l, y, n, e, l'])
    (fun γ hγ x hx y hy z hz k hk k' hk' => by
      refine (congrArg ((norm2 t5 : 𝕜) * ·) (hsvd1 e1 k hk x hx y hy _ (hγ 3 (by decide) (by decide)) _ (hγ 0 (by decide) (by decide)) z hz k' hk')).trans ?_
      refine (norm2_mul t5 (x := [k, γ (leg bc m 3), γ (leg bc m 0), k', x, y, z])
        (by rw [t5s]; exact .cons hk (.cons (hγ 3 (by decide) (by decide)) (.cons (hγ 0 (by decide) (by decide)) (.cons hk' (valid3 hx hy hz)))))).trans ?_
      rw [t5e]
      refine Finset.sum_congr rfl fun i _ => Finset.sum_congr rfl fun j _ =>
        Finset.sum_congr rfl fun n _ => ?_
      refine congrArg (· * gate.elem [i, j, n, x, y, z]) ?_
      rw [show leg bc s (rem .left) = leg bc m 2 from ha,
        show leg bc s' (rem .up) = leg bc m 1 from hc]
      refine Finset.sum_congr rfl fun l hl => Finset.sum_congr rfl fun l' hl' => ?_
      have hl := Finset.mem_range.1 hl
      have hl' := Finset.mem_range.1 hl'
      rw [eat_val hf m j (hγ 0 (by decide) (by decide)) hl' hl (hγ 3 (by decide) (by decide)), cm]
      ring)
    (fun γ hγ x hx y hy k hk l' hl' => by
      refine (hsvd2 e2 k hk x hx y hy _ (hγ 3 (by decide) (by decide)) _ (hγ 0 (by decide) (by decide)) l' hl').trans ?_
      exact t7e _ _ _ _ _ l' hl')
    (fun γ hγ x l hl => by
      rw [coords_out sa]
      refine (gae _ _ _ _ _).trans (Finset.sum_congr rfl fun k _ => ?_)
      exact congrArg (· * f2.u.elem [k, x, l]) (spa' γ hγ k))
    (fun γ hγ z l hl => by
      rw [coords_out sc]
      refine (gce _ _ _ _ _).trans (Finset.sum_congr rfl fun k _ => ?_)
      exact congrArg (· * f1.vt.elem [l, z, k]) (spc' γ hγ k))
    (fun γ hγ y l hl l' hl' => by
      rw [cm]
      refine (gme _ _ _ _ _ hl' (hγ 0 (by decide) (by decide)) (hγ 3 (by decide) (by decide))).trans ?_
      ring)
  refine ⟨f2.s.dim, f1.s.dim, max_comm _ _, key.1, fun σ hσ => (key.2 σ hσ).trans ?_⟩
  unfold apply3
  rfl

/-- `lowerRight` with the positions of the sites given -/
noncomputable def lowerRightAt (lib : Lib 𝕜) (tol : ℝ) (p : Peps 𝕜) (gate : Tn 𝕜)
    (ar ac mr mc cr cc : ℕ) (ham : Option (Tn 𝕜)) : Res 𝕜 :=
  let A := lib.qr (eat3 p ar ac .right) 3
  let B := lib.qr (eat3 p cr cc .down) 3
  let t3 := contract B.2 2 (eat p mr mc) 4
  let t4 := contract t3 3 A.2 2
  let t5 := contractN t4 [3, 4, 6] gate [0, 1, 2]
  let state := normalized t5
  let f1 := lib.svd (transpose [6, 3, 0, 1, 5, 4, 2] state) 5
  let p1 := p.setV mr mc f1.s
  let t6 := split tol p1 B.1 cr cc .down
  let p2 := p1.setGamma cr cc (transpose [2, 3, 0, 1, 4] (contract t6 3 f1.vt 2))
  let t7 := contractN f1.u [5] f1.s.ten [0]
  let f2 := lib.svd t7 2
  let p3 := p2.setH mr mc f2.s
  let t8 := split tol p3 A.1 ar ac .right
  let p4 := p3.setGamma ar ac (transpose [1, 2, 3, 0, 4] (contract t8 0 f2.u 1))
  let t9 := contractN f2.vt [4] (diagInv tol f1.s).ten [0]
  let t10 := contract t9 1 (diagInv tol (p4.south mr mc)).ten 0
  let p5 := p4.setGamma mr mc (transpose [2, 3, 4, 1, 0]
    (contract t10 0 (diagInv tol (p4.east mr mc)).ten 0))
  ⟨p5, 1 * norm2 t5, max f1.err f2.err, max f1.dim f2.dim, ham.map fun h => threeSiteEnergy h state⟩

theorem lowerRightAt_eq (lib : Lib 𝕜) (tol : ℝ) (p : Peps 𝕜) (gate : Tn 𝕜) (ar ac mr mc cr cc : ℕ)
    (ham : Option (Tn 𝕜)) (h0 : (cr + 1) % p.vRows = ar) (h1 : (cc + p.hCols - 1) % p.hCols = ac) (h2 : (cr + 1) % p.vRows = mr) (h3 : cc = mc) :
    lowerRight lib tol p gate cr cc ham = lowerRightAt lib tol p gate ar ac mr mc cr cc ham := by
  subst h2 h3 h0 h1
  rfl

theorem lowerRight_corner {s m s' : Site rows cols} (hb1 : leg bc s 1 = leg bc m 3) (hb2 : leg bc s' 2 = leg bc m 0)
    (h1 : s ≠ m) (h3 : m ≠ s') (h : s = s') : False := by
  subst h
  simp only [leg, Sum.inl.injEq, Sum.inr.injEq, Prod.mk.injEq, Fin.mk.injEq] at hb1 hb2
  exact h1 (Prod.ext hb2.1 hb1.2)

theorem lowerRight_exact {lib : Lib 𝕜} (hlib : Exact lib) {tol : ℝ} (htol : 0 ≤ tol) {p : Peps 𝕜}
    {phys : Site rows cols → ℕ} {dim : Bond bc rows cols → ℕ} (hf : Fits p phys dim)
    {s m s' : Site rows cols} (h1 : s ≠ m) (h3 : m ≠ s') (hb1 : leg bc s 1 = leg bc m 3)
    (hb2 : leg bc s' 2 = leg bc m 0) {gate : Tn 𝕜}
    (hgate : gate.shape = [phys s, phys m, phys s', phys s, phys m, phys s'])
    (hab : ∀ k, k ≠ 1 → Above tol (weight p (leg bc s k)))
    (hab' : ∀ k, k ≠ 2 → Above tol (weight p (leg bc s' k)))
    (habm : ∀ k, k ≠ 0 → k ≠ 3 → Above tol (weight p (leg bc m k))) (ham : Option (Tn 𝕜))
    (herr : (lowerRight lib tol p gate s.1 s.2 ham).err = 0)
    (hnew : Above tol (weight (lowerRight lib tol p gate s.1 s.2 ham).peps (leg bc m 3))) :
    let res := lowerRight lib tol p gate s.1 s.2 ham
    ∃ D D', max D D' = res.dim ∧
    Fits res.peps phys (Function.update (Function.update dim (leg bc m 0) D) (leg bc m 3) D') ∧
    ∀ σ, (∀ t, σ t < phys t) →
      (res.norm : 𝕜) * amplitude res.peps
        (Function.update (Function.update dim (leg bc m 0) D) (leg bc m 3) D') σ =
        apply3 phys gate s m s' (amplitude p dim) σ := by
  obtain ⟨e3, e4, -⟩ := next_v hf.rows_eq hf.bc_eq hb1
  obtain ⟨e1, e2⟩ := prev_h hf.cols_eq hf.bc_eq hb2
  rw [lowerRightAt_eq _ _ _ _ s'.1 s'.2 m.1 m.2 s.1 s.2 _ (e4.trans e1.symm) (e3 ▸ e2) e4 e3] at herr hnew ⊢
  clear e1 e2 e3 e4
  have hea : ∀ t k, leg bc t k = leg bc m 0 → (t = s' ∧ k = 2) ∨ (t = m ∧ k = 0) :=
    fun t k h => ends_h hb2 (h.trans hb2.symm)
  have hec : ∀ t k, leg bc t k = leg bc m 3 → (t = s ∧ k = 1) ∨ (t = m ∧ k = 3) :=
    fun t k h => ends_v hb1 (h.trans hb1.symm)
  have ha : leg bc s' 2 = leg bc m 0 := hb2
  have hc : leg bc s 1 = leg bc m 3 := hb1
  have h1a : s' ≠ m := h3.symm
  have h3c : m ≠ s := h1.symm
  have h2 : s' ≠ s := fun h => by
    rcases hec _ _ ((h ▸ rfl : leg bc s' 1 = leg bc s 1).trans hc) with h' | h'
    · rcases hea _ _ ((h ▸ rfl : leg bc s 2 = leg bc s' 2).trans ha) with h'' | h''
      · exact lowerRight_corner hb1 hb2 h1 h3 h.symm
      · exact h3c h''.1.symm
    · exact h1a h'.1
  have sa : ∀ k, k ≠ rem .right → leg bc s' k ≠ leg bc s' (rem .right) := fun k hk h => by
    rcases hea _ _ (h.trans ha) with h' | h'
    · exact hk h'.2
    · exact h1a h'.1
  have sc : ∀ k, k ≠ rem .down → leg bc s k ≠ leg bc s (rem .down) := fun k hk h => by
    rcases hec _ _ (h.trans hc) with h' | h'
    · exact hk h'.2
    · exact h3c h'.1.symm
  have na : ∀ k, leg bc s' k ≠ leg bc m 3 := fun k h => by
    rcases hec _ _ h with h' | h'
    · exact h2 h'.1
    · exact h1a h'.1
  have nc : ∀ k, leg bc s k ≠ leg bc m 0 := fun k h => by
    rcases hea _ _ h with h' | h'
    · exact h2 h'.1.symm
    · exact h3c h'.1.symm
  have nm : ∀ k, k ≠ 0 → k ≠ 3 → leg bc m k ≠ leg bc m 0 ∧ leg bc m k ≠ leg bc m 3 :=
    fun k hk1 hk2 => ⟨fun h => by
      rcases hea _ _ h with h' | h'
      · exact h1a h'.1.symm
      · exact hk1 h'.2, fun h => by
      rcases hec _ _ h with h' | h'
      · exact h3c h'.1
      · exact hk2 h'.2⟩
  have hbb : leg bc m 0 ≠ leg bc m 3 := leg_ne_03
  have cm : ∀ (γ : Bond bc rows cols → ℕ) l l' y, coords (Function.update (Function.update γ
      (leg bc m 0) l) (leg bc m 3) l') m y = [l, γ (leg bc m 1), γ (leg bc m 2), l', y] := fun γ l l' y => by
    simp only [coords, Function.update_self, Function.update_of_ne hbb,
      Function.update_of_ne (nm 1 (by decide) (by decide)).1,
      Function.update_of_ne (nm 1 (by decide) (by decide)).2,
      Function.update_of_ne (nm 2 (by decide) (by decide)).1,
      Function.update_of_ne (nm 2 (by decide) (by decide)).2]
  simp only [lowerRightAt] at herr hnew ⊢
  obtain ⟨Ka, qas, ras, h0a⟩ := qr_out hlib hf sa
  obtain ⟨Kc, qcs, rcs, h0c⟩ := qr_out hlib hf sc
  generalize lib.qr (eat3 p s'.1 s'.2 .right) 3 = QA at *
  generalize lib.qr (eat3 p s.1 s.2 .down) 3 = QC at *
  obtain ⟨qa, ra⟩ := QA
  obtain ⟨qc, rc⟩ := QC
  dsimp only at qas ras h0a qcs rcs h0c herr hnew ⊢
  obtain ⟨t5s, t5e⟩ := gateLR rcs ras (eat_site hf m) hgate (congrArg dim (hb1).symm) (congrArg dim (hb2).symm)
  generalize contractN (contract (contract rc 2 (eat p m.1 m.2) 4) 3 ra 2) [3, 4, 6] gate [0, 1, 2] = t5 at *
  have sT : (transpose [6, 3, 0, 1, 5, 4, 2] (normalized t5)).shape =
      [phys s', Ka, dim (leg bc m 1), dim (leg bc m 2), phys m, phys s, Kc] := by
    simp only [transpose, normalized, t5s]; rfl
  obtain ⟨u1s, v1s, hsvd1⟩ := svd52 hlib sT
  have d1 := hlib.svd_dim (transpose [6, 3, 0, 1, 5, 4, 2] (normalized t5)) 5
  have p1' := hlib.svd_err (transpose [6, 3, 0, 1, 5, 4, 2] (normalized t5)) 5
  generalize lib.svd (transpose [6, 3, 0, 1, 5, 4, 2] (normalized t5)) 5 = f1 at *
  obtain ⟨t7s, t7e⟩ := n65 u1s f1.s
  generalize contractN f1.u [5] f1.s.ten [0] = t7 at *
  obtain ⟨u2s, v2s, hsvd2⟩ := svd24 hlib t7s
  have d2 := hlib.svd_dim t7 2
  have p2' := hlib.svd_err t7 2
  generalize lib.svd t7 2 = f2 at *
  have e1 : f1.err = 0 := le_antisymm (herr ▸ le_max_left _ _) p1'
  have e2 : f2.err = 0 := le_antisymm (herr ▸ le_max_right _ _) p2'
  rw [one_mul, d1, d2]
  set p1 := p.setV m.1 m.2 f1.s with hp1
  have w1 : ∀ b : Bond bc rows cols, weight p1 b =
      if b = leg bc m 3 then f1.s else weight p b := fun b => by
    rw [hp1, weight_setV]
  have spc := split_out_shape hf (p1 := p1) rfl rfl rfl (s := s) (d := .down)
    (fun j => by rw [w1, if_neg]; exact fun h => sc _ (out_ne .down j) (h.trans hc.symm)) tol qcs
  obtain ⟨gcs, gce⟩ := asmD1 (by exact spc : (split tol p1 qc s.1 s.2 .down).shape =
    [dim (leg bc s 2), dim (leg bc s 3), dim (leg bc s 0), Kc]) v1s
  have spc' := fun γ hγ k => split_out hf (p1 := p1) rfl rfl rfl (s := s) (d := .down)
    (fun j => by rw [w1, if_neg]; exact fun h => sc _ (out_ne .down j) (h.trans hc.symm)) tol qcs
    (γ := γ) hγ k
  set p2 := p1.setGamma s.1 s.2 (transpose [2, 3, 0, 1, 4] (contract (split tol p1 qc s.1 s.2 .down) 3 f1.vt 2)) with hp2
  set p3 := p2.setH m.1 m.2 f2.s with hp3
  have w3 : ∀ b : Bond bc rows cols, weight p3 b =
      if b = leg bc m 0 then f2.s else if b = leg bc m 3 then f1.s else weight p b := fun b => by
    rw [hp3, weight_setH, hp2, weight_setGamma, w1]
  have spa := split_out_shape hf (p1 := p3) rfl rfl rfl (s := s') (d := .right)
    (fun j => by
      rw [w3, if_neg, if_neg (na _)]; exact fun h => sa _ (out_ne .right j) (h.trans ha.symm)) tol qas
  obtain ⟨gas, gae⟩ := asmR2 (by exact spa : (split tol p3 qa s'.1 s'.2 .right).shape =
    [Ka, dim (leg bc s' 3), dim (leg bc s' 0), dim (leg bc s' 1)]) u2s
  have spa' := fun γ hγ k => split_out hf (p1 := p3) rfl rfl rfl (s := s') (d := .right)
    (fun j => by
      rw [w3, if_neg, if_neg (na _)]; exact fun h => sa _ (out_ne .right j) (h.trans ha.symm)) tol qas
    (γ := γ) hγ k
  set p4 := p3.setGamma s'.1 s'.2 (transpose [1, 2, 3, 0, 4] (contract (split tol p3 qa s'.1 s'.2 .right) 0 f2.u 1)) with hp4
  have w4 : ∀ b : Bond bc rows cols, weight p4 b = weight p3 b := fun b => weight_setGamma _ _ _ _ b
  have eo1 : p4.south m.1 m.2 = weight p (leg bc m 1) := by
    rw [south_eq (bc := bc) (p := p4) hf.rows_eq hf.bc_eq, w4, w3, if_neg (nm 1 (by decide) (by decide)).1,
      if_neg (nm 1 (by decide) (by decide)).2]
  have eo2 : p4.east m.1 m.2 = weight p (leg bc m 2) := by
    rw [east_eq (bc := bc) (p := p4) hf.cols_eq hf.bc_eq, w4, w3, if_neg (nm 2 (by decide) (by decide)).1,
      if_neg (nm 2 (by decide) (by decide)).2]
  rw [eo1, eo2] at hnew ⊢
  obtain ⟨gms, gme⟩ := corLR v2s (diagInv tol f1.s) (diagInv tol (weight p (leg bc m 1)))
    (diagInv tol (weight p (leg bc m 2)))
  rw [weight_setGamma, w4, w3, if_neg hbb.symm, if_pos rfl] at hnew
  generalize hGm : (transpose [2, 3, 4, 1, 0] (contract (contract (contractN f2.vt [4] (diagInv tol f1.s).ten [0]) 1 (diagInv tol (weight p (leg bc m 1))).ten 0) 0 (diagInv tol (weight p (leg bc m 2))).ten 0)) = Gm at *
  have key := project3 (p' := p4.setGamma m.1 m.2 Gm) hf rfl rfl rfl h1a h2 h3c (da := .right)
    (dc := .down) (o1 := 1) (o2 := 2) ha hc hea hec (by decide) (by decide) (by decide)
    (by rw [← hb2]; exact not_external_h hb2) (by rw [← hb1]; exact not_external_v hb1) (s1 := f1.s) (s2 := f2.s)
    (Ga := (transpose [1, 2, 3, 0, 4] (contract (split tol p3 qa s'.1 s'.2 .right) 0 f2.u 1))) (Gm := Gm) (Gc := (transpose [2, 3, 0, 1, 4] (contract (split tol p1 qc s.1 s.2 .down) 3 f1.vt 2)))
    (fun t => by
      rw [gamma_setGamma, hp4, gamma_setGamma]
      by_cases h : t = m
      · rw [if_pos h, if_pos h]
      rw [if_neg h, if_neg h]
      by_cases h' : t = s'
      · rw [if_pos h', if_pos h']
      rw [if_neg h', if_neg h']
      exact gamma_setGamma p1 s t _)
    (fun b => by rw [weight_setGamma, w4, w3])
    (by rw [gas, coords_out sa]) (by rw [gcs, coords_out sc])
    (by rw [gms, cm]; simp only [diagInv_dim, hf.weight])
    htol hab' hab (habm 1 (by decide) (by decide)) (habm 2 (by decide) (by decide)) hnew h0a h0c
    (g := fun i j n x y z => gate.elem [n, j, i, z, y, x]) (N := (norm2 t5 : 𝕜))
    (u1 := fun n e x y k l => f1.u.elem [x, k, n, e, y, l]) (v1 := fun z l k => f1.vt.elem [l, z, k])
    (u2 := fun x k l => f2.u.elem [x, k, l]) (v2 := fun n e y l l' => f2.vt.elem [l, n, e, y, l'])
    (fun γ hγ x hx y hy z hz k hk k' hk' => by
      refine (congrArg ((norm2 t5 : 𝕜) * ·) (hsvd1 e1 x hx k hk _ (hγ 1 (by decide) (by decide)) _ (hγ 2 (by decide) (by decide)) y hy z hz k' hk')).trans ?_
      refine (norm2_mul t5 (x := [γ (leg bc m 1), γ (leg bc m 2), k', k, z, y, x])
        (by rw [t5s]; exact .cons (hγ 1 (by decide) (by decide)) (.cons (hγ 2 (by decide) (by decide)) (.cons hk' (.cons hk (valid3 hz hy hx)))))).trans ?_
      rw [t5e]
      rw [sum3_comm]
      refine Finset.sum_congr rfl fun i _ => Finset.sum_congr rfl fun j _ =>
        Finset.sum_congr rfl fun n _ => ?_
      refine congrArg (· * gate.elem [n, j, i, z, y, x]) ?_
      rw [show leg bc s' (rem .right) = leg bc m 0 from ha,
        show leg bc s (rem .down) = leg bc m 3 from hc, Finset.sum_comm]
      refine Finset.sum_congr rfl fun l hl => Finset.sum_congr rfl fun l' hl' => ?_
      have hl := Finset.mem_range.1 hl
      have hl' := Finset.mem_range.1 hl'
      rw [eat_val hf m j hl (hγ 1 (by decide) (by decide)) (hγ 2 (by decide) (by decide)) hl', cm]
      ring)
    (fun γ hγ x hx y hy k hk l' hl' => by
      refine (hsvd2 e2 x hx k hk _ (hγ 1 (by decide) (by decide)) _ (hγ 2 (by decide) (by decide)) y hy l' hl').trans ?_
      exact t7e _ _ _ _ _ l' hl')
    (fun γ hγ x l hl => by
      rw [coords_out sa]
      refine (gae _ _ _ _ _).trans (Finset.sum_congr rfl fun k _ => ?_)
      exact congrArg (· * f2.u.elem [x, k, l]) (spa' γ hγ k))
    (fun γ hγ z l hl => by
      rw [coords_out sc]
      refine (gce _ _ _ _ _).trans (Finset.sum_congr rfl fun k _ => ?_)
      exact congrArg (· * f1.vt.elem [l, z, k]) (spc' γ hγ k))
    (fun γ hγ y l hl l' hl' => by
      rw [cm]
      refine (gme _ _ _ _ _ hl' (hγ 2 (by decide) (by decide)) (hγ 1 (by decide) (by decide))).trans ?_
      ring)
  refine ⟨f2.s.dim, f1.s.dim, max_comm _ _, key.1, fun σ hσ => (key.2 σ hσ).trans ?_⟩
  unfold apply3
  rw [sum3_comm]
  refine Finset.sum_congr rfl fun i _ => Finset.sum_congr rfl fun j _ =>
    Finset.sum_congr rfl fun n _ => ?_
  congr 2
  rw [Function.update_comm h1a, Function.update_comm h2, Function.update_comm h3c]

/-- `lowerLeft` with the positions of the sites given -/
noncomputable def lowerLeftAt (lib : Lib 𝕜) (tol : ℝ) (p : Peps 𝕜) (gate : Tn 𝕜)
    (ar ac mr mc cr cc : ℕ) (ham : Option (Tn 𝕜)) : Res 𝕜 :=
  let A := lib.qr (eat3 p ar ac .down) 3
  let B := lib.qr (eat3 p cr cc .left) 3
  let t3 := contract A.2 2 (eat p mr mc) 4
  let t4 := contract t3 5 B.2 2
  let t5 := contractN t4 [1, 2, 6] gate [0, 1, 2]
  let state := normalized t5
  let f1 := lib.svd (transpose [0, 4, 5, 1, 2, 6, 3] state) 5
  let p1 := p.setH cr cc f1.s
  let t6 := split tol p1 B.1 cr cc .left
  let p2 := p1.setGamma cr cc (transpose [0, 2, 3, 4, 1] (contract f1.vt 2 t6 0))
  let t7 := contractN f1.u [5] f1.s.ten [0]
  let f2 := lib.svd t7 2
  let p3 := p2.setV mr mc f2.s
  let t8 := split tol p3 A.1 ar ac .down
  let p4 := p3.setGamma ar ac (transpose [2, 4, 0, 1, 3] (contract t8 3 f2.u 0))
  let t9 := contractN f2.vt [4] (diagInv tol f1.s).ten [0]
  let t10 := contract t9 3 (diagInv tol (p4.south mr mc)).ten 0
  let p5 := p4.setGamma mr mc (transpose [4, 0, 1, 2, 3]
    (contract t10 3 (diagInv tol (p4.west mr mc)).ten 1))
  ⟨p5, 1 * norm2 t5, max f1.err f2.err, max f1.dim f2.dim, ham.map fun h => threeSiteEnergy h state⟩

theorem lowerLeftAt_eq (lib : Lib 𝕜) (tol : ℝ) (p : Peps 𝕜) (gate : Tn 𝕜) (ar ac mr mc cr cc : ℕ)
    (ham : Option (Tn 𝕜)) (h0 : (ar + 1) % p.vRows = mr) (h1 : ac = mc) (h2 : (ar + 1) % p.vRows = cr) (h3 : (ac + 1) % p.hCols = cc) :
    lowerLeft lib tol p gate ar ac ham = lowerLeftAt lib tol p gate ar ac mr mc cr cc ham := by
  subst h2 h3 h0 h1
  rfl

theorem lowerLeft_corner {s m s' : Site rows cols} (hb1 : leg bc s 1 = leg bc m 3) (hb2 : leg bc m 2 = leg bc s' 0)
    (h1 : s ≠ m) (h3 : m ≠ s') (h : s = s') : False := by
  subst h
  simp only [leg, Sum.inl.injEq, Sum.inr.injEq, Prod.mk.injEq, Fin.mk.injEq] at hb1 hb2
  exact h1 (Prod.ext hb2.1.symm hb1.2)

theorem lowerLeft_exact {lib : Lib 𝕜} (hlib : Exact lib) {tol : ℝ} (htol : 0 ≤ tol) {p : Peps 𝕜}
    {phys : Site rows cols → ℕ} {dim : Bond bc rows cols → ℕ} (hf : Fits p phys dim)
    {s m s' : Site rows cols} (h1 : s ≠ m) (h3 : m ≠ s') (hb1 : leg bc s 1 = leg bc m 3)
    (hb2 : leg bc m 2 = leg bc s' 0) {gate : Tn 𝕜}
    (hgate : gate.shape = [phys s, phys m, phys s', phys s, phys m, phys s'])
    (hab : ∀ k, k ≠ 1 → Above tol (weight p (leg bc s k)))
    (hab' : ∀ k, k ≠ 0 → Above tol (weight p (leg bc s' k)))
    (habm : ∀ k, k ≠ 3 → k ≠ 2 → Above tol (weight p (leg bc m k))) (ham : Option (Tn 𝕜))
    (herr : (lowerLeft lib tol p gate s.1 s.2 ham).err = 0)
    (hnew : Above tol (weight (lowerLeft lib tol p gate s.1 s.2 ham).peps (leg bc m 2))) :
    let res := lowerLeft lib tol p gate s.1 s.2 ham
    ∃ D D', max D D' = res.dim ∧
    Fits res.peps phys (Function.update (Function.update dim (leg bc m 3) D) (leg bc m 2) D') ∧
    ∀ σ, (∀ t, σ t < phys t) →
      (res.norm : 𝕜) * amplitude res.peps
        (Function.update (Function.update dim (leg bc m 3) D) (leg bc m 2) D') σ =
        apply3 phys gate s m s' (amplitude p dim) σ := by
  obtain ⟨e3, e4, -⟩ := next_v hf.rows_eq hf.bc_eq hb1
  obtain ⟨e1, e2⟩ := next_h hf.cols_eq hf.bc_eq hb2
  rw [lowerLeftAt_eq _ _ _ _ s.1 s.2 m.1 m.2 s'.1 s'.2 _ e4 e3 (e4.trans e1) (e3 ▸ e2)] at herr hnew ⊢
  clear e1 e2 e3 e4
  have hea : ∀ t k, leg bc t k = leg bc m 3 → (t = s ∧ k = 1) ∨ (t = m ∧ k = 3) :=
    fun t k h => ends_v hb1 (h.trans hb1.symm)
  have hec : ∀ t k, leg bc t k = leg bc m 2 → (t = s' ∧ k = 0) ∨ (t = m ∧ k = 2) :=
    fun t k h => (ends_h hb2 h).symm
  have ha : leg bc s 1 = leg bc m 3 := hb1
  have hc : leg bc s' 0 = leg bc m 2 := hb2.symm
  have h1a : s ≠ m := h1
  have h3c : m ≠ s' := h3
  have h2 : s ≠ s' := fun h => by
    rcases hec _ _ ((h ▸ rfl : leg bc s 0 = leg bc s' 0).trans hc) with h' | h'
    · rcases hea _ _ ((h ▸ rfl : leg bc s' 1 = leg bc s 1).trans ha) with h'' | h''
      · exact lowerLeft_corner hb1 hb2 h1 h3 h
      · exact h3c h''.1.symm
    · exact h1a h'.1
  have sa : ∀ k, k ≠ rem .down → leg bc s k ≠ leg bc s (rem .down) := fun k hk h => by
    rcases hea _ _ (h.trans ha) with h' | h'
    · exact hk h'.2
    · exact h1a h'.1
  have sc : ∀ k, k ≠ rem .left → leg bc s' k ≠ leg bc s' (rem .left) := fun k hk h => by
    rcases hec _ _ (h.trans hc) with h' | h'
    · exact hk h'.2
    · exact h3c h'.1.symm
  have na : ∀ k, leg bc s k ≠ leg bc m 2 := fun k h => by
    rcases hec _ _ h with h' | h'
    · exact h2 h'.1
    · exact h1a h'.1
  have nc : ∀ k, leg bc s' k ≠ leg bc m 3 := fun k h => by
    rcases hea _ _ h with h' | h'
    · exact h2 h'.1.symm
    · exact h3c h'.1.symm
  have nm : ∀ k, k ≠ 3 → k ≠ 2 → leg bc m k ≠ leg bc m 3 ∧ leg bc m k ≠ leg bc m 2 :=
    fun k hk1 hk2 => ⟨fun h => by
      rcases hea _ _ h with h' | h'
      · exact h1a h'.1.symm
      · exact hk1 h'.2, fun h => by
      rcases hec _ _ h with h' | h'
      · exact h3c h'.1
      · exact hk2 h'.2⟩
  have hbb : leg bc m 3 ≠ leg bc m 2 := leg_ne_32
  have cm : ∀ (γ : Bond bc rows cols → ℕ) l l' y, coords (Function.update (Function.update γ
      (leg bc m 3) l) (leg bc m 2) l') m y = [γ (leg bc m 0), γ (leg bc m 1), l', l, y] := fun γ l l' y => by
    simp only [coords, Function.update_self, Function.update_of_ne hbb,
      Function.update_of_ne (nm 0 (by decide) (by decide)).1,
      Function.update_of_ne (nm 0 (by decide) (by decide)).2,
      Function.update_of_ne (nm 1 (by decide) (by decide)).1,
      Function.update_of_ne (nm 1 (by decide) (by decide)).2]
  simp only [lowerLeftAt] at herr hnew ⊢
  obtain ⟨Ka, qas, ras, h0a⟩ := qr_out hlib hf sa
  obtain ⟨Kc, qcs, rcs, h0c⟩ := qr_out hlib hf sc
  generalize lib.qr (eat3 p s.1 s.2 .down) 3 = QA at *
  generalize lib.qr (eat3 p s'.1 s'.2 .left) 3 = QC at *
  obtain ⟨qa, ra⟩ := QA
  obtain ⟨qc, rc⟩ := QC
  dsimp only at qas ras h0a qcs rcs h0c herr hnew ⊢
  obtain ⟨t5s, t5e⟩ := gateLL ras rcs (eat_site hf m) hgate (congrArg dim (hb1).symm) (congrArg dim (hb2.symm).symm)
  generalize contractN (contract (contract ra 2 (eat p m.1 m.2) 4) 5 rc 2) [1, 2, 6] gate [0, 1, 2] = t5 at *
  have sT : (transpose [0, 4, 5, 1, 2, 6, 3] (normalized t5)).shape =
      [Ka, phys s, phys m, dim (leg bc m 0), dim (leg bc m 1), phys s', Kc] := by
    simp only [transpose, normalized, t5s]; rfl
  obtain ⟨u1s, v1s, hsvd1⟩ := svd52 hlib sT
  have d1 := hlib.svd_dim (transpose [0, 4, 5, 1, 2, 6, 3] (normalized t5)) 5
  have p1' := hlib.svd_err (transpose [0, 4, 5, 1, 2, 6, 3] (normalized t5)) 5
  generalize lib.svd (transpose [0, 4, 5, 1, 2, 6, 3] (normalized t5)) 5 = f1 at *
  obtain ⟨t7s, t7e⟩ := n65 u1s f1.s
  generalize contractN f1.u [5] f1.s.ten [0] = t7 at *
  obtain ⟨u2s, v2s, hsvd2⟩ := svd24 hlib t7s
  have d2 := hlib.svd_dim t7 2
  have p2' := hlib.svd_err t7 2
  generalize lib.svd t7 2 = f2 at *
  have e1 : f1.err = 0 := le_antisymm (herr ▸ le_max_left _ _) p1'
  have e2 : f2.err = 0 := le_antisymm (herr ▸ le_max_right _ _) p2'
  rw [one_mul, d1, d2]
  set p1 := p.setH s'.1 s'.2 f1.s with hp1
  have w1 : ∀ b : Bond bc rows cols, weight p1 b =
      if b = leg bc m 2 then f1.s else weight p b := fun b => by
    rw [hp1, weight_setH, hb2.symm]
  have spc := split_out_shape hf (p1 := p1) rfl rfl rfl (s := s') (d := .left)
    (fun j => by rw [w1, if_neg]; exact fun h => sc _ (out_ne .left j) (h.trans hc.symm)) tol qcs
  obtain ⟨gcs, gce⟩ := asmL1 (by exact spc : (split tol p1 qc s'.1 s'.2 .left).shape =
    [Kc, dim (leg bc s' 1), dim (leg bc s' 2), dim (leg bc s' 3)]) v1s
  have spc' := fun γ hγ k => split_out hf (p1 := p1) rfl rfl rfl (s := s') (d := .left)
    (fun j => by rw [w1, if_neg]; exact fun h => sc _ (out_ne .left j) (h.trans hc.symm)) tol qcs
    (γ := γ) hγ k
  set p2 := p1.setGamma s'.1 s'.2 (transpose [0, 2, 3, 4, 1] (contract f1.vt 2 (split tol p1 qc s'.1 s'.2 .left) 0)) with hp2
  set p3 := p2.setV m.1 m.2 f2.s with hp3
  have w3 : ∀ b : Bond bc rows cols, weight p3 b =
      if b = leg bc m 3 then f2.s else if b = leg bc m 2 then f1.s else weight p b := fun b => by
    rw [hp3, weight_setV, hp2, weight_setGamma, w1]
  have spa := split_out_shape hf (p1 := p3) rfl rfl rfl (s := s) (d := .down)
    (fun j => by
      rw [w3, if_neg, if_neg (na _)]; exact fun h => sa _ (out_ne .down j) (h.trans ha.symm)) tol qas
  obtain ⟨gas, gae⟩ := left_v (by exact spa : (split tol p3 qa s.1 s.2 .down).shape =
    [dim (leg bc s 2), dim (leg bc s 3), dim (leg bc s 0), Ka]) u2s
  have spa' := fun γ hγ k => split_out hf (p1 := p3) rfl rfl rfl (s := s) (d := .down)
    (fun j => by
      rw [w3, if_neg, if_neg (na _)]; exact fun h => sa _ (out_ne .down j) (h.trans ha.symm)) tol qas
    (γ := γ) hγ k
  set p4 := p3.setGamma s.1 s.2 (transpose [2, 4, 0, 1, 3] (contract (split tol p3 qa s.1 s.2 .down) 3 f2.u 0)) with hp4
  have w4 : ∀ b : Bond bc rows cols, weight p4 b = weight p3 b := fun b => weight_setGamma _ _ _ _ b
  have eo1 : p4.south m.1 m.2 = weight p (leg bc m 1) := by
    rw [south_eq (bc := bc) (p := p4) hf.rows_eq hf.bc_eq, w4, w3, if_neg (nm 1 (by decide) (by decide)).1,
      if_neg (nm 1 (by decide) (by decide)).2]
  have eo2 : p4.west m.1 m.2 = weight p (leg bc m 0) := by
    rw [west_eq (bc := bc), w4, w3, if_neg (nm 0 (by decide) (by decide)).1,
      if_neg (nm 0 (by decide) (by decide)).2]
  rw [eo1, eo2] at hnew ⊢
  obtain ⟨gms, gme⟩ := corLL v2s (diagInv tol f1.s) (diagInv tol (weight p (leg bc m 1)))
    (diagInv tol (weight p (leg bc m 0)))
  rw [weight_setGamma, w4, w3, if_neg hbb.symm, if_pos rfl] at hnew
  generalize hGm : (transpose [4, 0, 1, 2, 3] (contract (contract (contractN f2.vt [4] (diagInv tol f1.s).ten [0]) 3 (diagInv tol (weight p (leg bc m 1))).ten 0) 3 (diagInv tol (weight p (leg bc m 0))).ten 1)) = Gm at *
  have key := project3 (p' := p4.setGamma m.1 m.2 Gm) hf rfl rfl rfl h1a h2 h3c (da := .down)
    (dc := .left) (o1 := 1) (o2 := 0) ha hc hea hec (by decide) (by decide) (by decide)
    (by rw [← hb1]; exact not_external_v hb1) (not_external_h hb2) (s1 := f1.s) (s2 := f2.s)
    (Ga := (transpose [2, 4, 0, 1, 3] (contract (split tol p3 qa s.1 s.2 .down) 3 f2.u 0))) (Gm := Gm) (Gc := (transpose [0, 2, 3, 4, 1] (contract f1.vt 2 (split tol p1 qc s'.1 s'.2 .left) 0)))
    (fun t => by
      rw [gamma_setGamma, hp4, gamma_setGamma]
      by_cases h : t = m
      · rw [if_pos h, if_pos h]
      rw [if_neg h, if_neg h]
      by_cases h' : t = s
      · rw [if_pos h', if_pos h']
      rw [if_neg h', if_neg h']
      exact gamma_setGamma p1 s' t _)
    (fun b => by rw [weight_setGamma, w4, w3])
    (by rw [gas, coords_out sa]) (by rw [gcs, coords_out sc])
    (by rw [gms, cm]; simp only [diagInv_dim, hf.weight])
    htol hab hab' (habm 1 (by decide) (by decide)) (habm 0 (by decide) (by decide)) hnew h0a h0c
    (g := fun i j n x y z => gate.elem [i, j, n, x, y, z]) (N := (norm2 t5 : 𝕜))
    (u1 := fun n e x y k l => f1.u.elem [k, x, y, e, n, l]) (v1 := fun z l k => f1.vt.elem [l, z, k])
    (u2 := fun x k l => f2.u.elem [k, x, l]) (v2 := fun n e y l l' => f2.vt.elem [l, y, e, n, l'])
    (fun γ hγ x hx y hy z hz k hk k' hk' => by
      refine (congrArg ((norm2 t5 : 𝕜) * ·) (hsvd1 e1 k hk x hx y hy _ (hγ 0 (by decide) (by decide)) _ (hγ 1 (by decide) (by decide)) z hz k' hk')).trans ?_
      refine (norm2_mul t5 (x := [k, γ (leg bc m 0), γ (leg bc m 1), k', x, y, z])
        (by rw [t5s]; exact .cons hk (.cons (hγ 0 (by decide) (by decide)) (.cons (hγ 1 (by decide) (by decide)) (.cons hk' (valid3 hx hy hz)))))).trans ?_
      rw [t5e]
      refine Finset.sum_congr rfl fun i _ => Finset.sum_congr rfl fun j _ =>
        Finset.sum_congr rfl fun n _ => ?_
      refine congrArg (· * gate.elem [i, j, n, x, y, z]) ?_
      rw [show leg bc s (rem .down) = leg bc m 3 from ha,
        show leg bc s' (rem .left) = leg bc m 2 from hc]
      refine Finset.sum_congr rfl fun l hl => Finset.sum_congr rfl fun l' hl' => ?_
      have hl := Finset.mem_range.1 hl
      have hl' := Finset.mem_range.1 hl'
      rw [eat_val hf m j (hγ 0 (by decide) (by decide)) (hγ 1 (by decide) (by decide)) hl' hl, cm]
      ring)
    (fun γ hγ x hx y hy k hk l' hl' => by
      refine (hsvd2 e2 k hk x hx y hy _ (hγ 0 (by decide) (by decide)) _ (hγ 1 (by decide) (by decide)) l' hl').trans ?_
      exact t7e _ _ _ _ _ l' hl')
    (fun γ hγ x l hl => by
      rw [coords_out sa]
      refine (gae _ _ _ _ _).trans (Finset.sum_congr rfl fun k _ => ?_)
      exact congrArg (· * f2.u.elem [k, x, l]) (spa' γ hγ k))
    (fun γ hγ z l hl => by
      rw [coords_out sc]
      refine (gce _ _ _ _ _).trans (Finset.sum_congr rfl fun k _ => ?_)
      exact congrArg (· * f1.vt.elem [l, z, k]) (spc' γ hγ k))
    (fun γ hγ y l hl l' hl' => by
      rw [cm]
      refine (gme _ _ _ _ _ hl' (hγ 0 (by decide) (by decide)) (hγ 1 (by decide) (by decide))).trans ?_
      ring)
  refine ⟨f2.s.dim, f1.s.dim, max_comm _ _, key.1, fun σ hσ => (key.2 σ hσ).trans ?_⟩
  unfold apply3
  rfl

end QLPeps.Peps
